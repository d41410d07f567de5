import Verif.Model.Pair
import Verif.Spec.Pair
import Verif.Proofs.Sublevel
import Verif.Proofs.Text

set_option linter.unusedSectionVars false
set_option linter.unusedVariables false
set_option linter.unusedSimpArgs false

/-! # Union, intersection and index queries of simplicial complexes -/

namespace BATS
namespace SCpx
open Reduction

theorem simplices_eq {X : SCpx} {cells : Cells} (h : Inv X cells) : simplices X = setOf cells := by
  ext s
  constructor
  · rintro ⟨hs, hi⟩
    exact (h.represents.found s hs).2 hi
  · intro hs
    exact ⟨hs.1, (h.represents.found s hs.1).1 hs⟩

theorem Ordered.cells {X : SCpx} {cells : Cells} (h : Inv X cells) (ho : Ordered X) : ∀ d, ∀ s ∈ cells d, s.Pairwise (· ≤ ·) := by
  intro d s hs
  have hm := (mem_setOf (h.ok.len d s hs)).2 hs
  exact ho s hm.1 ((h.represents.found s hm.1).1 hm)

theorem sortV_of {s : List Nat} (h : s.Pairwise (· ≤ ·)) : sortV s = s := h.insertionSort_eq

/-- adding sorted simplices whose faces are present -/
theorem fold_add : ∀ (ss : List (List Nat)) (K : Set (List Nat)), (∀ s ∈ ss, s.Pairwise (· ≤ ·)) →
    (∀ s ∈ ss, s.length = 1 ∨ ∀ k, k < s.length → s.eraseIdx k ∈ K) → (ss.map Op.add).foldl specStep K = {t | t ∈ K ∨ t ∈ ss} := by
  intro ss
  induction ss with
  | nil => intro K _ _; ext t; simp
  | cons s ss ih =>
    intro K h1 h2
    have hs : s.mergeSort (· ≤ ·) = s := by rw [mergeSort_eq, sortV_of (h1 s (by simp))]
    have e : specStep K (.add s) = {t | t ∈ K ∨ t = s} := by
      show specAdd K (s.mergeSort (· ≤ ·)) = _
      rw [hs]
      ext t
      constructor
      · rintro (h | ⟨h, _⟩)
        · exact Or.inl h
        · exact Or.inr h
      · rintro (h | h)
        · exact Or.inl h
        · exact Or.inr ⟨h, h2 s (by simp)⟩
    rw [List.map_cons, List.foldl_cons, e, ih _ (fun t ht => h1 t (by simp [ht])) (by
      intro t ht
      rcases h2 t (by simp [ht]) with h | h
      · exact Or.inl h
      · exact Or.inr (fun k hk => Or.inl (h k hk)))]
    ext t
    show ((t ∈ K ∨ t = s) ∨ t ∈ ss) ↔ (t ∈ K ∨ t ∈ s :: ss)
    rw [List.mem_cons, or_assoc]

/-- the calls which add all simplices of dimensions `k, .., k+n-1` -/
def addOps (cells : Cells) (n k : Nat) : List Op := ((List.range' k n).flatMap cells).map Op.add

theorem addOps_succ (cells : Cells) (n k : Nat) : addOps cells (n + 1) k = (cells k).map Op.add ++ addOps cells n (k + 1) := by
  unfold addOps
  rw [List.range'_succ, List.flatMap_cons, List.map_append]

theorem addOps_ne {cells : Cells} (h : CellsOK cells) (n k : Nat) : ∀ o ∈ addOps cells n k, o.simplex ≠ [] := by
  intro o ho
  unfold addOps at ho
  obtain ⟨s, hs, rfl⟩ := List.mem_map.1 ho
  obtain ⟨d, _, hd⟩ := List.mem_flatMap.1 hs
  have := h.len d s hd
  intro e
  have e' : s = [] := e
  rw [e'] at this; simp at this

theorem addCells_eq {Y : SCpx} {cells : Cells} (h : Inv Y cells) (k : Nat) : ∀ (n i : Nat) (Z : SCpx), i + n = (cells k).length →
    addCells Y k n i Z = Z.run (((cells k).drop i).map Op.add) := by
  intro n
  induction n with
  | zero => intro i Z hi; rw [List.drop_of_length_le (by omega)]; rfl
  | succ n ih =>
    intro i Z hi
    have hlt : i < (cells k).length := by omega
    rw [List.drop_eq_getElem_cons hlt, List.map_cons, run, addCells, Filt.getSimplex_eq h (List.getElem?_eq_getElem hlt), bind_ok]
    show _ = ((Z.add (cells k)[i] >>= fun r => pure r.1) >>= fun W => W.run _)
    cases hz : Z.add (cells k)[i] with
    | error e => rfl
    | ok r =>
      show addCells Y k n (i + 1) r.1 = _
      rw [ih (i + 1) r.1 (by omega)]; rfl

theorem addAllCells_eq {Y : SCpx} {cells : Cells} (h : Inv Y cells) : ∀ (n k : Nat) (Z : SCpx), k + n ≤ Y.ncells.length →
    addAllCells Y n k Z = Z.run (addOps cells n k) := by
  intro n
  induction n with
  | zero => intro k Z _; rfl
  | succ n ih =>
    intro k Z hk
    rw [addOps_succ, Txt.run_append', addAllCells]
    unfold numCells
    rw [rd_some (h.dim k (by omega)).nc, bind_ok, addCells_eq h k _ 0 Z (by omega), List.drop_zero]
    cases Z.run ((cells k).map Op.add) with
    | error e => rfl
    | ok W => exact ih (k + 1) W (by omega)

theorem unionAddDim_block (dim : Nat) : ∀ (l s : List Nat) (rest : List Nat) (Z : SCpx), l ≠ [] → (s ++ l).length = dim + 1 →
    unionAddDim dim (l ++ rest) s Z = (Z.add (s ++ l) >>= fun r => unionAddDim dim rest [] r.1) := by
  intro l
  induction l with
  | nil => intro s rest Z h; exact absurd rfl h
  | cons v l ih =>
    intro s rest Z _ hl
    rw [List.cons_append, unionAddDim]
    by_cases hn : l = []
    · subst hn
      rw [if_pos hl]; rfl
    · rw [if_neg (by
        have : 0 < l.length := List.length_pos_iff.2 hn
        simp only [List.length_append, List.length_cons, List.length_nil] at hl ⊢; omega)]
      rw [ih (s ++ [v]) rest Z hn (by simpa using hl), List.append_assoc, List.singleton_append]

theorem unionAddDim_eq (dim : Nat) : ∀ (L : List (List Nat)) (Z : SCpx), (∀ l ∈ L, l.length = dim + 1) →
    unionAddDim dim L.flatten [] Z = (Z.run (L.map Op.add) >>= fun W => .ok ([], W)) := by
  intro L
  induction L with
  | nil => intro Z _; rfl
  | cons l L ih =>
    intro Z h
    have hl := h l (by simp)
    rw [List.flatten_cons, unionAddDim_block dim l [] _ Z (by intro e; rw [e] at hl; simp at hl) (by simpa using hl), List.nil_append, List.map_cons, run]
    show _ = (((Z.add l >>= fun r => pure r.1) >>= fun W => W.run _) >>= _)
    cases Z.add l with
    | error e => rfl
    | ok r => exact ih r.1 (fun l' h' => h l' (by simp [h']))

theorem unionAddDims_eq {Y : SCpx} {cells : Cells} (h : Inv Y cells) : ∀ (n k : Nat) (Z : SCpx), k + n ≤ Y.ncells.length →
    unionAddDims Y n k [] Z = Z.run (addOps cells n k) := by
  intro n
  induction n with
  | zero => intro k Z _; rfl
  | succ n ih =>
    intro k Z hk
    rw [addOps_succ, Txt.run_append', unionAddDims, rd_some (h.dim k (by omega)).sp, bind_ok, unionAddDim_eq k _ Z (fun l hl => h.ok.len k l hl)]
    cases Z.run ((cells k).map Op.add) with
    | error e => rfl
    | ok W => exact ih (k + 1) W (by omega)

/-- adding all simplices of an ordered complex -/
theorem fold_addOps {cells : Cells} (h : CellsOK cells) (hs : ∀ d, ∀ s ∈ cells d, s.Pairwise (· ≤ ·)) : ∀ (n k : Nat) (K : Set (List Nat)),
    (k = 0 ∨ ∀ s ∈ cells (k - 1), s ∈ K) →
    (addOps cells n k).foldl specStep K = {t | t ∈ K ∨ ∃ d, k ≤ d ∧ d < k + n ∧ t ∈ cells d} := by
  intro n
  induction n with
  | zero =>
    intro k K _
    ext t
    show t ∈ K ↔ (t ∈ K ∨ ∃ d, k ≤ d ∧ d < k + 0 ∧ t ∈ cells d)
    constructor
    · exact Or.inl
    · rintro (h | ⟨d, h1, h2, _⟩)
      · exact h
      · omega
  | succ n ih =>
    intro k K hk
    rw [addOps_succ, List.foldl_append, fold_add (cells k) K (hs k) (by
      intro s hsm
      have hl := h.len k s hsm
      cases k with
      | zero => left; exact hl
      | succ k =>
        right
        intro i hi
        rcases hk with hk | hk
        · omega
        · exact hk _ (h.closed k s hsm i (by omega))), ih (k + 1) _ (by
      right; intro s hs'; right; exact hs')]
    ext t
    show ((t ∈ K ∨ t ∈ cells k) ∨ ∃ d, k + 1 ≤ d ∧ d < k + 1 + n ∧ t ∈ cells d) ↔ (t ∈ K ∨ ∃ d, k ≤ d ∧ d < k + (n + 1) ∧ t ∈ cells d)
    constructor
    · rintro ((h | h) | ⟨d, h1, h2, h3⟩)
      · exact Or.inl h
      · exact Or.inr ⟨k, le_rfl, by omega, h⟩
      · exact Or.inr ⟨d, by omega, by omega, h3⟩
    · rintro (h | ⟨d, h1, h2, h3⟩)
      · exact Or.inl (Or.inl h)
      · by_cases e : d = k
        · subst e; exact Or.inl (Or.inr h3)
        · exact Or.inr ⟨d, by omega, by omega, h3⟩

theorem fold_addOps_all {Y : SCpx} {cells : Cells} (h : Inv Y cells) (hs : ∀ d, ∀ s ∈ cells d, s.Pairwise (· ≤ ·)) (K : Set (List Nat)) :
    (addOps cells (Y.maxdim + 1) 0).foldl specStep K = K ∪ setOf cells := by
  rw [fold_addOps h.ok hs _ 0 K (Or.inl rfl)]
  ext t
  show (t ∈ K ∨ ∃ d, 0 ≤ d ∧ d < 0 + (Y.maxdim + 1) ∧ t ∈ cells d) ↔ (t ∈ K ∨ t ∈ setOf cells)
  have hne := h.sizes.ne
  constructor
  · rintro (h1 | ⟨d, _, _, h1⟩)
    · exact Or.inl h1
    · exact Or.inr ((mem_setOf (h.ok.len d t h1)).2 h1)
  · rintro (h1 | h1)
    · exact Or.inl h1
    · obtain ⟨d, hl⟩ := setOf_congr_len h1.1
      have h2 := (mem_setOf hl).1 h1
      refine Or.inr ⟨d, by omega, ?_, h2⟩
      by_contra hd
      rw [h.top d (by unfold maxdim at hd; omega)] at h2
      simp at h2

/-- the result of adding all simplices of `Y` -/
theorem addOps_spec {Y Z : SCpx} {cY cZ : Cells} (hY : Inv Y cY) (hs : ∀ d, ∀ s ∈ cY d, s.Pairwise (· ≤ ·)) (hZ : Inv Z cZ) :
    ∃ W cW, Z.run (addOps cY (Y.maxdim + 1) 0) = .ok W ∧ Inv W cW ∧ (∀ e, cZ e <+: cW e) ∧ setOf cW = setOf cZ ∪ setOf cY := by
  obtain ⟨W, cW, h1, h2, h3, h4⟩ := run_set (addOps cY (Y.maxdim + 1) 0) hZ (addOps_ne hY.ok _ _)
  exact ⟨W, cW, h1, h2, h3, by rw [h4, fold_addOps_all hY hs]⟩

theorem unionAdd_eq {X Y : SCpx} {cY : Cells} (hY : Inv Y cY) : unionAdd X Y = X.run (addOps cY (Y.maxdim + 1) 0) := by
  have := hY.sizes.ne
  exact unionAddDims_eq hY _ 0 X (by unfold maxdim; omega)

theorem simplicialUnion_eq {X Y : SCpx} {cX cY : Cells} (hX : Inv X cX) (hY : Inv Y cY) :
    simplicialUnion X Y = (init 0).run (addOps cX (X.maxdim + 1) 0 ++ addOps cY (Y.maxdim + 1) 0) := by
  have := hY.sizes.ne
  have := hX.sizes.ne
  unfold simplicialUnion
  rw [Txt.run_append', addAllCells_eq hX _ 0 _ (by unfold maxdim; omega)]
  congr 1
  funext Z
  exact addAllCells_eq hY _ 0 _ (by unfold maxdim; omega)

theorem Reachable.run {X Y : SCpx} (h : Reachable X) {ops : List Op} (ho : ∀ o ∈ ops, o.simplex ≠ []) (e : X.run ops = .ok Y) : Reachable Y := by
  obtain ⟨m, os, h1, h2⟩ := h
  refine ⟨m, os ++ ops, ?_, ?_⟩
  · intro o ho'
    rcases List.mem_append.1 ho' with h | h
    · exact h1 o h
    · exact ho o h
  · rw [Txt.run_append', h2]; exact e

/-! ### intersection -/

theorem growTo_self {α : Type} {l : List α} {n : Nat} {a : α} (h : n ≤ l.length) : growTo l n a = l := by
  unfold growTo; rw [if_neg (by omega)]

theorem reserve_self {X : SCpx} {cells : Cells} (h : Inv X cells) {d : Nat} (hd : d < X.ncells.length) : X.reserve d = X := by
  unfold reserve
  have := h.sizes.sp
  have := h.sizes.fc
  have := h.sizes.co
  rw [growTo_self (by omega), growTo_self (by omega), growTo_self (by omega), growTo_self (by omega)]

/-- `_add_unsafe` agrees with `add_directed` on a new simplex -/
theorem addUnsafe_step {X : SCpx} {cells : Cells} (h : Inv X cells) {d : Nat} (hd : d < X.ncells.length) {s : List Nat} (hl : s.length = d + 1)
    (hs : s ∉ cells d) (hf : FacesIn cells d s) :
    ∃ Y i, X.addUnsafe s = .ok (Y, i) ∧ X.step (.addDirected s) = .ok Y ∧ Inv Y (push cells d s) ∧ Y.ncells.length = X.ncells.length := by
  obtain ⟨Y, h1, h2, h3⟩ := addUnsafe_ok h hd hl hs hf
  refine ⟨Y, _, h1, ?_, h2, h3⟩
  have hne : s ≠ [] := by intro e; rw [e] at hl; simp at hl
  show (X.addDirected s >>= fun r => pure r.1) = _
  unfold addDirected
  rw [if_neg hne, hl, Nat.add_sub_cancel, reserve_self h hd]
  have hg := h.trie.none hne (by rw [hl]; exact hs)
  simp only
  rw [if_neg (by rw [Trie.count_eq, hg]; simp), h1]; rfl

/-- cells of the intersection while dimension `k` is processed -/
def interSt (P : List Nat → Bool) (cells : Cells) (k : Nat) (done : List (List Nat)) : Cells := fun d =>
  if d < k then (cells d).filter P else if d = k then done.filter P else []

theorem interCells_spec {X Y : SCpx} {cX : Cells} (hX : Inv X cX) {P : List Nat → Bool} (hP : ∀ s, s ≠ [] → (P s = true ↔ (Y.findIdx s).isSome))
    (hcl : ∀ d, ∀ s ∈ cX (d + 1), P s = true → ∀ i, i < d + 2 → P (s.eraseIdx i) = true) (k : Nat) (hk : k < X.ncells.length) :
    ∀ (n i : Nat) (Z : SCpx), i + n = (cX k).length → Inv Z (interSt P cX k ((cX k).take i)) → Z.ncells.length = X.ncells.length →
    ∃ W ops, interCells X Y k n i Z = .ok W ∧ Z.run ops = .ok W ∧ (∀ o ∈ ops, o.simplex ≠ []) ∧
      Inv W (interSt P cX k (cX k)) ∧ W.ncells.length = X.ncells.length := by
  intro n
  induction n with
  | zero =>
    intro i Z hi hZ hl
    rw [List.take_of_length_le (by omega)] at hZ
    exact ⟨Z, [], rfl, rfl, by simp, hZ, hl⟩
  | succ n ih =>
    intro i Z hi hZ hl
    have hlt : i < (cX k).length := by omega
    have hg : (cX k)[i]? = some (cX k)[i] := List.getElem?_eq_getElem hlt
    have hm : (cX k)[i] ∈ cX k := List.getElem_mem hlt
    have hlen := hX.ok.len k _ hm
    have hne : (cX k)[i] ≠ [] := by intro e; rw [e] at hlen; simp at hlen
    have htk : (cX k).take (i + 1) = (cX k).take i ++ [(cX k)[i]] := by
      rw [List.take_add_one, hg]; rfl
    rw [interCells, Filt.getSimplex_eq hX hg, bind_ok]
    cases hf : Y.findIdx (cX k)[i] with
    | none =>
      have hp : ¬ P (cX k)[i] = true := by rw [hP _ hne, hf]; simp
      apply ih (i + 1) Z (by omega) ?_ hl
      have : interSt P cX k ((cX k).take (i + 1)) = interSt P cX k ((cX k).take i) := by
        unfold interSt
        rw [htk, List.filter_append]
        have : List.filter P [(cX k)[i]] = [] := by simp [hp]
        rw [this, List.append_nil]
      rw [this]; exact hZ
    | some j =>
      have hp : P (cX k)[i] = true := by rw [hP _ hne, hf]; rfl
      have hnm : (cX k)[i] ∉ interSt P cX k ((cX k).take i) k := by
        unfold interSt
        rw [if_neg (by omega), if_pos rfl]
        intro hc
        have hc := (List.mem_filter.1 hc).1
        obtain ⟨l, hl1, hl2⟩ := List.mem_iff_getElem.1 hc
        rw [List.getElem_take] at hl2
        rw [List.length_take] at hl1
        have := (hX.ok.nodup k).getElem_inj_iff.1 hl2
        omega
      have hfc : FacesIn (interSt P cX k ((cX k).take i)) k (cX k)[i] := by
        intro e he l hl'
        subst he
        unfold interSt
        rw [if_pos (by omega)]
        exact List.mem_filter.2 ⟨hX.ok.closed e _ hm l hl', hcl e _ hm hp l hl'⟩
      obtain ⟨Z', r, a1, a2, a3, a4⟩ := addUnsafe_step hZ (d := k) (by omega) hlen hnm hfc
      have hpush : push (interSt P cX k ((cX k).take i)) k (cX k)[i] = interSt P cX k ((cX k).take (i + 1)) := by
        funext d
        by_cases hd : d = k
        · subst hd
          rw [push_same]
          unfold interSt
          simp only [if_neg (show ¬ d < d by omega), if_true]
          rw [htk, List.filter_append]
          congr 1
          simp [hp]
        · rw [push_ne _ _ hd]
          unfold interSt
          split
          · rfl
          · rfl
      rw [hpush] at a3
      obtain ⟨W, ops, b1, b2, b3, b4, b5⟩ := ih (i + 1) Z' (by omega) a3 (by omega)
      refine ⟨W, .addDirected (cX k)[i] :: ops, ?_, ?_, ?_, b4, b5⟩
      · show (Z.addUnsafe (cX k)[i] >>= fun r => interCells X Y k n (i + 1) r.1) = _
        rw [a1, bind_ok]; exact b1
      · rw [SCpx.run, a2, bind_ok]; exact b2
      · intro o ho
        rcases List.mem_cons.1 ho with rfl | ho
        · exact hne
        · exact b3 o ho

theorem interDims_spec {X Y : SCpx} {cX : Cells} (hX : Inv X cX) {P : List Nat → Bool} (hP : ∀ s, s ≠ [] → (P s = true ↔ (Y.findIdx s).isSome))
    (hcl : ∀ d, ∀ s ∈ cX (d + 1), P s = true → ∀ i, i < d + 2 → P (s.eraseIdx i) = true) :
    ∀ (n k : Nat) (Z : SCpx), k + n ≤ X.ncells.length → Inv Z (interSt P cX k []) → Z.ncells.length = X.ncells.length →
    ∃ W ops, interDims X Y n k Z = .ok W ∧ Z.run ops = .ok W ∧ (∀ o ∈ ops, o.simplex ≠ []) ∧
      Inv W (interSt P cX (k + n) []) ∧ W.ncells.length = X.ncells.length := by
  intro n
  induction n with
  | zero => intro k Z _ hZ hl; exact ⟨Z, [], rfl, rfl, by simp, hZ, hl⟩
  | succ n ih =>
    intro k Z hk hZ hl
    obtain ⟨W, ops, a1, a2, a3, a4, a5⟩ := interCells_spec hX hP hcl k (by omega) (cX k).length 0 Z (by omega) (by rw [List.take_zero]; exact hZ) hl
    have e : interSt P cX k (cX k) = interSt P cX (k + 1) [] := by
      funext d
      unfold interSt
      by_cases h1 : d < k
      · rw [if_pos h1, if_pos (by omega)]
      · rw [if_neg h1]
        by_cases h2 : d = k
        · rw [if_pos h2, if_pos (by omega), h2]
        · rw [if_neg h2, if_neg (by omega)]; split <;> simp
    rw [e] at a4
    obtain ⟨V, ops', b1, b2, b3, b4, b5⟩ := ih (k + 1) W (by omega) a4 a5
    refine ⟨V, ops ++ ops', ?_, ?_, ?_, ?_, b5⟩
    · rw [interDims]; unfold numCells
      rw [rd_some (hX.dim k (by omega)).nc, bind_ok, a1, bind_ok]; exact b1
    · rw [Txt.run_append', a2]; exact b2
    · intro o ho
      rcases List.mem_append.1 ho with h | h
      · exact a3 o h
      · exact b3 o h
    · rw [show k + (n + 1) = k + 1 + n by omega]; exact b4

theorem intersection_spec {X Y : SCpx} {cX cY : Cells} (hX : Inv X cX) (hY : Inv Y cY) :
    ∃ Z, intersection X Y = .ok Z ∧ Reachable Z ∧ Inv Z (fun d => (cX d).filter (fun s => (Y.findIdx s).isSome)) ∧ Z.ncells.length = X.ncells.length := by
  have hne := hX.sizes.ne
  obtain ⟨i1, i2⟩ := init_inv X.maxdim
  obtain ⟨W, ops, a1, a2, a3, a4, a5⟩ := interDims_spec (Y := Y) hX (P := fun s => (Y.findIdx s).isSome) (fun s _ => Iff.rfl) (by
    intro d s hs hp i hi
    have hl := hX.ok.len _ s hs
    have hsne : s ≠ [] := by intro e; rw [e] at hl; simp at hl
    have hm := (hY.trie.isSome hsne).1 hp
    rw [hl, Nat.add_sub_cancel] at hm
    have hf := hY.ok.closed d s hm i hi
    have hfl := hY.ok.len _ _ hf
    have hfne : s.eraseIdx i ≠ [] := by intro e; rw [e] at hfl; simp at hfl
    exact (hY.trie.isSome hfne).2 (by rw [hfl, Nat.add_sub_cancel]; exact hf)) (X.maxdim + 1) 0 (init X.maxdim) (by unfold maxdim; omega) (by
      have : interSt (fun s => (Y.findIdx s).isSome) cX 0 [] = fun _ => [] := by
        funext d; unfold interSt; rw [if_neg (by omega)]; split <;> rfl
      rw [this]; exact i1) (by rw [i2]; unfold maxdim; omega)
  refine ⟨W, a1, ⟨_, ops, a3, a2⟩, ?_, a5⟩
  have : interSt (fun s => (Y.findIdx s).isSome) cX (0 + (X.maxdim + 1)) [] = fun d => (cX d).filter (fun s => (Y.findIdx s).isSome) := by
    funext d
    unfold interSt
    by_cases hd : d < 0 + (X.maxdim + 1)
    · rw [if_pos hd]
    · rw [if_neg hd, hX.top d (by unfold maxdim at hd; omega)]; simp
  rw [this] at a4
  exact a4

/-! ### indices -/

theorem indexCells_eq {X A : SCpx} {cA : Cells} (hA : Inv A cA) (k : Nat) : ∀ (n i : Nat), i + n = (cA k).length →
    indexCells X A k n i = .ok (((cA k).drop i).map X.findIdx) := by
  intro n
  induction n with
  | zero => intro i hi; rw [List.drop_of_length_le (by omega)]; rfl
  | succ n ih =>
    intro i hi
    have hlt : i < (cA k).length := by omega
    rw [List.drop_eq_getElem_cons hlt, List.map_cons, indexCells, Filt.getSimplex_eq hA (List.getElem?_eq_getElem hlt), bind_ok, ih (i + 1) (by omega)]; rfl

theorem getIndicesDim_eq {X A : SCpx} {cA : Cells} (hA : Inv A cA) (k : Nat) : getIndicesDim X A k = .ok ((cA k).map X.findIdx) := by
  have hne := hA.sizes.ne
  unfold getIndicesDim
  by_cases hk : A.maxdim < k
  · rw [if_pos hk, hA.top k (by unfold maxdim at hk; omega)]; rfl
  · rw [if_neg hk]
    unfold numCells
    rw [rd_some (hA.dim k (by unfold maxdim at hk; omega)).nc, bind_ok, indexCells_eq hA k _ 0 (by omega), List.drop_zero]

theorem indexDims_eq {X A : SCpx} {cA : Cells} (hA : Inv A cA) : ∀ (n k : Nat),
    indexDims X A n k = .ok ((List.range' k n).map (fun d => (cA d).map X.findIdx)) := by
  intro n
  induction n with
  | zero => intro k; rfl
  | succ n ih =>
    intro k
    rw [indexDims, getIndicesDim_eq hA k, bind_ok, ih (k + 1), bind_ok, List.range'_succ]; rfl

theorem getIndices_eq {X A : SCpx} {cA : Cells} (hA : Inv A cA) :
    getIndices X A = .ok ((List.range (X.maxdim + 1)).map (fun d => (cA d).map X.findIdx)) := by
  unfold getIndices
  rw [indexDims_eq hA, List.range_eq_range']

end SCpx
end BATS
