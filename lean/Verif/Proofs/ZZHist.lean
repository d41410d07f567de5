import Verif.Spec.ZigzagHist
import Verif.Proofs.Filtration
import Verif.Proofs.Sublevel

set_option linter.unusedSectionVars false
set_option linter.unusedVariables false
set_option linter.unusedSimpArgs false

/-! # Histories of zigzag filtrations, by simulation with `Filtration` -/

namespace BATS
namespace Zigzag
open Reduction SCpx

variable {T : Type}

local instance zeroList {α : Type} : Zero (List α) := ⟨[]⟩

theorem push_eq (val : List (List (List (T × T)))) (d i : Nat) (p : T × T) : push val d i p = Filt.setVal val d i (((val.getD d []).getD i []) ++ [p]) := by
  have hl : d < (growTo val (d + 1) []).length := by rw [growTo_length]; omega
  have hrow : (growTo val (d + 1) [])[d]? = some (val.getD d []) := by
    rw [Filt.getElem?_of_getD [] hl, Filt.growTo_getD]
  have hlen2 : i < (growTo (val.getD d []) (i + 1) ([] : List (T × T))).length := by rw [growTo_length]; omega
  have hold : (growTo (val.getD d []) (i + 1) ([] : List (T × T)))[i]? = some ((val.getD d []).getD i []) := by
    rw [Filt.getElem?_of_getD [] hlen2, Filt.growTo_getD]
  have hL : push val d i p = wr (growTo val (d + 1) []) d ((growTo (val.getD d []) (i + 1) []).set i (((val.getD d []).getD i []) ++ [p])) := by
    show (do
      let row ← rd (growTo val (d + 1) []) d
      let old ← rd (growTo row (i + 1) []) i
      let row' ← wr (growTo row (i + 1) []) i (old ++ [p])
      wr (growTo val (d + 1) []) d row') = _
    rw [rd_some hrow, bind_ok, rd_some hold, bind_ok, wr_lt _ hlen2, bind_ok]
  rw [hL]
  unfold Filt.setVal Filt.reserve
  rw [rd_some hrow, bind_ok, wr_lt _ hl, wr_lt _ hl, bind_ok]
  have hrow2 : ((growTo val (d + 1) []).set d (growTo (val.getD d []) (i + 1) 0))[d]? = some (growTo (val.getD d []) (i + 1) 0) := by
    simp [hl]
  have hz : growTo (val.getD d []) (i + 1) (0 : List (T × T)) = growTo (val.getD d []) (i + 1) [] := rfl
  rw [rd_some hrow2, bind_ok, hz, wr_lt _ hlen2, bind_ok, wr_lt _ (by simpa using hl), List.set_set]

theorem pushAll_eq (p : T × T) : ∀ (ps : List (Nat × Nat)) (val : List (List (List (T × T)))) (m : Nat → Nat),
    (∀ e, (ps.filter (fun p => p.1 = e)).map Prod.snd = List.range' (val.getD e []).length (m e)) → pushAll p ps val = Filt.storeAll [p] ps val
  | [], val, m, h => rfl
  | (d, i) :: ps, val, m, h => by
    have hd := h d
    simp only [decide_true, List.filter_cons_of_pos, List.map_cons] at hd
    rcases hm : m d with _ | n
    · rw [hm] at hd; simp at hd
    · rw [hm, List.range'_succ] at hd
      injection hd with hi htl
      obtain ⟨v2, e1, _, e3, e4⟩ := Filt.setVal_spec val d i [p] (by omega)
      rw [if_neg (by omega)] at e4
      have hpush : push val d i p = .ok v2 := by
        rw [push_eq, List.getD_eq_getElem?_getD (l := val.getD d []), List.getElem?_eq_none (by omega)]
        exact e1
      unfold pushAll Filt.storeAll
      simp only
      rw [hpush, e1, bind_ok, bind_ok]
      apply pushAll_eq p ps v2 (fun e => if e = d then n else m e)
      intro e
      by_cases he : e = d
      · subst he
        rw [if_pos rfl, e4, htl, List.length_append, List.length_singleton]
      · rw [if_neg he, e3 e he, ← h e]
        congr 1
        rw [List.filter_cons_of_neg (by simpa using fun h => he h.symm)]

/-- absent simplices have no intervals -/
def toV (iv : List Nat → List (T × T)) (u : List Nat) : Option (List (T × T)) := open Classical in if iv u = [] then none else some (iv u)

theorem toV_ne {iv : List Nat → List (T × T)} {u : List Nat} : toV iv u ≠ none ↔ iv u ≠ [] := by
  unfold toV; split <;> simp_all

theorem toV_getD {iv : List Nat → List (T × T)} {u : List Nat} : (toV iv u).getD [] = iv u := by
  unfold toV; split <;> simp_all

theorem specAdd_eq (iv : List Nat → List (T × T)) (p : T × T) (s : List Nat) : Filt.specAdd (toV iv) (iv s ++ [p]) s = (specAdd iv p s).map toV := by
  unfold Filt.specAdd specAdd
  simp only [toV_ne]
  split
  · rw [Option.map_some]
    congr 1
    funext u
    unfold toV
    by_cases h : u = s
    · simp [h]
    · simp [h]
  · rfl

theorem specAddRec_eq (iv : List Nat → List (T × T)) (p : T × T) (s : List Nat) :
    Filt.specAddRec (toV iv) (iv s ++ [p]) s = toV (specAddRec iv p s) := by
  unfold Filt.specAddRec specAddRec
  simp only [toV_ne]
  by_cases hs : iv s = []
  · rw [if_neg (not_not.2 hs), if_neg (not_not.2 hs)]
    funext u
    have h0 : toV iv u = none ↔ iv u = [] := by
      have := @toV_ne T iv u; tauto
    simp only [h0, hs, List.nil_append]
    by_cases h : u ≠ [] ∧ u.Sublist s ∧ iv u = []
    · rw [if_pos h]; unfold toV; beta_reduce; rw [if_pos h]; simp
    · rw [if_neg h]; unfold toV; beta_reduce; rw [if_neg h]
  · rw [if_pos hs, if_pos hs]
    funext u
    unfold toV
    by_cases h : u = s
    · simp [h]
    · simp [h]

/-- the invariant -/
def HInv (Φ : ZFilt T) (cells : Cells) (iv : List Nat → List (T × T)) : Prop := Filt.FInv Φ cells (toV iv)

theorem HInv.getD {Φ : ZFilt T} {cells : Cells} {iv : List Nat → List (T × T)} (h : HInv Φ cells iv) (d i : Nat) (s : List Nat) (hs : (cells d)[i]? = some s) :
    (Φ.val.getD d []).getD i [] = iv s := by
  have := congrArg (fun l => l[i]?) (h.row d)
  simp only [List.getElem?_map, hs, Option.map_some] at this
  rw [List.getD_eq_getElem?_getD]
  cases hx : (Φ.val.getD d [])[i]? with
  | none => rw [hx] at this; cases this
  | some x =>
    rw [hx, Option.map_some] at this
    injection this with this
    rw [← toV_getD (iv := iv) (u := s), ← this]
    try rfl

theorem HInv.rowLen {Φ : ZFilt T} {cells : Cells} {iv : List Nat → List (T × T)} (h : HInv Φ cells iv) (d : Nat) : (Φ.val.getD d []).length = (cells d).length :=
  Filt.FInv.rowLen h d

theorem empty_hinv : HInv (ZFilt.empty : ZFilt T) (fun _ => []) (fun _ => []) := by
  have : toV (fun _ => ([] : List (T × T))) = fun _ => none := by funext u; unfold toV; simp
  unfold HInv
  rw [this]
  exact Filt.empty_inv


theorem storeAll_one (t : List (T × T)) (d i : Nat) (val : List (List (List (T × T)))) : Filt.storeAll t [(d, i)] val = Filt.setVal val d i t := by
  unfold Filt.storeAll
  cases Filt.setVal val d i t <;> rfl

theorem pushAll_one (p : T × T) (d i : Nat) (val : List (List (List (T × T)))) : pushAll p [(d, i)] val = push val d i p := by
  unfold pushAll
  cases push val d i p <;> rfl

theorem add_inv {Φ : ZFilt T} {cells : Cells} {iv : List Nat → List (T × T)} (h : HInv Φ cells iv) (p : T × T) {s : List Nat} (hs : s ≠ []) :
    (∀ iv', specAdd iv p s = some iv' → ∃ Ψ cells', (do let r ← Φ.X.addDirected s; match r.2 with | none => .error .ub | some i => do let v ← push Φ.val (s.length - 1) i p; pure ⟨r.1, v⟩ : Res (ZFilt T)) = .ok Ψ ∧
      HInv Ψ cells' iv' ∧ Ψ.X.maxdim = max Φ.X.maxdim (s.length - 1)) ∧
    (specAdd iv p s = none → (do let r ← Φ.X.addDirected s; match r.2 with | none => .error .ub | some i => do let v ← push Φ.val (s.length - 1) i p; pure ⟨r.1, v⟩ : Res (ZFilt T)) = .error .ub) := by
  obtain ⟨d, hl⟩ := SCpx.setOf_congr_len hs
  obtain ⟨Y, c, r, h1, h2, h3, h4⟩ := addDirected_spec h.inv hl
  have hold : ∀ i, r = some i → (Φ.val.getD (s.length - 1) []).getD i [] = iv s := by
    intro i hi
    rw [hl, Nat.add_sub_cancel]
    rcases h4 with ⟨a, b, e⟩ | ⟨a, b, e, f⟩ | ⟨a, b, e, f⟩
    · rw [hi] at e; cases e
      have hidx := List.idxOf_lt_length_iff.2 a
      exact h.getD d _ s (by rw [List.getElem?_eq_getElem hidx, List.getElem_idxOf])
    · rw [hi] at f; cases f
      have h0 : iv s = [] := by
        by_contra hc
        exact a ((mem_setOf hl).1 ((h.dom s).1 (toV_ne.2 hc)))
      rw [h0, List.getD_eq_getElem?_getD (l := Φ.val.getD d []), List.getElem?_eq_none (by rw [Filt.FInv.rowLen h])]; rfl
    · rw [hi] at f; cases f
  have heq : (do let r ← Φ.X.addDirected s; match r.2 with | none => .error .ub | some i => do let v ← push Φ.val (s.length - 1) i p; pure ⟨r.1, v⟩ : Res (ZFilt T)) =
      (do let r ← (do let r ← Φ.X.addDirected s; Filt.store Φ.val (s.length - 1) (iv s ++ [p]) r.1 r.2 : Res (Filt (List (T × T)) × Nat)); pure r.1 : Res (ZFilt T)) := by
    rw [h1, bind_ok, bind_ok]
    rcases r with _ | i
    · rfl
    · show (do let v ← push Φ.val (s.length - 1) i p; pure ⟨Y, v⟩ : Res (ZFilt T)) = _
      rw [push_eq, hold i rfl]
      show _ = (do let r ← (do let v ← Filt.setVal Φ.val (s.length - 1) i (iv s ++ [p]); pure (⟨Y, v⟩, i) : Res (Filt (List (T × T)) × Nat)); pure r.1 : Res (ZFilt T))
      cases Filt.setVal Φ.val (s.length - 1) i (iv s ++ [p]) <;> rfl
  rw [heq]
  obtain ⟨g1, g2⟩ := Filt.addDirected_inv h (iv s ++ [p]) hs
  rw [specAdd_eq] at g1 g2
  constructor
  · intro iv' hiv
    obtain ⟨Ψ, c', i, e1, e2, _, e4⟩ := g1 (toV iv') (by rw [hiv]; rfl)
    exact ⟨Ψ, c', by rw [e1]; rfl, e2, e4⟩
  · intro hiv
    rw [g2 (by rw [hiv]; rfl)]; rfl

theorem addRec_inv {Φ : ZFilt T} {cells : Cells} {iv : List Nat → List (T × T)} (h : HInv Φ cells iv) (p : T × T) {s : List Nat} (hs : s ≠ []) :
    ∃ Y ps w cells', Φ.X.addDirectedRecursive s = .ok (Y, ps) ∧ pushAll p ps Φ.val = .ok w ∧ HInv ⟨Y, w⟩ cells' (specAddRec iv p s) ∧
      Y.maxdim = max Φ.X.maxdim (s.length - 1) := by
  obtain ⟨d, hl⟩ := SCpx.setOf_congr_len hs
  obtain ⟨Y, c, r, h1, h2, h3, h4⟩ := addDirectedRecursive_spec h.inv hl
  obtain ⟨Y', ps, w, c', g1, g2, g3, g4⟩ := Filt.addDirectedRecursive_inv h (iv s ++ [p]) hs
  rw [h1] at g1; cases g1
  rw [specAddRec_eq] at g3
  refine ⟨Y, r, w, c', h1, ?_, g3, g4⟩
  rw [← g2]
  rcases h4 with ⟨a, b, e⟩ | ⟨a, hA⟩
  · have hidx := List.idxOf_lt_length_iff.2 a
    rw [e, storeAll_one, pushAll_one, push_eq, h.getD d _ s (by rw [List.getElem?_eq_getElem hidx, List.getElem_idxOf])]
  · have h0 : iv s = [] := by
      by_contra hc
      exact a ((mem_setOf hl).1 ((h.dom s).1 (toV_ne.2 hc)))
    rw [h0, List.nil_append]
    exact pushAll_eq p r Φ.val (fun e => (c e).length - (cells e).length) (by intro e; rw [Filt.FInv.rowLen h]; exact hA.new e)

theorem step_inv {Φ : ZFilt T} {cells : Cells} {iv : List Nat → List (T × T)} (h : HInv Φ cells iv) (o : ZOp T) (ho : o.simplex ≠ []) :
    (∀ iv', specStep iv o = some iv' → ∃ Ψ cells', ZFilt.step Φ o = .ok Ψ ∧ HInv Ψ cells' iv' ∧ Ψ.X.maxdim = max Φ.X.maxdim (o.simplex.length - 1)) ∧
    (specStep iv o = none → ZFilt.step Φ o = .error .ub) := by
  cases o with
  | add p s =>
    have hlen : (sortV s).length = s.length := List.length_insertionSort _ _
    have := add_inv h p (SCpx.sortV_ne (s := s) ho)
    rw [hlen] at this
    constructor
    · intro v' hv'
      have hv2 : specAdd iv p (s.mergeSort (· ≤ ·)) = some v' := hv'
      rw [mergeSort_eq] at hv2
      exact this.1 v' hv2
    · intro hv'
      have hv2 : specAdd iv p (s.mergeSort (· ≤ ·)) = none := hv'
      rw [mergeSort_eq] at hv2
      exact this.2 hv2
  | addRecursive p s =>
    have hlen : (sortV s).length = s.length := List.length_insertionSort _ _
    constructor
    · intro v' hv'
      cases hv'
      obtain ⟨Y, ps, w, c, e1, e2, e3, e4⟩ := addRec_inv h p (SCpx.sortV_ne (s := s) ho)
      rw [hlen] at e4
      rw [← mergeSort_eq] at e3
      refine ⟨⟨Y, w⟩, c, ?_, e3, e4⟩
      unfold ZFilt.step ZFilt.addRecursive SCpx.addRecursive
      simp only [e1, bind_ok, e2]; rfl
    · intro hv'; cases hv'

theorem run_inv : ∀ (ops : List (ZOp T)) {Φ : ZFilt T} {cells : Cells} {iv : List Nat → List (T × T)}, HInv Φ cells iv → (∀ o ∈ ops, o.simplex ≠ []) →
    (∀ iv', specRun iv ops = some iv' → ∃ Ψ cells', ZFilt.run Φ ops = .ok Ψ ∧ HInv Ψ cells' iv' ∧ Φ.X.maxdim ≤ Ψ.X.maxdim) ∧
    (specRun iv ops = none → ZFilt.run Φ ops = .error .ub) := by
  intro ops
  induction ops with
  | nil =>
    intro Φ cells v h _
    refine ⟨?_, by intro h; cases h⟩
    intro v' hv'; cases hv'
    exact ⟨Φ, cells, rfl, h, Nat.le_refl _⟩
  | cons o os ih =>
    intro Φ cells v h ho
    obtain ⟨s1, s2⟩ := step_inv h o (ho o (by simp))
    unfold specRun ZFilt.run
    cases hs : specStep v o with
    | none =>
      rw [s2 hs]
      exact ⟨(by intro v' h; cases h), fun _ => rfl⟩
    | some v1 =>
      obtain ⟨Ψ, c, e1, e2, e3⟩ := s1 v1 hs
      obtain ⟨i1, i2⟩ := ih e2 (fun o' h' => ho o' (by simp [h']))
      rw [e1]
      simp only [Option.bind_some, bind_ok]
      refine ⟨?_, i2⟩
      intro v' hv'
      obtain ⟨Θ, c', f1, f2, f3⟩ := i1 v' hv'
      exact ⟨Θ, c', f1, f2, by omega⟩

theorem toV_set (iv : List Nat → List (T × T)) : {s | toV iv s ≠ none} = {s | iv s ≠ []} := by
  ext s; exact toV_ne

theorem HInv.set {Φ : ZFilt T} {cells : Cells} {iv : List Nat → List (T × T)} (h : HInv Φ cells iv) : SCpx.setOf cells = {s | iv s ≠ []} := by
  ext s
  rw [← h.dom s]; exact toV_ne

theorem HInv.histRepresents [LinearOrder T] {Φ : ZFilt T} {cells : Cells} {iv : List Nat → List (T × T)} (h : HInv Φ cells iv) : HistRepresents Φ iv := by
  have hr := h.inv.represents
  rw [h.set] at hr
  refine ⟨hr, ?_, ?_⟩
  · intro d hd
    have := (Filt.FInv.represents h).count d hd
    rw [← this]
    unfold Filt.numCells
    rw [rd_getD [] hd]; rfl
  · intro s i hs hi
    obtain ⟨d, hl⟩ := SCpx.setOf_congr_len hs
    have h2 := (h.inv.trie s hs i).1 hi
    rw [hl, Nat.add_sub_cancel] at h2 ⊢
    exact h.getD d i s h2

/-! ## level sets -/

section level
variable [LinearOrder T]

/-- value 0 for the cells taken by `levelset`, 1 for the others -/
def lv (s0 s1 : T) (l : List (T × T)) : Nat := if l.head?.any (endInside s0 s1) then 0 else 1

/-- the filtration by `lv` -/
def lvFilt (s0 s1 : T) (Φ : ZFilt T) : Filt Nat := ⟨Φ.X, Φ.val.map (fun row => row.map (lv s0 s1))⟩

theorem levelRow_eq (s0 s1 : T) (Φ : ZFilt T) (k : Nat) {row : List (List (T × T))} (hk : Φ.val[k]? = some row) (hne : ∀ l ∈ row, l ≠ []) : ∀ n i Y, i + n ≤ row.length →
    levelRow Φ s0 s1 k n i Y = Filt.subRow (lvFilt s0 s1 Φ) 0 k n i Y
  | 0, i, Y, _ => rfl
  | n + 1, i, Y, h => by
    have hi : i < row.length := by omega
    have hr : row[i]? = some row[i] := List.getElem?_eq_getElem hi
    obtain ⟨p, l, hl⟩ : ∃ p l, row[i] = p :: l := by
      rcases h : row[i] with _ | ⟨p, l⟩
      · exact absurd h (hne _ (List.getElem_mem hi))
      · exact ⟨p, l, rfl⟩
    have ih := fun Z => levelRow_eq s0 s1 Φ k hk hne n (i + 1) Z (by omega)
    have hk2 : (lvFilt s0 s1 Φ).val[k]? = some (row.map (lv s0 s1)) := by
      show (Φ.val.map _)[k]? = _
      rw [List.getElem?_map, hk]; rfl
    have hr2 : (row.map (lv s0 s1))[i]? = some (lv s0 s1 row[i]) := by
      rw [List.getElem?_map, hr]; rfl
    rw [levelRow, Filt.subRow, rd_some hk, bind_ok, rd_some hr, bind_ok, rd_some hk2, bind_ok, rd_some hr2, bind_ok, hl]
    have h0 : rd (p :: l) 0 = Except.ok p := rfl
    rw [h0, bind_ok]
    have hlv : lv s0 s1 (p :: l) ≤ 0 ↔ endInside s0 s1 p = true := by
      unfold lv
      simp only [List.head?_cons, Option.any_some]
      by_cases hq : endInside s0 s1 p = true <;> simp [hq]
    by_cases hp : endInside s0 s1 p = true
    · rw [if_pos hp, if_pos (hlv.2 hp)]
      simp only [ih]; rfl
    · rw [if_neg hp, if_neg (fun h => hp (hlv.1 h))]
      exact ih Y

theorem levelLoop_eq (s0 s1 : T) (Φ : ZFilt T) (hne : ∀ row ∈ Φ.val, ∀ l ∈ row, l ≠ []) (hc : ∀ d, d < Φ.val.length → Φ.X.numCells d = .ok (Φ.val.getD d []).length) :
    ∀ n k Y, k + n ≤ Φ.val.length → levelLoop Φ s0 s1 n k Y = Filt.subLoop (lvFilt s0 s1 Φ) 0 n k Y
  | 0, k, Y, _ => rfl
  | n + 1, k, Y, h => by
    have hk : Φ.val[k]? = some (Φ.val[k]'(by omega)) := List.getElem?_eq_getElem (by omega)
    have hg : Φ.val.getD k [] = Φ.val[k]'(by omega) := by rw [List.getD_eq_getElem?_getD, hk]; rfl
    have hnum : (lvFilt s0 s1 Φ).numCells k = .ok (Φ.val.getD k []).length := by
      unfold Filt.numCells
      have : (lvFilt s0 s1 Φ).val[k]? = some ((Φ.val[k]'(by omega)).map (lv s0 s1)) := by
        show (Φ.val.map _)[k]? = _
        rw [List.getElem?_map, hk]; rfl
      rw [rd_some this, bind_ok, hg, List.length_map]; rfl
    rw [levelLoop, Filt.subLoop, hc k (by omega), bind_ok, hnum, bind_ok,
      levelRow_eq s0 s1 Φ k hk (hne _ (List.getElem_mem _)) _ 0 Y (by rw [hg]; omega)]
    congr 1
    funext Z
    exact levelLoop_eq s0 s1 Φ hne hc n (k + 1) Z (by omega)

theorem HInv.ne {Φ : ZFilt T} {cells : Cells} {iv : List Nat → List (T × T)} (h : HInv Φ cells iv) : ∀ row ∈ Φ.val, ∀ l ∈ row, l ≠ [] := by
  intro row hrow l hl
  obtain ⟨d, hd, rfl⟩ := List.getElem_of_mem hrow
  obtain ⟨i, hi, rfl⟩ := List.getElem_of_mem hl
  have hg : Φ.val.getD d [] = Φ.val[d] := by rw [List.getD_eq_getElem?_getD, List.getElem?_eq_getElem hd]; rfl
  have hlen := Filt.FInv.rowLen h d
  rw [hg] at hlen
  have hic : i < (cells d).length := by omega
  have := h.getD d i _ (List.getElem?_eq_getElem hic)
  rw [hg, List.getD_eq_getElem?_getD, List.getElem?_eq_getElem hi] at this
  have h2 : iv (cells d)[i] ≠ [] := toV_ne.1 ((h.dom _).2 ((mem_setOf (h.inv.ok.len d _ (List.getElem_mem hic))).2 (List.getElem_mem hic)))
  rw [show Φ.val[d][i] = iv (cells d)[i] from this]; exact h2

theorem HInv.lvFilt {Φ : ZFilt T} {cells : Cells} {iv : List Nat → List (T × T)} (h : HInv Φ cells iv) (s0 s1 : T) :
    Filt.FInv (lvFilt s0 s1 Φ) cells (fun s => (toV iv s).map (lv s0 s1)) := by
  refine ⟨h.inv, ?_, ?_, ?_⟩
  · rcases h.len with g | ⟨g1, g2, g3⟩
    · left; show (Φ.val.map _).length = _; rw [List.length_map]; exact g
    · right; refine ⟨?_, g2, g3⟩; show Φ.val.map _ = []; rw [g1]; rfl
  · intro d
    have h1 : (Zigzag.lvFilt s0 s1 Φ).val.getD d [] = (Φ.val.getD d []).map (lv s0 s1) := by
      show (Φ.val.map _).getD d [] = _
      rw [List.getD_eq_getElem?_getD, List.getD_eq_getElem?_getD, List.getElem?_map]
      cases Φ.val[d]? <;> rfl
    have := congrArg (List.map (Option.map (lv s0 s1))) (h.row d)
    rw [List.map_map, List.map_map] at this
    rw [h1, List.map_map]
    exact this
  · intro s
    rw [← h.dom s]
    cases toV iv s <;> simp

theorem levelset_spec {Φ : ZFilt T} {cells : Cells} {iv : List Nat → List (T × T)} (h : HInv Φ cells iv) (hsort : ∀ d s, s ∈ cells d → s.Pairwise (· ≤ ·)) (s0 s1 : T) :
    ∃ Y c, levelset Φ s0 s1 = .ok Y ∧ Inv Y c ∧ Y.maxdim = Φ.X.maxdim ∧
      SCpx.setOf c = {s | s ≠ [] ∧ ∀ u : List Nat, u ≠ [] → u.Sublist s → ∃ v, (iv u).head? = some v ∧ endInside s0 s1 v = true} := by
  obtain ⟨Y, c, e1, e2, e3, e4⟩ := Filt.sublevelset_spec (h.lvFilt s0 s1) hsort 0
  refine ⟨Y, c, ?_, e2, e3, ?_⟩
  · rw [← e1]
    unfold levelset Filt.sublevelset
    rcases h.len with g | ⟨g1, g2, g3⟩
    · have hXne := h.inv.sizes.ne
      have : (lvFilt s0 s1 Φ).val.length = Φ.X.maxdim + 1 := by
        show (Φ.val.map _).length = _
        rw [List.length_map, g]; unfold SCpx.maxdim; omega
      rw [this]
      exact levelLoop_eq s0 s1 Φ h.ne h.histRepresents.count _ 0 _ (by rw [g]; unfold SCpx.maxdim; omega)
    · have hm : Φ.X.maxdim = 0 := by unfold SCpx.maxdim; omega
      have hn : Φ.X.numCells 0 = .ok 0 := by
        have := (h.inv.dim 0 (by omega)).nc
        rw [g3 0] at this
        unfold SCpx.numCells
        rw [rd_some this]; rfl
      have hv : (lvFilt s0 s1 Φ).val = [] := by show Φ.val.map _ = []; rw [g1]; rfl
      rw [hm, hv, levelLoop, hn, bind_ok]
      show _ = Except.ok (SCpx.init (lvFilt s0 s1 Φ).X.maxdim)
      rw [show (lvFilt s0 s1 Φ).X.maxdim = 0 from hm]
      rfl
  · rw [e4]
    ext s
    show (s ≠ [] ∧ ∀ u : List Nat, u ≠ [] → u.Sublist s → ∃ y, (toV iv u).map (lv s0 s1) = some y ∧ y ≤ 0) ↔ _
    refine and_congr_right fun _ => forall_congr' fun u => forall_congr' fun _ => forall_congr' fun _ => ?_
    unfold toV
    rcases hu : iv u with _ | ⟨p, l⟩
    · simp
    · simp only [reduceCtorEq, if_false, Option.map_some, Option.some.injEq, exists_eq_left', List.head?_cons, lv, Option.any_some]
      by_cases hq : endInside s0 s1 p = true <;> simp [hq]

end level

end Zigzag
end BATS
