import Verif.Spec.Simplicial
import Verif.Proofs.SimplicialRec

set_option linter.unusedSectionVars false
set_option linter.unusedVariables false
set_option linter.unusedSimpArgs false

/-! # Histories of additions -/

namespace BATS
namespace SCpx
open Reduction

/-- the simplices stored -/
def setOf (cells : Cells) : Set (List Nat) := {s | s ≠ [] ∧ s ∈ cells (s.length - 1)}

theorem mem_setOf {cells : Cells} {s : List Nat} {d : Nat} (hl : s.length = d + 1) : s ∈ setOf cells ↔ s ∈ cells d := by
  have hne : s ≠ [] := by intro e; rw [e] at hl; simp at hl
  unfold setOf
  rw [Set.mem_ofPred_eq, hl, Nat.add_sub_cancel]
  exact ⟨fun h => h.2, fun h => ⟨hne, h⟩⟩

theorem mergeSort_eq (s : List Nat) : s.mergeSort (· ≤ ·) = sortV s := by
  unfold sortV
  have h1 : (s.mergeSort (· ≤ ·)).Perm (s.insertionSort (· ≤ ·)) :=
    (List.mergeSort_perm s _).trans (List.perm_insertionSort (· ≤ ·) s).symm
  apply h1.eq_of_pairwise (le := (· ≤ ·)) (fun a b _ _ => le_antisymm)
  · exact (List.pairwise_mergeSort (le := fun a b => decide (a ≤ b)) (by intro a b c; simp; omega) (by intro a b; simp; omega) s).imp (by simp)
  · exact List.pairwise_insertionSort (· ≤ ·) s

theorem sortV_ne {s : List Nat} (h : s ≠ []) : sortV s ≠ [] := by
  intro e
  have := List.length_insertionSort (· ≤ ·) s
  unfold sortV at e
  rw [e] at this
  exact h (List.length_eq_zero_iff.1 (by simpa using this.symm))

theorem Inv.represents {X : SCpx} {cells : Cells} (h : Inv X cells) : Represents X (setOf cells) := by
  have hlen : ∀ s ∈ setOf cells, s ≠ [] ∧ s.length ≤ X.maxdim + 1 := by
    intro s hs
    refine ⟨hs.1, ?_⟩
    by_contra hc
    have := h.top (s.length - 1) (by unfold maxdim at hc; have := h.sizes.ne; omega)
    have hs2 := hs.2
    rw [this] at hs2
    simp at hs2
  refine ⟨?_, hlen, ?_, ?_⟩
  · intro s hs
    rw [← Option.isSome_iff_exists]
    unfold findIdx
    rw [h.trie.isSome hs]
    exact ⟨fun h => h.2, fun h => ⟨hs, h⟩⟩
  · intro s hs i hi
    obtain ⟨h1, h2⟩ := hlen s hs
    have hlp : 0 < s.length := List.length_pos_iff.2 h1
    have hlt : s.length - 1 < X.ncells.length := by unfold maxdim at h2; have := h.sizes.ne; omega
    have hd := h.dim _ hlt
    have hg := (h.trie s h1 i).1 hi
    have hil := (List.getElem?_eq_some_iff.1 hg).1
    refine ⟨_, rd_some hd.nc, hil, ?_⟩
    unfold getSimplex
    rw [rd_some hd.sp, bind_ok]
    have hu : ∀ l ∈ cells (s.length - 1), l.length = s.length := by intro l hl; rw [h.ok.len _ _ hl]; omega
    have e1 : s.length - 1 + 1 = s.length := by omega
    rw [e1, flatten_length_uniform hu, if_neg]
    · rw [pure_ok]
      congr 1
      have := flatten_slice_uniform hu hg
      rw [Nat.mul_comm] at this
      first | exact this | (rw [Nat.mul_comm]; exact this)
    · rw [Nat.mul_comm]
      have := Nat.mul_le_mul_right s.length (show i + 1 ≤ (cells (s.length - 1)).length by omega)
      first | omega | (rw [Nat.mul_comm s.length]; omega)
  · intro d hd
    have hlt : d < X.ncells.length := by unfold maxdim at hd; have := h.sizes.ne; omega
    have hdm := h.dim _ hlt
    refine ⟨_, rd_some hdm.nc, ?_⟩
    intro i hi
    have hl := h.ok.len d _ (List.getElem_mem hi)
    have hm := (mem_setOf (cells := cells) hl).2 (List.getElem_mem hi)
    refine ⟨(cells d)[i], hm, hl, ?_⟩
    unfold findIdx
    rw [h.trie _ hm.1, hl, Nat.add_sub_cancel, List.getElem?_eq_getElem hi]

theorem facesIn_iff {cells : Cells} {s : List Nat} {d : Nat} (hl : s.length = d + 1) :
    FacesIn cells d s ↔ (s.length = 1 ∨ ∀ k, k < s.length → s.eraseIdx k ∈ setOf cells) := by
  unfold FacesIn
  cases d with
  | zero => simp [hl]
  | succ e =>
    constructor
    · intro h
      right
      intro k hk
      rw [mem_setOf (d := e) (by rw [List.length_eraseIdx_of_lt hk]; omega)]
      exact h e rfl k (by omega)
    · rintro (h | h)
      · omega
      · intro e' he k hk
        have : e' = e := by omega
        subst this
        rw [← mem_setOf (d := e') (by rw [List.length_eraseIdx_of_lt (by omega)]; omega)]
        exact h k (by omega)

theorem setOf_push {cells : Cells} {s : List Nat} {d : Nat} (hl : s.length = d + 1) : setOf (push cells d s) = {t | t ∈ setOf cells ∨ t = s} := by
  have hne : s ≠ [] := by intro e; rw [e] at hl; simp at hl
  ext t
  show (t ≠ [] ∧ t ∈ push cells d s (t.length - 1)) ↔ ((t ≠ [] ∧ t ∈ cells (t.length - 1)) ∨ t = s)
  rw [mem_push]
  constructor
  · rintro ⟨h1, h2 | ⟨h2, h3⟩⟩
    · exact Or.inl ⟨h1, h2⟩
    · exact Or.inr h3
  · rintro (⟨h1, h2⟩ | rfl)
    · exact ⟨h1, Or.inl h2⟩
    · exact ⟨hne, Or.inr ⟨by omega, rfl⟩⟩

theorem setOf_congr_len {s : List Nat} (hs : s ≠ []) : ∃ d, s.length = d + 1 := ⟨s.length - 1, by have := List.length_pos_iff.2 hs; omega⟩

/-- effect of `add_directed` on the set of simplices -/
theorem addDirected_set {X : SCpx} {cells : Cells} (h : Inv X cells) {s : List Nat} (hs : s ≠ []) :
    ∃ Y cells' r, addDirected X s = .ok (Y, r) ∧ Inv Y cells' ∧ Y.ncells.length = max X.ncells.length s.length ∧
      (∀ e, cells e <+: cells' e) ∧ setOf cells' = specAdd (setOf cells) s ∧ r = Y.findIdx s ∧
      (r = none → cells' = cells) ∧ (s ∈ setOf cells → cells' = cells) := by
  obtain ⟨d, hl⟩ := setOf_congr_len hs
  obtain ⟨Y, cells', r, h1, h2, h3, h4⟩ := addDirected_spec h hl
  refine ⟨Y, cells', r, h1, h2, by rw [h3, hl], ?_⟩
  have hfi : ∀ i : Nat, Y.findIdx s = some i ↔ (cells' d)[i]? = some s := by
    intro i; unfold findIdx; rw [h2.trie s hs i, hl, Nat.add_sub_cancel]
  rcases h4 with ⟨a, b, c⟩ | ⟨a, b, c, e⟩ | ⟨a, b, c, e⟩
  · subst b c
    refine ⟨fun e => List.prefix_rfl, ?_, ?_, fun _ => rfl, fun _ => rfl⟩
    · ext t
      unfold specAdd
      rw [Set.mem_ofPred_eq]
      refine ⟨Or.inl, ?_⟩
      rintro (h | ⟨rfl, _⟩)
      · exact h
      · exact (mem_setOf hl).2 a
    · symm
      rw [hfi, List.getElem?_eq_getElem (List.idxOf_lt_length_iff.2 a), List.getElem_idxOf]
  · subst c e
    refine ⟨?_, ?_, ?_, (by intro h; cases h), ?_⟩
    · intro e
      by_cases he : e = d
      · subst he; rw [push_same]; exact List.prefix_append _ _
      · rw [push_ne _ _ he]
    · rw [setOf_push hl]
      have := (facesIn_iff hl).1 b
      ext t
      simp only [specAdd, Set.mem_ofPred_eq, this, and_true]
    · symm
      rw [hfi, push_same]; simp
    · intro hm; exact absurd ((mem_setOf hl).1 hm) a
  · subst c e
    refine ⟨fun e => List.prefix_rfl, ?_, ?_, fun _ => rfl, fun _ => rfl⟩
    · ext t
      show t ∈ setOf cells' ↔ (t ∈ setOf cells' ∨ (t = s ∧ (s.length = 1 ∨ ∀ k, k < s.length → s.eraseIdx k ∈ setOf cells')))
      constructor
      · exact Or.inl
      · rintro (h | ⟨_, h⟩)
        · exact h
        · exact absurd ((facesIn_iff hl).2 h) b
    · symm
      unfold findIdx
      exact h2.trie.none hs (by rw [hl]; exact a)

/-- effect of `add_directed_recursive` on the set of simplices -/
theorem addDirectedRecursive_set {X : SCpx} {cells : Cells} (h : Inv X cells) {s : List Nat} (hs : s ≠ []) :
    ∃ Y cells' r, addDirectedRecursive X s = .ok (Y, r) ∧ Inv Y cells' ∧ Y.ncells.length = max X.ncells.length s.length ∧
      (∀ e, cells e <+: cells' e) ∧ setOf cells' = specAddRec (setOf cells) s ∧ r.getLast? = (Y.findIdx s).map (fun i => (s.length - 1, i)) ∧
      (∃ i, Y.findIdx s = some i) ∧
      (s ∈ setOf cells → cells' = cells ∧ ∃ p, r = [p]) ∧ (s ∉ setOf cells → NewOK r cells cells') := by
  obtain ⟨d, hl⟩ := setOf_congr_len hs
  obtain ⟨Y, cells', r, h1, h2, h3, h4⟩ := addDirectedRecursive_spec h hl
  refine ⟨Y, cells', r, h1, h2, by rw [h3, hl], ?_⟩
  have hfi : ∀ i : Nat, Y.findIdx s = some i ↔ (cells' d)[i]? = some s := by
    intro i; unfold findIdx; rw [h2.trie s hs i, hl, Nat.add_sub_cancel]
  rcases h4 with ⟨a, b, c⟩ | ⟨a, b⟩
  · subst b c
    have hf : Y.findIdx s = some ((cells' d).idxOf s) := by
      rw [hfi, List.getElem?_eq_getElem (List.idxOf_lt_length_iff.2 a), List.getElem_idxOf]
    refine ⟨fun e => List.prefix_rfl, ?_, ?_, ⟨_, hf⟩, fun _ => ⟨rfl, _, rfl⟩, fun hc => absurd ((mem_setOf hl).2 a) hc⟩
    · ext t
      unfold specAddRec
      rw [Set.mem_ofPred_eq]
      refine ⟨Or.inl, ?_⟩
      rintro (h | ⟨hn, hsub⟩)
      · exact h
      · refine ⟨hn, ?_⟩
        exact h.ok.sublist (s.length - t.length) d s t a hsub hn (by have := hsub.length_le; omega)
    · rw [hf, hl]; rfl
  · have hf : Y.findIdx s = some (cells d).length := by rw [hfi, b.top]; simp
    refine ⟨b.ext, ?_, ?_, ⟨_, hf⟩, fun hc => absurd ((mem_setOf hl).1 hc) a, fun _ => b.new⟩
    · ext t
      show (t ≠ [] ∧ t ∈ cells' (t.length - 1)) ↔ ((t ≠ [] ∧ t ∈ cells (t.length - 1)) ∨ (t ≠ [] ∧ t.Sublist s))
      rw [b.mem]
      constructor
      · rintro ⟨h1, h2 | h2⟩
        · exact Or.inl ⟨h1, h2⟩
        · exact Or.inr ⟨h1, h2.2⟩
      · rintro (⟨h1, h2⟩ | ⟨h1, h2⟩)
        · exact ⟨h1, Or.inl h2⟩
        · exact ⟨h1, Or.inr ⟨by have := List.length_pos_iff.2 h1; omega, h2⟩⟩
    · rw [hf, b.last, hl]; rfl

theorem step_set {X : SCpx} {cells : Cells} (h : Inv X cells) {o : Op} (ho : o.simplex ≠ []) :
    ∃ Y cells', step X o = .ok Y ∧ Inv Y cells' ∧ (∀ e, cells e <+: cells' e) ∧ setOf cells' = specStep (setOf cells) o := by
  cases o with
  | add s =>
    obtain ⟨Y, c, r, h1, h2, _, h3, h4, _⟩ := addDirected_set h (sortV_ne (s := s) ho)
    refine ⟨Y, c, ?_, h2, h3, ?_⟩
    · show (do let r ← X.addDirected (sortV s); pure r.1 : Res SCpx) = _
      rw [h1]; rfl
    · rw [h4]; show _ = specAdd (setOf cells) (s.mergeSort (· ≤ ·)); rw [mergeSort_eq]
  | addDirected s =>
    obtain ⟨Y, c, r, h1, h2, _, h3, h4, _⟩ := addDirected_set h (s := s) ho
    refine ⟨Y, c, ?_, h2, h3, h4⟩
    show (do let r ← X.addDirected s; pure r.1 : Res SCpx) = _
    rw [h1]; rfl
  | addRecursive s =>
    obtain ⟨Y, c, r, h1, h2, _, h3, h4, _⟩ := addDirectedRecursive_set h (sortV_ne (s := s) ho)
    refine ⟨Y, c, ?_, h2, h3, ?_⟩
    · show (do let r ← X.addDirectedRecursive (sortV s); pure r.1 : Res SCpx) = _
      rw [h1]; rfl
    · rw [h4]; show _ = specAddRec (setOf cells) (s.mergeSort (· ≤ ·)); rw [mergeSort_eq]
  | addDirectedRecursive s =>
    obtain ⟨Y, c, r, h1, h2, _, h3, h4, _⟩ := addDirectedRecursive_set h (s := s) ho
    refine ⟨Y, c, ?_, h2, h3, h4⟩
    show (do let r ← X.addDirectedRecursive s; pure r.1 : Res SCpx) = _
    rw [h1]; rfl

theorem run_set : ∀ (ops : List Op) {X : SCpx} {cells : Cells}, Inv X cells → (∀ o ∈ ops, o.simplex ≠ []) →
    ∃ Y cells', run X ops = .ok Y ∧ Inv Y cells' ∧ (∀ e, cells e <+: cells' e) ∧ setOf cells' = ops.foldl specStep (setOf cells) := by
  intro ops
  induction ops with
  | nil => intro X cells h _; exact ⟨X, cells, rfl, h, fun e => List.prefix_rfl, rfl⟩
  | cons o os ih =>
    intro X cells h ho
    obtain ⟨Y, c, h1, h2, h3, h4⟩ := step_set h (ho o (by simp))
    obtain ⟨Z, c', g1, g2, g3, g4⟩ := ih h2 (fun o' h' => ho o' (by simp [h']))
    refine ⟨Z, c', ?_, g2, fun e => (h3 e).trans (g3 e), ?_⟩
    · unfold run; rw [h1, bind_ok, g1]
    · rw [g4, h4]; rfl

theorem Reachable.inv {X : SCpx} (h : Reachable X) : ∃ cells, Inv X cells := by
  obtain ⟨m, ops, ho, e⟩ := h
  obtain ⟨Y, cells, h1, h2, _⟩ := run_set ops (init_inv m).1 ho
  rw [e] at h1; cases h1
  exact ⟨cells, h2⟩

end SCpx
end BATS
