import Verif.Proofs.Relative
import Verif.Proofs.Examples
import Verif.Props.Homology

set_option linter.unusedSectionVars false

/-!
# C56: validity check, subcomplexes and relative complexes of a chain complex

`IsSubcomplex`, `SubHomology`, `RelHomology`: Verif/Spec/Relative.lean.
-/

namespace BATS
open Reduction Matrix Module

variable {F : Type} [Field F] [DecidableEq F]

/-- C56: on well-formed matrices of matching shapes `is_valid_complex` returns true exactly for chain complexes -/
theorem C56_is_valid_complex {B : List (CMat F)} (hne : B ≠ []) (hs : ∀ k, k < B.length → (B.getD k ⟨0, []⟩).Shape (rdim B k) (cdim B k)) :
    ∃ b, Cpx.isValidComplex B = .ok b ∧ (b = true ↔ IsChainComplex B) := by
  obtain ⟨b, h1, h2⟩ := isValidComplex_spec B hne hs
  exact ⟨b, h1, by rw [h2]; exact ⟨fun h => ⟨hne, hs, h⟩, fun h => h.sq⟩⟩

example : Cpx.isValidComplex triangleQ = .ok true ∧
    Cpx.isValidComplex [(⟨1, [[], []]⟩ : CMat ℚ), ⟨2, [[(0, -1), (1, 1)]]⟩, ⟨1, [[(0, 1)]]⟩] = .ok false := by decide +kernel

/-- C56: `subcomplex(inds)` keeps exactly the listed cells, in increasing order, with the entries between them; it is a chain complex whose Betti
numbers are the dimensions of the homology of the subcomplex -/
theorem C56_subcomplex {B : List (CMat F)} (hB : IsChainComplex B) (h0 : ZeroBdry0 B) {inds : List (List Nat)} (hS : IsSubcomplex B inds) :
    ∃ (B' : List (CMat F)) (sel : Nat → List Nat), Cpx.subcomplex B inds = .ok B' ∧ IsChainComplex B' ∧ B'.length = B.length ∧
      (∀ k, (sel k).Pairwise (· < ·) ∧ (∀ x, x ∈ sel k ↔ x ∈ inds.getD k []) ∧ cdim B' k = (sel k).length) ∧
      (∀ k i j x y : Nat, (sel k)[i]? = some x → (sel (k + 1))[j]? = some y → ent B' (k + 1) i j = ent B (k + 1) x y) ∧
      ∀ k, bettiNumber B' k = finrank F (SubHomology B inds k) := by
  obtain ⟨B', h1, hsel⟩ := subcomplex_spec hB h0 hS
  have hmem : ∀ k x, x ∈ (inds.getD k []).insertionSort (· ≤ ·) ↔ x ∈ inds.getD k [] := fun k x => List.mem_insertionSort _
  obtain ⟨h2, h3⟩ := hsel.sub hB h0 (by
    intro k i j hj hne
    rw [hmem] at hj ⊢
    exact hS.closed k i j hj hne)
  refine ⟨B', fun k => (inds.getD k []).insertionSort (· ≤ ·), h1, h2, hsel.len, ?_, ?_, ?_⟩
  · intro k
    refine ⟨?_, hmem k, hsel.cdim k⟩
    have h1 := List.pairwise_insertionSort (· ≤ ·) (inds.getD k [])
    have h2 := sorted_nodup (hS.nodup k)
    exact (h1.and h2).imp (fun h => Nat.lt_of_le_of_ne h.1 h.2)
  · intro k i j x y hi hj
    obtain ⟨a1, rfl⟩ := List.getElem?_eq_some_iff.1 hi
    obtain ⟨a2, rfl⟩ := List.getElem?_eq_some_iff.1 hj
    exact hsel.ent k i j a1 a2
  · intro k
    rw [h3 k]
    have e : ∀ k, {i : Fin (cdim B k) | i.val ∈ (inds.getD k []).insertionSort (· ≤ ·)} = listed B inds k := by
      intro k; ext i; exact hmem k i
    rw [e, e]; rfl

/-- C56: `relative_complex(inds)` keeps exactly the cells that are not listed, in increasing order, with the entries between them; it is a chain complex
whose Betti numbers are the dimensions of the relative homology (chains with boundary in the subcomplex, modulo boundaries and chains of the
subcomplex) -/
theorem C56_relative_complex {B : List (CMat F)} (hB : IsChainComplex B) (h0 : ZeroBdry0 B) {inds : List (List Nat)} (hS : IsSubcomplex B inds) :
    ∃ (B' : List (CMat F)) (sel : Nat → List Nat), Cpx.relativeComplex B inds = .ok B' ∧ IsChainComplex B' ∧ B'.length = B.length ∧
      (∀ k, (sel k).Pairwise (· < ·) ∧ (∀ x, x ∈ sel k ↔ x < cdim B k ∧ x ∉ inds.getD k []) ∧ cdim B' k = (sel k).length) ∧
      (∀ k i j x y : Nat, (sel k)[i]? = some x → (sel (k + 1))[j]? = some y → ent B' (k + 1) i j = ent B (k + 1) x y) ∧
      ∀ k, bettiNumber B' k = finrank F (RelHomology B inds k) := by
  obtain ⟨B', sel, h1, hsel, hs, hmem⟩ := relativeComplex_spec hB h0 hS
  obtain ⟨h2, h3⟩ := hsel.rel hB h0 (by
    intro k i j hj hne
    rw [hmem] at hj ⊢
    rintro ⟨-, hi⟩
    have : j.val ∈ inds.getD (k + 1) [] := by
      by_contra hn
      exact hj ⟨j.2, hn⟩
    exact hi (hS.closed k i j this hne)) (inds := inds) (fun k i => by rw [hmem]; exact ⟨fun h => h.2, fun h => ⟨i.2, h⟩⟩)
  refine ⟨B', sel, h1, h2, hsel.len, fun k => ⟨hs k, hmem k, hsel.cdim k⟩, ?_, h3⟩
  intro k i j x y hi hj
  obtain ⟨a1, rfl⟩ := List.getElem?_eq_some_iff.1 hi
  obtain ⟨a2, rfl⟩ := List.getElem?_eq_some_iff.1 hj
  exact hsel.ent k i j a1 a2

/-- the boundary of the filled triangle -/
def triangleBoundary : List (List Nat) := [[2, 0, 1], [0, 2, 1], []]

theorem triangleBoundary_sub : IsSubcomplex triangleQ triangleBoundary := by
  refine ⟨rfl, ?_, ?_, ?_⟩
  · intro k
    by_cases hk : k < 3
    · interval_cases k <;> decide
    · have : triangleBoundary.getD k [] = [] := by
        rw [List.getD_eq_getElem?_getD, List.getElem?_eq_none (by simpa [triangleBoundary] using hk)]; rfl
      rw [this]; simp
  · intro k
    by_cases hk : k < 3
    · interval_cases k <;> decide
    · have : triangleBoundary.getD k [] = [] := by
        rw [List.getD_eq_getElem?_getD, List.getElem?_eq_none (by simpa [triangleBoundary] using hk)]; rfl
      rw [this]; simp
  · intro k i j hj _
    match k, i, j, hj with
    | 0, i, j, _ =>
      have : ∀ i : Fin 3, i.val ∈ triangleBoundary.getD 0 [] := by decide
      exact this i
    | 1, i, j, hj => simp [triangleBoundary] at hj
    | k + 2, i, j, hj => simp [triangleBoundary] at hj

/-- the triangle relative to its boundary is a complex with one cell, of dimension 2 -/
example : Cpx.relativeComplex triangleQ triangleBoundary = .ok [⟨1, []⟩, ⟨0, []⟩, ⟨0, [[]]⟩] ∧
    (Cpx.subcomplex triangleQ triangleBoundary).bind (fun B => (RedCpx.mkNoBasis B).bind (fun R => R.hdim 1)) = .ok 1 := by
  constructor <;> decide +kernel

end BATS
