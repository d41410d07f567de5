import Verif.Proofs.Pivot
import Mathlib.LinearAlgebra.Dimension.RankNullity
import Mathlib.LinearAlgebra.Matrix.ToLin

set_option linter.unusedSectionVars false
set_option linter.unusedSimpArgs false
set_option linter.unusedVariables false

/-! Linear algebra of two composable matrices `D1 * D2 = 0` in terms of pivots. -/

namespace BATS
open Matrix

variable {F : Type _} [Field F] {l m n : Type _} [LinearOrder m] [LinearOrder n] [LinearOrder l]
  [Fintype m] [Fintype n] [Fintype l]

/-- some upper triangular column operation reduces `M` (true for all `M`, see `ReduceMat`) -/
def HasRed (M : Matrix m n F) : Prop := ∃ V, UpperInv V ∧ Reduced (M * V)

theorem IsPivot.row_unique {M : Matrix m n F} (hM : HasRed M) {i i' : m} {j : n} (h : IsPivot M i j) (h' : IsPivot M i' j) :
    i = i' := by
  obtain ⟨V, hV, hR⟩ := hM
  rw [← low_iff_isPivot hV hR rfl] at h h'
  exact h.unique_row h'

theorem IsPivot.col_unique {M : Matrix m n F} {i : m} {j j' : n} (h : IsPivot M i j) (h' : IsPivot M i j') :
    j = j' := by
  rcases lt_trichotomy j j' with h1 | h1 | h1
  · exact absurd h.1 (h'.2 j h1)
  · exact h1
  · exact absurd h'.1 (h.2 j' h1)

theorem card_pivotCols {M : Matrix m n F} (hM : HasRed M) [DecidablePred fun j => ∃ i, IsPivot M i j] :
    (Finset.univ.filter (fun j => ∃ i, IsPivot M i j)).card = M.rank := by
  classical
  obtain ⟨V, hV, hR⟩ := hM
  rw [← rank_mul_upperInv hV, hR.rank_eq]
  congr 1
  ext j
  simp only [Finset.mem_filter, Finset.mem_univ, true_and, ne_eq, col_eq_zero_iff, not_forall, not_not]
  simp only [low_iff_isPivot hV hR rfl]

theorem card_pivotRows {M : Matrix m n F} (hM : HasRed M) [DecidablePred fun i => ∃ j, IsPivot M i j] :
    (Finset.univ.filter (fun i => ∃ j, IsPivot M i j)).card = M.rank := by
  classical
  rw [← card_pivotCols hM]
  symm
  apply Finset.card_bij (fun j hj => (Finset.mem_filter.1 hj).2.choose)
  · intro j hj
    have := (Finset.mem_filter.1 hj).2.choose_spec
    simp only [Finset.mem_filter, Finset.mem_univ, true_and]
    exact ⟨j, this⟩
  · intro j hj j' hj' he
    have h1 := (Finset.mem_filter.1 hj).2.choose_spec
    have h2 := (Finset.mem_filter.1 hj').2.choose_spec
    rw [he] at h1
    exact h1.col_unique h2
  · intro i hi
    obtain ⟨j, hj⟩ := (Finset.mem_filter.1 hi).2
    have hm : j ∈ Finset.univ.filter (fun j => ∃ i, IsPivot M i j) := by simp; exact ⟨i, hj⟩
    refine ⟨j, hm, ?_⟩
    exact (Finset.mem_filter.1 hm).2.choose_spec.row_unique hM hj

/-- a nonzero cycle ends at a positive index -/
theorem cycle_low_positive {D1 : Matrix l m F} (h1 : HasRed D1) {z : m → F} (hz : D1 *ᵥ z = 0) {p : m}
    (hp : VLow z p) : ∀ i, ¬ IsPivot D1 i p := by
  obtain ⟨V, hV, hR⟩ := h1
  intro i hi
  rw [← low_iff_isPivot hV hR rfl] at hi
  obtain ⟨y, rfl⟩ := hV.surjective z
  simp only at hz hp
  rw [hV.vlow_iff] at hp
  rw [mulVec_mulVec] at hz
  rcases hR.mulVec_cases y with ⟨_, h⟩ | ⟨_, _, _, _, hlow⟩
  · exact hi.1 (congrFun (h p hp.1) i)
  · exact hlow.ne_zero hz

/-- positive indices are ends of cycles -/
theorem positive_cycle {D1 : Matrix l m F} (h1 : HasRed D1) {p : m} (hp : ∀ i, ¬ IsPivot D1 i p) :
    ∃ z, D1 *ᵥ z = 0 ∧ VLow z p := by
  obtain ⟨V, hV, hR⟩ := h1
  refine ⟨V *ᵥ Pi.single p 1, ?_, hV.vlow (vlow_single p)⟩
  rw [mulVec_mulVec, Matrix.mulVec_single_one, col_eq_zero_iff]
  intro i
  rw [low_iff_isPivot hV hR rfl]
  exact hp i

/-- pivot rows of `D2` are positive for `D1` -/
theorem pivotRow_positive {D1 : Matrix l m F} {D2 : Matrix m n F} (h1 : HasRed D1) (hDD : D1 * D2 = 0) {i : m} {j : n}
    (h : IsPivot D2 i j) : ∀ i', ¬ IsPivot D1 i' i := by
  obtain ⟨⟨x, _, hx⟩, _⟩ := h
  apply cycle_low_positive h1 _ hx
  rw [mulVec_mulVec, hDD, zero_mulVec]

/-- a boundary ends at a pivot row -/
theorem boundary_low_pivot {D2 : Matrix m n F} (h2 : HasRed D2) {x : n → F} {p : m} (hp : VLow (D2 *ᵥ x) p) :
    ∃ j, IsPivot D2 p j := by
  obtain ⟨V, hV, hR⟩ := h2
  obtain ⟨y, rfl⟩ := hV.surjective x
  simp only at hp
  rw [mulVec_mulVec] at hp
  rcases hR.mulVec_cases y with ⟨h, _⟩ | ⟨i, k, hk, _, hlow⟩
  · exact absurd h hp.ne_zero
  · rw [hlow.unique hp] at hk
    exact ⟨k, (low_iff_isPivot hV hR rfl _ _).1 hk⟩

/-- essential indices: positive for `D1` and not pivot rows of `D2` -/
def Essential (D1 : Matrix l m F) (D2 : Matrix m n F) (p : m) : Prop :=
  (∀ i, ¬ IsPivot D1 i p) ∧ ∀ j, ¬ IsPivot D2 p j

theorem card_essential {D1 : Matrix l m F} {D2 : Matrix m n F} (h1 : HasRed D1) (h2 : HasRed D2) (hDD : D1 * D2 = 0)
    [DecidablePred (Essential D1 D2)] :
    (Finset.univ.filter (Essential D1 D2)).card + D2.rank + D1.rank = Fintype.card m := by
  classical
  rw [← card_pivotRows h2, ← card_pivotCols h1]
  have hd : Disjoint (Finset.univ.filter (Essential D1 D2)) (Finset.univ.filter (fun i => ∃ j, IsPivot D2 i j)) := by
    rw [Finset.disjoint_filter]
    rintro p _ ⟨_, h⟩ ⟨j, hj⟩
    exact h j hj
  rw [← Finset.card_union_of_disjoint hd]
  have hd2 : Disjoint (Finset.univ.filter (Essential D1 D2) ∪ Finset.univ.filter (fun i => ∃ j, IsPivot D2 i j))
      (Finset.univ.filter (fun j => ∃ i, IsPivot D1 i j)) := by
    rw [Finset.disjoint_left]
    intro p hp hq
    obtain ⟨i, hi⟩ := (Finset.mem_filter.1 hq).2
    rcases Finset.mem_union.1 hp with h | h
    · exact (Finset.mem_filter.1 h).2.1 i hi
    · obtain ⟨j, hj⟩ := (Finset.mem_filter.1 h).2
      exact pivotRow_positive h1 hDD hj i hi
  rw [← Finset.card_union_of_disjoint hd2, ← Finset.card_univ]
  congr 1
  ext p
  simp only [Finset.mem_union, Finset.mem_filter, Finset.mem_univ, true_and, iff_true, Essential]
  by_cases ha : ∃ i, IsPivot D1 i p
  · exact Or.inr ha
  · by_cases hb : ∃ j, IsPivot D2 p j
    · exact Or.inl (Or.inr hb)
    · push Not at ha hb
      exact Or.inl (Or.inl ⟨ha, hb⟩)

theorem finrank_homology (D1 : Matrix l m F) (D2 : Matrix m n F) (hDD : D1 * D2 = 0) :
    Module.finrank F (LinearMap.ker D1.mulVecLin ⧸ (LinearMap.range D2.mulVecLin).submoduleOf (LinearMap.ker D1.mulVecLin))
      + D2.rank + D1.rank = Fintype.card m := by
  have hle : LinearMap.range D2.mulVecLin ≤ LinearMap.ker D1.mulVecLin := by
    rintro _ ⟨x, rfl⟩
    simp [LinearMap.mem_ker, hDD]
  have h1 := Submodule.finrank_quotient_add_finrank
    ((LinearMap.range D2.mulVecLin).submoduleOf (LinearMap.ker D1.mulVecLin))
  have h2 := (Submodule.submoduleOfEquivOfLe hle).finrank_eq
  have h3 := LinearMap.finrank_range_add_finrank_ker D1.mulVecLin
  rw [h2] at h1
  have h4 : Module.finrank F (LinearMap.range D2.mulVecLin) = D2.rank := rfl
  have h5 : Module.finrank F (LinearMap.range D1.mulVecLin) = D1.rank := rfl
  rw [Module.finrank_fintype_fun_eq_card] at h3
  omega

theorem card_essential_eq {D1 : Matrix l m F} {D2 : Matrix m n F} (h1 : HasRed D1) (h2 : HasRed D2) (hDD : D1 * D2 = 0)
    [DecidablePred (Essential D1 D2)] :
    (Finset.univ.filter (Essential D1 D2)).card =
    Module.finrank F (LinearMap.ker D1.mulVecLin ⧸ (LinearMap.range D2.mulVecLin).submoduleOf (LinearMap.ker D1.mulVecLin)) := by
  have := card_essential h1 h2 hDD
  have := finrank_homology D1 D2 hDD
  omega

end BATS
