import Verif.Spec.Pivot
import Mathlib.LinearAlgebra.Matrix.Rank
import Mathlib.LinearAlgebra.FiniteDimensional.Lemmas
import Mathlib.Data.Finset.Max

set_option linter.unusedSectionVars false
set_option linter.unusedSimpArgs false
set_option linter.unusedVariables false

namespace BATS

variable {F : Type _} [Field F] {l m n : Type _} [LinearOrder m] [LinearOrder n] [LinearOrder l]
  [Fintype m] [Fintype n] [Fintype l]

open Matrix

theorem exists_vlow {v : m → F} (h : v ≠ 0) : ∃ i, VLow v i := by
  classical
  let S := Finset.univ.filter (fun i => v i ≠ 0)
  have hS : S.Nonempty := by
    by_contra hc
    rw [Finset.not_nonempty_iff_eq_empty] at hc
    apply h; funext i
    by_contra hi
    have : i ∈ S := by simp [S]; exact hi
    rw [hc] at this; simp at this
  refine ⟨S.max' hS, ?_, ?_⟩
  · have := S.max'_mem hS
    simpa [S] using this
  · intro i' hi'
    by_contra hne
    have : i' ∈ S := by simp [S]; exact hne
    exact absurd (S.le_max' i' this) (not_le.2 hi')

theorem VLow.unique {v : m → F} {i i' : m} (h : VLow v i) (h' : VLow v i') : i = i' := by
  rcases lt_trichotomy i i' with h1 | h1 | h1
  · exact absurd (h.2 _ h1) h'.1
  · exact h1
  · exact absurd (h'.2 _ h1) h.1

theorem VLow.ne_zero {v : m → F} {i : m} (h : VLow v i) : v ≠ 0 := by
  rintro rfl; exact h.1 rfl

theorem low_col {A : Matrix m n F} {i : m} {j : n} : Low A i j ↔ VLow (A.col j) i := Iff.rfl

theorem Low.unique_row {A : Matrix m n F} {i i' : m} {j : n} (h : Low A i j) (h' : Low A i' j) : i = i' :=
  VLow.unique (low_col.1 h) (low_col.1 h')

/-- main lemma on reduced matrices -/
theorem Reduced.mulVec_cases {R : Matrix m n F} (hR : Reduced R) (y : n → F) :
    (R *ᵥ y = 0 ∧ ∀ k, y k ≠ 0 → R.col k = 0) ∨
    (∃ i k, Low R i k ∧ y k ≠ 0 ∧ VLow (R *ᵥ y) i) := by
  classical
  by_cases hz : ∀ k, y k ≠ 0 → R.col k = 0
  · left
    refine ⟨?_, hz⟩
    funext i
    simp only [mulVec, dotProduct, Pi.zero_apply]
    apply Finset.sum_eq_zero
    intro k _
    by_cases hk : y k = 0
    · simp [hk]
    · have := congrFun (hz k hk) i
      simp only [Matrix.col_apply, Pi.zero_apply] at this
      simp [this]
  · right
    push Not at hz
    obtain ⟨k0, hk0, hc0⟩ := hz
    let S := Finset.univ.filter (fun i : m => ∃ k, Low R i k ∧ y k ≠ 0)
    have hS : S.Nonempty := by
      obtain ⟨i, hi⟩ := exists_vlow hc0
      exact ⟨i, by simp only [S, Finset.mem_filter, Finset.mem_univ, true_and]; exact ⟨k0, hi, hk0⟩⟩
    have hmem := S.max'_mem hS
    set i := S.max' hS with hi
    simp only [S, Finset.mem_filter, Finset.mem_univ, true_and] at hmem
    obtain ⟨k, hk, hyk⟩ := hmem
    have hle : ∀ i' k', Low R i' k' → y k' ≠ 0 → i' ≤ i := by
      intro i' k' h1 h2
      apply S.le_max'
      simp only [S, Finset.mem_filter, Finset.mem_univ, true_and]
      exact ⟨k', h1, h2⟩
    have hzero : ∀ i' k', i < i' → y k' ≠ 0 → R i' k' = 0 := by
      intro i' k' hlt hy
      by_contra hne
      have hcol : R.col k' ≠ 0 := by
        intro h; exact hne (congrFun h i')
      obtain ⟨i'', hi''⟩ := exists_vlow hcol
      have h1 := hle i'' k' hi'' hy
      exact hne (hi''.2 i' (lt_of_le_of_lt h1 hlt))
    refine ⟨i, k, hk, hyk, ?_, ?_⟩
    · simp only [mulVec, dotProduct]
      rw [Finset.sum_eq_single k]
      · exact mul_ne_zero hk.1 hyk
      · intro k' _ hne
        by_cases hy : y k' = 0
        · simp [hy]
        · have : R i k' = 0 := by
            by_contra hr
            exact hne (hR i k' k ⟨hr, fun i' h => hzero i' k' h hy⟩ hk)
          simp [this]
      · simp
    · intro i' hlt
      simp only [mulVec, dotProduct]
      apply Finset.sum_eq_zero
      intro k' _
      by_cases hy : y k' = 0
      · simp [hy]
      · simp [hzero i' k' hlt hy]

theorem UpperInv.vlow {V : Matrix n n F} (hV : UpperInv V) {y : n → F} {p : n} (h : VLow y p) :
    VLow (V *ᵥ y) p := by
  constructor
  · simp only [mulVec, dotProduct]
    rw [Finset.sum_eq_single p]
    · exact mul_ne_zero (hV.2 p) h.1
    · intro k _ hk
      rcases lt_or_gt_of_ne hk with h1 | h1
      · rw [hV.1 p k h1]; simp
      · rw [h.2 k h1]; simp
    · simp
  · intro q hq
    simp only [mulVec, dotProduct]
    apply Finset.sum_eq_zero
    intro k _
    rcases lt_or_ge k q with h1 | h1
    · rw [hV.1 q k h1]; simp
    · rw [h.2 k (lt_of_lt_of_le hq h1)]; simp

theorem UpperInv.injective {V : Matrix n n F} (hV : UpperInv V) : Function.Injective (V *ᵥ ·) := by
  have hker : ∀ y, V *ᵥ y = 0 → y = 0 := by
    intro y hy
    by_contra hne
    obtain ⟨p, hp⟩ := exists_vlow hne
    exact (hV.vlow hp).ne_zero hy
  intro a b hab
  have : V *ᵥ (a - b) = 0 := by
    rw [mulVec_sub]; exact sub_eq_zero.2 hab
  exact sub_eq_zero.1 (hker _ this)

theorem UpperInv.surjective {V : Matrix n n F} (hV : UpperInv V) : Function.Surjective (V *ᵥ ·) := by
  have h := LinearMap.injective_iff_surjective (f := V.mulVecLin)
  have h2 : Function.Injective V.mulVecLin := hV.injective
  exact h.1 h2

theorem UpperInv.vlow_iff {V : Matrix n n F} (hV : UpperInv V) {y : n → F} {p : n} :
    VLow (V *ᵥ y) p ↔ VLow y p := by
  constructor
  · intro h
    have hne : y ≠ 0 := by
      rintro rfl
      exact h.ne_zero (by simp)
    obtain ⟨q, hq⟩ := exists_vlow hne
    rw [(hV.vlow hq).unique h] at hq
    exact hq
  · exact hV.vlow

theorem UpperInv.isUnit {V : Matrix n n F} (hV : UpperInv V) : IsUnit V :=
  Matrix.mulVec_injective_iff_isUnit.1 hV.injective

theorem vlow_single (j : n) : VLow (Pi.single j (1 : F)) j :=
  ⟨by simp, fun i' h => Pi.single_eq_of_ne (ne_of_gt h) _⟩

theorem UnitUpperTri.upperInv {V : Matrix n n F} (h : UnitUpperTri V) : UpperInv V :=
  ⟨h.1, fun i => by rw [h.2]; exact one_ne_zero⟩

theorem upperInv_one : UpperInv (1 : Matrix n n F) :=
  ⟨fun i j h => Matrix.one_apply_ne (ne_of_gt h), fun i => by simp⟩

theorem UpperInv.mul {V W : Matrix n n F} (hV : UpperInv V) (hW : UpperInv W) : UpperInv (V * W) := by
  have key : ∀ j, VLow ((V * W).col j) j := by
    intro j
    have : (V * W).col j = V *ᵥ (W *ᵥ Pi.single j 1) := by
      rw [mulVec_mulVec, Matrix.mulVec_single_one]
    rw [this]
    exact hV.vlow (hW.vlow (vlow_single j))
  exact ⟨fun i j h => (key j).2 i h, fun i => (key i).1⟩

/-- **Pivot uniqueness.** -/
theorem low_iff_isPivot {M R : Matrix m n F} {V : Matrix n n F} (hV : UpperInv V) (hR : Reduced R)
    (hMV : M * V = R) (i : m) (j : n) : Low R i j ↔ IsPivot M i j := by
  have hx : ∀ (j' : n) (x : n → F), VLow x j' → VLow (M *ᵥ x) i → ∃ k ≤ j', Low R i k := by
    intro j' x hx1 hx2
    obtain ⟨y, rfl⟩ := hV.surjective x
    simp only at hx1 hx2
    rw [mulVec_mulVec, hMV] at hx2
    rw [hV.vlow_iff] at hx1
    rcases hR.mulVec_cases y with ⟨h0, _⟩ | ⟨i', k, hk, hyk, hlow⟩
    · exact absurd h0 hx2.ne_zero
    · have := hlow.unique hx2
      subst this
      refine ⟨k, ?_, hk⟩
      by_contra hc
      exact hyk (hx1.2 k (not_le.1 hc))
  have hcol : ∀ k, Low R i k → ∃ x, VLow x k ∧ VLow (M *ᵥ x) i := by
    intro k hk
    refine ⟨V *ᵥ Pi.single k 1, hV.vlow (vlow_single k), ?_⟩
    rw [mulVec_mulVec, hMV, Matrix.mulVec_single_one]
    exact hk
  constructor
  · intro h
    refine ⟨hcol j h, ?_⟩
    rintro j' hj' ⟨x, hx1, hx2⟩
    obtain ⟨k, hk, hlow⟩ := hx j' x hx1 hx2
    have := hR i k j hlow h
    subst this
    exact absurd hj' (not_lt.2 hk)
  · rintro ⟨⟨x, hx1, hx2⟩, hno⟩
    obtain ⟨k, hk, hlow⟩ := hx j x hx1 hx2
    rcases lt_or_eq_of_le hk with h | h
    · exact absurd (hcol k hlow) (hno k h)
    · rw [← h]; exact hlow

/-- column `j` of `R` is zero iff no pivot in column `j` -/
theorem col_eq_zero_iff {R : Matrix m n F} (j : n) : R.col j = 0 ↔ ∀ i, ¬ Low R i j := by
  constructor
  · intro h i hl
    exact hl.1 (congrFun h i)
  · intro h
    by_contra hne
    obtain ⟨i, hi⟩ := exists_vlow hne
    exact h i hi

/-- the nonzero columns of a reduced matrix are linearly independent -/
theorem Reduced.linearIndependent {R : Matrix m n F} (hR : Reduced R) :
    LinearIndependent F (fun j : {j : n // R.col j ≠ 0} => R.col j) := by
  classical
  rw [Fintype.linearIndependent_iff]
  intro g hg j
  let y : n → F := fun k => if h : R.col k ≠ 0 then g ⟨k, h⟩ else 0
  have hRy : R *ᵥ y = 0 := by
    funext i
    have h1 := congrFun hg i
    simp only [Finset.sum_apply, Pi.smul_apply, Matrix.col_apply, smul_eq_mul, Pi.zero_apply] at h1
    simp only [mulVec, dotProduct, Pi.zero_apply]
    rw [← h1]
    have h2 : ∑ k ∈ Finset.univ.filter (fun k => R.col k ≠ 0), R i k * y k
        = ∑ k : {k : n // R.col k ≠ 0}, R i k * y k :=
      Finset.sum_subtype (Finset.univ.filter (fun k => R.col k ≠ 0)) (by intro x; simp) (fun k => R i k * y k)
    have h3 : ∑ k ∈ Finset.univ.filter (fun k => R.col k ≠ 0), R i k * y k = ∑ k, R i k * y k := by
      apply Finset.sum_filter_of_ne
      intro x _ hx hc
      have := congrFun hc i
      simp only [Matrix.col_apply, Pi.zero_apply] at this
      simp [this] at hx
    rw [← h3, h2]
    apply Finset.sum_congr rfl
    intro k _
    have : y k = g k := by simp only [y]; rw [dif_pos k.2]
    rw [this, mul_comm]
  rcases hR.mulVec_cases y with ⟨_, h⟩ | ⟨i, k, _, _, hlow⟩
  · by_contra hne
    have : y j ≠ 0 := by simp only [y]; rw [dif_pos j.2]; exact hne
    exact j.2 (h j this)
  · exact absurd hRy hlow.ne_zero

/-- rank of a reduced matrix: number of nonzero columns -/
theorem Reduced.rank_eq {R : Matrix m n F} (hR : Reduced R) [DecidablePred fun j => R.col j ≠ 0] :
    R.rank = (Finset.univ.filter (fun j => R.col j ≠ 0)).card := by
  classical
  rw [Matrix.rank_eq_finrank_span_cols]
  have hspan : Submodule.span F (Set.range R.col)
      = Submodule.span F (Set.range (fun j : {j : n // R.col j ≠ 0} => R.col j)) := by
    apply le_antisymm
    · rw [Submodule.span_le]
      rintro _ ⟨j, rfl⟩
      by_cases h : R.col j = 0
      · rw [h]; exact Submodule.zero_mem _
      · exact Submodule.subset_span ⟨⟨j, h⟩, rfl⟩
    · apply Submodule.span_mono
      rintro _ ⟨j, rfl⟩
      exact ⟨j, rfl⟩
  rw [hspan, finrank_span_eq_card hR.linearIndependent, Fintype.card_subtype]

theorem rank_mul_upperInv {M : Matrix m n F} {V : Matrix n n F} (hV : UpperInv V) : (M * V).rank = M.rank := by
  apply Matrix.rank_mul_eq_left_of_isUnit_det
  exact (Matrix.isUnit_iff_isUnit_det V).1 hV.isUnit

/-- pivots of `∂_{k+1}` sit at zero columns of a reduced `∂_k` -/
theorem low_at_zero_col {D1 : Matrix l m F} {D2 : Matrix m n F} (hDD : D1 * D2 = 0)
    {V1 : Matrix m m F} {V2 : Matrix n n F} (hV1 : UpperInv V1)
    (hR1 : Reduced (D1 * V1)) {i : m} {j : n} (h : Low (D2 * V2) i j) : (D1 * V1).col i = 0 := by
  have hz : D1 *ᵥ ((D2 * V2).col j) = 0 := by
    rw [← Matrix.mulVec_single_one, mulVec_mulVec, ← Matrix.mul_assoc, hDD, Matrix.zero_mul, Matrix.zero_mulVec]
  obtain ⟨y, hy⟩ := hV1.surjective ((D2 * V2).col j)
  simp only at hy
  have hly : VLow y i := by
    rw [← hV1.vlow_iff, hy]; exact h
  rw [← hy, mulVec_mulVec] at hz
  rcases hR1.mulVec_cases y with ⟨_, h1⟩ | ⟨_, _, _, _, hlow⟩
  · exact h1 i hly.1
  · exact absurd hz hlow.ne_zero

end BATS
