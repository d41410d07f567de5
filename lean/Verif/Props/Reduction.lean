import Verif.Proofs.ExtraGeneral
import Verif.Proofs.RankJump
import Verif.Proofs.Examples

set_option linter.unusedSectionVars false
set_option linter.unusedVariables false

/-! # C10, C11, C12, C18: column reduction (include/homology/reduction.hpp) -/

namespace BATS
open Reduction Matrix

variable {F : Type} [Field F] [DecidableEq F]

/-- C10: on every well-formed `m × n` matrix the standard reduction returns normally (no out-of-bounds access, no
division by zero, no infinite loop); the result is a well-formed matrix obtained by left-to-right column additions;
no two of its columns end in the same row; and the table sends row `i` to column `j` exactly when column `j` ends in
row `i`. -/
theorem C10_reduce_matrix_standard {m n : Nat} {M : CMat F} (hM : M.Shape m n) :
    ∃ (R : CMat F) (p2c : P2C), reduceStd M = .ok (R, p2c) ∧ R.Shape m n ∧
      (∃ V : Matrix (Fin n) (Fin n) F, UnitUpperTri V ∧ R.mat m n = M.mat m n * V) ∧
      Reduced (R.mat m n) ∧ IsPivotTable (R.mat m n) p2c := by
  obtain ⟨R, p, V, h, hR, hV, he, ht⟩ := reduceStd_spec hM
  exact ⟨R, p, h, hR, ⟨V, hV, he⟩, ht.reduced, ht⟩

/-- the hypothesis holds for the boundary matrix of a hollow triangle, and the last column reduces to zero -/
example : (circleQ.getD 1 ⟨0, []⟩).Shape 3 3 ∧
    (reduceStd (circleQ.getD 1 ⟨0, []⟩)).map (fun r => r.2) = .ok [none, some 0, some 1] := by decide +kernel

/-- C11, first part: with `U = identity(n)`, the result satisfies `M * U = R` with `U` unit upper triangular. -/
theorem C11_basis_identity {m n : Nat} {M : CMat F} (hM : M.Shape m n) :
    ∃ (R U : CMat F) (p2c : P2C), reduceStdU M (CMat.identity n) = .ok (R, U, p2c) ∧
      R.Shape m n ∧ U.Shape n n ∧ M.mat m n * U.mat n n = R.mat m n ∧ UnitUpperTri (U.mat n n) ∧
      Reduced (R.mat m n) ∧ IsPivotTable (R.mat m n) p2c := by
  obtain ⟨R, U', p, V, h, hR, hU, hV, h1, h2, h3⟩ := reduceStdU_spec hM (shape_identity (F := F) n)
  rw [mat_identity, one_mul] at h2
  exact ⟨R, U', p, h, hR, hU, by rw [h2, h1], by rw [h2]; exact hV, h3.reduced, h3⟩

/-- C11, second part: whatever `U` is passed in, `M` and `U` are multiplied on the right by the same unit upper
triangular matrix, and `R` and the table are the ones computed without `U`. -/
theorem C11_basis_any {m n mu : Nat} {M U : CMat F} (hM : M.Shape m n) (hU : U.Shape mu n) :
    ∃ (R U' : CMat F) (p2c : P2C) (V : Matrix (Fin n) (Fin n) F), reduceStdU M U = .ok (R, U', p2c) ∧
      U'.Shape mu n ∧ UnitUpperTri V ∧ R.mat m n = M.mat m n * V ∧ U'.mat mu n = U.mat mu n * V ∧
      reduceStd M = .ok (R, p2c) := by
  obtain ⟨R, U', p, V, h, hR, hU', hV, h1, h2, h3⟩ := reduceStdU_spec hM hU
  refine ⟨R, U', p, V, h, hU', hV, h1, h2, ?_⟩
  rw [← reduceStdU_proj M U (by rw [hM.ncol, hU.ncol]), h]; rfl

/-- C11, third part: unequal column counts throw. -/
theorem C11_mismatch_throws (M U : CMat F) (h : M.cols.length ≠ U.cols.length) :
    reduceStdU M U = .error .thrown := by
  unfold reduceStdU; rw [if_pos h]

example : (circleQ.getD 1 ⟨0, []⟩).Shape 3 3 ∧ (CMat.identity (F := ℚ) 3).Shape 3 3 ∧
    (reduceStdU (circleQ.getD 1 ⟨0, []⟩) (CMat.identity 3)).map (fun r => r.2.1.cols)
      = .ok [[(0, 1)], [(1, 1)], [(0, 1), (1, -1), (2, 1)]] := by decide +kernel

/-- C12: any two reductions of the same matrix by invertible left-to-right column operations have the same
(last row, column) pairs, and these are the pivots of the matrix in an algorithm-independent sense. -/
theorem C12_pivots_unique {m n : Type} [LinearOrder m] [LinearOrder n] [Fintype m] [Fintype n]
    (M : Matrix m n F) (V V' : Matrix n n F) (hV : UpperInv V) (hV' : UpperInv V')
    (hR : Reduced (M * V)) (hR' : Reduced (M * V')) (i : m) (j : n) :
    (Low (M * V) i j ↔ Low (M * V') i j) ∧ (Low (M * V) i j ↔ IsPivot M i j) :=
  ⟨(low_iff_isPivot hV hR rfl i j).trans (low_iff_isPivot hV' hR' rfl i j).symm, low_iff_isPivot hV hR rfl i j⟩

/-- C12: the pivots are the rank-jump positions of `M`: for every set `P` of last rows and `Q` of first columns the
rank of that lower-left block of the original matrix is the number of pivots lying in it. -/
theorem C12_rank_of_lower_left_blocks {m n : Type} [LinearOrder m] [LinearOrder n] [Fintype m] [Fintype n]
    (M : Matrix m n F) (V : Matrix n n F) (hV : UpperInv V) (hR : Reduced (M * V))
    {P : Set m} (hP : IsUpperSet P) {Q : Set n} (hQ : IsLowerSet Q) [DecidablePred (· ∈ P)] [DecidablePred (· ∈ Q)] :
    (M.submatrix (Subtype.val : P → m) (Subtype.val : Q → n)).rank
      = Set.ncard {p : m × n | p.1 ∈ P ∧ p.2 ∈ Q ∧ Low (M * V) p.1 p.2} :=
  rank_block hV hR rfl hP hQ

/-- C12 for the code: whatever basis matrix is passed along, and with or without one, the table returned is the one
whose entries are the pivots of the original matrix; so all these calls return the same table. -/
theorem C12_table_is_pivots {m n mu : Nat} {M U : CMat F} (hM : M.Shape m n) (hU : U.Shape mu n) :
    ∃ (R U' : CMat F) (p2c : P2C), reduceStd M = .ok (R, p2c) ∧ reduceStdU M U = .ok (R, U', p2c) ∧
      ∀ (i : Fin m) (j : Fin n), p2c[i.val]? = some (some j.val) ↔ IsPivot (M.mat m n) i j := by
  obtain ⟨R, U', p, V, h, hR, hU', hV, h1, h2, h3⟩ := reduceStdU_spec hM hU
  refine ⟨R, U', p, ?_, h, fun i j => ?_⟩
  · rw [← reduceStdU_proj M U (by rw [hM.ncol, hU.ncol]), h]; rfl
  · rw [h3.iff, low_iff_isPivot hV.upperInv h3.reduced h1.symm]

/-- two different invertible triangular reductions of the same matrix -/
example : let M : Matrix (Fin 2) (Fin 2) ℚ := !![1, 1; 1, 0]
    let V : Matrix (Fin 2) (Fin 2) ℚ := !![1, 0; 0, 1]
    let V' : Matrix (Fin 2) (Fin 2) ℚ := !![2, 0; 0, 3]
    UpperInv V ∧ UpperInv V' ∧ Reduced (M * V) ∧ Reduced (M * V') := by
  refine ⟨⟨?_, ?_⟩, ⟨?_, ?_⟩, ?_, ?_⟩
  · intro i j; fin_cases i <;> fin_cases j <;> simp
  · decide +kernel
  · intro i j; fin_cases i <;> fin_cases j <;> simp
  · decide +kernel
  · unfold Reduced Low; decide +kernel
  · unfold Reduced Low; decide +kernel

/-! ### C18 -/

/-- C18 (negation): the extra reduction leaves the columns of `[1 1]` as they are and registers no pivot, so its
result is not reduced and its table is wrong. -/
theorem C18_not_a_reduction :
    ∃ M : CMat ℚ, M.Shape 1 2 ∧ ∃ R p2c, reduceExtra M = .ok (R, p2c) ∧
      ¬ Reduced (R.mat 1 2) ∧ ¬ IsPivotTable (R.mat 1 2) p2c := by
  refine ⟨⟨1, [[(0, 1)], [(0, 1)]]⟩, by decide +kernel, ⟨1, [[(0, 1)], [(0, 1)]]⟩, [none], by decide +kernel, ?_, ?_⟩
  · intro h
    have := h 0 0 1 (by unfold Low; decide +kernel) (by unfold Low; decide +kernel)
    exact absurd this (by decide)
  · intro h
    have := (h.iff 0 0).2 (by unfold Low; decide +kernel)
    exact absurd this (by decide)

/-- C18 (negation, observable): through `ReducedChainComplex(C, extra_reduction_flag())`-style use this loses rank:
here a 1-dimensional image is reported as no pivot at all. -/
theorem C18_loses_rank :
    ∃ M : CMat ℚ, M.Shape 1 1 ∧ (reduceExtra M).map (·.2) = .ok [none] ∧ (reduceStd M).map (·.2) = .ok [some 0] :=
  ⟨⟨1, [[(0, 1)]]⟩, by decide +kernel, by decide +kernel, by decide +kernel⟩

/-- C18 (exact guarantee on every input): the extra reduction terminates, only adds earlier columns to later ones, every entry of its table is the
last nonzero row of the column it names, and every column with at least two nonzero entries is in the table. Columns with a single nonzero
entry may be missing (`C18_not_a_reduction`). -/
theorem C18_exact {m n : Nat} {M : CMat F} (hM : M.Shape m n) :
    ∃ (R : CMat F) (p2c : P2C), reduceExtra M = .ok (R, p2c) ∧ R.Shape m n ∧
      (∃ V : Matrix (Fin n) (Fin n) F, UnitUpperTri V ∧ R.mat m n = M.mat m n * V) ∧ p2c.length = m ∧
      (∀ i k : Nat, p2c[i]? = some (some k) → k < n) ∧
      (∀ (i : Fin m) (j : Fin n), p2c[i.val]? = some (some j.val) → Low (R.mat m n) i j) ∧
      ∀ (i i' : Fin m) (j : Fin n), Low (R.mat m n) i j → i' ≠ i → R.mat m n i' j ≠ 0 → p2c[i.val]? = some (some j.val) := by
  obtain ⟨R, p, V, h, hR, hV, he, hx⟩ := reduceExtraX_spec hM
  refine ⟨R, p, h, hR, ⟨V, hV, he⟩, hx.plen, fun i k hk => (hx.sound i k hk).1, ?_, ?_⟩
  · intro i j hij
    exact (low_matOf hx.ok i j).2 (hx.sound _ _ hij).2
  · intro i i' j hl hne hnz
    refine hx.complete j j.2 ?_ i ((low_matOf hx.ok i j).1 hl)
    by_contra hc
    have h1 : coef (R.cols.getD j []) i ≠ 0 := hl.1
    have h2 : coef (R.cols.getD j []) i' ≠ 0 := hnz
    match hcol : R.cols.getD j [] with
    | [] => rw [hcol] at h1; exact h1 rfl
    | [q] =>
      rw [hcol] at h1 h2
      simp only [coef, ne_eq] at h1 h2
      have e1 : q.1 = i := by by_contra hh; simp [hh] at h1
      have e2 : q.1 = i' := by by_contra hh; simp [hh] at h2
      exact hne (Fin.ext (by omega))
    | q :: q' :: r => rw [hcol] at hc; simp at hc

/-- C18 (when it does hold): if no linear combination of the columns has exactly one nonzero entry, the extra
reduction terminates and is a reduction with a correct table; the table is the one of the standard reduction. -/
theorem C18_reduction {m n : Nat} {M : CMat F} (hM : M.Shape m n)
    (hns : ∀ x : Fin n → F, ¬ ∃ i, (M.mat m n *ᵥ x) i ≠ 0 ∧ ∀ i' ≠ i, (M.mat m n *ᵥ x) i' = 0) :
    ∃ (R : CMat F) (p2c : P2C), reduceExtra M = .ok (R, p2c) ∧ R.Shape m n ∧
      (∃ V : Matrix (Fin n) (Fin n) F, UnitUpperTri V ∧ R.mat m n = M.mat m n * V) ∧
      Reduced (R.mat m n) ∧ IsPivotTable (R.mat m n) p2c ∧ ∃ R', reduceStd M = .ok (R', p2c) := by
  have hMcols : ColsOK m M.cols := by have := hM.ok; rw [CMat.OK, hM.nrow] at this; exact this
  have hns' : NoSingle n M.cols := by
    intro c x hc hcx hlen
    obtain ⟨⟨k, a⟩, rfl⟩ := List.length_eq_one_iff.1 hlen
    have ha : a ≠ 0 := hc.2 (k, a) (by simp)
    have hval : ∀ i : Fin m, (M.mat m n *ᵥ (fun j => x j)) i = coef [(k, a)] i := by
      intro i
      rw [hcx i, Finset.sum_range]
      show ∑ j : Fin n, coef (M.cols.getD j []) i * x j = _
      exact Finset.sum_congr rfl (fun j _ => mul_comm (coef _ _) (x _))
    have hk : k < m := by
      by_contra hk
      have h1 := hcx k
      rw [Finset.sum_eq_zero] at h1
      · simp [coef] at h1; exact ha h1
      · intro j _
        rw [(hMcols.getD j).2.coef_eq_zero (by omega), mul_zero]
    refine hns (fun j => x j) ⟨⟨k, hk⟩, ?_, ?_⟩
    · rw [hval]; simpa [coef] using ha
    · intro i' hi'
      rw [hval]
      have : k ≠ i'.val := fun e => hi' (Fin.ext e.symm)
      simp [coef, this]
  obtain ⟨R, p, V, h, hR, hV, he, ht⟩ := reduceExtra_spec hM hns'
  refine ⟨R, p, h, hR, ⟨V, hV, he⟩, ht.reduced, ht, ?_⟩
  obtain ⟨R', p', V', h', hR', hV', he', ht'⟩ := reduceStd_spec hM
  refine ⟨R', ?_⟩
  have hp : p' = p := by
    apply List.ext_getElem?
    intro i
    by_cases hi : i < m
    · have key : ∀ j : Fin n, p'[i]? = some (some j.val) ↔ p[i]? = some (some j.val) := by
        intro j
        rw [ht'.iff ⟨i, hi⟩ j, ht.iff ⟨i, hi⟩ j, low_iff_isPivot hV'.upperInv ht'.reduced he'.symm,
          low_iff_isPivot hV.upperInv ht.reduced he.symm]
      obtain ⟨e, he1⟩ : ∃ e, p[i]? = some e := ⟨_, List.getElem?_eq_getElem (by rw [ht.len]; exact hi)⟩
      obtain ⟨e', he2⟩ : ∃ e, p'[i]? = some e := ⟨_, List.getElem?_eq_getElem (by rw [ht'.len]; exact hi)⟩
      cases e with
      | some j =>
        rw [he1]
        exact (key ⟨j, ht.bound i j he1⟩).2 he1
      | none =>
        cases e' with
        | none => rw [he1, he2]
        | some j =>
          have := (key ⟨j, ht'.bound i j he2⟩).1 he2
          rw [he1] at this
          cases this
    · rw [List.getElem?_eq_none (by rw [ht'.len]; omega), List.getElem?_eq_none (by rw [ht.len]; omega)]
  rw [h', hp]

/-- the hypothesis holds for the edges of a hollow triangle: every boundary has coefficient sum zero -/
example : ∀ x : Fin 3 → ℚ, ¬ ∃ i, ((circleQ.getD 1 ⟨0, []⟩).mat 3 3 *ᵥ x) i ≠ 0 ∧
    ∀ i' ≠ i, ((circleQ.getD 1 ⟨0, []⟩).mat 3 3 *ᵥ x) i' = 0 := by
  rintro x ⟨i, h1, h2⟩
  have hsum : ∑ i, ((circleQ.getD 1 ⟨0, []⟩).mat 3 3 *ᵥ x) i = 0 := by
    simp [mulVec, dotProduct, Fin.sum_univ_three, circleQ, coef]
    ring
  apply h1
  rw [← hsum]
  exact (Finset.sum_eq_single i (fun i' _ h => h2 i' h) (by simp)).symm

end BATS
