import Verif.Proofs.Poly2

set_option linter.unusedSectionVars false
set_option linter.unusedVariables false
set_option linter.unusedSimpArgs false

/-! # The companion matrix: minimal and characteristic polynomial -/

namespace BATS
open Polynomial Matrix

variable {F : Type} [Field F] [DecidableEq F]

theorem toPoly_eq_sum (c : List F) : toPoly c = ∑ i ∈ Finset.range c.length, C (c.getD i 0) * X ^ i := by
  unfold toPoly
  apply Finset.sum_congr rfl
  intro i _
  rw [C_mul_X_pow_eq_monomial]

theorem sum_deg (c : Nat → F) (n : Nat) : (∑ i ∈ Finset.range n, C (c i) * X ^ i).degree < (n : WithBot Nat) := by
  rw [degree_lt_iff_coeff_zero]
  intro m hm
  rw [finsetSum_coeff]
  apply Finset.sum_eq_zero
  intro k hk
  have := Finset.mem_range.1 hk
  rw [coeff_C_mul_X_pow, if_neg (by omega)]

section
variable {n : Nat} (N : Matrix (Fin n) (Fin n) F) (c : Nat → F) (hn : 0 < n)
  (hN : ∀ i j : Fin n, N i j = if j.val + 1 < n then (if i.val = j.val + 1 then 1 else 0) else - c i.val)
include hn hN

theorem comp_pow (k : Nat) (hk : k < n) : (N ^ k) *ᵥ Pi.single (⟨0, hn⟩ : Fin n) (1 : F) = Pi.single (⟨k, hk⟩ : Fin n) (1 : F) := by
  induction k with
  | zero => rw [pow_zero, one_mulVec]
  | succ k ih =>
    rw [pow_succ', ← mulVec_mulVec, ih (by omega), mulVec_single_one]
    funext i
    rw [col_apply, hN, if_pos hk, Pi.single_apply]
    simp only [Fin.ext_iff]

theorem comp_last : (N ^ n) *ᵥ Pi.single (⟨0, hn⟩ : Fin n) (1 : F) = fun i => - c i.val := by
  obtain ⟨m, rfl⟩ : ∃ m, n = m + 1 := ⟨n - 1, by omega⟩
  rw [pow_succ', ← mulVec_mulVec, comp_pow N c hn hN m (by omega), mulVec_single_one]
  funext i
  rw [col_apply, hN, if_neg (by simp)]

theorem comp_lin (q : F[X]) (hq : q.natDegree < n) : (aeval N q) *ᵥ Pi.single (⟨0, hn⟩ : Fin n) (1 : F) = fun i => q.coeff i.val := by
  rw [aeval_eq_sum_range' hq, sum_mulVec]
  funext i
  rw [Finset.sum_apply, Finset.sum_eq_single i.val]
  · rw [smul_mulVec, comp_pow N c hn hN i.val i.isLt, Pi.smul_apply, Pi.single_apply, if_pos rfl, smul_eq_mul, mul_one]
  · intro k hk hki
    rw [smul_mulVec, comp_pow N c hn hN k (Finset.mem_range.1 hk), Pi.smul_apply, Pi.single_apply, if_neg (by intro e; exact hki (by rw [e])), smul_zero]
  · intro h; exact absurd (Finset.mem_range.2 i.isLt) h

theorem comp_aeval : aeval N (∑ i ∈ Finset.range n, C (c i) * X ^ i + X ^ n) = 0 := by
  obtain ⟨P, hP⟩ : ∃ P, P = aeval N (∑ i ∈ Finset.range n, C (c i) * X ^ i + X ^ n) := ⟨_, rfl⟩
  have h0 : P *ᵥ Pi.single (⟨0, hn⟩ : Fin n) (1 : F) = 0 := by
    rw [hP, map_add, add_mulVec, map_pow, aeval_X, comp_last N c hn hN, map_sum, sum_mulVec]
    funext i
    rw [Pi.add_apply, Finset.sum_apply, Finset.sum_eq_single i.val]
    · rw [map_mul, aeval_C, map_pow, aeval_X, ← Algebra.smul_def, smul_mulVec, comp_pow N c hn hN i.val i.isLt, Pi.smul_apply, Pi.single_apply, if_pos rfl,
        smul_eq_mul, mul_one, Pi.zero_apply, add_neg_cancel]
    · intro k hk hki
      rw [map_mul, aeval_C, map_pow, aeval_X, ← Algebra.smul_def, smul_mulVec, comp_pow N c hn hN k (Finset.mem_range.1 hk), Pi.smul_apply, Pi.single_apply,
        if_neg (by intro e; exact hki (by rw [e])), smul_zero]
    · intro h; exact absurd (Finset.mem_range.2 i.isLt) h
  rw [← hP]
  have hc : ∀ k, P * N ^ k = N ^ k * P := by
    intro k
    have hk : N ^ k = aeval N (X ^ k : F[X]) := by rw [map_pow, aeval_X]
    rw [hP, hk, ← map_mul, ← map_mul, mul_comm]
  have key : ∀ k : Fin n, P *ᵥ Pi.single k (1 : F) = 0 := by
    intro k
    have h1 := comp_pow N c hn hN k.val k.isLt
    rw [show (⟨k.val, k.isLt⟩ : Fin n) = k from rfl] at h1
    rw [← h1, mulVec_mulVec, hc, ← mulVec_mulVec, h0, mulVec_zero]
  ext i j
  have := congrFun (key j) i
  rw [mulVec_single_one] at this
  exact this

theorem comp_minpoly : minpoly F N = ∑ i ∈ Finset.range n, C (c i) * X ^ i + X ^ n := by
  symm
  have hd : (∑ i ∈ Finset.range n, C (c i) * X ^ i).degree < (n : WithBot Nat) := by
    exact sum_deg c n
  have hdeg : (∑ i ∈ Finset.range n, C (c i) * X ^ i + X ^ n).degree = (n : WithBot Nat) := by
    rw [degree_add_eq_right_of_degree_lt (by rw [degree_X_pow]; exact hd), degree_X_pow]
  apply minpoly.unique
  · exact Polynomial.monic_of_degree_le n (le_of_eq hdeg) (by
      rw [coeff_add, coeff_X_pow, if_pos rfl, coeff_eq_zero_of_degree_lt hd, zero_add])
  · exact comp_aeval N c hn hN
  · intro q hq h0
    rw [hdeg]
    by_contra hlt
    rw [not_le] at hlt
    have hq0 : q ≠ 0 := hq.ne_zero
    have h1 := comp_lin N c hn hN q ((natDegree_lt_iff_degree_lt hq0).2 hlt)
    rw [h0, zero_mulVec] at h1
    have h2 := congrFun h1 ⟨q.natDegree, (natDegree_lt_iff_degree_lt hq0).2 hlt⟩
    have h3 : q.coeff q.natDegree = 1 := hq
    rw [h3] at h2
    exact zero_ne_one h2

theorem comp_charpoly : N.charpoly = ∑ i ∈ Finset.range n, C (c i) * X ^ i + X ^ n := by
  have hm := comp_minpoly N c hn hN
  rw [← hm]
  have hd : (∑ i ∈ Finset.range n, C (c i) * X ^ i).degree < (n : WithBot Nat) := by
    exact sum_deg c n
  have hdeg : (minpoly F N).natDegree = n := by
    rw [hm]
    apply natDegree_eq_of_degree_eq_some
    rw [degree_add_eq_right_of_degree_lt (by rw [degree_X_pow]; exact hd), degree_X_pow]
  have hmon : (minpoly F N).Monic := minpoly.monic (Matrix.isIntegral N)
  apply eq_of_monic_of_dvd_of_natDegree_le hmon (charpoly_monic N) (Matrix.minpoly_dvd_charpoly N)
  rw [charpoly_natDegree_eq_dim, hdeg, Fintype.card_fin]
end

/-- `companion_matrix(p)` for monic `p` of positive degree -/
theorem companion_full {c : List F} (hc : 1 < c.length) (h1 : c.getD (c.length - 1) 0 = 1) :
    ∃ M, Poly.companion c = .ok M ∧ M.nrow = c.length - 1 ∧ M.cols.length = c.length - 1 ∧ (∀ v ∈ M.cols, Sorted v ∧ Below (c.length - 1) v) ∧
      minpoly F (M.mat (c.length - 1) (c.length - 1)) = toPoly c ∧ (M.mat (c.length - 1) (c.length - 1)).charpoly = toPoly c := by
  obtain ⟨M, m1, m2, m3, m4, m5⟩ := companion_spec hc h1
  refine ⟨M, m1, m2, m3, m4, ?_⟩
  obtain ⟨n, hn⟩ : ∃ n, n = c.length - 1 := ⟨_, rfl⟩
  rw [← hn] at m5 ⊢
  have hp : toPoly c = ∑ i ∈ Finset.range n, C (c.getD i 0) * X ^ i + X ^ n := by
    rw [toPoly_eq_sum, show c.length = n + 1 by omega, Finset.sum_range_succ]
    rw [hn, h1, C_1, one_mul]
  rw [hp]
  have hN : ∀ i j : Fin n, M.mat n n i j = if j.val + 1 < n then (if i.val = j.val + 1 then 1 else 0) else - c.getD i.val 0 := by
    intro i j
    exact m5 i.val j.val i.isLt j.isLt
  exact ⟨comp_minpoly _ (fun i => c.getD i 0) (by omega) hN, comp_charpoly _ (fun i => c.getD i 0) (by omega) hN⟩

theorem companion_notMonic {c : List F} (hc : c ≠ []) (h1 : c.getD (c.length - 1) 0 ≠ 1) : Poly.companion c = .error .thrown := by
  unfold Poly.companion
  rw [leading_spec hc, bind_ok, if_pos h1]

end BATS
