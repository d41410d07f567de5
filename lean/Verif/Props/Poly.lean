import Verif.Proofs.Poly4

set_option linter.unusedSectionVars false
set_option linter.unusedVariables false
set_option linter.unusedSimpArgs false

/-! # C44: polynomials over a field (include/linalg/polynomial.hpp); C46: `extended_euclidean` (include/linalg/pid.hpp:17-53) -/

namespace BATS
open Polynomial Matrix

variable {F : Type} [Field F] [DecidableEq F]

/-- C44: every constructor and every operation leaves no zero at the back of the vector of coefficients, and `+`, `+=`, `-`, `-=`, unary `-`, `*` are those of
the ring of polynomials. -/
theorem C44_arith (c d : List F) (a : F) (k : Nat) :
    (Trimmed (Poly.clearZeros c) ∧ toPoly (Poly.clearZeros c) = toPoly c) ∧ (Trimmed (Poly.const a) ∧ toPoly (Poly.const a) = C a) ∧
    (Trimmed (Poly.identity : List F) ∧ toPoly (Poly.identity : List F) = 1) ∧
    (Trimmed (Poly.monomial k a) ∧ toPoly (Poly.monomial k a) = C a * X ^ k) ∧
    (Trimmed (Poly.neg c) ∧ toPoly (Poly.neg c) = - toPoly c) ∧
    (Trimmed (Poly.add c d) ∧ toPoly (Poly.add c d) = toPoly c + toPoly d) ∧ (Trimmed (Poly.addAssign c d) ∧ toPoly (Poly.addAssign c d) = toPoly c + toPoly d) ∧
    (Trimmed (Poly.sub c d) ∧ toPoly (Poly.sub c d) = toPoly c - toPoly d) ∧ (Trimmed (Poly.subAssign c d) ∧ toPoly (Poly.subAssign c d) = toPoly c - toPoly d) ∧
    ∃ r, Poly.mul c d = .ok r ∧ Trimmed r ∧ toPoly r = toPoly c * toPoly d := by
  refine ⟨⟨trimmed_clearZeros c, toPoly_clearZeros c⟩, const_spec a, ?_, ?_, neg_spec c, add_spec' c d, add_spec' c d, sub_spec' c d, sub_spec' c d, mul_spec' c d⟩
  · obtain ⟨h1, h2⟩ := const_spec (1 : F)
    exact ⟨h1, by rw [Poly.identity, h2, C_1]⟩
  · obtain ⟨h1, h2⟩ := monomial_spec k a
    exact ⟨h1, by rw [h2, C_mul_X_pow_eq_monomial]⟩

/-- C44: the coefficients are those of the polynomial, the zero polynomial is the empty vector, the degree is `size() - 1`. -/
theorem C44_repr {c : List F} (hc : Trimmed c) :
    (∀ k, (toPoly c).coeff k = c.getD k 0) ∧ (c.isEmpty = true ↔ toPoly c = 0) ∧ (c ≠ [] → (toPoly c).natDegree + 1 = c.length ∧ Poly.leading c = .ok (toPoly c).leadingCoeff) := by
  refine ⟨coeff_toPoly c, ?_, ?_⟩
  · rw [List.isEmpty_iff, toPoly_eq_zero hc]
  · intro h
    have hp := List.length_pos_of_ne_nil h
    have hd : (toPoly c).natDegree = c.length - 1 := natDegree_eq_of_degree_eq_some (degree_toPoly hc h)
    refine ⟨by omega, ?_⟩
    rw [leading_spec h, leadingCoeff, hd, coeff_toPoly]

theorem eq_iff (c d : List F) : Poly.eq c d = true ↔ c = d := by
  fun_induction Poly.eq c d with
  | case1 => simp
  | case2 a x b y h => simp [h]
  | case3 a x b y h ih => rw [ih]; rw [not_not] at h; simp [h]
  | case4 x y h1 h2 =>
    constructor
    · intro h; cases h
    · intro e
      subst e
      cases x with
      | nil => exact absurd rfl (h1 rfl)
      | cons a x => exact absurd rfl (h2 a x a x rfl)

/-- C44: `==` decides equality of polynomials, also with an element of the field. -/
theorem C44_eq {c d : List F} (hc : Trimmed c) (hd : Trimmed d) (a : F) :
    (Poly.eq c d = true ↔ toPoly c = toPoly d) ∧ (Poly.eqConst c a = true ↔ toPoly c = C a) := by
  constructor
  · rw [eq_iff]
    exact ⟨fun h => by rw [h], fun h => toPoly_inj hc hd h⟩
  · have h0 : toPoly c = C a ↔ c = Poly.const a := by
      obtain ⟨k1, k2⟩ := const_spec a
      rw [← k2]
      exact ⟨fun h => toPoly_inj hc k1 h, fun h => by rw [h]⟩
    rw [h0]
    unfold Poly.eqConst Poly.const Poly.clearZeros
    by_cases ha : a = 0
    · rw [if_pos ha, List.isEmpty_iff]
      simp [ha]
    · rw [if_neg ha]
      simp only [List.reverse_cons, List.reverse_nil, List.nil_append, List.dropWhile_cons, ha, decide_false]
      match c with
      | [] => simp
      | [b] => simp
      | b :: b' :: c => simp

/-- C44: `p(v)` is the value of `p` at `v`; `p(A, v)` is `p(A) v`. -/
theorem C44_eval (c : List F) (v : F) : Poly.eval c v = (toPoly c).eval v := eval_spec c v

theorem C44_apply {n : Nat} {A : CMat F} (hA : A.Shape n n) (c : List F) {v : SVec F} (hv : VecOK v) (hb : Below n v) :
    ∃ r, Poly.apply c A v = .ok r ∧ VecOK r ∧ Below n r ∧
      (fun i : Fin n => coef r i) = (aeval (A.mat n n) (toPoly c)) *ᵥ (fun i : Fin n => coef v i) := apply_spec hA c hv hb

/-- C44: division with remainder: for a nonzero divisor the loop ends with `x = q y + r` and `deg r < deg y`, and `/`, `remainder` return the two parts. -/
theorem C44_divrem {x y : List F} (hx : Trimmed x) (hy : Trimmed y) (h0 : toPoly y ≠ 0) :
    ∃ q r, Poly.divrem x y = .ok (q, r) ∧ Poly.div x y = .ok q ∧ Poly.remainder x y = .ok r ∧ Trimmed q ∧ Trimmed r ∧
      toPoly x = toPoly q * toPoly y + toPoly r ∧ (toPoly r).degree < (toPoly y).degree := by
  have hy0 : y ≠ [] := fun e => h0 ((toPoly_eq_zero hy).2 e)
  obtain ⟨q, r, h1, h2, h3, h4, h5, h6, h7⟩ := divrem_spec hx hy hy0
  exact ⟨q, r, h1, by unfold Poly.div; rw [h1]; rfl, by unfold Poly.remainder; rw [h1]; rfl, h2, h3, h5.symm, (length_lt_iff h3 hy hy0).1 h4⟩

/-- C44: division by the zero polynomial reads the last coefficient of an empty vector. -/
theorem C44_divrem_zero (x : List F) : Poly.divrem x [] = .error .ub := by
  unfold Poly.divrem
  rw [Poly.divremLoop, if_neg (by simp)]
  cases hx : x with
  | nil => rfl
  | cons a x =>
    rw [leading_spec (by simp), bind_ok]
    rfl

/-- C44: `gcd` returns a greatest common divisor, also when one or both operands are zero. -/
theorem C44_gcd {x y : List F} (hx : Trimmed x) (hy : Trimmed y) :
    ∃ g, Poly.gcd x y = .ok g ∧ Trimmed g ∧ toPoly g ∣ toPoly x ∧ toPoly g ∣ toPoly y ∧ ∀ d, d ∣ toPoly x → d ∣ toPoly y → d ∣ toPoly g := by
  obtain ⟨g, h1, h2, h3⟩ := gcdLoop_spec (x.length + y.length + 2) x y hx hy (by omega)
  refine ⟨g, h1, h2, ?_, ?_, ?_⟩
  · rw [h3]; exact EuclideanDomain.gcd_dvd_right _ _
  · rw [h3]; exact EuclideanDomain.gcd_dvd_left _ _
  · intro d d1 d2; rw [h3]; exact EuclideanDomain.dvd_gcd d2 d1

/-- C44: the companion matrix of a monic polynomial of positive degree has it as characteristic and as minimal polynomial. -/
theorem C44_companion {c : List F} (hm : (toPoly c).Monic) (ht : Trimmed c) (hd : 0 < (toPoly c).natDegree) :
    ∃ M, Poly.companion c = .ok M ∧ M.nrow = (toPoly c).natDegree ∧ M.cols.length = (toPoly c).natDegree ∧ (∀ v ∈ M.cols, Sorted v ∧ Below (toPoly c).natDegree v) ∧
      minpoly F (M.mat (toPoly c).natDegree (toPoly c).natDegree) = toPoly c ∧ (M.mat (toPoly c).natDegree (toPoly c).natDegree).charpoly = toPoly c := by
  have hc : c ≠ [] := by intro e; rw [e, toPoly_nil] at hd; simp at hd
  have hn : (toPoly c).natDegree = c.length - 1 := natDegree_eq_of_degree_eq_some (degree_toPoly ht hc)
  have h1 : c.getD (c.length - 1) 0 = 1 := by rw [← coeff_toPoly, ← hn]; exact hm
  rw [hn] at hd ⊢
  exact companion_full (by omega) h1

/-- C44: otherwise `companion_matrix` throws (not monic) or is undefined (the constants 0 and 1). -/
theorem C44_companion_other {c : List F} (ht : Trimmed c) :
    (toPoly c ≠ 0 → ¬ (toPoly c).Monic → Poly.companion c = .error .thrown) ∧ (toPoly c = 0 → Poly.companion c = .error .ub) ∧
    (toPoly c = 1 → Poly.companion c = .error .ub) := by
  refine ⟨?_, ?_, ?_⟩
  · intro h0 hm
    have hc : c ≠ [] := fun e => h0 ((toPoly_eq_zero ht).2 e)
    have hn : (toPoly c).natDegree = c.length - 1 := natDegree_eq_of_degree_eq_some (degree_toPoly ht hc)
    apply companion_notMonic hc
    rw [← coeff_toPoly, ← hn]; exact hm
  · intro h0
    rw [(toPoly_eq_zero ht).1 h0]; rfl
  · intro h1
    have : c = [1] := by
      apply toPoly_inj ht
      · intro a ha; cases ha; exact one_ne_zero
      · rw [h1, toPoly_cons, toPoly_nil]; simp
    subst this
    unfold Poly.companion
    rw [leading_spec (by simp), bind_ok]
    rw [if_neg (by simp), if_pos (by simp)]

/-- C44: `characteristic_matrix(A)` stores `xI - A` with sorted columns and without zero entries; its determinant is the characteristic polynomial. -/
theorem C44_characteristic {n : Nat} {A : CMat F} (hA : A.Shape n n) :
    ∃ P, Poly.charMatrix A = .ok P ∧ P.length = n ∧
      (∀ v ∈ P, (v.map Prod.fst).Pairwise (· < ·) ∧ ∀ p ∈ v, p.1 < n ∧ Trimmed p.2 ∧ toPoly p.2 ≠ 0) ∧
      (∀ i j : Fin n, polyEnt (P.getD j []) i = (if i = j then X else 0) - C (A.mat n n i j)) ∧
      (Matrix.of fun i j : Fin n => polyEnt (P.getD j []) i).det = (A.mat n n).charpoly := by
  obtain ⟨P, h1, h2, h3, h4⟩ := charMatrix_spec hA
  refine ⟨P, h1, h2, ?_, ?_, ?_⟩
  · intro v hv
    refine ⟨(h3 v hv).1, fun p hp => ?_⟩
    obtain ⟨k1, k2, k3⟩ := (h3 v hv).2 p hp
    exact ⟨k1, k2, fun h => k3 ((toPoly_eq_zero k2).1 h)⟩
  · intro i j
    rw [h4, charmatrix_apply, Matrix.diagonal_apply]
  · unfold Matrix.charpoly
    congr 1
    ext1 i j
    rw [← h4]; rfl

/-- C44: a matrix that is not square is refused. -/
theorem C44_characteristic_throws {A : CMat F} (h : A.nrow ≠ A.cols.length) : Poly.charMatrix A = .error .thrown := by
  unfold Poly.charMatrix; rw [if_pos h]

/-- C44: column `j` of `generating_basis(R, A)` is `Σ_i R_ij(A) e_i`. -/
theorem C44_generating_basis {n : Nat} {A : CMat F} (hA : A.Shape n n) {R : List (List (Nat × List F))} (hl : R.length = n) (hR : ∀ v ∈ R, ∀ p ∈ v, p.1 < n) :
    ∃ B, Poly.generatingBasis R A = .ok B ∧ B.Shape n n ∧
      ∀ j : Fin n, (B.mat n n).col j = ∑ i : Fin n, aeval (A.mat n n) (polyEnt (R.getD j []) i) *ᵥ Pi.single i (1 : F) := generatingBasis_spec hA hl hR

/-- C46: over the integers: Bézout coefficients, a greatest common divisor and the two cofactors; the matrix `(x y; -z w)` used for row and column operations has
determinant one. The sign of `g` is not fixed. -/
theorem C46_int (a b : Int) : ∃ x y g w z, extendedEuclideanInt a b = .ok (x, y, g, w, z) ∧ x * a + y * b = g ∧ g * w = a ∧ g * z = b ∧ x * w + y * z = 1 ∧
    g.natAbs = Int.gcd a b := by
  obtain ⟨x, y, g, w, z, h1, _, _, _, _, _, h2, h3, h4, h5⟩ := intSpec.euclid (a := a) (b := b) trivial trivial (fuel := b.natAbs + 2) (by omega)
  simp only [id_eq] at h2 h3 h4 h5
  refine ⟨x, y, g, w, z, h1, h2, h3, h4, h5, ?_⟩
  apply Nat.dvd_antisymm
  · apply Nat.dvd_gcd
    · rw [← h3, Int.natAbs_mul]; exact Dvd.intro _ rfl
    · rw [← h4, Int.natAbs_mul]; exact Dvd.intro _ rfl
  · rw [← Int.natCast_dvd, ← h2]
    exact dvd_add (Dvd.dvd.mul_left (Int.gcd_dvd_left ..) _) (Dvd.dvd.mul_left (Int.gcd_dvd_right ..) _)

/-- C46: the same for polynomials over a field. -/
theorem C46_poly {a b : List F} (ha : Trimmed a) (hb : Trimmed b) :
    ∃ x y g w z, extendedEuclideanPoly a b = .ok (x, y, g, w, z) ∧ (Trimmed x ∧ Trimmed y ∧ Trimmed g ∧ Trimmed w ∧ Trimmed z) ∧
      toPoly x * toPoly a + toPoly y * toPoly b = toPoly g ∧ toPoly g * toPoly w = toPoly a ∧ toPoly g * toPoly z = toPoly b ∧
      toPoly x * toPoly w + toPoly y * toPoly z = 1 ∧ ∀ d, d ∣ toPoly a → d ∣ toPoly b → d ∣ toPoly g := by
  obtain ⟨x, y, g, w, z, h1, k1, k2, k3, k4, k5, h2, h3, h4, h5⟩ := polySpec.euclid ha hb (fuel := b.length + 2) (by omega)
  refine ⟨x, y, g, w, z, h1, ⟨k1, k2, k3, k4, k5⟩, h2, h3, h4, h5, ?_⟩
  intro d d1 d2
  rw [← h2]
  exact dvd_add (Dvd.dvd.mul_left d1 _) (Dvd.dvd.mul_left d2 _)

/-- C46: for equal arguments the coefficients are `0` and `1`: the pivot is not kept. -/
theorem C46_equal {a : Int} (ha : a ≠ 0) : extendedEuclideanInt a a = .ok (0, 1, a, 1, 1) := by
  have h1 : a.tdiv a = 1 := Int.tdiv_self ha
  unfold extendedEuclideanInt PidOps.extendedEuclidean
  rw [show a.natAbs + 2 = (a.natAbs + 1) + 1 from rfl, PidOps.loop, if_neg (by simp [PidOps.int, ha])]
  have e1 : PidOps.int.div a a = .ok 1 := by show (if a = 0 then _ else _) = _; rw [if_neg ha, h1]
  rw [e1, bind_ok]
  show (do
    let w ← PidOps.loop PidOps.int (a.natAbs + 1) (1 - 1 * 0) 0 (0 - 1 * 1) 1 (a - 1 * a) a (0 + 1)
    _ : Res _) = _
  rw [PidOps.loop, if_pos (by simp [PidOps.int])]
  rfl

/-! ### instances -/

/-- `x² + 3x + 2` -/
def polyQ : List ℚ := [2, 3, 1]
/-- `x + 2` -/
def polyQ' : List ℚ := [2, 1]

example : Trimmed polyQ ∧ Trimmed polyQ' := by
  constructor <;> (intro a ha; cases ha; decide)
example : Poly.divrem polyQ polyQ' = .ok ([1, 1], []) := by decide +kernel
example : Poly.gcd polyQ polyQ' = .ok [2, 1] := by decide +kernel
example : Poly.mul polyQ' [1, 1] = .ok polyQ := by decide +kernel
example : Poly.eval polyQ (-2) = 0 := by decide +kernel
example : Poly.companion polyQ = .ok ⟨2, [[(1, 1)], [(0, -2), (1, -3)]]⟩ := by decide +kernel
example : Poly.companion ([0, 0, 1] : List ℚ) = .ok ⟨2, [[(1, 1)], [(0, 0), (1, 0)]]⟩ := by decide +kernel
example : Poly.apply polyQ ⟨2, [[(1, 1)], [(0, -2), (1, -3)]]⟩ [(0, (1 : ℚ))] = .ok [] := by decide +kernel
example : Poly.charMatrix (⟨2, [[(1, 1)], [(0, -2), (1, -3)]]⟩ : CMat ℚ) = .ok [[(0, [0, 1]), (1, [-1])], [(0, [2]), (1, [3, 1])]] := by decide +kernel
example : (⟨2, [[(1, 1)], [(0, -2), (1, -3)]]⟩ : CMat ℚ).Shape 2 2 := by
  refine ⟨?_, rfl, rfl⟩
  intro c hc
  simp only [List.mem_cons, List.not_mem_nil, or_false] at hc
  rcases hc with rfl | rfl
  · exact ⟨⟨by unfold Sorted; simp, by unfold NoZero; simp⟩, by unfold Below; simp⟩
  · exact ⟨⟨by unfold Sorted; simp, by unfold NoZero; simp⟩, by unfold Below; simp⟩
example : extendedEuclideanInt 12 (-18) = .ok (1, 1, -6, -2, 3) := by decide +kernel
example : extendedEuclideanInt 0 0 = .ok (1, 0, 0, 1, 0) := by decide +kernel
example : extendedEuclideanPoly polyQ polyQ' = .ok ([], [1], [2, 1], [1, 1], [1]) := by decide +kernel

end BATS
