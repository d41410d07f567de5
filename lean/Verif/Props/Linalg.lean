import Verif.Proofs.Solve
import Verif.Proofs.SVecOps
import Verif.Proofs.Examples

set_option linter.unusedSectionVars false
set_option linter.unusedVariables false

/-! # C06-C09, C41, C42: sparse vectors and column matrices (include/linalg/sparse_vector.hpp, col_matrix.hpp) -/

namespace BATS
open Matrix Reduction

variable {F : Type} [Field F] [DecidableEq F]

/-! ### C06 -/

/-- the support of a vector, as the set of its nonzero coordinates -/
def support (v : SVec F) : Set Nat := {i | coef v i ≠ 0}

/-- `nnz()` counts the support when the invariant holds -/
theorem C06_nnz_counts_support {v : SVec F} (hv : VecOK v) : SVec.nnz v = (support v).ncard := by
  have hs : support v = ((v.map Prod.fst).toFinset : Set Nat) := by
    ext i
    simp only [support, Set.mem_ofPred_eq, List.coe_toFinset, List.mem_map, Prod.exists, exists_and_right, exists_eq_right]
    constructor
    · intro h; exact exists_mem_of_coef_ne h
    · rintro ⟨a, ha⟩
      rw [coef_of_mem hv.1 ha]
      exact hv.2 _ ha
  rw [hs, Set.ncard_coe_finset, List.toFinset_card_of_nodup hv.1.nodup, List.length_map]
  rfl

/-- C06: `y.axpy(a, x)` is `y + a x` coordinate by coordinate (whatever the storage); it preserves sortedness, absence
of stored zeros, and index bounds. -/
theorem C06_axpy (a : F) (x y : SVec F) :
    (∀ i, coef (SVec.axpy a x y) i = coef y i + a * coef x i) ∧
    (Sorted x → Sorted y → Sorted (SVec.axpy a x y)) ∧
    (NoZero x → NoZero y → NoZero (SVec.axpy a x y)) ∧
    (∀ m, Below m x → Below m y → Below m (SVec.axpy a x y)) :=
  ⟨coef_axpy a x y, sorted_axpy a, noZero_axpy a, fun m => below_axpy a⟩

/-- C06: hence after `axpy` the stored entries are exactly the nonzero coordinates of `y + a x`. -/
theorem C06_axpy_nnz (a : F) {x y : SVec F} (hx : VecOK x) (hy : VecOK y) :
    SVec.nnz (SVec.axpy a x y) = Set.ncard {i | coef y i + a * coef x i ≠ 0} := by
  rw [C06_nnz_counts_support (vecOK_axpy a hx hy)]
  congr 1
  ext i
  simp only [support, Set.mem_ofPred_eq, coef_axpy]

/-- C06: the windowed form adds exactly the entries of `x` with `first ≤ index < last`. -/
theorem C06_axpy_window (a : F) {x : SVec F} (hx : Sorted x) (y : SVec F) (first last : Nat) :
    (∀ i, coef (SVec.axpyRange a x first last y) i = coef y i + (if first ≤ i ∧ i < last then a * coef x i else 0)) ∧
    (Sorted y → Sorted (SVec.axpyRange a x first last y)) ∧
    (NoZero x → NoZero y → NoZero (SVec.axpyRange a x first last y)) ∧
    (∀ m, Below m x → Below m y → Below m (SVec.axpyRange a x first last y)) :=
  ⟨coef_axpyRange a hx first last y, fun hy => sorted_axpyRange a hx hy first last,
    fun h1 h2 => noZero_axpyRange a h1 h2 first last, fun m h1 h2 => below_axpyRange a h1 h2 first last⟩

/-- C06: `getval` reads the coordinate, `u + v` is the sum, and a well-formed vector is determined by its coordinates
(so `operator==` decides mathematical equality). -/
theorem C06_read_and_equality {u v : SVec F} (hu : VecOK u) (hv : VecOK v) :
    (∀ i, SVec.getval v i = coef v i) ∧ (∀ i, coef (SVec.add u v) i = coef u i + coef v i) ∧
    (SVec.eq u v = true ↔ ∀ i, coef u i = coef v i) := by
  refine ⟨getval_eq_coef hv.1, fun i => by unfold SVec.add; rw [coef_axpy, one_mul], ?_⟩
  have : ∀ u v : SVec F, SVec.eq u v = true ↔ u = v := by
    intro u v
    fun_induction SVec.eq u v with
    | case1 => simp
    | case2 p u q v h => simp [h]
    | case3 p u q v h ih =>
      push Not at h
      rw [ih, h]; simp
    | case4 u v h1 h2 => 
      cases u with
      | nil => cases v with
        | nil => exact absurd rfl (h1 rfl)
        | cons q v => simp
      | cons p u => cases v with
        | nil => simp
        | cons q v => exact absurd rfl (h2 p u q v rfl)
  rw [this]
  exact ⟨fun h => by simp [h], fun h => hu.ext hv h⟩

example : VecOK [(0, (2 : ℚ)), (3, 1)] ∧ VecOK [(0, (1 : ℚ)), (2, 5), (3, -1)] ∧
    SVec.axpy (1 : ℚ) [(0, 2), (3, 1)] [(0, 1), (2, 5), (3, -1)] = [(0, 3), (2, 5)] ∧
    SVec.axpyRange (1 : ℚ) [(0, 2), (3, 1)] 1 4 [(0, 1), (2, 5), (3, -1)] = [(0, 1), (2, 5)] := by decide +kernel

/-! ### C07 -/

/-- C07: matrix-vector product. -/
theorem C07_gemv {m n : Nat} {A : CMat F} (hA : A.Shape m n) {x : SVec F} (hx : Below n x) :
    ∃ y, CMat.gemv A x = .ok y ∧ VecOK y ∧ Below m y ∧
      (fun i : Fin m => coef y i) = A.mat m n *ᵥ (fun j : Fin n => coef x j) := gemv_spec hA hx

/-- C07: matrix-matrix product. -/
theorem C07_gemm {m n l : Nat} {A B : CMat F} (hA : A.Shape m n) (hB : B.Shape n l) :
    ∃ C, CMat.gemm A B = .ok C ∧ C.Shape m l ∧ C.mat m l = A.mat m n * B.mat n l := gemm_spec hA hB

/-- C07: sum. -/
theorem C07_add {m n : Nat} {A B : CMat F} (hA : A.Shape m n) (hB : B.Shape m n) :
    ∃ C, CMat.add A B = .ok C ∧ C.Shape m n ∧ C.mat m n = A.mat m n + B.mat m n := add_spec hA hB

/-- C07: transpose. -/
theorem C07_transpose {m n : Nat} {A : CMat F} (hA : A.Shape m n) :
    ∃ C, CMat.transpose A = .ok C ∧ C.Shape n m ∧ C.mat n m = (A.mat m n)ᵀ := transpose_spec hA

/-- C07: identity matrix. -/
theorem C07_identity (n : Nat) : (CMat.identity (F := F) n).Shape n n ∧ (CMat.identity (F := F) n).mat n n = 1 :=
  ⟨shape_identity n, mat_identity n⟩

/-- C07: two well-formed stored matrices of the same shape with the same entries are stored identically, so the laws
below are equalities of the stored objects. -/
theorem C07_representation_unique {m n : Nat} {A B : CMat F} (hA : A.Shape m n) (hB : B.Shape m n)
    (h : ∀ i j, A.mat m n i j = B.mat m n i j) : A = B := hA.ext hB (by ext i j; exact h i j)

/-- C07: the product of stored matrices is associative. -/
theorem C07_assoc {m n l k : Nat} {A B C : CMat F} (hA : A.Shape m n) (hB : B.Shape n l) (hC : C.Shape l k) :
    ∃ AB BC R, CMat.gemm A B = .ok AB ∧ CMat.gemm B C = .ok BC ∧ CMat.gemm AB C = .ok R ∧ CMat.gemm A BC = .ok R := by
  obtain ⟨AB, h1, s1, e1⟩ := gemm_spec hA hB
  obtain ⟨BC, h2, s2, e2⟩ := gemm_spec hB hC
  obtain ⟨R, h3, s3, e3⟩ := gemm_spec s1 hC
  obtain ⟨R', h4, s4, e4⟩ := gemm_spec hA s2
  have : R = R' := s3.ext s4 (by rw [e3, e4, e1, e2, Matrix.mul_assoc])
  exact ⟨AB, BC, R, h1, h2, h3, this ▸ h4⟩

/-- C07: the product distributes over the sum, on the left. -/
theorem C07_distrib {m n l : Nat} {A B C : CMat F} (hA : A.Shape m n) (hB : B.Shape n l) (hC : C.Shape n l) :
    ∃ S AB AC R, CMat.add B C = .ok S ∧ CMat.gemm A B = .ok AB ∧ CMat.gemm A C = .ok AC ∧
      CMat.gemm A S = .ok R ∧ CMat.add AB AC = .ok R := by
  obtain ⟨S, h1, s1, e1⟩ := add_spec hB hC
  obtain ⟨AB, h2, s2, e2⟩ := gemm_spec hA hB
  obtain ⟨AC, h3, s3, e3⟩ := gemm_spec hA hC
  obtain ⟨R, h4, s4, e4⟩ := gemm_spec hA s1
  obtain ⟨R', h5, s5, e5⟩ := add_spec s2 s3
  have : R = R' := s4.ext s5 (by rw [e4, e5, e1, e2, e3, Matrix.mul_add])
  exact ⟨S, AB, AC, R, h1, h2, h3, h4, this ▸ h5⟩

/-- C07: the product distributes over the sum, on the right. -/
theorem C07_distrib_right {m n l : Nat} {A B C : CMat F} (hA : A.Shape m n) (hB : B.Shape m n) (hC : C.Shape n l) :
    ∃ S AC BC R, CMat.add A B = .ok S ∧ CMat.gemm A C = .ok AC ∧ CMat.gemm B C = .ok BC ∧
      CMat.gemm S C = .ok R ∧ CMat.add AC BC = .ok R := by
  obtain ⟨S, h1, s1, e1⟩ := add_spec hA hB
  obtain ⟨AC, h2, s2, e2⟩ := gemm_spec hA hC
  obtain ⟨BC, h3, s3, e3⟩ := gemm_spec hB hC
  obtain ⟨R, h4, s4, e4⟩ := gemm_spec s1 hC
  obtain ⟨R', h5, s5, e5⟩ := add_spec s2 s3
  have : R = R' := s4.ext s5 (by rw [e4, e5, e1, e2, e3, Matrix.add_mul])
  exact ⟨S, AC, BC, R, h1, h2, h3, h4, this ▸ h5⟩

/-- C07: the identity is neutral on both sides. -/
theorem C07_identity_neutral {m n : Nat} {A : CMat F} (hA : A.Shape m n) :
    CMat.gemm (CMat.identity m) A = .ok A ∧ CMat.gemm A (CMat.identity n) = .ok A := by
  obtain ⟨R, h1, s1, e1⟩ := gemm_spec (shape_identity (F := F) m) hA
  obtain ⟨R', h2, s2, e2⟩ := gemm_spec hA (shape_identity (F := F) n)
  rw [mat_identity, Matrix.one_mul] at e1
  rw [mat_identity, Matrix.mul_one] at e2
  rw [h1, h2, s1.ext hA e1, s2.ext hA e2]
  exact ⟨rfl, rfl⟩

/-- C07: the transpose of a product is the product of the transposes in the other order, and transposing twice gives
the matrix back. -/
theorem C07_transpose_laws {m n l : Nat} {A B : CMat F} (hA : A.Shape m n) (hB : B.Shape n l) :
    ∃ At Bt AB R, CMat.transpose A = .ok At ∧ CMat.transpose B = .ok Bt ∧ CMat.gemm A B = .ok AB ∧
      CMat.transpose AB = .ok R ∧ CMat.gemm Bt At = .ok R ∧ CMat.transpose At = .ok A := by
  obtain ⟨At, h1, s1, e1⟩ := transpose_spec hA
  obtain ⟨Bt, h2, s2, e2⟩ := transpose_spec hB
  obtain ⟨AB, h3, s3, e3⟩ := gemm_spec hA hB
  obtain ⟨R, h4, s4, e4⟩ := transpose_spec s3
  obtain ⟨R', h5, s5, e5⟩ := gemm_spec s2 s1
  obtain ⟨A', h6, s6, e6⟩ := transpose_spec s1
  have : R = R' := s4.ext s5 (by rw [e4, e5, e1, e2, e3, Matrix.transpose_mul])
  have h7 : A' = A := s6.ext hA (by rw [e6, e1, Matrix.transpose_transpose])
  exact ⟨At, Bt, AB, R, h1, h2, h3, h4, this ▸ h5, h7 ▸ h6⟩

example : let A : CMat ℚ := ⟨2, [[(0, 1)], [(0, 2), (1, 1)]]⟩
    let B : CMat ℚ := ⟨2, [[(0, -2), (1, 1)]]⟩
    A.Shape 2 2 ∧ B.Shape 2 1 ∧ CMat.gemm A B = .ok ⟨2, [[(1, 1)]]⟩ ∧
    CMat.transpose A = .ok ⟨2, [[(0, 1), (1, 2)], [(1, 1)]]⟩ := by decide +kernel

/-! ### C08 -/

/-- C08 (what the code computes): `A - B` returns the matrix `B - A`. -/
theorem C08_sub_is_reversed {m n : Nat} {A B : CMat F} (hA : A.Shape m n) (hB : B.Shape m n) :
    ∃ C, CMat.sub A B = .ok C ∧ C.Shape m n ∧ C.mat m n = B.mat m n - A.mat m n := sub_spec hA hB

/-- C08: consequently the result is `A - B` exactly when twice the difference vanishes, i.e. for equal matrices or in
characteristic two. -/
theorem C08_sub_correct_iff {m n : Nat} {A B : CMat F} (hA : A.Shape m n) (hB : B.Shape m n) :
    (∃ C, CMat.sub A B = .ok C ∧ C.mat m n = A.mat m n - B.mat m n) ↔ (A = B ∨ (2 : F) = 0) := by
  obtain ⟨C, h, s, e⟩ := sub_spec hA hB
  constructor
  · rintro ⟨C', h', e'⟩
    rw [h] at h'; cases h'
    by_cases h2 : (2 : F) = 0
    · exact Or.inr h2
    · left
      apply hA.ext hB
      ext i j
      have : B.mat m n i j - A.mat m n i j = A.mat m n i j - B.mat m n i j := by
        rw [← Matrix.sub_apply, ← e, e', Matrix.sub_apply]
      have h3 : (2 : F) * (A.mat m n i j - B.mat m n i j) = 0 := by rw [two_mul]; nth_rw 1 [← this]; ring
      rcases mul_eq_zero.1 h3 with h | h
      · exact absurd h h2
      · exact sub_eq_zero.1 h
  · rintro (rfl | h2)
    · exact ⟨C, h, e⟩
    · refine ⟨C, h, ?_⟩
      rw [e]
      ext i j
      rw [Matrix.sub_apply, Matrix.sub_apply]
      have : (B.mat m n i j - A.mat m n i j) - (A.mat m n i j - B.mat m n i j)
          = 2 * (B.mat m n i j - A.mat m n i j) := by ring
      rw [h2, zero_mul] at this
      exact sub_eq_zero.1 this

/-- C08 (negation of the expected law): over the rationals `[1] - [0]` gives `[-1]`. -/
theorem C08_sub_wrong : ∃ A B : CMat ℚ, A.Shape 1 1 ∧ B.Shape 1 1 ∧ CMat.sub A B = .ok ⟨1, [[(0, -1)]]⟩ ∧
    A.mat 1 1 0 0 - B.mat 1 1 0 0 = 1 :=
  ⟨⟨1, [[(0, 1)]]⟩, ⟨1, [[]]⟩, by decide +kernel, by decide +kernel, by decide +kernel, by decide +kernel⟩

/-! ### C09 -/

/-- C09: `u_solve` terminates normally and returns the unique solution. -/
theorem C09_u_solve {n : Nat} {U : CMat F} (hU : U.Shape n n) (hup : UpperInv (U.mat n n)) {y : SVec F} (hy : VecOK y)
    (hb : Below n y) :
    ∃ x, CMat.uSolve U y = .ok x ∧ VecOK x ∧ Below n x ∧
      U.mat n n *ᵥ (fun i : Fin n => coef x i) = (fun i : Fin n => coef y i) ∧
      ∀ z : Fin n → F, U.mat n n *ᵥ z = (fun i : Fin n => coef y i) → z = fun i : Fin n => coef x i := by
  obtain ⟨x, h1, h2, h3, h4⟩ := uSolve_spec hU hup hy hb
  refine ⟨x, h1, h2, h3, h4, fun z hz => hup.injective ?_⟩
  show U.mat n n *ᵥ z = U.mat n n *ᵥ _
  rw [hz, h4]

/-- C09: `l_solve` terminates normally and returns the unique solution. -/
theorem C09_l_solve {n : Nat} {L : CMat F} (hL : L.Shape n n) (hlo : LowerInv (L.mat n n)) {y : SVec F} (hy : VecOK y)
    (hb : Below n y) :
    ∃ x, CMat.lSolve L y = .ok x ∧ VecOK x ∧ Below n x ∧
      L.mat n n *ᵥ (fun i : Fin n => coef x i) = (fun i : Fin n => coef y i) ∧
      ∀ z : Fin n → F, L.mat n n *ᵥ z = (fun i : Fin n => coef y i) → z = fun i : Fin n => coef x i := by
  obtain ⟨x, h1, h2, h3, h4⟩ := lSolve_spec hL hlo hy hb
  refine ⟨x, h1, h2, h3, h4, fun z hz => hlo.injective ?_⟩
  show L.mat n n *ᵥ z = L.mat n n *ᵥ _
  rw [hz, h4]

/-- C09: the matrix forms `u_solve(U, A)` and `l_solve(L, A)`. -/
theorem C09_solve_matrix {n l : Nat} {U L A : CMat F} (hU : U.Shape n n) (hup : UpperInv (U.mat n n))
    (hL : L.Shape n n) (hlo : LowerInv (L.mat n n)) (hA : A.Shape n l) :
    (∃ X, CMat.uSolveMat U A = .ok X ∧ X.Shape n l ∧ U.mat n n * X.mat n l = A.mat n l) ∧
    (∃ X, CMat.lSolveMat L A = .ok X ∧ X.Shape n l ∧ L.mat n n * X.mat n l = A.mat n l) :=
  ⟨uSolveMat_spec hU hup hA, lSolveMat_spec hL hlo hA⟩

/-- C09: `u_inv` and `l_inv` return two-sided inverses. -/
theorem C09_inverses {n : Nat} {U L : CMat F} (hU : U.Shape n n) (hup : UpperInv (U.mat n n))
    (hL : L.Shape n n) (hlo : LowerInv (L.mat n n)) :
    (∃ X, CMat.uInv U = .ok X ∧ X.Shape n n ∧ U.mat n n * X.mat n n = 1 ∧ X.mat n n * U.mat n n = 1) ∧
    (∃ X, CMat.lInv L = .ok X ∧ X.Shape n n ∧ L.mat n n * X.mat n n = 1 ∧ X.mat n n * L.mat n n = 1) :=
  ⟨uInv_spec hU hup, lInv_spec hL hlo⟩

example : let U : CMat ℚ := ⟨2, [[(0, 2)], [(0, 1), (1, 1)]]⟩
    let L : CMat ℚ := ⟨2, [[(0, 2), (1, 1)], [(1, 1)]]⟩
    U.Shape 2 2 ∧ L.Shape 2 2 ∧ UpperInv (U.mat 2 2) ∧ LowerInv (L.mat 2 2) ∧
    CMat.uSolve U [(0, 1), (1, 1)] = .ok [(1, 1)] ∧ CMat.lSolve L [(0, 2)] = .ok [(0, 1), (1, -1)] := by
  refine ⟨by decide +kernel, by decide +kernel, by decide +kernel, by decide +kernel, by decide +kernel, by decide +kernel⟩

/-! ### C41 -/

/-- C41: `is_upper`, `is_lower` and `is_zero` hold exactly for upper triangular, lower triangular and zero matrices
(of any shape). -/
theorem C41_triangular {m n : Nat} {A : CMat F} (hA : A.Shape m n) :
    (CMat.isUpper A = true ↔ ∀ (i : Fin m) (j : Fin n), j.val < i.val → A.mat m n i j = 0) ∧
    (CMat.isLower A = true ↔ ∀ (i : Fin m) (j : Fin n), i.val < j.val → A.mat m n i j = 0) ∧
    (CMat.isZero A = true ↔ A.mat m n = 0) := by
  have hc := hA.colsOK
  have hout : ∀ k i, m ≤ i ∨ n ≤ k → coef (A.cols.getD k []) i = 0 := by
    intro k i h
    rcases h with h | h
    · exact (hc.getD k).2.coef_eq_zero h
    · rw [List.getD_eq_getElem?_getD, List.getElem?_eq_none (by rw [hA.ncol]; exact h)]; rfl
  refine ⟨?_, ?_, ?_⟩
  · unfold CMat.isUpper
    rw [isUpperFrom_iff _ _ hc]
    constructor
    · intro h i j hij; exact h j i (by omega)
    · intro h k i hki
      by_cases hin : i < m ∧ k < n
      · exact h ⟨i, hin.1⟩ ⟨k, hin.2⟩ (by simpa using hki)
      · exact hout k i (by omega)
  · unfold CMat.isLower
    rw [isLowerFrom_iff _ _ hc]
    constructor
    · intro h i j hij; exact h j i (by omega)
    · intro h k i hki
      by_cases hin : i < m ∧ k < n
      · exact h ⟨i, hin.1⟩ ⟨k, hin.2⟩ (by simpa using hki)
      · exact hout k i (by omega)
  · unfold CMat.isZero
    rw [List.all_eq_true]
    constructor
    · intro h
      ext i j
      show coef (A.cols.getD j []) i = 0
      have hj : j.val < A.cols.length := by rw [hA.ncol]; exact j.2
      have := h (A.cols[j.val]) (List.getElem_mem hj)
      rw [List.isEmpty_iff] at this
      rw [List.getD_eq_getElem?_getD, List.getElem?_eq_getElem hj, Option.getD_some, this]; rfl
    · intro h c hcm
      rw [List.isEmpty_iff, (hc c hcm).1.eq_nil_iff]
      intro i
      obtain ⟨j, hj, rfl⟩ := List.getElem_of_mem hcm
      by_cases hi : i < m
      · have := congrFun (congrFun h ⟨i, hi⟩) ⟨j, by rw [← hA.ncol]; exact hj⟩
        simpa [CMat.mat, matOf, hj] using this
      · exact (hc _ hcm).2.coef_eq_zero (by omega)

/-- C41: `is_reduced` holds exactly when no two columns have the same last nonzero row. -/
theorem C41_reduced {m n : Nat} {A : CMat F} (hA : A.Shape m n) : CMat.isReduced A = true ↔ Reduced (A.mat m n) := by
  have hc := hA.colsOK
  unfold CMat.isReduced
  rw [isReducedLoop_iff]
  have hlow : ∀ (i : Fin m) (j : Fin n), Low (A.mat m n) i j ↔ low (A.cols.getD j []) = some i.val := by
    intro i j
    rw [low_iff (hc.getD j).1]
    constructor
    · rintro ⟨h1, h2⟩
      refine ⟨h1, fun i' hi' => ?_⟩
      by_cases him : i' < m
      · exact h2 ⟨i', him⟩ hi'
      · exact (hc.getD j).2.coef_eq_zero (by omega)
    · rintro ⟨h1, h2⟩
      exact ⟨h1, fun i' hi' => h2 i' hi'⟩
  constructor
  · rintro ⟨_, h⟩ i j j' h1 h2
    exact Fin.ext (h j j' i ((hlow i j).1 h1) ((hlow i j').1 h2))
  · intro h
    refine ⟨fun _ _ _ h => absurd h (by simp), fun k k' i h1 h2 => ?_⟩
    have hi := low_lt (hc.getD k).2 h1
    have hb : ∀ k, low (A.cols.getD k []) = some i → k < n := by
      intro k hk
      by_contra hkn
      rw [List.getD_eq_getElem?_getD, List.getElem?_eq_none (by rw [hA.ncol]; omega)] at hk
      cases hk
    have := h ⟨i, hi⟩ ⟨k, hb k h1⟩ ⟨k', hb k' h2⟩ ((hlow _ _).2 h1) ((hlow _ _).2 h2)
    exact congrArg Fin.val this

/-- C41 (what `is_upper_invert` decides): every column is zero or ends on the diagonal. -/
theorem C41_upper_invert_exact {n : Nat} {A : CMat F} (hA : A.Shape n n) :
    CMat.isUpperInvert A = true ↔
      ∀ j : Fin n, (∀ i, A.mat n n i j = 0) ∨ (A.mat n n j j ≠ 0 ∧ ∀ i, j < i → A.mat n n i j = 0) := by
  have hc := hA.colsOK
  unfold CMat.isUpperInvert
  rw [isUpperInvertFrom_iff _ _ hc]
  constructor
  · intro h j
    rcases h j with h | ⟨h1, h2⟩
    · left; intro i; show coef (A.cols.getD j []) i = 0; rw [h]; rfl
    · right; rw [Nat.zero_add] at h1 h2; exact ⟨h1, fun i hi => h2 i hi⟩
  · intro h k
    by_cases hk : k < n
    · rcases h ⟨k, hk⟩ with h | ⟨h1, h2⟩
      · left
        rw [(hc.getD k).1.eq_nil_iff]
        intro i
        by_cases hi : i < n
        · exact h ⟨i, hi⟩
        · exact (hc.getD k).2.coef_eq_zero (by omega)
      · right
        rw [Nat.zero_add]
        refine ⟨h1, fun i hi => ?_⟩
        by_cases hin : i < n
        · exact h2 ⟨i, hin⟩ hi
        · exact (hc.getD k).2.coef_eq_zero (by omega)
    · left
      rw [List.getD_eq_getElem?_getD, List.getElem?_eq_none (by rw [hA.ncol]; omega)]; rfl

/-- C41: on square matrices without a zero column, `is_upper_invert` holds exactly for the invertible upper
triangular ones. -/
theorem C41_upper_invert_nonzero_columns {n : Nat} {A : CMat F} (hA : A.Shape n n)
    (hz : ∀ j, ∃ i, A.mat n n i j ≠ 0) : CMat.isUpperInvert A = true ↔ UpperInv (A.mat n n) := by
  rw [C41_upper_invert_exact hA]
  constructor
  · intro h
    have h' : ∀ j, A.mat n n j j ≠ 0 ∧ ∀ i, j < i → A.mat n n i j = 0 := by
      intro j
      rcases h j with h | h
      · obtain ⟨i, hi⟩ := hz j; exact absurd (h i) hi
      · exact h
    exact ⟨fun i j hij => (h' j).2 i hij, fun i => (h' i).1⟩
  · intro h j
    exact Or.inr ⟨h.2 j, fun i hi => h.1 i j hi⟩

/-- C41 (negation): `is_upper_invert` accepts the zero matrix, which is not invertible. -/
theorem C41_upper_invert_accepts_singular :
    ∃ A : CMat ℚ, A.Shape 1 1 ∧ CMat.isUpperInvert A = true ∧ ¬ UpperInv (A.mat 1 1) ∧ A.mat 1 1 = 0 :=
  ⟨⟨1, [[]]⟩, by decide +kernel, by decide +kernel, by decide +kernel, by decide +kernel⟩

example : let A : CMat ℚ := ⟨2, [[(0, 2)], [(0, 1), (1, 1)]]⟩
    A.Shape 2 2 ∧ CMat.isUpper A = true ∧ CMat.isLower A = false ∧ CMat.isUpperInvert A = true ∧
    CMat.isReduced A = true ∧ CMat.isZero A = false ∧ ∀ j, ∃ i, A.mat 2 2 i j ≠ 0 := by decide +kernel

/-! ### C42 -/

/-- C42: `block(i0, i1)` returns exactly the coordinates `i0 ≤ i < i1`, renumbered from zero. -/
theorem C42_block {v : SVec F} (hv : VecOK v) (i0 i1 : Nat) :
    VecOK (SVec.block i0 i1 v) ∧ Below (i1 - i0) (SVec.block i0 i1 v) ∧
    ∀ k, k < i1 - i0 → coef (SVec.block i0 i1 v) k = coef v (i0 + k) := by
  refine ⟨(block_ok hv i0 i1).1, (block_ok hv i0 i1).2, fun k hk => ?_⟩
  rw [block_coef hv.1, if_pos (by omega), Nat.add_comm]

/-- C42 (what the code does): `set_block(i0, i1, b)` puts the coordinates of `b` at `i0 ≤ i < i1`, and erases
coordinate `i1` as well; everything else is unchanged. -/
theorem C42_set_block_exact {v b : SVec F} (hv : VecOK v) (hb : VecOK b) {i0 i1 : Nat} (h : i0 ≤ i1)
    (hbb : Below (i1 - i0) b) :
    VecOK (SVec.setBlock i0 i1 b v) ∧
    (∀ k, i0 ≤ k → k < i1 → coef (SVec.setBlock i0 i1 b v) k = coef b (k - i0)) ∧
    coef (SVec.setBlock i0 i1 b v) i1 = 0 ∧
    (∀ k, k < i0 ∨ i1 < k → coef (SVec.setBlock i0 i1 b v) k = coef v k) := by
  refine ⟨setBlock_ok hv hb h hbb, fun k h1 h2 => ?_, ?_, fun k hk => ?_⟩
  · rw [setBlock_coef hv.1 h, if_neg (by omega), if_pos h1, zero_add]
  · rw [setBlock_coef hv.1 h, if_neg (by omega), if_pos h, zero_add]
    exact hbb.coef_eq_zero (le_refl _)
  · rw [setBlock_coef hv.1 h, if_pos hk]
    split
    · rw [hbb.coef_eq_zero (by omega), add_zero]
    · rw [add_zero]

/-- C42: so the intended law holds exactly when the coordinate just behind the block was already zero. -/
theorem C42_set_block_correct_iff {v b : SVec F} (hv : VecOK v) (hb : VecOK b) {i0 i1 : Nat} (h : i0 ≤ i1)
    (hbb : Below (i1 - i0) b) :
    (∀ k, coef (SVec.setBlock i0 i1 b v) k = if i0 ≤ k ∧ k < i1 then coef b (k - i0) else coef v k) ↔ coef v i1 = 0 := by
  obtain ⟨-, h1, h2, h3⟩ := C42_set_block_exact hv hb h hbb
  constructor
  · intro hk
    have := hk i1
    rw [if_neg (by omega), h2] at this
    exact this.symm
  · intro h0 k
    split
    · rename_i hk; exact h1 k hk.1 hk.2
    · rename_i hk
      by_cases hk' : k = i1
      · rw [hk', h2, h0]
      · exact h3 k (by omega)

/-- C42 (negation): `set_block(0, 1, [7])` on the vector (1, 2) also loses the entry at index 1. -/
theorem C42_set_block_wrong : ∃ v b : SVec ℚ, VecOK v ∧ VecOK b ∧ Below 1 b ∧ coef v 1 = 2 ∧
    SVec.setBlock 0 1 b v = [(0, 7)] :=
  ⟨[(0, 1), (1, 2)], [(0, 7)], by decide +kernel, by decide +kernel, by decide +kernel, by decide +kernel, by decide +kernel⟩

example : VecOK [(0, (1 : ℚ)), (1, 2), (4, 5)] ∧ VecOK [(1, (3 : ℚ))] ∧ Below (3 - 1) [(1, (3 : ℚ))] ∧
    SVec.setBlock 1 3 [(1, (3 : ℚ))] [(0, 1), (1, 2), (4, 5)] = [(0, 1), (2, 3), (4, 5)] := by decide +kernel

end BATS
