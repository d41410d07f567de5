import Verif.Proofs.FactCU
import Verif.Spec.Fact
import Mathlib.LinearAlgebra.Matrix.NonsingularInverse

set_option linter.unusedSectionVars false
set_option linter.unusedSimpArgs false
set_option linter.unusedVariables false

/-! # LQU, UQL and inv -/

namespace BATS
namespace Fact
open Reduction CMat Matrix

variable {F : Type} [Field F] [DecidableEq F]

/-! ### the second elimination gives a pivot matrix -/

theorem CUInv.row_unique {m n j : Nat} {A C U : List (SVec F)} {p : List (Option Nat)} (h : CUInv m n j A C U p) {r r' k : Nat}
    (h1 : p[r]? = some (some k)) (h2 : p[r']? = some (some k)) : r = r' := by
  obtain ⟨_, a1, b1⟩ := h.tab r k h1
  obtain ⟨_, a2, b2⟩ := h.tab r' k h2
  rcases lt_trichotomy r r' with hh | hh | hh
  · rw [b2 r hh] at a1; exact absurd a1.symm one_ne_zero
  · exact hh
  · rw [b1 r' hh] at a2; exact absurd a2.symm one_ne_zero

/-- `C` is the first result, `D` the result for its transpose -/
theorem second_pass {m n : Nat} {A C U B D V : List (SVec F)} {p q : List (Option Nat)} (h1 : CUInv m n n A C U p)
    (hB : ∀ i k, i < m → k < n → en B i k = en C k i) (h2 : CUInv n m m B D V q) :
    ∀ i, i < m → ∀ k, k < n → en D i k = if p[i]? = some (some k) then 1 else 0 := by
  have sum_le : ∀ i, i < m → ∀ k, en D i k = ∑ l ∈ Finset.range (i + 1), en V i l * en B l k := by
    intro i hi k
    rw [h2.app i hi k]
    symm
    apply Finset.sum_subset (by intro x hx; rw [Finset.mem_range] at *; omega)
    intro l hl hl'
    rw [Finset.mem_range] at *
    rw [h2.upper i hi l (by omega), zero_mul]
  intro i
  induction i using Nat.strong_induction_on with
  | _ i ih =>
  intro hi
  have hoff : ∀ k, k < n → p[i]? ≠ some (some k) → en D i k = 0 := by
    intro k hk hne
    by_cases hCk : C.getD k [] = []
    · rw [sum_le i hi k]
      apply Finset.sum_eq_zero
      intro l hl
      rw [Finset.mem_range] at hl
      rw [hB l k (by omega) hk]
      show _ * coef (C.getD k []) l = 0
      rw [hCk]; simp [coef]
    · obtain ⟨r, hr⟩ := h1.full k hk hCk
      obtain ⟨_, a1, a2⟩ := h1.tab r k hr
      have hrm : r < m := by rw [← h1.lp]; exact (List.getElem?_eq_some_iff.1 hr).1
      rcases lt_trichotomy i r with hlt | heq | hgt
      · rw [sum_le i hi k]
        apply Finset.sum_eq_zero
        intro l hl
        rw [Finset.mem_range] at hl
        rw [hB l k (by omega) hk, a2 l (by omega), mul_zero]
      · subst heq; exact absurd hr hne
      · have hD := ih r hgt hrm
        have hne' : D.getD r [] ≠ [] := by
          intro e
          have := hD k hk
          rw [if_pos hr] at this
          have h0 : en D r k = 0 := by show coef (D.getD r []) k = 0; rw [e]; rfl
          rw [h0] at this; exact zero_ne_one this
        obtain ⟨q0, hq0⟩ := h2.full r hrm hne'
        obtain ⟨_, b1, _⟩ := h2.tab q0 r hq0
        have hq0n : q0 < n := by rw [← h2.lp]; exact (List.getElem?_eq_some_iff.1 hq0).1
        have : p[r]? = some (some q0) := by
          by_contra hcon
          rw [hD q0 hq0n, if_neg hcon] at b1
          exact zero_ne_one b1
        rw [hr] at this
        have : k = q0 := by simpa using this
        subst this
        exact h2.elim k r hq0 i hgt hi
  intro k hk
  split
  · rename_i hp
    obtain ⟨_, a1, a2⟩ := h1.tab i k hp
    have hdi : en D i k = en V i i := by
      rw [sum_le i hi k, Finset.sum_range_succ, Finset.sum_eq_zero, zero_add, hB i k hi hk, a1, mul_one]
      intro l hl
      rw [Finset.mem_range] at hl
      rw [hB l k (by omega) hk, a2 l (by omega), mul_zero]
    have hne : en D i k ≠ 0 := by rw [hdi]; exact h2.diag i hi
    have hne' : D.getD i [] ≠ [] := by
      intro e
      apply hne
      show coef (D.getD i []) k = 0
      rw [e]; rfl
    obtain ⟨q0, hq0⟩ := h2.full i hi hne'
    obtain ⟨_, b1, _⟩ := h2.tab q0 i hq0
    have hq0n : q0 < n := by rw [← h2.lp]; exact (List.getElem?_eq_some_iff.1 hq0).1
    by_cases hpq : p[i]? = some (some q0)
    · rw [hp] at hpq
      have : k = q0 := by simpa using hpq
      subst this; exact b1
    · rw [hoff q0 hq0n hpq] at b1
      exact absurd b1 zero_ne_one
  · rename_i hp
    exact hoff k hk hp

theorem LowerInv.of_transpose {n : Nat} {V : Matrix (Fin n) (Fin n) F} (h : UpperInv V) : LowerInv Vᵀ :=
  ⟨fun i j hij => h.1 j i hij, fun i => h.2 i⟩

theorem UpperInv.of_transpose {n : Nat} {V : Matrix (Fin n) (Fin n) F} (h : LowerInv V) : UpperInv Vᵀ :=
  ⟨fun i j hij => h.1 j i hij, fun i => h.2 i⟩

/-- LQU -/
theorem lqu_spec {m n : Nat} {A : CMat F} (hA : A.Shape m n) :
    ∃ f, lqu A = .ok f ∧ f.L.Shape m m ∧ f.E.Shape m n ∧ f.U.Shape n n ∧ LowerInv (f.L.mat m m) ∧ UpperInv (f.U.mat n n) ∧
      PivotMatrix (f.E.mat m n) ∧ A.mat m n = f.L.mat m m * f.E.mat m n * f.U.mat n n := by
  obtain ⟨C, U1, p, c1, c2, c3, c4, c5, c6⟩ := cuInplace_spec hA
  obtain ⟨U, u1, u2, u3, u4⟩ := uInv_spec c3 c4
  obtain ⟨B, b1, b2, b3⟩ := transpose_spec c2
  obtain ⟨D, V1, q, d1, d2, d3, d4, d5, d6⟩ := cuInplace_spec b2
  obtain ⟨V, v1, v2, v3, v4⟩ := uInv_spec d3 d4
  obtain ⟨E, e1, e2, e3⟩ := transpose_spec d2
  obtain ⟨L, l1, l2, l3⟩ := transpose_spec v2
  have hB : ∀ i k, i < m → k < n → en B.cols i k = en C.cols k i := by
    intro i k hi hk
    exact congrFun (congrFun b3 ⟨k, hk⟩) ⟨i, hi⟩
  have hD := second_pass c6 hB d6
  have hE : ∀ (i : Fin m) (k : Fin n), E.mat m n i k = if p[i.val]? = some (some k.val) then 1 else 0 := by
    intro i k
    rw [e3]
    exact hD i i.2 k k.2
  have hEne : ∀ (i : Fin m) (k : Fin n), E.mat m n i k ≠ 0 → p[i.val]? = some (some k.val) := by
    intro i k h
    by_contra hc
    rw [hE, if_neg hc] at h
    exact h rfl
  refine ⟨⟨L, E, U, ⟨0, []⟩⟩, ?_, l2, e2, u2, ?_, UpperInv.inverse c4 u3, ⟨?_, ?_, ?_⟩, ?_⟩
  · show lqu A = _
    unfold lqu
    rw [hA.ncol, hA.nrow, c1, bind_ok]
    simp only [u1, b1, d1, v1, e1, l1, bind_ok]
    rfl
  · show LowerInv (L.mat m m)
    rw [l3]
    exact LowerInv.of_transpose (UpperInv.inverse d4 v3)
  · intro i j
    show E.mat m n i j = 0 ∨ E.mat m n i j = 1
    rw [hE]; split
    · right; rfl
    · left; rfl
  · intro i j j' h h'
    have e1 := hEne i j h
    have e2 := hEne i j' h'
    rw [e1] at e2
    exact Fin.ext (by simpa using e2)
  · intro i i' j h h'
    exact Fin.ext (c6.row_unique (hEne i j h) (hEne i' j h'))
  · show A.mat m n = L.mat m m * E.mat m n * U.mat n n
    have h1 : L.mat m m * E.mat m n = C.mat m n := by
      rw [l3, e3, d5, b3, Matrix.transpose_mul, Matrix.transpose_transpose, ← Matrix.mul_assoc, ← Matrix.transpose_mul, v3, Matrix.transpose_one,
        Matrix.one_mul]
    rw [h1, c5, Matrix.mul_assoc, u3, Matrix.mul_one]

/-! ### reversing rows and columns -/

theorem jConj_spec {m n : Nat} {A : CMat F} (hA : A.Shape m n) :
    (jConj A).Shape m n ∧ (jConj A).mat m n = (A.mat m n).submatrix Fin.rev Fin.rev := by
  have hget : ∀ j, j < n → (jConj A).cols.getD j [] = SVec.J m (A.cols.getD (n - 1 - j) []) := by
    intro j hj
    show ((A.cols.map (SVec.J A.nrow)).reverse).getD j [] = _
    rw [hA.nrow]
    have hl : A.cols.length = n := hA.ncol
    rw [List.getD_eq_getElem?_getD, List.getElem?_reverse (by rw [List.length_map]; omega), List.length_map, hl, List.getElem?_map,
      List.getD_eq_getElem?_getD, List.getElem?_eq_getElem (by omega : n - 1 - j < A.cols.length)]
    rfl
  refine ⟨⟨?_, hA.nrow, ?_⟩, ?_⟩
  · show ColsOK A.nrow (A.cols.map (SVec.J A.nrow)).reverse
    rw [hA.nrow]
    intro c hc
    rw [List.mem_reverse, List.mem_map] at hc
    obtain ⟨d, hd, rfl⟩ := hc
    obtain ⟨h1, h2⟩ := hA.colsOK d hd
    obtain ⟨j1, j2, _⟩ := J_spec h1 h2
    exact ⟨j1, j2⟩
  · show (A.cols.map (SVec.J A.nrow)).reverse.length = n
    rw [List.length_reverse, List.length_map]; exact hA.ncol
  · ext i j
    rw [submatrix_apply]
    show coef ((jConj A).cols.getD j []) i = coef (A.cols.getD (Fin.rev j) []) (Fin.rev i)
    rw [hget j j.2]
    have e1 : (Fin.rev j).val = n - 1 - j := by rw [Fin.val_rev]; omega
    have e2 : i.val = m - 1 - (Fin.rev i).val := by rw [Fin.val_rev]; omega
    rw [e1]
    have hok := hA.colsOK.getD (n - 1 - j)
    rw [← (J_spec hok.1 hok.2).2.2 (Fin.rev i).val (Fin.rev i).2, ← e2]

theorem rev_mul {m n l : Nat} (A : Matrix (Fin m) (Fin n) F) (B : Matrix (Fin n) (Fin l) F) :
    (A * B).submatrix Fin.rev Fin.rev = A.submatrix Fin.rev Fin.rev * B.submatrix Fin.rev Fin.rev :=
  (Matrix.submatrix_mul_equiv A B Fin.rev Fin.revPerm Fin.rev).symm

theorem rev_rev {m n : Nat} (A : Matrix (Fin m) (Fin n) F) : (A.submatrix Fin.rev Fin.rev).submatrix Fin.rev Fin.rev = A := by
  ext i j; simp

theorem LowerInv.rev {n : Nat} {L : Matrix (Fin n) (Fin n) F} (h : LowerInv L) : UpperInv (L.submatrix Fin.rev Fin.rev) :=
  ⟨fun i j hij => h.1 _ _ (Fin.rev_lt_rev.2 hij), fun i => h.2 _⟩

theorem UpperInv.rev {n : Nat} {L : Matrix (Fin n) (Fin n) F} (h : UpperInv L) : LowerInv (L.submatrix Fin.rev Fin.rev) :=
  ⟨fun i j hij => h.1 _ _ (Fin.rev_lt_rev.2 hij), fun i => h.2 _⟩

theorem Monomial.rev {m n : Nat} {Q : Matrix (Fin m) (Fin n) F} (h : Monomial Q) : Monomial (Q.submatrix Fin.rev Fin.rev) :=
  ⟨fun i j j' h1 h2 => Fin.rev_injective (h.1 _ _ _ h1 h2), fun i i' j h1 h2 => Fin.rev_injective (h.2 _ _ _ h1 h2)⟩

theorem Monomial.transpose {m n : Nat} {Q : Matrix (Fin m) (Fin n) F} (h : Monomial Q) : Monomial Qᵀ :=
  ⟨fun i j j' h1 h2 => h.2 _ _ _ h1 h2, fun i i' j h1 h2 => h.1 _ _ _ h1 h2⟩

/-- UQL -/
theorem uql_spec {m n : Nat} {A : CMat F} (hA : A.Shape m n) :
    ∃ f, uql A = .ok f ∧ f.U.Shape m m ∧ f.E.Shape m n ∧ f.L.Shape n n ∧ UpperInv (f.U.mat m m) ∧ LowerInv (f.L.mat n n) ∧
      PivotMatrix (f.E.mat m n) ∧ A.mat m n = f.U.mat m m * f.E.mat m n * f.L.mat n n := by
  obtain ⟨s1, s2⟩ := jConj_spec hA
  obtain ⟨f, f1, f2, f3, f4, f5, f6, f7, f8⟩ := lqu_spec s1
  obtain ⟨l1, l2⟩ := jConj_spec f2
  obtain ⟨e1, e2⟩ := jConj_spec f3
  obtain ⟨u1, u2⟩ := jConj_spec f4
  refine ⟨⟨jConj f.U, jConj f.E, jConj f.L, f.P⟩, ?_, l1, e1, u1, ?_, ?_, ⟨?_, ?_⟩, ?_⟩
  · unfold uql; rw [f1]; rfl
  · show UpperInv ((jConj f.L).mat m m)
    rw [l2]; exact LowerInv.rev f5
  · show LowerInv ((jConj f.U).mat n n)
    rw [u2]; exact UpperInv.rev f6
  · intro i j
    show (jConj f.E).mat m n i j = 0 ∨ (jConj f.E).mat m n i j = 1
    rw [e2]; exact f7.1 _ _
  · show Monomial ((jConj f.E).mat m n)
    rw [e2]; exact Monomial.rev f7.2
  · show A.mat m n = (jConj f.L).mat m m * (jConj f.E).mat m n * (jConj f.U).mat n n
    rw [l2, e2, u2, ← rev_mul, ← rev_mul, ← f8, s2, rev_rev]

theorem PivotMatrix.mul_transpose_mul {m n : Nat} {Q : Matrix (Fin m) (Fin n) F} (h : PivotMatrix Q) : Q * Qᵀ * Q = Q := by
  ext i j
  rw [Matrix.mul_apply]
  simp only [Matrix.mul_apply, Matrix.transpose_apply, Finset.sum_mul]
  by_cases hij : Q i j = 0
  · rw [hij]
    apply Finset.sum_eq_zero
    intro a _
    apply Finset.sum_eq_zero
    intro b _
    by_contra hne
    have h1 : Q i b ≠ 0 := fun e => hne (by rw [e]; ring)
    have h2 : Q a b ≠ 0 := fun e => hne (by rw [e]; ring)
    have h3 : Q a j ≠ 0 := fun e => hne (by rw [e]; ring)
    have := h.2.1 a b j h2 h3
    subst this
    exact h1 hij
  · have h1 : Q i j = 1 := (h.1 i j).resolve_left hij
    rw [Finset.sum_eq_single i, Finset.sum_eq_single j]
    · rw [h1]; ring
    · intro b _ hb
      have : Q i b = 0 := by by_contra hne; exact hb (h.2.1 i b j hne hij)
      rw [this]; ring
    · intro hh; exact absurd (Finset.mem_univ _) hh
    · intro a _ ha
      have : Q a j = 0 := by by_contra hne; exact ha (h.2.2 a i j hne hij)
      apply Finset.sum_eq_zero
      intro b _
      rw [this, mul_zero]
    · intro hh; exact absurd (Finset.mem_univ _) hh

theorem PivotMatrix.transpose {m n : Nat} {Q : Matrix (Fin m) (Fin n) F} (h : PivotMatrix Q) : PivotMatrix Qᵀ :=
  ⟨fun i j => h.1 j i, Monomial.transpose h.2⟩

theorem inv_spec {m n : Nat} {A : CMat F} (hA : A.Shape m n) :
    ∃ X, CMat.inv A = .ok X ∧ X.Shape n m ∧ A.mat m n * X.mat n m * A.mat m n = A.mat m n ∧ X.mat n m * A.mat m n * X.mat n m = X.mat n m := by
  obtain ⟨f, f1, f2, f3, f4, f5, f6, f7, f8⟩ := lqu_spec hA
  obtain ⟨a, a1, a2, a3, a4⟩ := uInv_spec f4 f6
  obtain ⟨b, b1, b2, b3⟩ := transpose_spec f3
  obtain ⟨c, c1, c2, c3, c4⟩ := lInv_spec f2 f5
  obtain ⟨ab, d1, d2, d3⟩ := gemm_spec a2 b2
  obtain ⟨X, x1, x2, x3⟩ := gemm_spec d2 c2
  have hX : X.mat n m = a.mat n n * (f.E.mat m n)ᵀ * c.mat m m := by rw [x3, d3, b3]
  have key : ∀ {Q : Matrix (Fin m) (Fin n) F} {L c : Matrix (Fin m) (Fin m) F} {U a : Matrix (Fin n) (Fin n) F}, U * a = 1 → a * U = 1 →
      L * c = 1 → c * L = 1 → Q * Qᵀ * Q = Q → Qᵀ * Q * Qᵀ = Qᵀ →
      L * Q * U * (a * Qᵀ * c) * (L * Q * U) = L * Q * U ∧ a * Qᵀ * c * (L * Q * U) * (a * Qᵀ * c) = a * Qᵀ * c := by
    intro Q L c U a h1 h2 h3 h4 h5 h6
    constructor
    · calc L * Q * U * (a * Qᵀ * c) * (L * Q * U) = L * (Q * (U * a) * Qᵀ * (c * L) * Q) * U := by simp only [Matrix.mul_assoc]
        _ = L * Q * U := by rw [h1, h4, Matrix.mul_one, Matrix.mul_one, h5]
    · calc a * Qᵀ * c * (L * Q * U) * (a * Qᵀ * c) = a * (Qᵀ * (c * L) * Q * (U * a) * Qᵀ) * c := by simp only [Matrix.mul_assoc]
        _ = a * Qᵀ * c := by rw [h1, h4, Matrix.mul_one, Matrix.mul_one, h6]
  have h6 : (f.E.mat m n)ᵀ * f.E.mat m n * (f.E.mat m n)ᵀ = (f.E.mat m n)ᵀ := PivotMatrix.mul_transpose_mul (PivotMatrix.transpose f7)
  obtain ⟨k1, k2⟩ := key a3 a4 c3 c4 (PivotMatrix.mul_transpose_mul f7) h6
  refine ⟨X, ?_, x2, ?_, ?_⟩
  · unfold CMat.inv
    simp only [f1, a1, b1, c1, d1, x1, bind_ok]
  · rw [hX, f8]; exact k1
  · rw [hX, f8]; exact k2

end Fact
end BATS
