import Verif.Proofs.FactCommute
import Verif.Proofs.FactLEUP4
import Verif.Proofs.Examples

set_option linter.unusedSectionVars false
set_option linter.unusedVariables false
set_option linter.unusedSimpArgs false

/-! # C38: the sparse factorisations of include/linalg/sparse_fact.hpp

The shapes of the factors (`ShapeEL`, `ShapeEU`, `ShapeELhat`, `ShapeEUhat`, `UnitLowerTri`, `IsPermMatrix`, `PivotMatrix`, `Monomial`) are in
`Verif/Spec/Fact.lean`, `UpperInv`, `LowerInv`, `UnitUpperTri` in `Verif/Spec/Pivot.lean`. -/

namespace BATS
open Matrix Reduction CMat BATS.Fact

variable {F : Type} [Field F] [DecidableEq F]

private theorem prod4_ok {m a b c n : Nat} {A : CMat F} {W X Y Z : CMat F} (hA : A.Shape m n) (hW : W.Shape m a) (hX : X.Shape a b)
    (hY : Y.Shape b c) (hZ : Z.Shape c n) (h : A.mat m n = W.mat m a * X.mat a b * Y.mat b c * Z.mat c n) : prod4 W X Y Z = .ok A := by
  obtain ⟨p, p1, p2, p3⟩ := gemm_spec hW hX
  obtain ⟨q, q1, q2, q3⟩ := gemm_spec p2 hY
  obtain ⟨r, r1, r2, r3⟩ := gemm_spec q2 hZ
  have : r = A := CMat.Shape.ext r2 hA (by rw [r3, q3, p3, h])
  unfold prod4
  simp only [p1, q1, r1, this, bind_ok]

private theorem prod3_ok {m a b n : Nat} {A : CMat F} {W X Y : CMat F} (hA : A.Shape m n) (hW : W.Shape m a) (hX : X.Shape a b)
    (hY : Y.Shape b n) (h : A.mat m n = W.mat m a * X.mat a b * Y.mat b n) : prod3 W X Y = .ok A := by
  obtain ⟨p, p1, p2, p3⟩ := gemm_spec hW hX
  obtain ⟨q, q1, q2, q3⟩ := gemm_spec p2 hY
  have : q = A := CMat.Shape.ext q2 hA (by rw [q3, p3, h])
  unfold prod3
  simp only [p1, q1, this, bind_ok]

/-- C38: `LEUP(A)` returns `L` unit lower triangular, `E` of shape E_L, `U` unit upper triangular and `P` a permutation matrix with `A = L E U P`,
and `LEUP_prod` of the result is `A`. -/
theorem C38_leup {m n : Nat} {A : CMat F} (hA : A.Shape m n) :
    ∃ f, leup A = .ok f ∧ f.L.Shape m m ∧ f.E.Shape m n ∧ f.U.Shape n n ∧ f.P.Shape n n ∧
      UnitLowerTri (f.L.mat m m) ∧ ShapeEL (f.E.mat m n) ∧ UnitUpperTri (f.U.mat n n) ∧ IsPermMatrix (f.P.mat n n) ∧
      A.mat m n = f.L.mat m m * f.E.mat m n * f.U.mat n n * f.P.mat n n ∧ prod4 f.L f.E f.U f.P = .ok A := by
  obtain ⟨f, f0, f1, f2, f3, f4, f5, f6, f7, f8, f9⟩ := leup_core hA
  exact ⟨f, f0, f1, f2, f3, f4, f5, f6, f7, f8, f9, prod4_ok hA f1 f2 f3 f4 f9⟩

/-- C38: `PLEU(A)`: `A = P L E U` with `E` of shape E_U. -/
theorem C38_pleu {m n : Nat} {A : CMat F} (hA : A.Shape m n) :
    ∃ f, pleu A = .ok f ∧ f.P.Shape m m ∧ f.L.Shape m m ∧ f.E.Shape m n ∧ f.U.Shape n n ∧
      IsPermMatrix (f.P.mat m m) ∧ UnitLowerTri (f.L.mat m m) ∧ ShapeEU (f.E.mat m n) ∧ UnitUpperTri (f.U.mat n n) ∧
      A.mat m n = f.P.mat m m * f.L.mat m m * f.E.mat m n * f.U.mat n n ∧ prod4 f.P f.L f.E f.U = .ok A := by
  obtain ⟨f, f0, f1, f2, f3, f4, f5, f6, f7, f8, f9⟩ := pleu_core hA
  exact ⟨f, f0, f1, f2, f3, f4, f5, f6, f7, f8, f9, prod4_ok hA f1 f2 f3 f4 f9⟩

/-- C38: `UELP(A)`: `A = U E L P` with `E` of shape E_U hat. -/
theorem C38_uelp {m n : Nat} {A : CMat F} (hA : A.Shape m n) :
    ∃ f, uelp A = .ok f ∧ f.U.Shape m m ∧ f.E.Shape m n ∧ f.L.Shape n n ∧ f.P.Shape n n ∧
      UnitUpperTri (f.U.mat m m) ∧ ShapeEUhat (f.E.mat m n) ∧ UnitLowerTri (f.L.mat n n) ∧ IsPermMatrix (f.P.mat n n) ∧
      A.mat m n = f.U.mat m m * f.E.mat m n * f.L.mat n n * f.P.mat n n ∧ prod4 f.U f.E f.L f.P = .ok A := by
  obtain ⟨f, f0, f1, f2, f3, f4, f5, f6, f7, f8, f9⟩ := uelp_core hA
  exact ⟨f, f0, f1, f2, f3, f4, f5, f6, f7, f8, f9, prod4_ok hA f1 f2 f3 f4 f9⟩

/-- C38: `PUEL(A)`: `A = P U E L` with `E` of shape E_L hat. -/
theorem C38_puel {m n : Nat} {A : CMat F} (hA : A.Shape m n) :
    ∃ f, puel A = .ok f ∧ f.P.Shape m m ∧ f.U.Shape m m ∧ f.E.Shape m n ∧ f.L.Shape n n ∧
      IsPermMatrix (f.P.mat m m) ∧ UnitUpperTri (f.U.mat m m) ∧ ShapeELhat (f.E.mat m n) ∧ UnitLowerTri (f.L.mat n n) ∧
      A.mat m n = f.P.mat m m * f.U.mat m m * f.E.mat m n * f.L.mat n n ∧ prod4 f.P f.U f.E f.L = .ok A := by
  obtain ⟨f, f0, f1, f2, f3, f4, f5, f6, f7, f8, f9⟩ := puel_core hA
  exact ⟨f, f0, f1, f2, f3, f4, f5, f6, f7, f8, f9, prod4_ok hA f1 f2 f3 f4 f9⟩

/-- C38: `LQU(A)`: `A = L Q U` with `L`, `U` triangular and invertible and `Q` a pivot matrix (stored in the field `E`). -/
theorem C38_lqu {m n : Nat} {A : CMat F} (hA : A.Shape m n) :
    ∃ f, lqu A = .ok f ∧ f.L.Shape m m ∧ f.E.Shape m n ∧ f.U.Shape n n ∧ LowerInv (f.L.mat m m) ∧ UpperInv (f.U.mat n n) ∧
      PivotMatrix (f.E.mat m n) ∧ A.mat m n = f.L.mat m m * f.E.mat m n * f.U.mat n n ∧ prod3 f.L f.E f.U = .ok A := by
  obtain ⟨f, f1, f2, f3, f4, f5, f6, f7, f8⟩ := lqu_spec hA
  exact ⟨f, f1, f2, f3, f4, f5, f6, f7, f8, prod3_ok hA f2 f3 f4 f8⟩

/-- C38: `UQL(A)`: `A = U Q L`. -/
theorem C38_uql {m n : Nat} {A : CMat F} (hA : A.Shape m n) :
    ∃ f, uql A = .ok f ∧ f.U.Shape m m ∧ f.E.Shape m n ∧ f.L.Shape n n ∧ UpperInv (f.U.mat m m) ∧ LowerInv (f.L.mat n n) ∧
      PivotMatrix (f.E.mat m n) ∧ A.mat m n = f.U.mat m m * f.E.mat m n * f.L.mat n n ∧ prod3 f.U f.E f.L = .ok A := by
  obtain ⟨f, f1, f2, f3, f4, f5, f6, f7, f8⟩ := uql_spec hA
  exact ⟨f, f1, f2, f3, f4, f5, f6, f7, f8, prod3_ok hA f2 f3 f4 f8⟩

/-- C38: `inv(A)` is a generalised inverse of every matrix, and the inverse of every invertible one. -/
theorem C38_inverse {m n : Nat} {A : CMat F} (hA : A.Shape m n) :
    ∃ X, CMat.inv A = .ok X ∧ X.Shape n m ∧ A.mat m n * X.mat n m * A.mat m n = A.mat m n ∧
      X.mat n m * A.mat m n * X.mat n m = X.mat n m ∧
      (∀ Y : Matrix (Fin n) (Fin m) F, A.mat m n * Y = 1 → Y * A.mat m n = 1 → X.mat n m = Y) := by
  obtain ⟨X, x1, x2, x3, x4⟩ := inv_spec hA
  refine ⟨X, x1, x2, x3, x4, fun Y h1 h2 => ?_⟩
  have e : Y * (A.mat m n * X.mat n m * A.mat m n) * Y = Y * A.mat m n * Y := by rw [x3]
  have e1 : Y * (A.mat m n * X.mat n m * A.mat m n) * Y = X.mat n m := by
    calc Y * (A.mat m n * X.mat n m * A.mat m n) * Y = (Y * A.mat m n) * X.mat n m * (A.mat m n * Y) := by simp only [Matrix.mul_assoc]
      _ = X.mat n m := by rw [h1, h2, Matrix.one_mul, Matrix.mul_one]
  rw [e1] at e
  rw [e, h2, Matrix.one_mul]

/-- C38: `EL_L_commute(E, L)`: for `E` of shape E_L and `L` lower triangular and invertible, a lower triangular invertible `T` with `T E = E L`. -/
theorem C38_el_l_commute {m n : Nat} {E L : CMat F} (hE : E.Shape m n) (hL : L.Shape n n) (hs : ShapeEL (E.mat m n)) (hlo : LowerInv (L.mat n n)) :
    ∃ T, elLCommute E L = .ok T ∧ T.Shape m m ∧ LowerInv (T.mat m m) ∧ T.mat m m * E.mat m n = E.mat m n * L.mat n n :=
  elLCommute_spec hE hL hs hlo

/-- C38: `L_EL_commute(L, E)`, for `E` of shape E_L hat: `E T = L E`. -/
theorem C38_l_el_commute {m n : Nat} {E L : CMat F} (hE : E.Shape m n) (hL : L.Shape m m) (hs : ShapeELhat (E.mat m n)) (hlo : LowerInv (L.mat m m)) :
    ∃ T, lElCommute L E = .ok T ∧ T.Shape n n ∧ LowerInv (T.mat n n) ∧ E.mat m n * T.mat n n = L.mat m m * E.mat m n :=
  lElCommute_spec hE hL hs hlo

/-- C38: `U_EU_commute(U, E)`, for `E` of shape E_U: `E T = U E`. -/
theorem C38_u_eu_commute {m n : Nat} {E U : CMat F} (hE : E.Shape m n) (hU : U.Shape m m) (hs : ShapeEU (E.mat m n)) (hup : UpperInv (U.mat m m)) :
    ∃ T, uEuCommute U E = .ok T ∧ T.Shape n n ∧ UpperInv (T.mat n n) ∧ E.mat m n * T.mat n n = U.mat m m * E.mat m n :=
  uEuCommute_spec hE hU hs hup

/-- C38: `EU_U_commute(E, U)`, for `E` of shape E_U hat: `T E = E U`. -/
theorem C38_eu_u_commute {m n : Nat} {E U : CMat F} (hE : E.Shape m n) (hU : U.Shape n n) (hs : ShapeEUhat (E.mat m n)) (hup : UpperInv (U.mat n n)) :
    ∃ T, euUCommute E U = .ok T ∧ T.Shape m m ∧ UpperInv (T.mat m m) ∧ T.mat m m * E.mat m n = E.mat m n * U.mat n n :=
  euUCommute_spec hE hU hs hup

/-- C38: the predicates `is_EL`, `is_EU`, `is_ELhat`, `is_EUhat` and `is_pivot_matrix` decide the shapes (the last one: at most one nonzero entry
in every row and column, of any value). -/
theorem C38_shape_checks {m n : Nat} {A : CMat F} (hA : A.Shape m n) :
    (isEL A = true ↔ ShapeEL (A.mat m n)) ∧
    (∃ b, isEU A = .ok b ∧ (b = true ↔ ShapeEU (A.mat m n))) ∧
    (∃ b, isELhat A = .ok b ∧ (b = true ↔ ShapeELhat (A.mat m n))) ∧
    (isEUhat A = true ↔ ShapeEUhat (A.mat m n)) ∧
    (∃ b, isPivotMatrix A = .ok b ∧ (b = true ↔ Monomial (A.mat m n))) := by
  have heu : ∀ {m n : Nat} {A : CMat F}, A.Shape m n → ∃ b, isEU A = .ok b ∧ (b = true ↔ ShapeEU (A.mat m n)) := by
    intro m n A hA
    obtain ⟨R, r1, r2, r3⟩ := transpose_spec hA
    refine ⟨isEL R, by unfold isEU; rw [r1]; rfl, ?_⟩
    rw [isEL_spec r2, r3]
    exact ⟨fun h => by have := ShapeEL.transpose h; rwa [Matrix.transpose_transpose] at this, ShapeEU.transpose⟩
  obtain ⟨j1, j2⟩ := jConj_spec hA
  refine ⟨isEL_spec hA, heu hA, ?_, ?_, isPivotMatrix_spec hA⟩
  · obtain ⟨b, b1, b2⟩ := heu j1
    refine ⟨b, b1, b2.trans ?_⟩
    rw [j2]
    exact ⟨fun h => by have := ShapeEU.rev h; rwa [rev_rev] at this, ShapeELhat.rev⟩
  · unfold isEUhat
    rw [isEL_spec j1, j2]
    exact ⟨fun h => by have := ShapeEL.rev h; rwa [rev_rev] at this, ShapeEUhat.rev⟩

/-- a matrix of rank 2 which needs a column exchange and a row without pivot -/
def factExample : CMat ℚ := ⟨3, [[(1, 2), (2, 4)], [(0, 1), (1, 1)], [(0, 2), (1, 4), (2, 4)]]⟩

example : factExample.Shape 3 3 := ⟨by decide +kernel, rfl, rfl⟩

example : leup factExample = .ok ⟨⟨3, [[(0, 1), (1, 1)], [(1, 1), (2, 2)], [(2, 1)]]⟩, ⟨3, [[(0, 1)], [(1, 2)], []]⟩,
    ⟨3, [[(0, 1)], [(1, 1)], [(0, 2), (1, 1), (2, 1)]]⟩, ⟨3, [[(1, 1)], [(0, 1)], [(2, 1)]]⟩⟩ := by decide +kernel

example : CMat.inv (⟨2, [[(0, 1), (1, 3)], [(0, 2), (1, 4)]]⟩ : CMat ℚ) = .ok ⟨2, [[(0, -2), (1, 3 / 2)], [(0, 1), (1, -1 / 2)]]⟩ := by decide +kernel

example : isEL (⟨3, [[(0, 5)], [(2, 1)], []]⟩ : CMat ℚ) = true ∧
    elLCommute (⟨3, [[(0, 5)], [(2, 1)], []]⟩ : CMat ℚ) ⟨3, [[(0, 1), (1, 7)], [(1, 2)], [(2, 1)]]⟩ =
      .ok ⟨3, [[(0, 1), (2, 7 / 5)], [(1, 1)], [(2, 2)]]⟩ := by decide +kernel

end BATS
