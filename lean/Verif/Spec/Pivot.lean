import Mathlib.Data.Matrix.Mul
import Mathlib.Algebra.Field.Defs
import Mathlib.Order.Defs.LinearOrder

/-!
# Specification: last nonzero rows ("lows", pivots), reduced matrices, pivots of a matrix

Everything is stated for Mathlib matrices over a field with linearly ordered row and column index types.
-/

namespace BATS

variable {F : Type _} [Field F] {m n : Type _} [LinearOrder m] [LinearOrder n]

/-- `i` is the last nonzero coordinate of `v` -/
def VLow (v : m → F) (i : m) : Prop := v i ≠ 0 ∧ ∀ i', i < i' → v i' = 0

/-- `i` is the last nonzero row of column `j` of `A` -/
def Low (A : Matrix m n F) (i : m) (j : n) : Prop := A i j ≠ 0 ∧ ∀ i', i < i' → A i' j = 0

/-- no two columns share their last nonzero row -/
def Reduced (A : Matrix m n F) : Prop := ∀ i j j', Low A i j → Low A i j' → j = j'

/-- upper triangular with nonzero diagonal (hence invertible) -/
def UpperInv (V : Matrix n n F) : Prop := (∀ i j, j < i → V i j = 0) ∧ ∀ i, V i i ≠ 0

/-- lower triangular with nonzero diagonal -/
def LowerInv (L : Matrix n n F) : Prop := (∀ i j, i < j → L i j = 0) ∧ ∀ i, L i i ≠ 0

/-- upper triangular with ones on the diagonal -/
def UnitUpperTri (V : Matrix n n F) : Prop := (∀ i j, j < i → V i j = 0) ∧ ∀ i, V i i = 1

/-- Algorithm-independent description of the pivots of a matrix `M`: `j` is the first column such that some
combination of the columns up to and including `j` has its last nonzero entry in row `i`. -/
def IsPivot [Fintype n] (M : Matrix m n F) (i : m) (j : n) : Prop :=
  (∃ x : n → F, VLow x j ∧ VLow (M.mulVec x) i) ∧
  ∀ j' < j, ¬ ∃ x : n → F, VLow x j' ∧ VLow (M.mulVec x) i

end BATS
