import Verif.Spec.Pivot

/-!
# Specification of the matrix factorisations: shapes of the factors
-/

namespace BATS

variable {F : Type _} [Field F] {m n : Type _} [LinearOrder m] [LinearOrder n]

/-- at most one nonzero entry in every row and every column -/
def Monomial (Q : Matrix m n F) : Prop :=
  (∀ i j j', Q i j ≠ 0 → Q i j' ≠ 0 → j = j') ∧ (∀ i i' j, Q i j ≠ 0 → Q i' j ≠ 0 → i = i')

/-- a pivot matrix: entries 0 and 1, at most one 1 in every row and every column -/
def PivotMatrix (Q : Matrix m n F) : Prop := (∀ i j, Q i j = 0 ∨ Q i j = 1) ∧ Monomial Q

/-- the shape `E_L`: a monomial matrix whose nonzero columns come first, their rows increasing from left to right -/
def ShapeEL (E : Matrix m n F) : Prop :=
  Monomial E ∧ ∀ j j' i', j < j' → E i' j' ≠ 0 → ∃ i, i < i' ∧ E i j ≠ 0

/-- the shape `E_U`: a monomial matrix whose nonzero rows come first, their columns increasing from top to bottom -/
def ShapeEU (E : Matrix m n F) : Prop :=
  Monomial E ∧ ∀ i i' j', i < i' → E i' j' ≠ 0 → ∃ j, j < j' ∧ E i j ≠ 0

/-- the shape `E_L` hat: a monomial matrix whose nonzero rows come last, their columns increasing from top to bottom -/
def ShapeELhat (E : Matrix m n F) : Prop :=
  Monomial E ∧ ∀ i i' j, i < i' → E i j ≠ 0 → ∃ j', j < j' ∧ E i' j' ≠ 0

/-- the shape `E_U` hat: a monomial matrix whose nonzero columns come last, their rows increasing from left to right -/
def ShapeEUhat (E : Matrix m n F) : Prop :=
  Monomial E ∧ ∀ j j' i, j < j' → E i j ≠ 0 → ∃ i', i < i' ∧ E i' j' ≠ 0

/-- lower triangular with ones on the diagonal -/
def UnitLowerTri (L : Matrix n n F) : Prop := (∀ i j, i < j → L i j = 0) ∧ ∀ i, L i i = 1

/-- the matrix of a permutation: column `σ i` has its 1 in row `i` -/
def IsPermMatrix (P : Matrix n n F) : Prop := ∃ σ : Equiv.Perm n, ∀ i j, P i j = if σ i = j then 1 else 0

end BATS
