import Mathlib.Algebra.Field.Defs
import Mathlib.Data.Matrix.Mul

/-!
# Specification vocabulary for sparse vectors and matrices

A list of (index, value) pairs denotes the function sending an index to the sum of the values stored there.
-/

namespace BATS

variable {F : Type _} [Field F]

/-- the coordinate function denoted by a list of (index, value) pairs -/
def coef : List (Nat × F) → Nat → F
  | [], _ => 0
  | (k, a) :: v, i => (if k = i then a else 0) + coef v i

/-- indices strictly increasing in storage order -/
def Sorted (v : List (Nat × F)) : Prop := v.Pairwise (fun p q => p.1 < q.1)

/-- no explicitly stored zero -/
def NoZero (v : List (Nat × F)) : Prop := ∀ p ∈ v, p.2 ≠ 0

/-- the representation invariant of a sparse vector: sorted, without stored zeros -/
def VecOK (v : List (Nat × F)) : Prop := Sorted v ∧ NoZero v

/-- all indices are below `m` -/
def Below (m : Nat) (v : List (Nat × F)) : Prop := ∀ p ∈ v, p.1 < m

/-- a list of columns seen as an `m × n` matrix -/
def matOf (m n : Nat) (cols : List (List (Nat × F))) : Matrix (Fin m) (Fin n) F :=
  Matrix.of (fun i j => coef (cols.getD j []) i)

end BATS
