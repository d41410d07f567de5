import Verif.Spec.Vec
import Verif.Spec.Pivot
import Verif.Model.Matrix

/-!
# Specification of what a column reduction returns
-/

namespace BATS

variable {F : Type _} [Field F]

/-- The representation invariant of a stored matrix: every column is sorted, stores no zero, and only refers to
rows that exist. -/
def CMat.OK (M : CMat F) : Prop := ∀ c ∈ M.cols, VecOK c ∧ Below M.nrow c

/-- `M` is a well-formed stored matrix of shape `m × n` -/
structure CMat.Shape (M : CMat F) (m n : Nat) : Prop where
  ok : M.OK
  nrow : M.nrow = m
  ncol : M.cols.length = n

/-- the linear-algebra matrix denoted by a stored matrix of shape `m × n` -/
abbrev CMat.mat (M : CMat F) (m n : Nat) : Matrix (Fin m) (Fin n) F := matOf m n M.cols

/-- entry `(i, j)` of a stored matrix -/
def ent1 (A : CMat F) (i j : Nat) : F := coef (A.cols.getD j []) i

/-- The pivot table `p2c` of a matrix `R`: it has one slot per row, and row `i` is mapped to column `j` exactly
when `i` is the last nonzero row of column `j`; rows that are the last nonzero row of no column are unmapped. -/
structure IsPivotTable {m n : Nat} (R : Matrix (Fin m) (Fin n) F) (p2c : List (Option Nat)) : Prop where
  len : p2c.length = m
  bound : ∀ i k : Nat, p2c[i]? = some (some k) → k < n
  iff : ∀ (i : Fin m) (j : Fin n), p2c[i.val]? = some (some j.val) ↔ Low R i j

end BATS
