import Verif.Spec.Vec

/-!
# Specification vocabulary for row insertion
-/

namespace BATS

/-- how many of the inserted rows come before row `k` -/
def insertedBefore (rinds : List Nat) (k : Nat) : Nat := (rinds.filter (fun r => decide (r < k))).length

/-- the row that is found at row `k` after the rows `rinds` (positions in the result) have been inserted, when `k` is not one of them -/
def oldRow (rinds : List Nat) (k : Nat) : Nat := k - insertedBefore rinds k

end BATS
