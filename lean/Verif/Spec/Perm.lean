import Mathlib.Data.List.Basic
import Mathlib.Data.List.Range
import Mathlib.Data.Fintype.Card
import Mathlib.Data.Fintype.Prod
import Mathlib.Order.Defs.LinearOrder

/-! # Specification: permutations stored as vectors, inversions -/

namespace BATS

/-- `p` lists the numbers `0, .., n-1`, each exactly once -/
def IsPermOf (n : Nat) (p : List Nat) : Prop := p.Perm (List.range n)

/-- number of pairs of positions `i < j` whose entries are out of order -/
def numInversions {α : Type _} [LinearOrder α] (l : List α) : Nat :=
  (Finset.univ.filter (fun ij : Fin l.length × Fin l.length => ij.1 < ij.2 ∧ l[ij.2] < l[ij.1])).card

end BATS
