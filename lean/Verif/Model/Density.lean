import Verif.Model.Basic
import Mathlib.Order.Defs.LinearOrder

/-!
# Model of `kdist` (include/topology/density.hpp)

The matrix `dist(X, X)` is a function `d` on pairs of indices; values are in a linear order (no NaN). `std::nth_element` is a parameter: the standard allows
every reordering with the property `NthElement` of Verif/Spec/Density.lean. The vector `dj`, overwritten in every iteration, is a new list in each of them.
-/

namespace BATS
namespace Density
variable {T : Type}

/-- density.hpp:25-34, the iteration `j`: an iterator behind the end, and reading at the end, are undefined behaviour -/
def kdistAt (nth : List T → Nat → List T) (n : Nat) (d : Nat → Nat → T) (k j : Nat) : Res T := do
  let dj := (List.range n).map (fun i => d i j)
  if n < k then .error .ub else rd (nth dj k) k

/-- density.hpp:25-34: the loop, from `j` on for `m` iterations -/
def kdistLoop (nth : List T → Nat → List T) (n : Nat) (d : Nat → Nat → T) (k : Nat) : Nat → Nat → Res (List T)
  | 0, _ => .ok []
  | m + 1, j => do
    let v ← kdistAt nth n d k j
    let r ← kdistLoop nth n d k m (j + 1)
    pure (v :: r)

/-- density.hpp:13-36 `kdist(X, dist, k)` for `n` points -/
def kdist (nth : List T → Nat → List T) (n : Nat) (d : Nat → Nat → T) (k : Nat) : Res (List T) := kdistLoop nth n d k n 0

end Density
end BATS
