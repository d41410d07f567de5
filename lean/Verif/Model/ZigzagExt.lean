import Verif.Model.Simplicial
import Mathlib.Algebra.Order.Group.Defs

/-!
# Model of include/zigzag/extension.hpp: zigzag filtrations from a function on the vertices

Times are elements of an ordered abelian group (exact arithmetic instead of floating point). `lo` and `hi` stand for `std::numeric_limits<T>::min()` and
`std::numeric_limits<T>::max()`; for floating point types `min()` is the smallest positive normal number.
-/

namespace BATS
namespace Zigzag

variable {T : Type} [LinearOrder T] [AddCommGroup T]

/-- extension.hpp:24-28: loop over the vertices -/
def extremaLoop (f0 : List T) : List Nat → T → T → Res (T × T)
  | [], cmin, cmax => .ok (cmin, cmax)
  | v :: vs, cmin, cmax => do
    let x ← rd f0 v
    extremaLoop f0 vs (min cmin x) (max cmax x)

/-- extension.hpp:17-30 `simplex_extrema` -/
def simplexExtrema (lo hi : T) (f0 : List T) (s : List Nat) : Res (T × T) := extremaLoop f0 s hi lo

/-- extension.hpp:55-70: loop over the cells `i, i+1, …` of dimension `k` -/
def extendRow (lo hi : T) (f0 : List T) (X : SCpx) (eps : T) (k : Nat) : Nat → Nat → Res (List (List (T × T)))
  | 0, _ => .ok []
  | n + 1, i => do
    let s ← X.getSimplex k i
    let mm ← simplexExtrema lo hi f0 s
    if mm.1 + eps < mm.2 - eps then .error .thrown
    else do
      let r ← extendRow lo hi f0 X eps k n (i + 1)
      pure ([(mm.2 - eps, mm.1 + eps)] :: r)

/-- extension.hpp:53-71: loop over the dimensions `k, k+1, …` -/
def extendLoop (lo hi : T) (f0 : List T) (X : SCpx) (eps : T) : Nat → Nat → Res (List (List (List (T × T))))
  | 0, _ => .ok []
  | n + 1, k => do
    let m ← X.numCells k
    let row ← extendRow lo hi f0 X eps k m 0
    let r ← extendLoop lo hi f0 X eps n (k + 1)
    pure (row :: r)

/-- extension.hpp:46-74 `extend_zigzag_filtration(f0, X, eps)` for a simplicial complex: the values of the returned filtration, whose complex is `X` -/
def extendZigzag (lo hi : T) (f0 : List T) (X : SCpx) (eps : T) : Res (List (List (List (T × T)))) := extendLoop lo hi f0 X eps (X.maxdim + 1) 0

end Zigzag
end BATS
