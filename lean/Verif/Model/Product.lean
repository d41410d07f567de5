import Verif.Model.Pair

/-!
# Model of the triangulated product

include/complex/simplicial_complex.hpp:633-763: `prod_ind`, `product_paths`, `TriangulatedProduct` for `SimplicialComplex`. The iterator ranges
`X.simplex_begin(d, i)`, `X.simplex_end(d, i)` are modelled by the list `get_simplex(d, i)` they run over.
-/

namespace BATS
namespace SCpx

/-- simplicial_complex.hpp:636-638 `prod_ind(i, j, n)` (no overflow of `size_t` is assumed) -/
def prodInd (i j n : Nat) : Nat := i + n * j

/-- simplicial_complex.hpp:644-673 `product_paths(XY, xit, xend, yit, yend, s, n)`; the lists are the ranges from the iterators to the ends, `s` is the stack of
vertices (the final `pop_back` restores it, so it is not returned) -/
def productPaths (n : Nat) (xs ys : List Nat) (s : List Nat) (XY : SCpx) : Res SCpx :=
  match xs, ys with
  | [], _ => .error .ub
  | _ :: _, [] => .error .ub
  | [x], [y] => do
    let r ← XY.addRecursive (s ++ [prodInd x y n])
    pure r.1
  | [x], y :: y' :: ys => productPaths n [x] (y' :: ys) (s ++ [prodInd x y n]) XY
  | x :: x' :: xs, [y] => productPaths n (x' :: xs) [y] (s ++ [prodInd x y n]) XY
  | x :: x' :: xs, y :: y' :: ys => do
    let XY ← productPaths n (x' :: xs) (y :: y' :: ys) (s ++ [prodInd x y n]) XY
    productPaths n (x :: x' :: xs) (y' :: ys) (s ++ [prodInd x y n]) XY
termination_by xs.length + ys.length

/-- loop of simplicial_complex.hpp:735-746 over `iY` -/
def productCellsY (Y : SCpx) (n dY : Nat) (sX : List Nat) : Nat → Nat → SCpx → Res SCpx
  | 0, _, XY => .ok XY
  | m + 1, iY, XY => do
    let sY ← Y.getSimplex dY iY
    let XY ← productPaths n sX sY [] XY
    productCellsY Y n dY sX m (iY + 1) XY

/-- loop of simplicial_complex.hpp:733-747 over `iX` -/
def productCellsX (X Y : SCpx) (n dX dY : Nat) : Nat → Nat → SCpx → Res SCpx
  | 0, _, XY => .ok XY
  | m + 1, iX, XY => do
    let sX ← X.getSimplex dX iX
    let ny ← Y.numCells dY
    let XY ← productCellsY Y n dY sX ny 0 XY
    productCellsX X Y n dX dY m (iX + 1) XY

/-- loop of simplicial_complex.hpp:728-748 over `dX = dX, dX+1, ..` (`m` values) -/
def productDX (X Y : SCpx) (n dim : Nat) : Nat → Nat → SCpx → Res SCpx
  | 0, _, XY => .ok XY
  | m + 1, dX, XY =>
    if X.maxdim < dX || Y.maxdim < dim - dX then productDX X Y n dim m (dX + 1) XY
    else do
      let nx ← X.numCells dX
      let XY ← productCellsX X Y n dX (dim - dX) nx 0 XY
      productDX X Y n dim m (dX + 1) XY

/-- loop of simplicial_complex.hpp:726-749 over `dim` -/
def productDims (X Y : SCpx) (n : Nat) : Nat → Nat → SCpx → Res SCpx
  | 0, _, XY => .ok XY
  | m + 1, dim, XY => do
    let XY ← productDX X Y n dim (dim + 1) 0 XY
    productDims X Y n m (dim + 1) XY

/-- simplicial_complex.hpp:714-751 `TriangulatedProduct(X, Y, maxdim, n)` -/
def triangulatedProduct (X Y : SCpx) (maxdim n : Nat) : Res SCpx := do
  let _ ← Y.numCells 0
  productDims X Y n (maxdim + 1) 0 (init maxdim)

/-- simplicial_complex.hpp:753-758 `TriangulatedProduct(X, Y, maxdim)` -/
def triangulatedProductDim (X Y : SCpx) (maxdim : Nat) : Res SCpx := do
  let n ← X.numCells 0
  triangulatedProduct X Y maxdim n

/-- simplicial_complex.hpp:760-764 `TriangulatedProduct(X, Y)` -/
def triangulatedProductFull (X Y : SCpx) : Res SCpx := do
  let n ← X.numCells 0
  triangulatedProduct X Y (X.maxdim + Y.maxdim) n

end SCpx
end BATS
