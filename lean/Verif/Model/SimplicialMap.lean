import Verif.Model.Simplicial

/-!
# Model of include/complex/cell_map.hpp, include/complex/simplicial_map.hpp, `simplex_sign` of include/util/simplex.hpp and the constructor
`ChainMap(CellularMap)` of include/chain/chain_map.hpp

A `CellularMap` is its member `cell_map`: a list of integer column matrices.
-/

namespace BATS
namespace SMap

/-- util/simplex.hpp:62-68 `is_degenerate` -/
def isDegenerate : List Nat → Bool
  | a :: b :: s => if b = a then true else isDegenerate (b :: s)
  | _ => false

/-- util/simplex.hpp:73-78 `simplex_sign(s)`: returns the sign and the sorted vector. `std::sort` in `sortperm` is modelled by a stable sort: the order
of equal vertices does not influence the result, because a simplex with equal vertices gets sign 0. -/
def simplexSign (s : List Nat) : Res (Int × List Nat) := do
  let p := Perm.stableSortperm s
  let t ← Perm.applyPerm s p
  pure (if isDegenerate t then 0 else Perm.permSign p, t)

/-- simplicial_map.hpp:45-48: the images of the vertices -/
def image (f0 : List Nat) : List Nat → Res (List Nat)
  | [] => .ok []
  | x :: s => do
    let y ← rd f0 x
    let r ← image f0 s
    pure (y :: r)

/-- simplicial_map.hpp:53-63: the column of a simplex with vertex images `s` -/
def column (Y : SCpx) (s : List Nat) : Res (SVec Int) := do
  let r ← simplexSign s
  if r.1 ≠ 0 then
    match Y.findIdx r.2 with
    | none => .error .thrown
    | some j => .ok [(j, r.1)]
  else .ok []

/-- simplicial_map.hpp:41-64: loop over the simplices `i, i+1, ..` of dimension `k` -/
def columns (X Y : SCpx) (f0 : List Nat) (k : Nat) : Nat → Nat → Res (List (SVec Int))
  | 0, _ => .ok []
  | n + 1, i => do
    let x ← X.getSimplex k i
    let s ← image f0 x
    let c ← column Y s
    let r ← columns X Y f0 k n (i + 1)
    pure (c :: r)

/-- simplicial_map.hpp:39-66: loop over the dimensions `k, k+1, ..` -/
def levels (X Y : SCpx) (f0 : List Nat) : Nat → Nat → Res (List (CMat Int))
  | 0, _ => .ok []
  | n + 1, k => do
    let nx ← X.numCells k
    let cs ← columns X Y f0 k nx 0
    let ny ← Y.numCells k
    let r ← levels X Y f0 n (k + 1)
    pure (⟨ny, cs⟩ :: r)

/-- simplicial_map.hpp:31-69 `SimplicialMap(X, Y, f0)` -/
def simplicialMap (X Y : SCpx) (f0 : List Nat) : Res (List (CMat Int)) := levels X Y f0 (X.maxdim + 1) 0

/-- cell_map.hpp:64-72: loop over the cells of dimension `k` -/
def incColumns (X Y : SCpx) (k : Nat) : Nat → Nat → Res (List (SVec Int))
  | 0, _ => .ok []
  | n + 1, i => do
    let s ← X.getSimplex k i
    match Y.findIdx s with
    | none => .error .thrown
    | some j => do
      let r ← incColumns X Y k n (i + 1)
      pure ([(j, 1)] :: r)

/-- cell_map.hpp:61-75: loop over the dimensions -/
def incLevels (X Y : SCpx) : Nat → Nat → Res (List (CMat Int))
  | 0, _ => .ok []
  | n + 1, k => do
    let nx ← X.numCells k
    let cs ← incColumns X Y k nx 0
    let ny ← Y.numCells k
    let r ← incLevels X Y n (k + 1)
    pure (⟨ny, cs⟩ :: r)

/-- cell_map.hpp:56-78 `CellularMap(X, Y)` / simplicial_map.hpp:22-27 `SimplicialMap(X, Y)`: inclusion -/
def inclusion (X Y : SCpx) : Res (List (CMat Int)) := incLevels X Y (X.maxdim + 1) 0

/-- cell_map.hpp:92-101 `CellularMap::identity(X)`, loop over the dimensions -/
def identityLevels (X : SCpx) : Nat → Nat → Res (List (CMat Int))
  | 0, _ => .ok []
  | n + 1, k => do
    let nx ← X.numCells k
    let r ← identityLevels X n (k + 1)
    pure (⟨nx, (List.range nx).map (fun j => [(j, 1)])⟩ :: r)

/-- cell_map.hpp:92-101 `CellularMap::identity(X)` -/
def identity (X : SCpx) : Res (List (CMat Int)) := identityLevels X (X.maxdim + 1) 0

variable {F : Type} [Field F] [DecidableEq F]

/-- col_matrix.hpp:63-70 and sparse_vector.hpp:106-115: conversion of an integer matrix to the field -/
def castMat (M : CMat Int) : CMat F := ⟨M.nrow, M.cols.map (fun c => c.map (fun p => (p.1, (p.2 : F))))⟩

/-- chain_map.hpp:21-27 `ChainMap(f)` -/
def chainMap (f : List (CMat Int)) : List (CMat F) := f.map castMat

end SMap
end BATS
