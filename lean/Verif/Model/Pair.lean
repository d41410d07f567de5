import Verif.Model.Filtration
import Verif.Model.SimplicialMap
import Verif.Model.Sorted
import Verif.Model.Chain

/-!
# Model of the operations on pairs of simplicial complexes

Union, intersection and index queries of include/complex/simplicial_complex.hpp:461-528, the constructor of the relative chain complex in
include/chain/chain_complex.hpp:42-60, the constructor of the relative chain map in include/chain/chain_map.hpp:34-58, `relative_map`
(chain_map.hpp:61-75), `CSCMatrix::submatrix` (include/linalg/csc_matrix.hpp:139-170) and include/topology/mayer_vietoris.hpp.
-/

namespace BATS

namespace CSC

/-- inner loop of csc_matrix.hpp:158-164: the entries `Mp, Mp+1, ..` of a column (`n` of them) whose row is selected -/
def submatrixCol (A : CSC) (prow : List (Option Nat)) : Nat → Nat → Res (List Nat × List Int)
  | 0, _ => .ok ([], [])
  | n + 1, p => do
    let i ← rd A.rowind p
    let q ← rd prow i
    let v ← rd A.val p
    let r ← submatrixCol A prow n (p + 1)
    match q with
    | some k => pure (k :: r.1, v :: r.2)
    | none => pure r

/-- outer loop of csc_matrix.hpp:156-167 over the selected columns; the accumulators are `A.colptr`, `A.rowind`, `A.val` -/
def submatrixLoop (A : CSC) (prow : List (Option Nat)) : List Nat → List Nat → List Nat → List Int → Res (List Nat × List Nat × List Int)
  | [], cp, ri, va => .ok (cp, ri, va)
  | j :: cind, cp, ri, va => do
    let a ← rd A.colptr j
    let b ← rd A.colptr (j + 1)
    let r ← submatrixCol A prow (b - a) a
    submatrixLoop A prow cind (cp ++ [(ri ++ r.1).length]) (ri ++ r.1) (va ++ r.2)

/-- csc_matrix.hpp:139-170 `submatrix(rind, cind)` -/
def submatrix (A : CSC) (rind cind : List Nat) : Res CSC := do
  let prow ← Perm.partialPerm rind A.m
  let r ← submatrixLoop A prow cind [0] [] []
  pure ⟨r.1, r.2.1, r.2.2, rind.length, cind.length⟩

end CSC

namespace SCpx

/-- inner loop of simplicial_complex.hpp:464-471 `union_add`: the vertices of the cells of dimension `dim` of `Y` are collected in `s`, which is added
(after sorting) and cleared when it is full -/
def unionAddDim (dim : Nat) : List Nat → List Nat → SCpx → Res (List Nat × SCpx)
  | [], s, Z => .ok (s, Z)
  | v :: vs, s, Z =>
    if (s ++ [v]).length = dim + 1 then do
      let r ← Z.add (s ++ [v])
      unionAddDim dim vs [] r.1
    else unionAddDim dim vs (s ++ [v]) Z

/-- outer loop of simplicial_complex.hpp:463-472: dimensions `dim, dim+1, ..` -/
def unionAddDims (Y : SCpx) : Nat → Nat → List Nat → SCpx → Res SCpx
  | 0, _, _, Z => .ok Z
  | n + 1, dim, s, Z => do
    let v ← rd Y.spx dim
    let r ← unionAddDim dim v s Z
    unionAddDims Y n (dim + 1) r.1 r.2

/-- simplicial_complex.hpp:461-473 `X.union_add(Y)` -/
def unionAdd (X Y : SCpx) : Res SCpx := unionAddDims Y (Y.maxdim + 1) 0 [] X

/-- inner loop of simplicial_complex.hpp:481-484 and 487-490: the simplices `i, i+1, ..` of dimension `k` of `Y` are added -/
def addCells (Y : SCpx) (k : Nat) : Nat → Nat → SCpx → Res SCpx
  | 0, _, Z => .ok Z
  | n + 1, i, Z => do
    let s ← Y.getSimplex k i
    let r ← Z.add s
    addCells Y k n (i + 1) r.1

/-- loop of simplicial_complex.hpp:480-485 and 486-491 over the dimensions -/
def addAllCells (Y : SCpx) : Nat → Nat → SCpx → Res SCpx
  | 0, _, Z => .ok Z
  | n + 1, k, Z => do
    let c ← Y.numCells k
    let Z' ← addCells Y k c 0 Z
    addAllCells Y n (k + 1) Z'

/-- simplicial_complex.hpp:475-493 `simplicial_union(X, Y)` -/
def simplicialUnion (X Y : SCpx) : Res SCpx := do
  let Z ← addAllCells X (X.maxdim + 1) 0 (init 0)
  addAllCells Y (Y.maxdim + 1) 0 Z

/-- inner loop of simplicial_complex.hpp:520-525: the simplices of `X` which are found in `Y` are added with `_add_unsafe` -/
def interCells (X Y : SCpx) (k : Nat) : Nat → Nat → SCpx → Res SCpx
  | 0, _, Z => .ok Z
  | n + 1, i, Z => do
    let s ← X.getSimplex k i
    match Y.findIdx s with
    | none => interCells X Y k n (i + 1) Z
    | some _ => do
      let r ← Z.addUnsafe s
      interCells X Y k n (i + 1) r.1

/-- loop of simplicial_complex.hpp:519-526 -/
def interDims (X Y : SCpx) : Nat → Nat → SCpx → Res SCpx
  | 0, _, Z => .ok Z
  | n + 1, k, Z => do
    let c ← X.numCells k
    let Z' ← interCells X Y k c 0 Z
    interDims X Y n (k + 1) Z'

/-- simplicial_complex.hpp:514-528 `intersection(X, Y)` -/
def intersection (X Y : SCpx) : Res SCpx := interDims X Y (X.maxdim + 1) 0 (init X.maxdim)

/-- loop of simplicial_complex.hpp:499-502: `find_idx` of the simplices `i, i+1, ..` of `A` (`none` is `NO_IND`) -/
def indexCells (X A : SCpx) (dim : Nat) : Nat → Nat → Res (List (Option Nat))
  | 0, _ => .ok []
  | n + 1, i => do
    let s ← A.getSimplex dim i
    let r ← indexCells X A dim n (i + 1)
    pure (X.findIdx s :: r)

/-- simplicial_complex.hpp:496-504 `X.get_indices(A, dim)` -/
def getIndicesDim (X A : SCpx) (dim : Nat) : Res (List (Option Nat)) :=
  if A.maxdim < dim then .ok [] else do
    let n ← A.numCells dim
    indexCells X A dim n 0

/-- loop of simplicial_complex.hpp:508-510 -/
def indexDims (X A : SCpx) : Nat → Nat → Res (List (List (Option Nat)))
  | 0, _ => .ok []
  | n + 1, k => do
    let a ← getIndicesDim X A k
    let r ← indexDims X A n (k + 1)
    pure (a :: r)

/-- simplicial_complex.hpp:506-512 `X.get_indices(A)` -/
def getIndices (X A : SCpx) : Res (List (List (Option Nat))) := indexDims X A (X.maxdim + 1) 0

/-- `std::sort` of the indices and `sorted_complement(inds, n)` (chain_complex.hpp:49-50, chain_map.hpp:49-54). `NO_IND` is the largest `size_t`: the
loop of `sorted_complement` then appends indices until the vector cannot grow any more, and the allocation throws. -/
def complementOf (inds : List (Option Nat)) (n : Nat) : Res (List Nat) :=
  if inds.any Option.isNone then .error .thrown
  else Srt.sortedComplement ((inds.map (fun o => o.getD 0)).insertionSort (· ≤ ·)) n

variable {F : Type} [Field F] [DecidableEq F]

/-- loop of chain_complex.hpp:48-57 for the dimensions `k, k+1, ..` with `k ≥ 1`; `prev` is `cinds[k-1]` -/
def relativeLevels (X : SCpx) : List Nat → Nat → List (List (Option Nat)) → Res (List (CMat F))
  | _, _, [] => .ok []
  | prev, k, ind :: inds => do
    let n ← X.numCells k
    let c ← complementOf ind n
    let B ← X.boundaryCsc k
    let S ← B.submatrix prev c
    let M ← S.toCMat
    let r ← relativeLevels X c (k + 1) inds
    pure (M :: r)

/-- chain_complex.hpp:42-60 `ChainComplex(X, A)` -/
def relativeChainComplex (X A : SCpx) : Res (List (CMat F)) := do
  let inds ← X.getIndices A
  match inds with
  | [] => .error .ub
  | ind :: inds => do
    let n ← X.numCells 0
    let c ← complementOf ind n
    let a ← A.numCells 0
    let r ← relativeLevels X c 1 inds
    pure (CMat.zero 1 (n - a) :: r)

/-- loop of chain_map.hpp:48-57 for the dimensions `k, k+1, ..`. The matrix `f[k]` is converted to the field before the selection, in the C++ after
it; both act on the entries one by one. -/
def relativeMapLevels (X A Y B : SCpx) : Nat → List (CMat F) → Res (List (CMat F))
  | _, [] => .ok []
  | k, M :: Ms => do
    let yi ← Y.getIndicesDim B k
    let xi ← X.getIndicesDim A k
    let ny ← Y.numCells k
    let cy ← complementOf yi ny
    let nx ← X.numCells k
    let cx ← complementOf xi nx
    let N ← CMat.submatrix cy cx M
    let r ← relativeMapLevels X A Y B (k + 1) Ms
    pure (N :: r)

/-- chain_map.hpp:34-58 `ChainMap(f, X, A, Y, B)` -/
def relativeChainMap (f : List (CMat Int)) (X A Y B : SCpx) : Res (List (CMat F)) := do
  let _ ← X.getIndices A
  let _ ← Y.getIndices B
  relativeMapLevels X A Y B 0 (SMap.chainMap f)

/-- face loop of mayer_vietoris.hpp:44-61: `i2 = dim, dim-1, .., 0`; the face omits vertex `i2` -/
def mvFaces (Y : SCpx) (s : List Nat) : Nat → Int → SVec Int
  | 0, _ => []
  | i2 + 1, c =>
    match Y.findIdx (s.eraseIdx i2) with
    | some i => (i, c) :: mvFaces Y s i2 (-c)
    | none => mvFaces Y s i2 (-c)

/-- mayer_vietoris.hpp:15-70 `mayer_vietoris_boundary(A, X, Y, k)`; the entries of a column are stored in the order of the loop -/
def mayerVietoris (A X Y : SCpx) (k : Nat) : Res (CMat Int) := do
  let _ ← X.numCells (k + 1)
  let m ← Y.numCells k
  let ss ← X.getSimplices (k + 1)
  pure ⟨m, ss.map (fun s => if (A.findIdx s).isSome then mvFaces Y s (k + 2) (-1) else [])⟩

end SCpx

namespace Cpx
variable {F : Type} [Field F] [DecidableEq F]

/-- chain_map.hpp:61-75 `relative_map(inds1, inds2)`; the lists are sorted in place in the C++, only the result is modelled -/
def relativeMap : List (CMat F) → List (List Nat) → List (List Nat) → Res (List (CMat F))
  | [], _, _ => .ok []
  | M :: Ms, i1 :: is1, i2 :: is2 => do
    let r ← Srt.sortedComplement (i1.insertionSort (· ≤ ·)) M.nrow
    let c ← Srt.sortedComplement (i2.insertionSort (· ≤ ·)) M.cols.length
    let N ← CMat.submatrix r c M
    let Ns ← relativeMap Ms is1 is2
    pure (N :: Ns)
  | _ :: _, _, _ => .error .ub

end Cpx
end BATS
