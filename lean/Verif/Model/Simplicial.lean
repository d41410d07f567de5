import Verif.Model.Trie
import Verif.Model.Permutation
import Verif.Model.Matrix

/-!
# Model of include/complex/simplicial_complex.hpp, of the integer CSC boundary matrices (include/linalg/csc_matrix.hpp) and of
the chain complex of a cell complex (include/chain/chain_complex.hpp:26-39)

`cell_ind` is a pair (dimension, index); its index `NO_IND` is `none`. The members `_reserved`, `__face`, `__perm`, `__tmpc`
hold capacities and scratch space and are not modelled. `size_t` wrap-around is not modelled, except for the empty simplex.
-/

namespace BATS

/-- `std::vector::resize(n, a)` when it grows the vector -/
def growTo {α : Type} (l : List α) (n : Nat) (a : α) : List α := if l.length < n then l ++ List.replicate (n - l.length) a else l

/-- fill_sortperm on the block `[off, off+len)` of `fs`, then apply_perm of that permutation to the block of `fs` and the block of
`cs` (simplicial_complex.hpp:128-142 and 213-227, csc_matrix.hpp:26-49). `std::sort` on the indices is modelled by a stable sort;
entries of equal row may be stored in another order by the C++ (only possible for degenerate simplices). -/
def sortBlock (off len : Nat) (fs : List Nat) (cs : List Int) : Res (List Nat × List Int) :=
  if fs.length < off + len then .error .ub else do
    let perm := Perm.stableSortperm ((fs.drop off).take len)
    let f ← Perm.applyPermPtr (fs.drop off) perm
    let c ← Perm.applyPermPtr (cs.drop off) perm
    pure (fs.take off ++ f, cs.take off ++ c)

/-- csc_matrix.hpp:12-22 `CSCMatrix<int, size_t>` -/
structure CSC where
  colptr : List Nat
  rowind : List Nat
  val : List Int
  m : Nat
  n : Nat

namespace CSC

/-- csc_matrix.hpp:59-66 `sort()`: loop over the columns; `sort_col(j)` (24-49) sorts the block `[colptr[j], colptr[j+1])` -/
def sortLoop (colptr : List Nat) : Nat → Nat → List Nat → List Int → Res (List Nat × List Int)
  | 0, _, fs, cs => .ok (fs, cs)
  | n + 1, j, fs, cs => do
    let a ← rd colptr j
    let b ← rd colptr (j + 1)
    let r ← sortBlock a (b - a) fs cs
    sortLoop colptr n (j + 1) r.1 r.2

/-- csc_matrix.hpp:72-80: constructor, sorts the columns -/
def mk' (m n : Nat) (colptr rowind : List Nat) (val : List Int) : Res CSC := do
  let r ← sortLoop colptr n 0 rowind val
  pure ⟨colptr, r.1, r.2, m, n⟩

variable {F : Type} [Field F] [DecidableEq F]

/-- loop of col_matrix.hpp:80-87: column `j` is read through iterators, `TV(*valit)` is the image of the integer in the field -/
def toColsLoop (A : CSC) : Nat → Nat → Res (List (SVec F))
  | 0, _ => .ok []
  | n + 1, j => do
    let a ← rd A.colptr j
    let b ← rd A.colptr (j + 1)
    if A.rowind.length < b || A.val.length < b then .error .ub else do
      let r ← toColsLoop A n (j + 1)
      pure ((((A.rowind.drop a).take (b - a)).zip ((A.val.drop a).take (b - a))).map (fun p => (p.1, (p.2 : F))) :: r)

/-- col_matrix.hpp:72-88 `ColumnMatrix(CSCMatrix)` -/
def toCMat (A : CSC) : Res (CMat F) := do
  let c ← toColsLoop A A.n 0
  pure ⟨A.m, c⟩

end CSC

/-- simplicial_complex.hpp:36-66 `SimplicialComplex` -/
structure SCpx where
  spx : List (List Nat)
  faces : List (List Nat)
  coeff : List (List Int)
  ncells : List Nat
  trie : Trie Nat

namespace SCpx

/-- simplicial_complex.hpp:70-77 `reserve(maxdim)` -/
def reserve (X : SCpx) (maxdim : Nat) : SCpx :=
  { X with
    ncells := growTo X.ncells (maxdim + 1) 0
    spx := growTo X.spx (maxdim + 1) []
    faces := growTo X.faces maxdim []
    coeff := growTo X.coeff maxdim [] }

/-- simplicial_complex.hpp:287 `SimplicialComplex()` and 293 `SimplicialComplex(maxdim)` -/
def init (maxdim : Nat) : SCpx := reserve ⟨[], [], [], [], Trie.empty⟩ maxdim

/-- simplicial_complex.hpp:339-344 `find_idx` -/
def findIdx (X : SCpx) (s : List Nat) : Option Nat := X.trie.get? s

/-- the face loop of `_add_unsafe`, simplicial_complex.hpp:101-126: `k2 = dim, dim-1, .., 0`; the face omits vertex `k2`
(lines 104-110); returns the two vectors with the entries pushed so far and whether all faces were found -/
def faceLoop (t : Trie Nat) (s : List Nat) : Nat → Int → List Nat → List Int → List Nat × List Int × Bool
  | 0, _, fs, cs => (fs, cs, true)
  | k2 + 1, c, fs, cs =>
    match t.get? (s.eraseIdx k2) with
    | none => (fs, cs, false)
    | some i => faceLoop t s k2 (-c) (fs ++ [i]) (cs ++ [c])

/-- simplicial_complex.hpp:147-151 (and 232-235): store the simplex in the trie and in `spx` -/
def finish (X : SCpx) (s : List Nat) (dim ind : Nat) : Res SCpx := do
  let v ← rd X.spx dim
  let sp ← wr X.spx dim (v ++ s)
  pure { X with trie := X.trie.insert s ind, spx := sp }

/-- simplicial_complex.hpp:89-154 `_add_unsafe` -/
def addUnsafe (X : SCpx) (s : List Nat) : Res (SCpx × Option Nat) := do
  let dim := s.length - 1
  let ind ← rd X.ncells dim
  let nc ← wr X.ncells dim (ind + 1)
  if 0 < dim then do
    let fs ← rd X.faces (dim - 1)
    let cs ← rd X.coeff (dim - 1)
    let r := faceLoop X.trie s (dim + 1) (-1) fs cs
    if r.2.2 then do
      let b ← sortBlock ((dim + 1) * ind) (dim + 1) r.1 r.2.1
      let Y ← finish { X with ncells := nc, faces := X.faces.set (dim - 1) b.1, coeff := X.coeff.set (dim - 1) b.2 } s dim ind
      pure (Y, some ind)
    else
      pure ({ X with ncells := nc.set dim ind, faces := X.faces.set (dim - 1) (r.1.take fs.length),
                     coeff := X.coeff.set (dim - 1) (r.2.1.take fs.length) }, none)
  else do
    let Y ← finish { X with ncells := nc } s dim ind
    pure (Y, some ind)

/-- simplicial_complex.hpp:159-169 `add_directed_safe` / 378-380 `add_directed`. For the empty simplex `s.size() - 1` wraps around
and `faces.resize` throws `std::length_error`. -/
def addDirected (X : SCpx) (s : List Nat) : Res (SCpx × Option Nat) :=
  if s = [] then .error .thrown else do
    let X := X.reserve (s.length - 1)
    if X.trie.count s > 0 then do
      let i ← X.trie.getRef s
      pure (X, some i)
    else X.addUnsafe s

/-- `std::sort` of the vertices -/
def sortV (s : List Nat) : List Nat := s.insertionSort (· ≤ ·)

/-- simplicial_complex.hpp:173-177 `add_safe` / 371-376 `add` -/
def add (X : SCpx) (s : List Nat) : Res (SCpx × Option Nat) := X.addDirected (sortV s)

/-- simplicial_complex.hpp:201-206: the index of a face, which is added by a recursive call if it is missing -/
def findOrAdd (rec : SCpx → List Nat → List (Nat × Nat) → Res (SCpx × Nat × List (Nat × Nat))) (X : SCpx) (face : List Nat)
    (ci : List (Nat × Nat)) : Res (SCpx × Nat × List (Nat × Nat)) :=
  match X.trie.get? face with
  | some i => .ok (X, i, ci)
  | none => rec X face ci

/-- the face loop of `_add_recursive`, simplicial_complex.hpp:189-210; `rec` is the recursive call on a face -/
def recFaces (rec : SCpx → List Nat → List (Nat × Nat) → Res (SCpx × Nat × List (Nat × Nat))) (s : List Nat) (dim : Nat) :
    Nat → Int → SCpx → List (Nat × Nat) → Res (SCpx × List (Nat × Nat))
  | 0, _, X, ci => .ok (X, ci)
  | k2 + 1, c, X, ci => do
    let r ← findOrAdd rec X (s.eraseIdx k2) ci
    let fs ← rd r.1.faces (dim - 1)
    let cs ← rd r.1.coeff (dim - 1)
    recFaces rec s dim k2 (-c)
      { r.1 with faces := r.1.faces.set (dim - 1) (fs ++ [r.2.1]), coeff := r.1.coeff.set (dim - 1) (cs ++ [c]) } r.2.2

/-- simplicial_complex.hpp:182-240 `_add_recursive`; the first argument is `dim = s.size() - 1`, which decreases by one in the
recursive calls -/
def addRec : Nat → SCpx → List Nat → List (Nat × Nat) → Res (SCpx × Nat × List (Nat × Nat))
  | 0, X, s, ci => do
    let ind ← rd X.ncells 0
    let nc ← wr X.ncells 0 (ind + 1)
    let Y ← finish { X with ncells := nc } s 0 ind
    pure (Y, ind, ci ++ [(0, ind)])
  | d + 1, X, s, ci => do
    let ind ← rd X.ncells (d + 1)
    let nc ← wr X.ncells (d + 1) (ind + 1)
    let r ← recFaces (addRec d) s (d + 1) (d + 2) (-1) { X with ncells := nc } ci
    let fs ← rd r.1.faces d
    let cs ← rd r.1.coeff d
    let b ← sortBlock ((d + 2) * ind) (d + 2) fs cs
    let Y ← finish { r.1 with faces := r.1.faces.set d b.1, coeff := r.1.coeff.set d b.2 } s (d + 1) ind
    pure (Y, ind, r.2 ++ [(d + 1, ind)])

/-- simplicial_complex.hpp:242-256 `add_directed_recursive_safe` -/
def addDirectedRecursive (X : SCpx) (s : List Nat) : Res (SCpx × List (Nat × Nat)) :=
  if s = [] then .error .thrown else do
    let X := X.reserve (s.length - 1)
    if X.trie.count s > 0 then do
      let i ← X.trie.getRef s
      pure (X, [(s.length - 1, i)])
    else do
      let r ← addRec (s.length - 1) X s []
      pure (r.1, r.2.2)

/-- simplicial_complex.hpp:259-263 `add_safe_recursive` / 382-387 `add_recursive` -/
def addRecursive (X : SCpx) (s : List Nat) : Res (SCpx × List (Nat × Nat)) := X.addDirectedRecursive (sortV s)

/-- simplicial_complex.hpp:347 `maxdim()` (there is always at least one dimension) -/
def maxdim (X : SCpx) : Nat := X.ncells.length - 1

/-- simplicial_complex.hpp:349 `ncells(k)` -/
def numCells (X : SCpx) (k : Nat) : Res Nat := rd X.ncells k

/-- simplicial_complex.hpp:400-424 `get_simplex(dim, i)` -/
def getSimplex (X : SCpx) (dim i : Nat) : Res (List Nat) := do
  let v ← rd X.spx dim
  if v.length < (dim + 1) * (i + 1) then .error .ub else pure ((v.drop ((dim + 1) * i)).take (dim + 1))

/-- simplicial_complex.hpp:526-537 `boundary(dim, k)`, for `dim > 0` -/
def boundary (X : SCpx) (dim k : Nat) : Res (List Nat × List Int) := do
  let f ← rd X.faces (dim - 1)
  let c ← rd X.coeff (dim - 1)
  if f.length < (dim + 1) * (k + 1) || c.length < (dim + 1) * (k + 1) then .error .ub
  else pure ((f.drop ((dim + 1) * k)).take (dim + 1), (c.drop ((dim + 1) * k)).take (dim + 1))

/-- simplicial_complex.hpp:541-579 `boundary_csc(dim)`, for `dim > 0` -/
def boundaryCsc (X : SCpx) (dim : Nat) : Res CSC := do
  let m ← rd X.ncells (dim - 1)
  let n ← rd X.ncells dim
  let f ← rd X.faces (dim - 1)
  let c ← rd X.coeff (dim - 1)
  CSC.mk' m n ((List.range (n + 1)).map (· * (dim + 1))) f c

variable {F : Type} [Field F] [DecidableEq F]

/-- loop of chain_complex.hpp:30-38 for `k = k0, k0+1, ..` (`k0 > 0`) -/
def boundaries (X : SCpx) : Nat → Nat → Res (List (CMat F))
  | 0, _ => .ok []
  | n + 1, k => do
    let A ← X.boundaryCsc k
    let M ← A.toCMat
    let r ← boundaries X n (k + 1)
    pure (M :: r)

/-- chain_complex.hpp:26-39 `ChainComplex(X)`: a `1 × n` zero matrix in dimension 0, the boundary matrices above -/
def chainComplex (X : SCpx) : Res (List (CMat F)) := do
  let n ← rd X.ncells 0
  let r ← boundaries X X.maxdim 1
  pure (CMat.zero 1 n :: r)

/-- the calls that add simplices -/
inductive Op where
  | add (s : List Nat)
  | addDirected (s : List Nat)
  | addRecursive (s : List Nat)
  | addDirectedRecursive (s : List Nat)

/-- run one call, dropping the returned indices -/
def step (X : SCpx) : Op → Res SCpx
  | .add s => do let r ← X.add s; pure r.1
  | .addDirected s => do let r ← X.addDirected s; pure r.1
  | .addRecursive s => do let r ← X.addRecursive s; pure r.1
  | .addDirectedRecursive s => do let r ← X.addDirectedRecursive s; pure r.1

/-- run a history of calls -/
def run (X : SCpx) : List Op → Res SCpx
  | [] => .ok X
  | o :: os => do
    let Y ← X.step o
    run Y os

end SCpx

end BATS
