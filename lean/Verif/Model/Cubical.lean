import Verif.Model.Simplicial

/-!
# Model of include/complex/cubical_complex.hpp

A cube of a complex of dimension `D = __maxdim` is a vector of length `2*D`, the endpoints of `D` intervals. `NO_IND` is `none`.
The members `_reserved`, `__face` hold capacities and scratch space and are not modelled.
-/

namespace BATS

/-- cubical_complex.hpp:40-70 `CubicalComplex`; `D` is `__maxdim` -/
structure Cub where
  spx : List (List Nat)
  faces : List (List Nat)
  coeff : List (List Int)
  ncells : List Nat
  trie : Trie Nat
  D : Nat

namespace Cub

/-- cubical_complex.hpp:74-82 `reserve(maxdim)` -/
def reserve (X : Cub) (maxdim : Nat) : Cub :=
  { X with
    ncells := growTo X.ncells (maxdim + 1) 0
    spx := growTo X.spx (maxdim + 1) []
    faces := growTo X.faces maxdim []
    coeff := growTo X.coeff maxdim []
    D := if X.D < maxdim then maxdim else X.D }

/-- cubical_complex.hpp:265 `CubicalComplex()` and 268 `CubicalComplex(maxdim)` -/
def init (maxdim : Nat) : Cub := reserve ⟨[], [], [], [], Trie.empty, maxdim⟩ maxdim

/-- cubical_complex.hpp:103-105: the loop of `is_valid_cube` over the intervals -/
def validLoop : List Nat → Bool
  | a :: b :: s => if b < a || a + 1 < b then false else validLoop s
  | _ => true

/-- cubical_complex.hpp:100-107 `is_valid_cube` -/
def isValidCube (X : Cub) (s : List Nat) : Bool := if s.length ≠ 2 * X.D then false else validLoop s

/-- cubical_complex.hpp:110-116 `cube_dim`, for a vector of `2*__maxdim` entries that is a valid cube -/
def cubeDim : List Nat → Nat
  | a :: b :: s => (b - a) + cubeDim s
  | _ => 0

/-- cubical_complex.hpp:278-284 `find_idx` -/
def findIdx (X : Cub) (s : List Nat) : Option Nat := X.trie.get? s

/-- cubical_complex.hpp:287 `maxdim()` -/
def maxdim (X : Cub) : Nat := X.D

/-- cubical_complex.hpp:289 `ncells(k)` -/
def numCells (X : Cub) (k : Nat) : Res Nat := rd X.ncells k

/-- the face loop of `_add_unsafe`, cubical_complex.hpp:134-161, at position `k` with `n` intervals to go; returns the two vectors
with the entries pushed so far and whether all faces were found -/
def faceLoop (t : Trie Nat) (s : List Nat) : Nat → Nat → Int → List Nat → List Int → Res (List Nat × List Int × Bool)
  | 0, _, _, fs, cs => .ok (fs, cs, true)
  | n + 1, k, c, fs, cs => do
    let a ← rd s k
    let b ← rd s (k + 1)
    if a = b then faceLoop t s n (k + 2) c fs cs else
      match t.get? (s.set k b) with
      | none => pure (fs, cs, false)
      | some i =>
        match t.get? (s.set (k + 1) a) with
        | none => pure (fs ++ [i], cs ++ [c], false)
        | some j => faceLoop t s n (k + 2) (-c) (fs ++ [i] ++ [j]) (cs ++ [c] ++ [-c])

/-- cubical_complex.hpp:166-171 (and 236-241): count and store the cube -/
def finish (X : Cub) (s : List Nat) (dim : Nat) : Res (Cub × Nat) := do
  let ind ← rd X.ncells dim
  let nc ← wr X.ncells dim (ind + 1)
  let v ← rd X.spx dim
  let sp ← wr X.spx dim (v ++ s)
  pure ({ X with ncells := nc, trie := X.trie.insert s ind, spx := sp }, ind)

/-- cubical_complex.hpp:120-174 `_add_unsafe` -/
def addUnsafe (X : Cub) (s : List Nat) : Res (Cub × Option Nat) :=
  let dim := cubeDim s
  if 0 < dim then do
    let fs ← rd X.faces (dim - 1)
    let cs ← rd X.coeff (dim - 1)
    let r ← faceLoop X.trie s X.D 0 1 fs cs
    if r.2.2 then do
      let Y ← finish { X with faces := X.faces.set (dim - 1) r.1, coeff := X.coeff.set (dim - 1) r.2.1 } s dim
      pure (Y.1, some Y.2)
    else
      pure ({ X with faces := X.faces.set (dim - 1) (r.1.take fs.length), coeff := X.coeff.set (dim - 1) (r.2.1.take fs.length) }, none)
  else do
    let Y ← finish X s dim
    pure (Y.1, some Y.2)

/-- cubical_complex.hpp:177-187 `add_safe` / 321-326 `add` -/
def add (X : Cub) (s : List Nat) : Res (Cub × Nat × Option Nat) :=
  if !X.isValidCube s then .error .thrown
  else if X.trie.count s > 0 then do
    let i ← X.trie.getRef s
    pure (X, cubeDim s, some i)
  else do
    let r ← X.addUnsafe s
    pure (r.1, cubeDim s, r.2)

/-- cubical_complex.hpp:212-216 and 221-225: the index of a face, which is added by a recursive call if it is missing -/
def findOrAdd (rec : Cub → List Nat → List (Nat × Nat) → Res (Cub × Nat × List (Nat × Nat))) (X : Cub) (face : List Nat)
    (ci : List (Nat × Nat)) : Res (Cub × Nat × List (Nat × Nat)) :=
  match X.trie.get? face with
  | some i => .ok (X, i, ci)
  | none => rec X face ci

/-- cubical_complex.hpp:217-218 and 226-227: store one face of a cube of dimension `dim` -/
def pushFace (X : Cub) (dim ind : Nat) (c : Int) : Res Cub := do
  let fs ← rd X.faces (dim - 1)
  let cs ← rd X.coeff (dim - 1)
  pure { X with faces := X.faces.set (dim - 1) (fs ++ [ind]), coeff := X.coeff.set (dim - 1) (cs ++ [c]) }

/-- the face loop of `_add_unsafe_recursive`, cubical_complex.hpp:208-231; `rec` is the recursive call on a face -/
def recFaces (rec : Cub → List Nat → List (Nat × Nat) → Res (Cub × Nat × List (Nat × Nat))) (s : List Nat) (dim : Nat) :
    Nat → Nat → Int → Cub → List (Nat × Nat) → Res (Cub × List (Nat × Nat))
  | 0, _, _, X, ci => .ok (X, ci)
  | n + 1, k, c, X, ci => do
    let a ← rd s k
    let b ← rd s (k + 1)
    if a = b then recFaces rec s dim n (k + 2) c X ci else do
      let r ← findOrAdd rec X (s.set k b) ci
      let X1 ← r.1.pushFace dim r.2.1 c
      let r2 ← findOrAdd rec X1 (s.set (k + 1) a) r.2.2
      let X2 ← r2.1.pushFace dim r2.2.1 (-c)
      recFaces rec s dim n (k + 2) (-c) X2 r2.2.2

/-- cubical_complex.hpp:192-245 `_add_unsafe_recursive`; the first argument is `dim = cube_dim(s)`, which decreases by one in the
recursive calls -/
def addRec : Nat → Cub → List Nat → List (Nat × Nat) → Res (Cub × Nat × List (Nat × Nat))
  | 0, X, s, ci => do
    let Y ← finish X s 0
    pure (Y.1, Y.2, ci ++ [(0, Y.2)])
  | d + 1, X, s, ci => do
    let r ← recFaces (addRec d) s (d + 1) X.D 0 1 X ci
    let Y ← finish r.1 s (d + 1)
    pure (Y.1, Y.2, r.2 ++ [(d + 1, Y.2)])

/-- cubical_complex.hpp:248-260 `add_safe_recursive` / 328-333 `add_recursive` -/
def addRecursive (X : Cub) (s : List Nat) : Res (Cub × List (Nat × Nat)) :=
  if !X.isValidCube s then .error .thrown
  else if X.trie.count s > 0 then do
    let i ← X.trie.getRef s
    pure (X, [(cubeDim s, i)])
  else do
    let r ← addRec (cubeDim s) X s []
    pure (r.1, r.2.2)

/-- cubical_complex.hpp:293-295: the loop of `ncells()` from dimension `k`, `n` to go -/
def totalLoop (X : Cub) : Nat → Nat → Res Nat
  | 0, _ => .ok 0
  | n + 1, k => do
    let a ← rd X.ncells k
    let b ← totalLoop X n (k + 1)
    pure (a + b)

/-- cubical_complex.hpp:291-297 `ncells()` -/
def total (X : Cub) : Res Nat := X.totalLoop (X.D + 1) 0

/-- cubical_complex.hpp:300-306 `set_dimension` -/
def setDimension (X : Cub) (maxdim : Nat) : Res Cub := do
  let n ← X.total
  if n > 0 then .error .thrown else pure (X.reserve maxdim)

/-- cubical_complex.hpp:349-376 `get_cube(dim, i)` / `get_cell` -/
def getCube (X : Cub) (dim i : Nat) : Res (List Nat) := do
  let v ← rd X.spx dim
  if v.length < 2 * X.D * (i + 1) then .error .ub else pure ((v.drop (2 * X.D * i)).take (2 * X.D))

/-- cubical_complex.hpp:383-389: the loop of `get_cubes(dim)`; `c` is the cube read so far -/
def cubesLoop (m : Nat) : List Nat → List Nat → List (List Nat)
  | _, [] => []
  | c, x :: l => if (c ++ [x]).length = m then (c ++ [x]) :: cubesLoop m [] l else cubesLoop m (c ++ [x]) l

/-- cubical_complex.hpp:379-391 `get_cubes(dim)` -/
def getCubes (X : Cub) (dim : Nat) : Res (List (List Nat)) := do
  let v ← rd X.spx dim
  pure (cubesLoop (2 * X.D) [] v)

/-- cubical_complex.hpp:397-399: add the cubes of one dimension, ignoring the result -/
def addAll (Y : Cub) : List (List Nat) → Res Cub
  | [] => .ok Y
  | c :: cs => do
    let r ← Y.addUnsafe c
    addAll r.1 cs

/-- cubical_complex.hpp:396-400: the loop of `skeleton` over the dimensions `d, d+1, ..`, `n` to go -/
def skelLoop (X : Cub) : Nat → Nat → Cub → Res Cub
  | 0, _, Y => .ok Y
  | n + 1, d, Y => do
    let cs ← X.getCubes d
    let Z ← addAll Y cs
    skelLoop X n (d + 1) Z

/-- cubical_complex.hpp:393-402 `skeleton(k)` -/
def skeleton (X : Cub) (k : Nat) : Res Cub := if k > X.D then .error .thrown else X.skelLoop (k + 1) 0 (init X.D)

/-- cubical_complex.hpp:424-463 `boundary_csc(dim)`, for `dim > 0` -/
def boundaryCsc (X : Cub) (dim : Nat) : Res CSC := do
  let m ← rd X.ncells (dim - 1)
  let n ← rd X.ncells dim
  let f ← rd X.faces (dim - 1)
  let c ← rd X.coeff (dim - 1)
  CSC.mk' m n ((List.range (n + 1)).map (· * (2 * dim))) f c

variable {F : Type} [Field F] [DecidableEq F]

/-- loop of chain_complex.hpp:30-38 for `k = k0, k0+1, ..` (`k0 > 0`) -/
def boundaries (X : Cub) : Nat → Nat → Res (List (CMat F))
  | 0, _ => .ok []
  | n + 1, k => do
    let A ← X.boundaryCsc k
    let M ← A.toCMat
    let r ← boundaries X n (k + 1)
    pure (M :: r)

/-- chain_complex.hpp:26-39 `ChainComplex(X)` -/
def chainComplex (X : Cub) : Res (List (CMat F)) := do
  let n ← rd X.ncells 0
  let r ← boundaries X X.maxdim 1
  pure (CMat.zero 1 n :: r)

/-- the calls that add cubes -/
inductive Op where
  | add (s : List Nat)
  | addRecursive (s : List Nat)

/-- run one call, dropping the returned indices -/
def step (X : Cub) : Op → Res Cub
  | .add s => do let r ← X.add s; pure r.1
  | .addRecursive s => do let r ← X.addRecursive s; pure r.1

/-- run a history of calls -/
def run (X : Cub) : List Op → Res Cub
  | [] => .ok X
  | o :: os => do
    let Y ← X.step o
    run Y os

/-- cubical_complex.hpp:498-504: the calls made by `generate_cube(n)`, in order -/
def gridOps (n : Nat) : List Op :=
  (List.range (n - 1)).flatMap fun i => (List.range (n - 1)).flatMap fun j => (List.range (n - 1)).map fun k =>
    .addRecursive [i, i + 1, j, j + 1, k, k + 1]

/-- cubical_complex.hpp:493-506 `generate_cube(n)` -/
def generateCube (n : Nat) : Res Cub := if n < 2 then .error .thrown else (init 3).run (gridOps n)

end Cub

end BATS
