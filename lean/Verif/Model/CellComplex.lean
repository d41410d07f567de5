import Verif.Model.Simplicial

/-!
# Model of include/complex/cell_complex.hpp: `CellComplex`

The `assert` on the lengths in `add` is modelled as an abnormal outcome (with NDEBUG it is not compiled and the offsets of the coefficients no longer
match those of the faces). `reserve(dim, k)` (capacities only, unused) is not modelled.
-/

namespace BATS

/-- cell_complex.hpp:19-26: the members -/
structure CellCpx where
  ncells : List Nat
  ptr : List (List Nat)
  bdr : List (List Nat)
  coeff : List (List Int)
deriving DecidableEq

namespace CellCpx

/-- cell_complex.hpp:28-34 `reserve(maxdim)` -/
def reserve (X : CellCpx) (maxdim : Nat) : CellCpx :=
  ⟨growTo X.ncells (maxdim + 1) 0, growTo X.ptr maxdim [0], growTo X.bdr maxdim [], growTo X.coeff maxdim []⟩

/-- cell_complex.hpp:106, 108 `CellComplex()` (`maxdim = 0`), `CellComplex(maxdim)` -/
def init (maxdim : Nat) : CellCpx := reserve ⟨[], [], [], []⟩ maxdim

/-- cell_complex.hpp:111 `maxdim()` -/
def maxdim (X : CellCpx) : Nat := X.ncells.length - 1

/-- cell_complex.hpp:113 `ncells(k)` -/
def numCells (X : CellCpx) (k : Nat) : Res Nat := if k ≤ X.maxdim then rd X.ncells k else .ok 0

/-- cell_complex.hpp:117-119: the loop of `ncells()` from `k` on -/
def totalLoop (X : CellCpx) : Nat → Nat → Nat → Res Nat
  | 0, _, ct => .ok ct
  | n + 1, k, ct => do let a ← X.numCells k; totalLoop X n (k + 1) (ct + a)

/-- cell_complex.hpp:115-121 `ncells()` -/
def total (X : CellCpx) : Res Nat := X.totalLoop (X.maxdim + 1) 0 0

/-- cell_complex.hpp:70-72, 133 `add_vertex()` -/
def addVertex (X : CellCpx) : Res (CellCpx × Nat) := do
  let n ← rd X.ncells 0
  let l ← wr X.ncells 0 (n + 1)
  pure ({ X with ncells := l }, n)

/-- cell_complex.hpp:75-78, 134 `add_vertices(k)` -/
def addVertices (X : CellCpx) (k : Nat) : Res (CellCpx × Nat) := do
  let n ← rd X.ncells 0
  let l ← wr X.ncells 0 (n + k)
  pure ({ X with ncells := l }, n + k)

/-- cell_complex.hpp:48-67 `add_unsafe(b, c, k)`, `k > 0` -/
def addUnsafe (X : CellCpx) (b : List Nat) (c : List Int) (k : Nat) : Res (CellCpx × Nat) := do
  let f ← rd X.bdr (k - 1)
  let bdr ← wr X.bdr (k - 1) (f ++ b)
  let a ← rd X.coeff (k - 1)
  let coeff ← wr X.coeff (k - 1) (a ++ c)
  let p ← rd X.ptr (k - 1)
  let f' ← rd bdr (k - 1)
  let ptr ← wr X.ptr (k - 1) (p ++ [f'.length])
  let n ← rd X.ncells k
  let ncells ← wr X.ncells k (n + 1)
  pure (⟨ncells, ptr, bdr, coeff⟩, n)

/-- cell_complex.hpp:80-93, 124-130 `add(b, c, k)` -/
def add (X : CellCpx) (b : List Nat) (c : List Int) (k : Nat) : Res (CellCpx × Nat) :=
  if k = 0 then X.addVertex
  else if b.length = c.length then (X.reserve k).addUnsafe b c k
  else .error .thrown

/-- cell_complex.hpp:137-145 `boundary_csc(dim)`; `ptr[dim-1]` is out of bounds for `dim = 0` -/
def boundaryCsc (X : CellCpx) (dim : Nat) : Res CSC :=
  if dim = 0 then .error .ub else do
    let m ← X.numCells (dim - 1)
    let n ← X.numCells dim
    let p ← rd X.ptr (dim - 1)
    let f ← rd X.bdr (dim - 1)
    let c ← rd X.coeff (dim - 1)
    CSC.mk' m n p f c

variable {F : Type} [Field F] [DecidableEq F]

/-- loop of chain_complex.hpp:30-38 for `k = k0, k0+1, ..` (`k0 > 0`) -/
def boundaries (X : CellCpx) : Nat → Nat → Res (List (CMat F))
  | 0, _ => .ok []
  | n + 1, k => do
    let A ← X.boundaryCsc k
    let M ← A.toCMat
    let r ← boundaries X n (k + 1)
    pure (M :: r)

/-- chain_complex.hpp:26-39 `ChainComplex(X)` -/
def chainComplex (X : CellCpx) : Res (List (CMat F)) := do
  let n ← X.numCells 0
  let r ← boundaries X X.maxdim 1
  pure (CMat.zero 1 n :: r)

/-- the calls that add cells -/
inductive Op where
  | vertex
  | vertices (k : Nat)
  | add (b : List Nat) (c : List Int) (k : Nat)
deriving DecidableEq

/-- run one call: complex and returned number -/
def step (X : CellCpx) : Op → Res (CellCpx × Nat)
  | .vertex => X.addVertex
  | .vertices k => X.addVertices k
  | .add b c k => X.add b c k

/-- run a history of calls: complex and returned numbers -/
def run (X : CellCpx) : List Op → Res (CellCpx × List Nat)
  | [] => .ok (X, [])
  | o :: os => do
    let (X1, r) ← X.step o
    let (X2, rs) ← run X1 os
    pure (X2, r :: rs)

end CellCpx
end BATS
