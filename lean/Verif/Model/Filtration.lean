import Verif.Model.Simplicial
import Mathlib.Order.Defs.LinearOrder

/-!
# Model of include/filtration/filtration.hpp (over `SimplicialComplex`) and include/filtration/extension.hpp:12-44

Filtration values are elements of a linear order `T` with a default value `0` (`TF()`); NaN is not modelled.
-/

namespace BATS

/-- filtration.hpp:45-49 `Filtration<TF, SimplicialComplex>` -/
structure Filt (T : Type) where
  X : SCpx
  val : List (List T)

namespace Filt

variable {T : Type} [Zero T]

/-- filtration.hpp:51-60 `reserve(dim, n)` -/
def reserve (val : List (List T)) (dim n : Nat) : Res (List (List T)) := do
  let row ← rd (growTo val (dim + 1) []) dim
  wr (growTo val (dim + 1) []) dim (growTo row n 0)

/-- the statements `reserve(dim, ind+1); val[dim][ind] = t` of filtration.hpp:140-141, 154-155, 172-173, 186-187 -/
def setVal (val : List (List T)) (dim ind : Nat) (t : T) : Res (List (List T)) := do
  let v ← reserve val dim (ind + 1)
  let row ← rd v dim
  let row' ← wr row ind t
  wr v dim row'

/-- filtration.hpp:65 `Filtration()` -/
def empty : Filt T := ⟨SCpx.init 0, []⟩

/-- loop of filtration.hpp:69-72 for `dim = k, k+1, ..` -/
def reserveAll (X : SCpx) : Nat → Nat → List (List T) → Res (List (List T))
  | 0, _, v => .ok v
  | n + 1, k, v => do
    let m ← X.numCells k
    let v' ← reserve v k m
    reserveAll X n (k + 1) v'

/-- filtration.hpp:68-73 `Filtration(C)` -/
def ofCpx (X : SCpx) : Res (Filt T) := do
  let v ← reserveAll X (X.maxdim + 1) 0 []
  pure ⟨X, v⟩

/-- filtration.hpp:93 `Filtration(C, vals)` -/
def ofVals (X : SCpx) (vals : List (List T)) : Filt T := ⟨X, vals⟩

/-- filtration.hpp:117 `vals(k)` -/
def vals (Φ : Filt T) (k : Nat) : Res (List T) := rd Φ.val k

/-- filtration.hpp:129 `ncells(dim)` -/
def numCells (Φ : Filt T) (k : Nat) : Res Nat := do
  let v ← rd Φ.val k
  pure v.length

/-- lines 140-141: store the value of the cell returned by the complex. If the complex returned `NO_IND`, `ret.ind + 1` wraps to
0 and `val[dim][NO_IND]` is written out of bounds. -/
def store (val : List (List T)) (dim : Nat) (t : T) (X : SCpx) : Option Nat → Res (Filt T × Nat)
  | none => .error .ub
  | some i => do
    let v ← setVal val dim i t
    pure (⟨X, v⟩, i)

/-- filtration.hpp:137-143 `add(t, s)` -/
def add (Φ : Filt T) (t : T) (s : List Nat) : Res (Filt T × Nat) := do
  let r ← Φ.X.add s
  store Φ.val (s.length - 1) t r.1 r.2

/-- filtration.hpp:151-157 `add_directed(t, s)` -/
def addDirected (Φ : Filt T) (t : T) (s : List Nat) : Res (Filt T × Nat) := do
  let r ← Φ.X.addDirected s
  store Φ.val (s.length - 1) t r.1 r.2

/-- loop of filtration.hpp:171-174 -/
def storeAll (t : T) : List (Nat × Nat) → List (List T) → Res (List (List T))
  | [], v => .ok v
  | p :: ps, v => do
    let v' ← setVal v p.1 p.2 t
    storeAll t ps v'

/-- filtration.hpp:168-176 `add_recursive(t, s)` -/
def addRecursive (Φ : Filt T) (t : T) (s : List Nat) : Res (Filt T × List (Nat × Nat)) := do
  let r ← Φ.X.addRecursive s
  let v ← storeAll t r.2 Φ.val
  pure (⟨r.1, v⟩, r.2)

/-- the calls that add to a filtration -/
inductive Op (T : Type) where
  | add (t : T) (s : List Nat)
  | addDirected (t : T) (s : List Nat)
  | addRecursive (t : T) (s : List Nat)

/-- run one call, dropping the returned indices -/
def step (Φ : Filt T) : Op T → Res (Filt T)
  | .add t s => do let r ← Φ.add t s; pure r.1
  | .addDirected t s => do let r ← Φ.addDirected t s; pure r.1
  | .addRecursive t s => do let r ← Φ.addRecursive t s; pure r.1

/-- run a history of calls -/
def run (Φ : Filt T) : List (Op T) → Res (Filt T)
  | [] => .ok Φ
  | o :: os => do
    let Ψ ← Φ.step o
    run Ψ os

variable [LinearOrder T]

/-- inner loop of `sublevelset`, filtration.hpp:211-215, for `i, i+1, ..` -/
def subRow (Φ : Filt T) (a : T) (k : Nat) : Nat → Nat → SCpx → Res SCpx
  | 0, _, Y => .ok Y
  | n + 1, i, Y => do
    let row ← rd Φ.val k
    let v ← rd row i
    if v ≤ a then do
      let s ← Φ.X.getSimplex k i
      let r ← Y.add s
      subRow Φ a k n (i + 1) r.1
    else subRow Φ a k n (i + 1) Y

/-- outer loop of `sublevelset`, filtration.hpp:210-216, for dimensions `k, k+1, ..` -/
def subLoop (Φ : Filt T) (a : T) : Nat → Nat → SCpx → Res SCpx
  | 0, _, Y => .ok Y
  | n + 1, k, Y => do
    let m ← Φ.numCells k
    let Y' ← subRow Φ a k m 0 Y
    subLoop Φ a n (k + 1) Y'

/-- filtration.hpp:208-218 `sublevelset(a)`; the constructor `CpxT(n, maxdim)` (simplicial_complex.hpp:300-303) only reserves
space beyond `CpxT(maxdim)` -/
def sublevelset (Φ : Filt T) (a : T) : Res SCpx := subLoop Φ a Φ.val.length 0 (SCpx.init Φ.X.maxdim)

end Filt

namespace SCpx

/-- loop of simplicial_complex.hpp:433-439 (`s` is the simplex collected so far) -/
def chunkLoop (n : Nat) : List Nat → List Nat → List (List Nat)
  | [], _ => []
  | i :: l, s => if (s ++ [i]).length = n then (s ++ [i]) :: chunkLoop n l [] else chunkLoop n l (s ++ [i])

/-- simplicial_complex.hpp:430-441 `get_simplices(dim)` -/
def getSimplices (X : SCpx) (dim : Nat) : Res (List (List Nat)) := do
  let v ← rd X.spx dim
  pure (chunkLoop (dim + 1) v [])

end SCpx

section lowerStar
variable {T : Type}

/-- extension.hpp:20-27: the values and indices for one dimension -/
def extendRow (f : List Nat → Res (T × Nat)) : List (List Nat) → Res (List T × List Nat)
  | [] => .ok ([], [])
  | s :: ss => do
    let r ← f s
    let rs ← extendRow f ss
    pure (r.1 :: rs.1, r.2 :: rs.2)

/-- loop of extension.hpp:19-28 for dimensions `k, k+1, ..` -/
def extendLoop (X : SCpx) (f : List Nat → Res (T × Nat)) : Nat → Nat → Res (List (List T) × List (List Nat))
  | 0, _ => .ok ([], [])
  | n + 1, k => do
    let ss ← X.getSimplices k
    let r ← extendRow f ss
    let rs ← extendLoop X f n (k + 1)
    pure (r.1 :: rs.1, r.2 :: rs.2)

/-- extension.hpp:12-30 `extend_filtration(X, f)` -/
def extendFiltration (X : SCpx) (f : List Nat → Res (T × Nat)) : Res (List (List T) × List (List Nat)) :=
  extendLoop X f (X.maxdim + 1) 0

variable [LinearOrder T]

/-- the loop of `std::max_element` with the comparator of extension.hpp:40: `m` is the largest vertex so far -/
def maxVertex (f0 : List T) : Nat → List Nat → Res Nat
  | m, [] => .ok m
  | m, j :: l => do
    let a ← rd f0 m
    let b ← rd f0 j
    if a < b then maxVertex f0 j l else maxVertex f0 m l

/-- extension.hpp:37-42: value and index of the first vertex of maximal value. Dereferencing `max_element` of an empty simplex is
undefined. The values pass through `double`, which is not modelled (`T` is assumed to embed in `double`). -/
def starFn (f0 : List T) : List Nat → Res (T × Nat)
  | [] => .error .ub
  | i :: l => do
    let m ← maxVertex f0 i l
    let v ← rd f0 m
    pure (v, m)

/-- extension.hpp:32-44 `lower_star_filtration(X, f0)` -/
def lowerStar (X : SCpx) (f0 : List T) : Res (List (List T) × List (List Nat)) := extendFiltration X (starFn f0)

end lowerStar

end BATS
