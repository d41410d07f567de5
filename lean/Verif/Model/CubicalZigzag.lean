import Verif.Model.CubicalFilt
import Verif.Model.ZigzagHist

/-!
# Model of `ZigzagFiltration<CubicalComplex, T>` (include/zigzag/zigzag_filtration.hpp) and of `zigzag_toplex` (include/topology/levelset.hpp:22-233)

Values are elements of a linear order `T`; NaN is not modelled. `std::numeric_limits<T>::max()` and `lowest()` are parameters `tmax`, `tlow`.
-/

namespace BATS
namespace Zigzag

/-- zigzag_filtration.hpp:25-28: members `X`, `val` -/
structure CZFilt (T : Type) where
  X : Cub
  val : List (List (List (T × T)))

section
variable {T : Type}

/-- zigzag_filtration.hpp:50-51 `ZigzagFiltration(D)` -/
def CZFilt.init (D : Nat) : CZFilt T := ⟨Cub.init D, []⟩

/-- zigzag_filtration.hpp:105-117 `add(entry, exit, s)`. If the complex returned `NO_IND` (a face is missing), `val[dim][NO_IND]` is accessed out of bounds. -/
def CZFilt.add (Φ : CZFilt T) (p : T × T) (s : List Nat) : Res (CZFilt T) := do
  let r ← Φ.X.add s
  match r.2.2 with
  | none => .error .ub
  | some i => do
    let v ← push Φ.val r.2.1 i p
    pure ⟨r.1, v⟩

/-- a history of calls of `add` -/
def CZFilt.run (Φ : CZFilt T) : List ((T × T) × List Nat) → Res (CZFilt T)
  | [] => .ok Φ
  | o :: os => do
    let Ψ ← Φ.add o.1 o.2
    CZFilt.run Ψ os

variable [LinearOrder T]

/-- inner loop of `levelset`, zigzag_filtration.hpp:157-162, for `i, i+1, ..`, `n` to go -/
def cubLevelRow (Φ : CZFilt T) (s0 s1 : T) (k : Nat) : Nat → Nat → Cub → Res Cub
  | 0, _, Y => .ok Y
  | n + 1, i, Y => do
    let row ← rd Φ.val k
    let v ← rd row i
    let p ← rd v 0
    if endInside s0 s1 p then do
      let s ← Φ.X.getCube k i
      let r ← Y.add s
      cubLevelRow Φ s0 s1 k n (i + 1) r.1
    else cubLevelRow Φ s0 s1 k n (i + 1) Y

/-- outer loop of `levelset`, zigzag_filtration.hpp:156-163, for dimensions `k, k+1, ..`, `n` to go -/
def cubLevelLoop (Φ : CZFilt T) (s0 s1 : T) : Nat → Nat → Cub → Res Cub
  | 0, _, Y => .ok Y
  | n + 1, k, Y => do
    let m ← Φ.X.numCells k
    let Y' ← cubLevelRow Φ s0 s1 k m 0 Y
    cubLevelLoop Φ s0 s1 n (k + 1) Y'

/-- zigzag_filtration.hpp:152-166 `levelset(s0, s1)`; the constructor `CpxT(n, maxdim)` only reserves space beyond `CpxT(maxdim)`, and reads
`X.ncells(0)` -/
def cubLevelset (Φ : CZFilt T) (s0 s1 : T) : Res Cub := do
  let _ ← Φ.X.numCells 0
  cubLevelLoop Φ s0 s1 (Φ.X.maxdim + 1) 0 (Cub.init Φ.X.maxdim)

/-- `std::min(a, b)` -/
def stdMin (a b : T) : T := if b < a then b else a

/-- levelset.hpp:44-45 and the like: `b = std::min(b, v); d = std::max(d, v);` -/
def widen (p : T × T) (v : T) : T × T := (stdMin p.1 v, stdMax p.2 v)

/-- levelset.hpp:87-88 and the like, for 1-cubes: `b = std::min(b, v); d = std::max(b, v);` -/
def widenEdge (p : T × T) (v : T) : T × T := (stdMin p.1 v, stdMax (stdMin p.1 v) v)

/-- the sequence of conditional updates of `(b, d)`, e.g. levelset.hpp:43-74: for every voxel with its guard -/
def voxelLoop (g : T × T → T → T × T) (img : List (List (List T))) : List (Bool × Nat × Nat × Nat) → T × T → Res (T × T)
  | [], p => .ok p
  | (c, i, j, k) :: l, p =>
    if c then do
      let v ← pix3 img i j k
      voxelLoop g img l (g p v)
    else voxelLoop g img l p

/-- three nested loops `for i < a, j < b, k < c` -/
def triples (a b c : Nat) : List (Nat × Nat × Nat) :=
  (List.range a).flatMap fun i => (List.range b).flatMap fun j => (List.range c).map fun k => (i, j, k)

/-- one of the eight triple loops of `zigzag_toplex`: compute the interval of a cube and add it -/
def toplexLoop (f : Nat → Nat → Nat → Res (T × T)) (mk : Nat → Nat → Nat → List Nat) : List (Nat × Nat × Nat) → CZFilt T → Res (CZFilt T)
  | [], Φ => .ok Φ
  | (i, j, k) :: l, Φ => do
    let p ← f i j k
    let Ψ ← Φ.add p (mk i j k)
    toplexLoop f mk l Ψ

section
variable (n1 n2 n3 : Nat) (i j k : Nat)

/-- levelset.hpp:43-74: guards and voxels for a 0-cube -/
def voxV : List (Bool × Nat × Nat × Nat) :=
  [(decide (i < n1 - 1) && decide (j < n2 - 1) && decide (k < n3 - 1), i, j, k),
   (decide (i > 0) && decide (j < n2 - 1) && decide (k < n3 - 1), i - 1, j, k),
   (decide (i < n1 - 1) && decide (j > 0) && decide (k < n3 - 1), i, j - 1, k),
   (decide (i < n1 - 1) && decide (j < n2 - 1) && decide (k > 0), i, j, k - 1),
   (decide (i < n1 - 1) && decide (j > 0) && decide (k > 0), i, j - 1, k - 1),
   (decide (i > 0) && decide (j < n2 - 1) && decide (k > 0), i - 1, j, k - 1),
   (decide (i > 0) && decide (j > 0) && decide (k < n3 - 1), i - 1, j - 1, k),
   (decide (i > 0) && decide (j > 0) && decide (k > 0), i - 1, j - 1, k - 1)]

/-- levelset.hpp:88-103: 1-cubes in direction i -/
def voxE1 : List (Bool × Nat × Nat × Nat) :=
  [(decide (j > 0) && decide (k > 0), i, j - 1, k - 1), (decide (j < n2 - 1) && decide (k < n3 - 1), i, j, k),
   (decide (j > 0) && decide (k < n3 - 1), i, j - 1, k), (decide (j < n2 - 1) && decide (k > 0), i, j, k - 1)]

/-- levelset.hpp:114-129: 1-cubes in direction j -/
def voxE2 : List (Bool × Nat × Nat × Nat) :=
  [(decide (i > 0) && decide (k > 0), i - 1, j, k - 1), (decide (i < n1 - 1) && decide (k < n3 - 1), i, j, k),
   (decide (i > 0) && decide (k < n3 - 1), i - 1, j, k), (decide (i < n1 - 1) && decide (k > 0), i, j, k - 1)]

/-- levelset.hpp:140-155: 1-cubes in direction k -/
def voxE3 : List (Bool × Nat × Nat × Nat) :=
  [(decide (i > 0) && decide (j > 0), i - 1, j - 1, k), (decide (i < n1 - 1) && decide (j < n2 - 1), i, j, k),
   (decide (i > 0) && decide (j < n2 - 1), i - 1, j, k), (decide (i < n1 - 1) && decide (j > 0), i, j - 1, k)]

/-- levelset.hpp:168-175: 2-cubes in the i-j plane -/
def voxF12 : List (Bool × Nat × Nat × Nat) := [(decide (k < n3 - 1), i, j, k), (decide (k > 0), i, j, k - 1)]

/-- levelset.hpp:186-193: 2-cubes in the j-k plane -/
def voxF23 : List (Bool × Nat × Nat × Nat) := [(decide (i < n1 - 1), i, j, k), (decide (i > 0), i - 1, j, k)]

/-- levelset.hpp:204-211: 2-cubes in the i-k plane -/
def voxF13 : List (Bool × Nat × Nat × Nat) := [(decide (j < n2 - 1), i, j, k), (decide (j > 0), i, j - 1, k)]

end

/-- levelset.hpp:222-226: the interval of a 3-cube -/
def voxelInterval (img : List (List (List T))) (i j k : Nat) : Res (T × T) := do
  let v ← pix3 img i j k
  let w ← pix3 img i j k
  pure (v, w)

/-- levelset.hpp:22-233 `zigzag_toplex(img)` -/
def zigzagToplex (tmax tlow : T) (img : List (List (List T))) : Res (CZFilt T) := do
  let r ← rd img 0
  let r' ← rd img 0
  let c ← rd r' 0
  let n1 := img.length + 1
  let n2 := r.length + 1
  let n3 := c.length + 1
  let p0 := (tmax, tlow)
  let A0 ← toplexLoop (fun i j k => voxelLoop widen img (voxV n1 n2 n3 i j k) p0) (fun i j k => [i, i, j, j, k, k]) (triples n1 n2 n3) (CZFilt.init 3)
  let A1 ← toplexLoop (fun i j k => voxelLoop widenEdge img (voxE1 n2 n3 i j k) p0) (fun i j k => [i, i + 1, j, j, k, k]) (triples (n1 - 1) n2 n3) A0
  let A2 ← toplexLoop (fun i j k => voxelLoop widenEdge img (voxE2 n1 n3 i j k) p0) (fun i j k => [i, i, j, j + 1, k, k]) (triples n1 (n2 - 1) n3) A1
  let A3 ← toplexLoop (fun i j k => voxelLoop widenEdge img (voxE3 n1 n2 i j k) p0) (fun i j k => [i, i, j, j, k, k + 1]) (triples n1 n2 (n3 - 1)) A2
  let A4 ← toplexLoop (fun i j k => voxelLoop widen img (voxF12 n3 i j k) p0) (fun i j k => [i, i + 1, j, j + 1, k, k]) (triples (n1 - 1) (n2 - 1) n3) A3
  let A5 ← toplexLoop (fun i j k => voxelLoop widen img (voxF23 n1 i j k) p0) (fun i j k => [i, i, j, j + 1, k, k + 1]) (triples n1 (n2 - 1) (n3 - 1)) A4
  let A6 ← toplexLoop (fun i j k => voxelLoop widen img (voxF13 n2 i j k) p0) (fun i j k => [i, i + 1, j, j, k, k + 1]) (triples (n1 - 1) n2 (n3 - 1)) A5
  toplexLoop (fun i j k => voxelInterval img i j k) (fun i j k => [i, i + 1, j, j + 1, k, k + 1]) (triples (n1 - 1) (n2 - 1) (n3 - 1)) A6

end

end Zigzag
end BATS
