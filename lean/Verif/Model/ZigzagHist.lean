import Verif.Model.Filtration

/-!
# Model of `ZigzagFiltration<SimplicialComplex, T>`: histories of additions and level sets (include/zigzag/zigzag_filtration.hpp:25-170)

The class has the same members as `Filtration` (a complex and values per cell), so the structure `Filt` is reused with lists of intervals as values.
-/

namespace BATS
namespace Zigzag
open SCpx

variable {T : Type}

/-- zigzag_filtration.hpp:25-28: members `X`, `val` -/
abbrev ZFilt (T : Type) : Type := Filt (List (T × T))

/-- zigzag_filtration.hpp:42 `ZigzagFiltration()` -/
def ZFilt.empty : ZFilt T := ⟨SCpx.init 0, []⟩

/-- the statements `reserve(dim, ind+1); val[dim][ind].emplace_back(p)` of zigzag_filtration.hpp:108-109, 114-115, 130-131, 138-139 with `reserve` of
lines 30-38 -/
def push (val : List (List (List (T × T)))) (dim ind : Nat) (p : T × T) : Res (List (List (List (T × T)))) := do
  let val := growTo val (dim + 1) []
  let row ← rd val dim
  let row := growTo row (ind + 1) []
  let old ← rd row ind
  let row' ← wr row ind (old ++ [p])
  wr val dim row'

/-- zigzag_filtration.hpp:105-117 `add(entry, exit, s)`. If the complex returned `NO_IND` (a face is missing), `ret.ind + 1` wraps to 0 and
`val[dim][NO_IND]` is accessed out of bounds. -/
def ZFilt.add (Φ : ZFilt T) (p : T × T) (s : List Nat) : Res (ZFilt T) := do
  let r ← Φ.X.add s
  match r.2 with
  | none => .error .ub
  | some i => do
    let v ← push Φ.val (s.length - 1) i p
    pure ⟨r.1, v⟩

/-- loop of zigzag_filtration.hpp:129-132 and 137-140 -/
def pushAll (p : T × T) : List (Nat × Nat) → List (List (List (T × T))) → Res (List (List (List (T × T))))
  | [], v => .ok v
  | c :: cs, v => do
    let v' ← push v c.1 c.2 p
    pushAll p cs v'

/-- zigzag_filtration.hpp:126-142 `add_recursive(entry, exit, s)` -/
def ZFilt.addRecursive (Φ : ZFilt T) (p : T × T) (s : List Nat) : Res (ZFilt T) := do
  let r ← Φ.X.addRecursive s
  let v ← pushAll p r.2 Φ.val
  pure ⟨r.1, v⟩

/-- the calls that add to a zigzag filtration -/
inductive ZOp (T : Type) where
  | add (p : T × T) (s : List Nat)
  | addRecursive (p : T × T) (s : List Nat)

/-- run one call -/
def ZFilt.step (Φ : ZFilt T) : ZOp T → Res (ZFilt T)
  | .add p s => ZFilt.add Φ p s
  | .addRecursive p s => ZFilt.addRecursive Φ p s

/-- run a history of calls -/
def ZFilt.run (Φ : ZFilt T) : List (ZOp T) → Res (ZFilt T)
  | [] => .ok Φ
  | o :: os => do
    let Ψ ← ZFilt.step Φ o
    ZFilt.run Ψ os

variable [LinearOrder T]

/-- the condition of zigzag_filtration.hpp:159 for the first interval of a cell -/
def endInside (s0 s1 : T) (p : T × T) : Bool := (decide (s0 < p.1) && decide (p.1 < s1)) || (decide (s0 < p.2) && decide (p.2 < s1))

/-- inner loop of `levelset`, zigzag_filtration.hpp:157-162, for `i, i+1, ..` -/
def levelRow (Φ : ZFilt T) (s0 s1 : T) (k : Nat) : Nat → Nat → SCpx → Res SCpx
  | 0, _, Y => .ok Y
  | n + 1, i, Y => do
    let row ← rd Φ.val k
    let v ← rd row i
    let p ← rd v 0
    if endInside s0 s1 p then do
      let s ← Φ.X.getSimplex k i
      let r ← Y.add s
      levelRow Φ s0 s1 k n (i + 1) r.1
    else levelRow Φ s0 s1 k n (i + 1) Y

/-- outer loop of `levelset`, zigzag_filtration.hpp:156-163, for dimensions `k, k+1, ..` -/
def levelLoop (Φ : ZFilt T) (s0 s1 : T) : Nat → Nat → SCpx → Res SCpx
  | 0, _, Y => .ok Y
  | n + 1, k, Y => do
    let m ← Φ.X.numCells k
    let Y' ← levelRow Φ s0 s1 k m 0 Y
    levelLoop Φ s0 s1 n (k + 1) Y'

/-- zigzag_filtration.hpp:152-166 `levelset(s0, s1)`; the constructor `CpxT(n, maxdim)` only reserves space beyond `CpxT(maxdim)` -/
def levelset (Φ : ZFilt T) (s0 s1 : T) : Res SCpx := levelLoop Φ s0 s1 (Φ.X.maxdim + 1) 0 (SCpx.init Φ.X.maxdim)

end Zigzag
end BATS
