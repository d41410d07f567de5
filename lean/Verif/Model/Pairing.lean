import Verif.Model.Basic

/-!
# Model of include/morse/pairing.hpp: `MorsePairing`

The part that does not refer to the underlying complex (`cpx`): the constructors from sizes, `set_pair`, `set_pair_edge` (both), `clear`, and the
queries. Reads and writes outside of a vector are undefined behaviour. The recursion of `find_parent` has fuel; the theorems show that it suffices.
-/

namespace BATS

/-- pairing.hpp:15-27: the members (without the pointer `cpx`) -/
structure MPair where
  ispaired : List (List Bool)
  up : List (List Nat)
  down : List (List Nat)
  maxdim : Nat
  parent : List Nat
deriving DecidableEq

namespace MPair

/-- `v.resize(n, a)` if `v` is shorter than `n` -/
def grow {A : Type} (v : List A) (n : Nat) (a : A) : List A := v ++ List.replicate (n - v.length) a

/-- pairing.hpp:205 the default constructor -/
def empty : MPair := ⟨[], [], [], 0, []⟩

/-- pairing.hpp:38-49 `reserve(dim)` -/
def reserve (M : MPair) (dim : Nat) : MPair :=
  { M with ispaired := grow M.ispaired (dim + 1) [], up := grow M.up (dim + 1) [], down := grow M.down dim [], maxdim := max M.maxdim dim }

/-- pairing.hpp:51-71 `reserve(dim, n)` -/
def reserveN (M : MPair) (dim n : Nat) : MPair :=
  let M1 := M.reserve dim
  { M1 with
    ispaired := M1.ispaired.modify dim (fun l => grow l n false)
    parent := if dim = 0 then M1.parent ++ List.range' M1.parent.length (n - M1.parent.length) else M1.parent }

/-- pairing.hpp:219-221: the loop of the constructor, from dimension `dim` on -/
def ofSizes (M : MPair) : List Nat → Nat → MPair
  | [], _ => M
  | n :: ns, dim => ofSizes (M.reserveN dim n) ns (dim + 1)

/-- pairing.hpp:218-222 `MorsePairing(ncells)` -/
def init (ncells : List Nat) : MPair := ofSizes empty ncells 0

/-- pairing.hpp:30-35 `find_parent(i)`: the parents afterwards and the result. The fuel bounds the depth of the recursion. -/
def findParent : Nat → List Nat → Nat → Res (List Nat × Nat)
  | 0, _, _ => .error .diverge
  | f + 1, parent, i => do
    let x ← rd parent i
    if i ≠ x then do
      let (parent1, r) ← findParent f parent x
      let parent2 ← wr parent1 i r
      pure (parent2, r)
    else pure (parent, x)

/-- pairing.hpp:90-96 `_set_pair_unsafe(dim, i, j)` -/
def setPairUnsafe (M : MPair) (dim i j : Nat) : Res (MPair × Bool) := do
  let u ← rd M.up dim
  let up ← wr M.up dim (u ++ [i])
  let d ← rd M.down dim
  let down ← wr M.down dim (d ++ [j])
  let a ← rd M.ispaired dim
  let a' ← wr a i true
  let isp1 ← wr M.ispaired dim a'
  let b ← rd isp1 (dim + 1)
  let b' ← wr b j true
  let isp2 ← wr isp1 (dim + 1) b'
  pure ({ M with ispaired := isp2, up := up, down := down }, true)

/-- pairing.hpp:118-120 and 246 `set_pair(dim, i, j)` -/
def setPair (M : MPair) (dim i j : Nat) : Res (MPair × Bool) := do
  let a ← rd M.ispaired dim
  let ai ← rd a i
  if ai then pure (M, false)
  else do
    let b ← rd M.ispaired (dim + 1)
    let bj ← rd b j
    if bj then pure (M, false) else M.setPairUnsafe dim i j

/-- pairing.hpp:123-142 and 249 `set_pair_edge(i, j, ei)` -/
def setEdge (M : MPair) (i j ei : Nat) : Res (MPair × Bool) := do
  let (par1, pi) ← findParent M.parent.length M.parent i
  let (par2, pj) ← findParent par1.length par1 j
  if pi = pj then pure ({ M with parent := par2 }, false)
  else if pi < pj then do
    let par3 ← wr par2 pj pi
    setPairUnsafe { M with parent := par3 } 0 pj ei
  else do
    let par3 ← wr par2 pi pj
    setPairUnsafe { M with parent := par3 } 0 pi ei

variable {T : Type} [LT T] [DecidableRel ((· < ·) : T → T → Prop)] [DecidableEq T]

/-- pairing.hpp:146-166 and 250-253 `set_pair_edge(i, j, ei, rank)` -/
def setEdgeRank (rank : List T) (M : MPair) (i j ei : Nat) : Res (MPair × Bool) := do
  let (par1, pi) ← findParent M.parent.length M.parent i
  let (par2, pj) ← findParent par1.length par1 j
  if pi = pj then pure ({ M with parent := par2 }, false)
  else do
    let ri ← rd rank pi
    let rj ← rd rank pj
    if ri < rj ∨ (ri = rj ∧ pi < pj) then do
      let par3 ← wr par2 pj pi
      setPairUnsafe { M with parent := par3 } 0 pj ei
    else do
      let par3 ← wr par2 pi pj
      setPairUnsafe { M with parent := par3 } 0 pi ei

/-- pairing.hpp:225-235 `clear()`: the parents are kept -/
def clear (M : MPair) : MPair :=
  { M with ispaired := M.ispaired.map (fun l => List.replicate l.length false), up := M.up.map (fun _ => []), down := M.down.map (fun _ => []) }

/-- pairing.hpp:238-239 `size(dim)`, `ncells(dim)` -/
def ncells (M : MPair) (dim : Nat) : Res Nat := do
  let a ← rd M.ispaired dim
  pure a.length

/-- pairing.hpp:243 `is_paired(dim, i)` -/
def isPaired (M : MPair) (dim i : Nat) : Res Bool := do
  let a ← rd M.ispaired dim
  rd a i

/-- pairing.hpp:255 `up_paired(dim)` -/
def upPaired (M : MPair) (dim : Nat) : Res (List Nat) := rd M.up dim

/-- pairing.hpp:256 `down_paired(dim)`; `dim - 1` wraps around for `dim = 0`, which is out of range -/
def downPaired (M : MPair) (dim : Nat) : Res (List Nat) := if dim = 0 then .error .ub else rd M.down (dim - 1)

/-- pairing.hpp:259-263: the loop of `unpaired` over the entries from index `i` on -/
def unpairedFrom : List Bool → Nat → List Nat
  | [], _ => []
  | b :: bs, i => if b then unpairedFrom bs (i + 1) else i :: unpairedFrom bs (i + 1)

/-- pairing.hpp:257-265 `unpaired(dim)` -/
def unpaired (M : MPair) (dim : Nat) : Res (List Nat) := do
  let a ← rd M.ispaired dim
  pure (unpairedFrom a 0)

/-- the calls that change the pairing -/
inductive Op where
  /-- `set_pair(dim, i, j)` -/
  | pair (dim i j : Nat)
  /-- `set_pair_edge(i, j, ei)`, or `set_pair_edge(i, j, ei, rank)` -/
  | edge (i j ei : Nat)
  /-- `clear()` -/
  | clear
deriving DecidableEq

/-- one call; `rank` is the argument of all calls of `set_pair_edge`, if any. `clear` has no result (`false`) -/
def step (rank : Option (List T)) (M : MPair) : Op → Res (MPair × Bool)
  | .pair d i j => M.setPair d i j
  | .edge i j ei => match rank with
    | none => M.setEdge i j ei
    | some r => setEdgeRank r M i j ei
  | .clear => .ok (M.clear, false)

/-- a history of calls: the pairing afterwards and the results of the calls -/
def run (rank : Option (List T)) (M : MPair) : List Op → Res (MPair × List Bool)
  | [] => .ok (M, [])
  | o :: os => do
    let (M1, b) ← M.step rank o
    let (M2, bs) ← run rank M1 os
    pure (M2, b :: bs)

end MPair
end BATS
