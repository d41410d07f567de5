import Verif.Model.Chain

/-!
# Model of include/persistence/union_find.hpp
-/

namespace BATS
namespace UF

/-- first loop of union_find.hpp:27-29: follow the parents up to a node that is its own parent. The fuel bounds the number of
reads; running out of it is `diverge`. -/
def findRoot (parent : List Nat) : Nat → Nat → Res Nat
  | 0, _ => .error .diverge
  | f + 1, i => do
    let p ← rd parent i
    if p = i then .ok i else findRoot parent f p

/-- second loop of union_find.hpp:32-36: redirect the nodes on the path to the root -/
def compress (root : Nat) : Nat → List Nat → Nat → Res (List Nat)
  | 0, _, _ => .error .diverge
  | f + 1, parent, i => do
    let p ← rd parent i
    if p = root then .ok parent
    else do
      let parent' ← wr parent i root
      compress root f parent' p

/-- union_find.hpp:20-39 `find_parent(parent, i)`: the new parent vector and the root. The fuel is the number of nodes. -/
def findParent (parent : List Nat) (i : Nat) : Res (List Nat × Nat) := do
  let root ← findRoot parent parent.length i
  let parent' ← compress root parent.length parent i
  pure (parent', root)

/-- state of the loops: parents, bars, number of finite bars -/
structure State (T : Type) where
  parent : List Nat
  pairs : List (PPair T)
  nfinite : Nat
deriving DecidableEq

variable {T : Type}

/-- union_find.hpp:97-103 / 106-112 / 235-240 / 244-249: the bar `die` ends at edge `k` with value `d`; `die` and the end `v` of the
edge are redirected to `win` -/
def kill (S : State T) (k : Nat) (d : T) (die v win : Nat) : Res (State T) := do
  let q ← rd S.pairs die
  let pairs ← wr S.pairs die { q with deathInd := some k, death := some d }
  let parent1 ← wr S.parent die win
  let parent2 ← wr parent1 v win
  pure ⟨parent2, pairs, S.nfinite + 1⟩

variable {K : Type} [LT K] [DecidableRel ((· < ·) : K → K → Prop)]

/-- one iteration of union_find.hpp:77-118 after reading the ends `i`, `j` of edge `k` with value `d`; `fl` is the conversion of
a value to `float` (union_find.hpp:91-92). The flag says whether a merge happened. -/
def stepPairs (fl : T → K) (S : State T) (k : Nat) (d : T) (i j : Nat) : Res (State T × Bool) := do
  let (par1, pi) ← findParent S.parent i
  let (par2, pj) ← findParent par1 j
  let S2 : State T := { S with parent := par2 }
  if pi = pj then pure (S2, false)
  else do
    let qi ← rd S2.pairs pi
    let qj ← rd S2.pairs pj
    let S3 ← if fl qi.birth < fl qj.birth then kill S2 k d pj j pi else kill S2 k d pi i pj
    pure (S3, true)

/-- union_find.hpp:77-121, the loop over the edges `(i, j, value)` numbered `k, k+1, ..`: it stops when `nfinite == N - 1` after a
merge (`N - 1` in `size_t`; for `N = 0` it is a number `nfinite` never reaches) -/
def loopPairs (fl : T → K) (N : Nat) : List (Nat × Nat × T) → Nat → State T → Res (State T)
  | [], _, S => .ok S
  | (i, j, d) :: es, k, S => do
    let (S', merged) ← stepPairs fl S k d i j
    if merged ∧ S'.nfinite + 1 = N then pure S' else loopPairs fl N es (k + 1) S'

/-- union_find.hpp:79-82: the first two entries of a column; fewer entries are read past the end -/
def colEnds {F : Type} (c : SVec F) : Res (Nat × Nat) :=
  match c with
  | a :: b :: _ => .ok (a.1, b.1)
  | _ => .error .ub

/-- the edges read by the loop. Simplification: they are read before the loop instead of one by one, so a column without two
entries, or a missing value, is an error even if the loop would stop before it. -/
def readEdges {F : Type} (vals1 : List T) : List (SVec F) → Nat → Res (List (Nat × Nat × T))
  | [], _ => .ok []
  | c :: cs, k => do
    let ij ← colEnds c
    let d ← rd vals1 k
    let rest ← readEdges vals1 cs (k + 1)
    pure ((ij.1, ij.2, d) :: rest)

/-- union_find.hpp:63-73: one bar per vertex -/
def initPairs (vals0 : List T) : Nat → Nat → Res (List (PPair T))
  | 0, _ => .ok []
  | n + 1, k => do
    let b ← rd vals0 k
    let rest ← initPairs vals0 n (k + 1)
    pure (⟨0, k, none, b, none⟩ :: rest)

/-- union_find.hpp:50-124 `union_find_pairs(F)`. `F.complex()[1]` is in filtration order, `F.vals()` is in the original order of
the cells: the code indexes both with the same index. -/
def unionFindPairs {F : Type} (fl : T → K) (X : FiltCpx T F) : Res (List (PPair T)) := do
  let B ← rd X.C 1
  let vals0 ← rd X.val 0
  let vals1 ← rd X.val 1
  let pairs ← initPairs vals0 B.nrow 0
  let es ← readEdges vals1 B.cols 0
  let S ← loopPairs fl B.nrow es 0 ⟨List.range B.nrow, pairs, 0⟩
  pure S.pairs

/-! ## Rips version -/

/-- union_find.hpp:129-130 `k_choose_2` -/
def choose2 (k : Nat) : Nat := k * (k - 1) / 2

/-- union_find.hpp:135-137 `k_choose_2_inv(targ) = ceil((1 + sqrt(1 + 8 targ)) / 2)`. Simplification: exact arithmetic instead of
`double`, i.e. the least `u ≥ 1` with `u (u - 1) ≥ 2 targ`, searched from `u` with fuel. -/
def choose2InvFrom (targ : Nat) : Nat → Nat → Nat
  | 0, u => u
  | f + 1, u => if 2 * targ ≤ u * (u - 1) then u else choose2InvFrom targ f (u + 1)

/-- union_find.hpp:135-137 -/
def choose2Inv (targ : Nat) : Nat := choose2InvFrom targ (targ + 1) 1

/-- union_find.hpp:152-164 `binom_to_inds(k, N)` in `size_t` arithmetic (no wrap occurs for `k < N (N-1) / 2`; natural-number
subtraction is used) -/
def binomToInds (k N : Nat) : Nat × Nat :=
  let N2 := choose2 N
  let targ := N2 - k
  let ub := choose2Inv targ
  let ub2 := choose2 ub
  let i := N - ub
  (i, (k + ub2 + i + 1) - N2)

/-- union_find.hpp:188 `N = (1 + (size_t) sqrt((double)(1 + 8*M))) / 2`, with an exact integer square root -/
def ripsN (M : Nat) : Nat := (1 + Nat.sqrt (1 + 8 * M)) / 2

/-- one iteration of union_find.hpp:214-257 with union by rank -/
def stepRips (S : State T) (rank : List Nat) (k : Nat) (d : T) (i j : Nat) : Res (State T × List Nat × Bool) := do
  let (par1, pi) ← findParent S.parent i
  let (par2, pj) ← findParent par1 j
  let S2 : State T := { S with parent := par2 }
  if pi = pj then pure (S2, rank, false)
  else do
    let ri ← rd rank pi
    let rj ← rd rank pj
    if rj < ri then do
      let S3 ← kill S2 k d pj j pi
      pure (S3, rank, true)
    else do
      let S3 ← kill S2 k d pi i pj
      let rank' ← if ri = rj then wr rank pj (rj + 1) else .ok rank
      pure (S3, rank', true)

/-- union_find.hpp:214-259 -/
def loopRips (N : Nat) : List (Nat × Nat × T) → Nat → State T → List Nat → Res (State T)
  | [], _, S, _ => .ok S
  | (i, j, d) :: es, k, S, rank => do
    let (S', rank', merged) ← stepRips S rank k d i j
    if merged ∧ S'.nfinite + 1 = N then pure S' else loopRips N es (k + 1) S' rank'

/-- the edges visited: index `inds[k]` of the condensed distance vector. Simplification as in `readEdges`. -/
def readRips (vals : List T) (N : Nat) : List Nat → Res (List (Nat × Nat × T))
  | [] => .ok []
  | e :: es => do
    let d ← rd vals e
    let rest ← readRips vals N es
    pure (((binomToInds e N).1, (binomToInds e N).2, d) :: rest)

/-- union_find.hpp:179-262 `rips_union_find_pairs(inds, vals)` -/
def ripsUnionFindPairs [Zero T] (inds : List Nat) (vals : List T) : Res (List (PPair T)) := do
  let N := ripsN inds.length
  let es ← readRips vals N inds
  let S ← loopRips N es 0 ⟨List.range N, (List.range N).map (fun k => ⟨0, k, none, 0, none⟩), 0⟩ (List.replicate N 0)
  pure S.pairs

end UF
end BATS
