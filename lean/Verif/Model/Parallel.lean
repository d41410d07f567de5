import Verif.Model.Reduction

/-!
# Model of include/homology/parallel.hpp

Divide-and-conquer reduction with OpenMP tasks. The pivot map is `std::unordered_map<size_t, size_t>`: here a list of pairs (row, column) with distinct rows; the order in
which the final loop runs through the map is a parameter.

A running computation is a tree of tasks working on one shared list of columns. One step of a task is one iteration of a loop (a column addition, or the end of the work on
a column), or a call, or the end of a call, or a `taskwait`. A schedule chooses, at every step, a task that is not waiting. Finer interleavings give nothing
new as long as no two tasks access the same column, one of them writing; this holds, because a task only accesses columns of its range (theorem `C71_task_locality`).
-/

namespace BATS
namespace Par
open Reduction

variable {F : Type} [Field F] [DecidableEq F]

/-- `std::unordered_map<size_t, size_t>` from pivots to columns -/
abbrev PMap := List (Nat × Nat)

/-- one iteration of the loop of `reduce_column_standard(M, j, p2c, tmp)`, parallel.hpp:167-186: the new columns, and the new map if the loop ends -/
def colIter (j : Nat) (cols : List (SVec F)) (p : PMap) : Res (List (SVec F) × Option PMap) := do
  let c ← rd cols j
  if c.isEmpty then .ok (cols, some p)
  else do
    let piv ← SVec.lastnz c
    match p.lookup piv.1 with
    | some k =>
      let ck ← rd cols k
      let pk ← SVec.lastnz ck
      let a ← CMat.fdiv piv.2 pk.2
      .ok (cols.set j (SVec.axpy (-a) ck c), none)
    | none => .ok (cols, some ((piv.1, j) :: p))

/-- a task of `reduce_block_dq(M, j0, j1, max_block_size, level, max_depth)`, parallel.hpp:261-302 -/
inductive Task where
  /-- the call has not started -/
  | block (j0 j1 level : Nat)
  /-- `reduce_block_sequential(M, j0, j1)`, 234-250, before an iteration with column `j` -/
  | seq (j j1 : Nat) (p : PMap) (nz : List Nat)
  /-- the two tasks are created, the creator is at the `taskwait` -/
  | fork (l r : Task)
  /-- the loop over `nzcol2`, 295-299 -/
  | merge (rest : List Nat) (p : PMap) (nz : List Nat)
  /-- the call has returned -/
  | done (p : PMap) (nz : List Nat)
  deriving DecidableEq, Repr

/-- the value returned by a task that is finished -/
def Task.result : Task → Option (PMap × List Nat)
  | .done p nz => some (p, nz)
  | _ => none

/-- an iteration with column `j`; `again` is the task if the loop over the entries of the column goes on, `next` if it ends (with the new map and list of nonzero columns) -/
def iterate (j : Nat) (cols : List (SVec F)) (p : PMap) (nz : List Nat) (again : Task) (next : PMap → List Nat → Task) : Res (Task × List (SVec F)) := do
  let r ← colIter j cols p
  match r.2 with
  | none => .ok (again, r.1)
  | some p' => do
    let c ← rd r.1 j
    .ok (next p' (if c.isEmpty then nz else nz ++ [j]), r.1)

/-- One step of a tree of tasks. The path says which of the two tasks of a `fork` runs (`false` for the first). `none`: the path leads to no task that can run. -/
def step (mbs maxDepth : Nat) : List Bool → Task → List (SVec F) → Option (Res (Task × List (SVec F)))
  | _, .block j0 j1 level, cols =>
    if j1 - j0 < mbs ∨ maxDepth < level then some (.ok (.seq j0 j1 [] [], cols))
    else some (.ok (.fork (.block j0 ((j0 + j1) / 2) (level + 1)) (.block ((j0 + j1) / 2) j1 (level + 1)), cols))
  | _, .seq j j1 p nz, cols =>
    if j < j1 then some (iterate j cols p nz (.seq j j1 p nz) (fun p' nz' => .seq (j + 1) j1 p' nz'))
    else some (.ok (.done p nz, cols))
  | q, .fork l r, cols =>
    match l.result, r.result with
    | some (p, nz), some (_, nz2) => some (.ok (.merge nz2 p nz, cols))
    | _, _ =>
      match q with
      | false :: q' => (step mbs maxDepth q' l cols).map (fun x => x.map (fun y => (.fork y.1 r, y.2)))
      | true :: q' => (step mbs maxDepth q' r cols).map (fun x => x.map (fun y => (.fork l y.1, y.2)))
      | [] => none
  | _, .merge (j :: rest) p nz, cols => some (iterate j cols p nz (.merge (j :: rest) p nz) (fun p' nz' => .merge rest p' nz'))
  | _, .merge [] p nz, cols => some (.ok (.done p nz, cols))
  | _, .done _ _, _ => none

/-- parallel.hpp:325-328: fill in the table; `it` lists the map in the order of the iteration -/
def fillTable : PMap → P2C → Res P2C
  | [], t => .ok t
  | (i, j) :: it, t => do
    let t ← wr t i (some j)
    fillTable it t

/-- run the steps chosen by a list of paths (for examples) -/
def runPaths (mbs maxDepth : Nat) : List (List Bool) → Task × List (SVec F) → Res (Task × List (SVec F))
  | [], s => .ok s
  | q :: qs, s =>
    match step mbs maxDepth q s.1 s.2 with
    | none => .error .thrown
    | some r => do
      let s ← r
      runPaths mbs maxDepth qs s

/-! ### The sequential version, which also updates a basis -/

/-- the loop of `reduce_column_standard(M, U, j, p2c, tmp)`, parallel.hpp:27-50 -/
def colLoopU (j : Nat) : Nat → List (SVec F) → List (SVec F) → PMap → Res (List (SVec F) × List (SVec F) × PMap)
  | 0, _, _, _ => .error .diverge
  | fuel + 1, cols, ucols, p => do
    let c ← rd cols j
    if c.isEmpty then .ok (cols, ucols, p)
    else do
      let piv ← SVec.lastnz c
      match p.lookup piv.1 with
      | some k =>
        let ck ← rd cols k
        let pk ← SVec.lastnz ck
        let a ← CMat.fdiv piv.2 pk.2
        let uj ← rd ucols j
        let uk ← rd ucols k
        colLoopU j fuel (cols.set j (SVec.axpy (-a) ck c)) (ucols.set j (SVec.axpy (-a) uk uj)) p
      | none => .ok (cols, ucols, (piv.1, j) :: p)

/-- the state of the sequential version: columns of `M`, columns of `U`, map, nonzero columns -/
structure BlockRes (F : Type) where
  cols : List (SVec F)
  ucols : List (SVec F)
  p : PMap
  nz : List Nat

/-- parallel.hpp:74-77 and 123-126: reduce the columns of a list one after the other -/
def colsLoopU (nrow : Nat) : List Nat → BlockRes F → Res (BlockRes F)
  | [], s => .ok s
  | j :: js, s => do
    let r ← colLoopU j (nrow + 1) s.cols s.ucols s.p
    let c ← rd r.1 j
    colsLoopU nrow js ⟨r.1, r.2.1, r.2.2, if c.isEmpty then s.nz else s.nz ++ [j]⟩

/-- parallel.hpp:62-81 `reduce_block_sequential(M, U, j0, j1)` -/
def blockSeqU (nrow : Nat) (j0 j1 : Nat) (cols ucols : List (SVec F)) : Res (BlockRes F) :=
  colsLoopU nrow (List.range' j0 (j1 - j0)) ⟨cols, ucols, [], []⟩

/-- parallel.hpp:95-129 `reduce_block_dq(M, U, j0, j1, max_block_size)`; the first argument bounds the depth of the recursion -/
def blockDqU (nrow mbs : Nat) : Nat → Nat → Nat → List (SVec F) → List (SVec F) → Res (BlockRes F)
  | 0, _, _, _, _ => .error .diverge
  | fuel + 1, j0, j1, cols, ucols =>
    if j1 - j0 < mbs then blockSeqU nrow j0 j1 cols ucols
    else do
      let l ← blockDqU nrow mbs fuel j0 ((j0 + j1) / 2) cols ucols
      let r ← blockDqU nrow mbs fuel ((j0 + j1) / 2) j1 l.cols l.ucols
      colsLoopU nrow r.nz ⟨r.cols, r.ucols, l.p, l.nz⟩

/-- parallel.hpp:134-153 `reduce_matrix(M, U, divide_conquer_flag)` with the block size as a parameter (1024 in the code); `order` is the order of the iteration
through the map -/
def reduceDqU (mbs : Nat) (order : PMap → PMap) (M U : CMat F) : Res (CMat F × CMat F × P2C) := do
  let s ← blockDqU M.nrow mbs (M.cols.length + 1) 0 M.cols.length M.cols U.cols
  let t ← fillTable (order s.p) (List.replicate M.nrow none)
  pure (⟨M.nrow, s.cols⟩, ⟨U.nrow, s.ucols⟩, t)

/-! ### `partial_reduce_parallel` -/

/-- parallel.hpp:346-350: the first columns of the blocks, `for (j = 0; j < n - block_size; j += block_size)`; `n - block_size` is computed with `size_t`, so that
it wraps around if `n < block_size` (the first iteration then runs out of bounds), and a block size of 0 never ends -/
def blockStarts (n bs : Nat) : Res (List Nat) :=
  if n < bs then .error .ub
  else if bs = 0 then (if n = 0 then .ok [] else .error .diverge)
  else .ok ((List.range ((n - bs + (bs - 1)) / bs)).map (· * bs))

/-- parallel.hpp:339-352: the tasks of the parallel loop, one for every block -/
def sweepTasks (n bs : Nat) : Res (List Task) := do
  let l ← blockStarts n bs
  pure (l.map (fun j => Task.seq j (j + bs) [] []))

/-- one step of the task `i` of the parallel loop -/
def poolStep (i : Nat) (ts : List Task) (cols : List (SVec F)) : Option (Res (List Task × List (SVec F))) :=
  match ts[i]? with
  | none => none
  | some t => (step 0 0 [] t cols).map (fun x => x.map (fun y => (ts.set i y.1, y.2)))

end Par
end BATS
