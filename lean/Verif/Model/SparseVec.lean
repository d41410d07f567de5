import Verif.Model.Basic
import Mathlib.Algebra.Field.Defs
import Mathlib.Data.List.Sort

/-!
# Model of include/linalg/sparse_vector.hpp and include/linalg/abstract_vector.hpp

`SparseVector<TV, size_t>` is its private member `indval` (sparse_vector.hpp:29-31): a vector of
index/value pairs. `TV` is a field `F` with decidable equality (see `Verif.Props.Field` for the fields of
field.hpp). `std::lower_bound`/`std::upper_bound` on a vector sorted by index are modelled by their
specification: the first position whose index is `≥ i` / `> i`.
-/

namespace BATS

/-- sparse_vector.hpp:29-31: list of `nzpair` (abstract_vector.hpp:11-13), in storage order. -/
abbrev SVec (F : Type _) := List (Nat × F)

namespace SVec

variable {F : Type _} [Field F] [DecidableEq F]

/-- sparse_vector.hpp:35-52 `sort`: by index (abstract_vector.hpp:38 compares only `ind`). `std::sort` is
modelled by insertion sort; for distinct indices all sorting algorithms agree. -/
def sort (v : SVec F) : SVec F := v.insertionSort (fun p q => p.1 ≤ q.1)

/-- sparse_vector.hpp:147-149: indicator vector -/
def indicator (i : Nat) (a : F := 1) : SVec F := [(i, a)]

/-- sparse_vector.hpp:154-161 `dense` -/
def dense (a : F) (m : Nat) : SVec F := (List.range m).map (fun i => (i, a))

/-- sparse_vector.hpp:191-197 `shift_inds` -/
def shiftInds (v : SVec F) (s : Nat) : SVec F := v.map (fun p => (p.1 + s, p.2))

/-- sparse_vector.hpp:206-215 `operator==` -/
def eq : SVec F → SVec F → Bool
  | [], [] => true
  | p :: u, q :: v => if p ≠ q then false else eq u v
  | _, _ => false

/-- the loop of sparse_vector.hpp:224-255 `operator[](indset)`; `ct` counts consumed elements of `indset` -/
def selectLoop : List Nat → SVec F → Nat → SVec F
  | [], _, _ => []
  | _ :: _, [], _ => []
  | s :: ss, (i, a) :: v, ct =>
    if s < i then selectLoop ss ((i, a) :: v) (ct + 1)
    else if s = i then (ct, a) :: selectLoop ss v (ct + 1)
    else selectLoop (s :: ss) v ct
termination_by ss v => ss.length + v.length

/-- sparse_vector.hpp:224-255 -/
def select (v : SVec F) (indset : List Nat) : SVec F := selectLoop indset v 0

/-- sparse_vector.hpp:268-276 `clear_zeros` -/
def clearZeros (v : SVec F) : SVec F := v.filter (fun p => p.2 ≠ 0)

/-- sparse_vector.hpp:282-305 `clear_inds`: drops entry `i` when `c[i]`; reading past the end of `c` is UB -/
def clearInds (c : List Bool) : SVec F → Res (SVec F)
  | [] => .ok []
  | p :: v => do
    let b ← rd c p.1
    let r ← clearInds c v
    pure (if b then r else p :: r)

/-- sparse_vector.hpp:308 `nnz` -/
def nnz (v : SVec F) : Nat := v.length

/-- sparse_vector.hpp:310-317 `nzinds` -/
def nzinds (v : SVec F) : List Nat := v.map Prod.fst

/-- sparse_vector.hpp:366-372 `getval`: `lower_bound` then compare the index -/
def getval (v : SVec F) (i : Nat) : F :=
  match v.dropWhile (fun p => p.1 < i) with
  | [] => 0
  | (k, a) :: _ => if k ≠ i then 0 else a

/-- sparse_vector.hpp:399-401 `lastnz`: `indval.back()`, undefined on an empty vector -/
def lastnz (v : SVec F) : Res (Nat × F) :=
  match v.getLast? with
  | some p => .ok p
  | none => .error .ub

/-- sparse_vector.hpp:403-405 `firstnz` -/
def firstnz (v : SVec F) : Res (Nat × F) :=
  match v.head? with
  | some p => .ok p
  | none => .error .ub

/-- index relabelling loop shared by `permute` and `ipermute` (sparse_vector.hpp:413-415, 422-424) -/
def relabel (perm : List Nat) : SVec F → Res (SVec F)
  | [] => .ok []
  | p :: v => do
    let i ← rd perm p.1
    let r ← relabel perm v
    pure ((i, p.2) :: r)

/-- sparse_vector.hpp:412-417 `permute` -/
def permute (perm : List Nat) (v : SVec F) : Res (SVec F) := do
  let r ← relabel perm v
  pure (sort r)

/-- sparse_vector.hpp:421-426 `ipermute` (the body is the same as `permute`) -/
def ipermute (perm : List Nat) (v : SVec F) : Res (SVec F) := do
  let r ← relabel perm v
  pure (sort r)

/-- loop of sparse_vector.hpp:433-437 -/
def subvectorLoop (pind : List (Option Nat)) : SVec F → Res (SVec F)
  | [] => .ok []
  | p :: v => do
    let i ← rd pind p.1
    let r ← subvectorLoop pind v
    match i with
    | some i => pure ((i, p.2) :: r)
    | none => pure r

/-- sparse_vector.hpp:429-441 `subvector` (`NO_IND` is `none`) -/
def subvector (pind : List (Option Nat)) (v : SVec F) : Res (SVec F) := do
  let r ← subvectorLoop pind v
  pure (sort r)

/-- sparse_vector.hpp:446-461 `block` -/
def block (i0 i1 : Nat) (v : SVec F) : SVec F :=
  ((v.dropWhile (fun p => p.1 < i0)).takeWhile (fun p => p.1 < i1)).map (fun p => (p.1 - i0, p.2))

/-- sparse_vector.hpp:464-480 `set_block`: erase `[lower_bound(i0), upper_bound(i1))`, then insert the shifted
entries of `b` at `lower_bound(i0)`. (If the erase range is ill-formed, i.e. `i1 < i0`, the C++ is undefined;
not modelled.) -/
def setBlock (i0 i1 : Nat) (b : SVec F) (v : SVec F) : SVec F :=
  let v' := v.takeWhile (fun p => p.1 < i0) ++ v.dropWhile (fun p => p.1 ≤ i1)
  v'.takeWhile (fun p => p.1 < i0) ++ b.map (fun p => (p.1 + i0, p.2)) ++ v'.dropWhile (fun p => p.1 < i0)

/-- sparse_vector.hpp:484-489 `J` -/
def J (m : Nat) (v : SVec F) : SVec F := sort (v.map (fun p => ((m - 1) - p.1, p.2)))

/-- does the vector store an entry at index `i`? (`lower_bound(i) != nzend() && it->ind == i`) -/
def find (v : SVec F) (i : Nat) : Option F :=
  match v.dropWhile (fun p => p.1 < i) with
  | [] => none
  | (k, a) :: _ => if k = i then some a else none

/-- overwrite the value stored at index `i` through an iterator (`it->val = a`) -/
def putVal (v : SVec F) (i : Nat) (a : F) : SVec F := v.map (fun p => if p.1 = i then (i, a) else p)

/-- sparse_vector.hpp:495-511 `swap_rows` -/
def swapRows (i j : Nat) (v : SVec F) : SVec F :=
  match find v i, find v j with
  | some a, some b => putVal (putVal v i b) j a
  | some _, none => sort (v.map (fun p => if p.1 = i then (j, p.2) else p))
  | none, some _ => sort (v.map (fun p => if p.1 = j then (i, p.2) else p))
  | none, none => v

/-- sparse_vector.hpp:513-523 `scale_inplace(i, c)`: scale one entry -/
def scaleEntry (i : Nat) (c : F) (v : SVec F) : SVec F :=
  match find v i with
  | none => v
  | some a => if c = 0 then v.filter (fun p => p.1 ≠ i) else putVal v i (c * a)

/-- sparse_vector.hpp:528-536 `erase_last_row_of_matrix` -/
def eraseLastRow (i : Nat) (v : SVec F) : SVec F :=
  match v.getLast? with
  | none => v
  | some p => if i = p.1 then v.dropLast else v

/-- sparse_vector.hpp:539-543 `erase_rows_after`: pop while the last index is `> m` -/
def eraseRowsAfter (m : Nat) (v : SVec F) : SVec F := (v.reverse.dropWhile (fun p => p.1 > m)).reverse

/-- sparse_vector.hpp:555-572 `erase_initial_rows` -/
def eraseInitialRows (nd : Nat) (v : SVec F) : SVec F :=
  (v.dropWhile (fun p => p.1 < nd)).map (fun p => (p.1 - nd, p.2))

/-- sparse_vector.hpp:595-611 `erase_for_matrix`: delete row `i` and shift later indices down.
After `erase(pi)` the iterator designates the following element (or the end). -/
def eraseForMatrix (i : Nat) (v : SVec F) : SVec F :=
  let pre := v.takeWhile (fun p => p.1 < i)
  match v.dropWhile (fun p => p.1 < i) with
  | [] => pre
  | p :: post =>
    if p.1 = i then pre ++ post.map (fun q => (q.1 - 1, q.2))
    else pre ++ (p :: post).map (fun q => (q.1 - 1, q.2))

/-- the inner loop of sparse_vector.hpp:727 `while (*ri <= iv->ind && ri != end) { ++ri; iv->ind++; ++ninserted; }`
on the remaining list `ri`; returns the new index and the number of steps. (The code evaluates `*ri` before
testing `ri != end`; the read of the past-the-end element is undefined behaviour in C++, whose value is then
ignored. The model returns the value the loop computes when that read is harmless.) -/
def insertLoop : List Nat → Nat → Nat × Nat
  | [], ind => (ind, 0)
  | r :: rs, ind =>
    if r ≤ ind then
      let (i, k) := insertLoop rs (ind + 1)
      (i, k + 1)
    else (ind, 0)

/-- sparse_vector.hpp:708-736 `insert_rows(r_inds, ninserted)`: insert zero rows. Per entry: `targ = ind +
ninserted`; `ri = lower_bound(r_inds.begin()+ninserted, end, targ)`; `ninserted = ri - begin`;
`ind += ninserted`; inner loop. -/
def insertZeroRowsLoop (rinds : List Nat) : SVec F → Nat → SVec F
  | [], _ => []
  | (i, a) :: v, ninserted =>
    let targ := i + ninserted
    let skipped := ((rinds.drop ninserted).takeWhile (fun r => r < targ)).length
    let nins := ninserted + skipped
    let (i', k) := insertLoop (rinds.drop nins) (i + nins)
    (i', a) :: insertZeroRowsLoop rinds v (nins + k)

/-- sparse_vector.hpp:708-736 -/
def insertZeroRows (rinds : List Nat) (ninserted : Nat) (v : SVec F) : SVec F :=
  if rinds.isEmpty then v else insertZeroRowsLoop rinds v ninserted

/-- sparse_vector.hpp:762-784 `nnz_intersection` -/
def nnzIntersection : SVec F → SVec F → Nat
  | [], _ => 0
  | _ :: _, [] => 0
  | (i, a) :: u, (k, b) :: v =>
    if i = k then 1 + nnzIntersection u v
    else if i < k then nnzIntersection u ((k, b) :: v)
    else nnzIntersection ((i, a) :: u) v
termination_by u v => u.length + v.length

/-- merge loop of axpy, sparse_vector.hpp:839-867 (and 900-928): `y + a x`; structural copy of the three
branches of the loop and of the two tail loops. -/
def axpyMerge (a : F) : SVec F → SVec F → SVec F
  | [], x => x.map (fun p => (p.1, a * p.2))
  | y, [] => y
  | (i, u) :: y, (k, v) :: x =>
    if i = k then
      if a * v + u ≠ 0 then (i, a * v + u) :: axpyMerge a y x else axpyMerge a y x
    else if i < k then (i, u) :: axpyMerge a y ((k, v) :: x)
    else (k, a * v) :: axpyMerge a ((i, u) :: y) x
termination_by y x => y.length + x.length

/-- sparse_vector.hpp:821-878 `axpy(a, x, tmp)` and 883-943 `axpy(a, x)`: the new value of `y` -/
def axpy (a : F) (x : SVec F) (y : SVec F) : SVec F :=
  if a = 0 then clearZeros y
  else if x.isEmpty then y
  else axpyMerge a y x

/-- sparse_vector.hpp:945-949 `operator+` -/
def add (u v : SVec F) : SVec F := axpy 1 v u

/-- sparse_vector.hpp:954-961 `operator*(scalar)` -/
def smul (v : SVec F) (a : F) : SVec F := if a = 0 then [] else v.map (fun p => (p.1, p.2 * a))

/-- sparse_vector.hpp:966-991 dot product -/
def dot : SVec F → SVec F → F
  | [], _ => 0
  | _ :: _, [] => 0
  | (i, a) :: u, (k, b) :: v =>
    if i = k then b * a + dot u v
    else if i < k then dot u ((k, b) :: v)
    else dot ((i, a) :: u) v
termination_by u v => u.length + v.length

/-- sparse_vector.hpp:996-1056 `axpy(a, x, firstind, lastind, tmp)`: the entries of `x` that take part are
those from `lower_bound(firstind)` up to the first one with index `≥ lastind`. -/
def axpyRange (a : F) (x : SVec F) (first last : Nat) (y : SVec F) : SVec F :=
  if a = 0 then y
  else
    let w := (x.dropWhile (fun p => p.1 < first)).takeWhile (fun p => p.1 < last)
    if w.isEmpty then y else axpyMerge a y w

/-- sparse_vector.hpp:1137-1146 `scale_inplace(coeff)`: multiply entry `i` by `coeff[i]` -/
def scaleBy (coeff : List F) : SVec F → Res (SVec F)
  | [] => .ok []
  | p :: v => do
    let c ← rd coeff p.1
    let r ← scaleBy coeff v
    pure ((p.1, p.2 * c) :: r)

/-- sparse_vector.hpp:1149-1158 `scale_inplace(c)` (also `scale`, 1160-1167) -/
def scale (c : F) (v : SVec F) : SVec F := v.map (fun p => (p.1, p.2 * c))

/-- sparse_vector.hpp:1226-1240 `kron` -/
def kron (u v : SVec F) (m : Nat) : SVec F :=
  u.flatMap (fun p => v.map (fun q => (m * p.1 + q.1, p.2 * q.2)))

end SVec
end BATS
