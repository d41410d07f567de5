import Verif.Model.Basic
import Verif.Model.SparseVec
import Mathlib.Order.Defs.LinearOrder

/-!
# Model of include/util/sorted.hpp and include/util/set.hpp

Containers are lists (iteration order). `std::set<T>` is a strictly increasing list.
-/

namespace BATS
namespace Srt

variable {α : Type _} [LinearOrder α]

/-- sorted.hpp:21-38 `intersect_sorted(a, b, c)` (vector output; the `std::set` output, 40-58, inserts the same elements
in the same order; the loop of `set_intersection`, set.hpp:26-43, is the same) -/
def intersectSorted : List α → List α → List α
  | [], _ => []
  | _ :: _, [] => []
  | x :: a, y :: b =>
    if x < y then intersectSorted a (y :: b)
    else if y < x then intersectSorted (x :: a) b
    else x :: intersectSorted a b
termination_by a b => a.length + b.length

/-- sorted.hpp:63-78 `has_intersect_sorted` -/
def hasIntersectSorted : List α → List α → Bool
  | [], _ => false
  | _ :: _, [] => false
  | x :: a, y :: b =>
    if x < y then hasIntersectSorted a (y :: b)
    else if y < x then hasIntersectSorted (x :: a) b
    else true
termination_by a b => a.length + b.length

/-- the test `it == end || !(*it < maxval)` after an increment (sorted.hpp:93, 96, 102) -/
def stopAt (maxval : α) : List α → Bool
  | [] => true
  | x :: _ => !decide (x < maxval)

/-- sorted.hpp:85-105 `intersect_sorted_lt(a, b, maxval, c)` -/
def intersectSortedLt (maxval : α) : List α → List α → List α
  | [], _ => []
  | _ :: _, [] => []
  | x :: a, y :: b =>
    if x < y then (if stopAt maxval a then [] else intersectSortedLt maxval a (y :: b))
    else if y < x then (if stopAt maxval b then [] else intersectSortedLt maxval (x :: a) b)
    else x :: (if stopAt maxval a || stopAt maxval b then [] else intersectSortedLt maxval a b)
termination_by a b => a.length + b.length

/-- sorted.hpp:109-126 `has_intersect_sorted_lt(a, b, maxval)` -/
def hasIntersectSortedLt (maxval : α) : List α → List α → Bool
  | [], _ => false
  | _ :: _, [] => false
  | x :: a, y :: b =>
    if x < y then (if stopAt maxval a then false else hasIntersectSortedLt maxval a (y :: b))
    else if y < x then (if stopAt maxval b then false else hasIntersectSortedLt maxval (x :: a) b)
    else true
termination_by a b => a.length + b.length

/-- the accumulation loop of `sort_sum_reduce`, sorted.hpp:165-189. `cur` is the entry at `fill_ptr`, the list is what
is left from `look_ptr` on; the emitted entries are those before the final `fill_ptr`. (The C++ does this in place;
`fill_ptr < look_ptr` throughout, so no unread entry is overwritten.) -/
def sumReduceLoop {F : Type _} [Field F] [DecidableEq F] (cur : Nat × F) : List (Nat × F) → List (Nat × F)
  | [] => if cur.2 = 0 then [] else [cur]
  | p :: rest =>
    if p.1 = cur.1 then sumReduceLoop (cur.1, cur.2 + p.2) rest
    else if cur.2 = 0 then sumReduceLoop p rest
    else cur :: sumReduceLoop p rest

/-- sorted.hpp:149-193 `sort_sum_reduce(ind, val, offset, ..)` applied to the entries from `offset` on: sort by index,
add up equal indices, drop zeros. With no entry from `offset` on it reads `val[offset]` past the end. (`std::sort` may
order entries with equal indices differently; exact field addition makes that unobservable.) -/
def sortSumReduce {F : Type _} [Field F] [DecidableEq F] (v : List (Nat × F)) : Res (List (Nat × F)) :=
  match SVec.sort v with
  | [] => .error .ub
  | cur :: rest => .ok (sumReduceLoop cur rest)

/-- sorted.hpp:197-211 `find_sorted_lt(begin, end, v)`: decrements the result of `lower_bound` without checking that it
is not `begin` -/
def findSortedLt (l : List α) (v : α) : Res (Option Nat) :=
  if l.isEmpty then .ok none
  else
    match (l.takeWhile (fun x => decide (x < v))).length with
    | 0 => .error .ub
    | k + 1 => do
      let x ← rd l k
      if x < v then pure (some k) else pure none

/-- first loop of `sorted_complement`, sorted.hpp:221-231, followed by the second (232-235) -/
def complementLoop (n : Nat) : Nat → Nat → List Nat → Res (List Nat)
  | 0, _, _ => .error .diverge
  | _ + 1, i, [] => .ok (List.range' i (n - i))
  | fuel + 1, i, x :: ind =>
    if x = i then complementLoop n fuel (i + 1) ind
    else do
      let r ← complementLoop n fuel (i + 1) (x :: ind)
      pure (i :: r)

/-- sorted.hpp:216-237 `sorted_complement(ind, n)`. `reserve(n - ind.size())` throws when `ind.size() > n`. The fuel
exceeds every index, so running out of it means that the loop never meets the current element. -/
def sortedComplement (ind : List Nat) (n : Nat) : Res (List Nat) :=
  if n < ind.length then .error .thrown
  else complementLoop n (n + ind.sum + ind.length + 1) 0 ind

/-- `std::set<size_t>::insert` on a strictly increasing list -/
def setInsert (x : α) : List α → List α
  | [] => [x]
  | y :: s => if x < y then x :: y :: s else if y < x then y :: setInsert x s else y :: s

/-- set.hpp:11-21 `set_union(s1, s2)`; with one argument, `to_set` (set.hpp:64-74) -/
def setUnion (s1 s2 : List α) : List α := s2.foldl (fun s x => setInsert x s) (s1.foldl (fun s x => setInsert x s) [])

end Srt
end BATS
