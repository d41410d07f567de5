import Verif.Model.Basic
import Mathlib.Algebra.Field.Defs

/-!
# Model of `SetVector` (include/linalg/set_vector.hpp)

The private member `indval`, a `std::set` of index/value pairs compared by index (abstract_vector.hpp:37-38), is the list of its elements in the order of
iteration. The pairs have values in a field `F`. An iterator is a position in the list; the functions with two iterators recurse on the elements from the
iterators on. Not modelled: printing, and the functions handing out iterators.
-/

namespace BATS

/-- set_vector.hpp:23: the elements of `indval` in the order of iteration -/
abbrev SetVec (F : Type) := List (Nat × F)

namespace SetVec
variable {F : Type}

/-- `std::set::emplace`, used in lines 31-50: a pair is inserted where its index belongs unless there is a pair with this index. `emplace_hint` has the same
effect for every hint -/
def emplace (p : Nat × F) : SetVec F → SetVec F
  | [] => [p]
  | q :: L => if p.1 < q.1 then p :: q :: L else if q.1 < p.1 then q :: emplace p L else q :: L

/-- `std::set::erase` of the pair with index `i` -/
def erase (i : Nat) (L : SetVec F) : SetVec F := L.filter (fun q => decide (q.1 ≠ i))

/-- set_vector.hpp:31-36: `SetVector(ind, val)`; the assertion on the lengths is modelled by the list of pairs -/
def ofPairs (l : List (Nat × F)) : SetVec F := l.foldl (fun L p => emplace p L) []

/-- set_vector.hpp:48-50: `SetVector(i)` -/
def single [One F] (i : Nat) : SetVec F := [(i, 1)]

/-- set_vector.hpp:60: `nnz()` -/
def nnz (L : SetVec F) : Nat := L.length

/-- set_vector.hpp:79-89: `set(k)`: if nothing is inserted the pair with this index is erased and `k` is inserted -/
def set (p : Nat × F) (L : SetVec F) : SetVec F :=
  if (L.map Prod.fst).contains p.1 then emplace p (erase p.1 L) else emplace p L

/-- set_vector.hpp:106-108: `lastnz()`; on the empty vector `--nzend()` is undefined behaviour -/
def lastnz (L : SetVec F) : Res (Nat × F) :=
  match L.getLast? with
  | none => .error .ub
  | some p => .ok p

/-- set_vector.hpp:111-117: `get(ind)` -/
def get [Zero F] (L : SetVec F) (i : Nat) : F :=
  match L.find? (fun q => decide (q.1 = i)) with
  | none => 0
  | some q => q.2

/-- set_vector.hpp:119-125: `permute(perm)`; `perm[ind]` outside of the vector is undefined behaviour -/
def permuteLoop (perm : List Nat) : SetVec F → SetVec F → Res (SetVec F)
  | [], new => .ok new
  | q :: L, new => do
    let j ← rd perm q.1
    permuteLoop perm L (emplace (j, q.2) new)

/-- set_vector.hpp:119-125 -/
def permute (perm : List Nat) (L : SetVec F) : Res (SetVec F) := permuteLoop perm L []

variable [Field F] [DecidableEq F]

/-- set_vector.hpp:158-161, 205-208: the last loop of `axpy`, which emplaces the remaining entries -/
def emplaceAll (a : F) (x : List (Nat × F)) (L : SetVec F) : SetVec F := x.foldl (fun L p => emplace (p.1, a * p.2) L) L

/-- set_vector.hpp:135-161: the loops of `axpy` from the iterators on; the elements before `i1` are not touched any more, since the indices of `x` increase -/
def axpyLoop (a : F) : SetVec F → List (Nat × F) → SetVec F
  | [], s => emplaceAll a s []
  | r, [] => r
  | (i, u) :: r, (j, v) :: s =>
    if i = j then
      let w := a * v + u
      if w = 0 then axpyLoop a r s else (j, w) :: axpyLoop a r s
    else if i < j then (i, u) :: axpyLoop a r ((j, v) :: s)
    else axpyLoop a ((j, a * v) :: (i, u) :: r) s
termination_by r s => 2 * s.length + r.length

/-- set_vector.hpp:130-163: `axpy(a, x)` for a vector `x` whose indices increase -/
def axpy (a : F) (x : List (Nat × F)) (L : SetVec F) : SetVec F := axpyLoop a L x

/-- set_vector.hpp:182-208: the loops of `axpy` on a range, from the iterators on. After `++i2` the index of `*i2` is read without a test for the end; after the
`break`, and if `i1` is at the end, the last loop runs, whose condition is `!((*i2).ind < lastind)` -/
def winLoop (a : F) (last : Nat) : SetVec F → List (Nat × F) → Res (SetVec F)
  | [], s => .ok (emplaceAll a (s.takeWhile (fun q => decide (¬ q.1 < last))) [])
  | r, [] => .ok r
  | (i, u) :: r, (j, v) :: s =>
    if i = j then
      let w := a * v + u
      let out : SetVec F := if w = 0 then [] else [(j, w)]
      match s with
      | [] => .error .ub
      | (j', v') :: s' =>
        if ¬ j' < last then .ok (out ++ emplaceAll a (((j', v') :: s').takeWhile (fun q => decide (¬ q.1 < last))) r)
        else do
          let r' ← winLoop a last r ((j', v') :: s')
          pure (out ++ r')
    else if i < j then do
      let r' ← winLoop a last r ((j, v) :: s)
      pure ((i, u) :: r')
    else
      match s with
      | [] => .error .ub
      | (j', v') :: s' =>
        if ¬ j' < last then .ok (emplaceAll a (((j', v') :: s').takeWhile (fun q => decide (¬ q.1 < last))) ((j, a * v) :: (i, u) :: r))
        else winLoop a last ((j, a * v) :: (i, u) :: r) ((j', v') :: s')
termination_by r s => 2 * s.length + r.length

/-- set_vector.hpp:169-210: `axpy(a, x, firstind, lastind)`; line 181 reads `*i2` before the test for the end -/
def axpyWin (a : F) (x : List (Nat × F)) (first last : Nat) (L : SetVec F) : Res (SetVec F) :=
  match x.dropWhile (fun q => decide (q.1 < first)) with
  | [] => .error .ub
  | (j, v) :: s =>
    if ¬ j < last then .ok L
    else do
      let r ← winLoop a last (L.dropWhile (fun q => decide (q.1 < first))) ((j, v) :: s)
      pure (L.takeWhile (fun q => decide (q.1 < first)) ++ r)

/-- set_vector.hpp:230-238: `operator==` -/
def eq : SetVec F → SetVec F → Bool
  | p :: L, q :: M => if p ≠ q then false else eq L M
  | [], [] => true
  | _, _ => false

end SetVec
end BATS
