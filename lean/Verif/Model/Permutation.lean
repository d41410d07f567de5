import Verif.Model.Basic
import Mathlib.Order.Defs.LinearOrder
import Mathlib.Data.List.Sort

/-!
# Model of include/util/permutation.hpp
-/

namespace BATS
namespace Perm

variable {α : Type _}

/-- permutation.hpp:124-135 `stable_sortperm(data)` (also `sort_indexes` 399-414): indices `0..n-1` stably sorted
by `data[a] < data[b]`. Model: the pairs (value, index) are stably sorted by value (`List.insertionSort` is stable),
then the indices are returned. `std::stable_sort` is trusted to be a stable sort. -/
def stableSortperm [LinearOrder α] (data : List α) : List Nat :=
  ((data.zipIdx).insertionSort (fun x y => x.1 ≤ y.1)).map Prod.snd

/-- the gather loop `tmp[i] = data[perm[i]]`, permutation.hpp:207-209 -/
def gather (data : List α) : List Nat → Res (List α)
  | [] => .ok []
  | i :: p => do
    let a ← rd data i
    let r ← gather data p
    pure (a :: r)

/-- permutation.hpp:199-216 `apply_perm(begin, tmp, perm)`: overwrite the first `perm.size()` entries; writing
past the end of the data is undefined behaviour -/
def applyPermPtr (data : List α) (perm : List Nat) : Res (List α) := do
  let t ← gather data perm
  if perm.length ≤ data.length then pure (t ++ data.drop perm.length) else .error .ub

/-- permutation.hpp:228-235 `apply_perm(data, perm)`; the assertion is an abort -/
def applyPerm (data : List α) (perm : List Nat) : Res (List α) :=
  if perm.length ≠ data.length then .error .thrown else applyPermPtr data perm

/-- first loop of `apply_perm_swap`, permutation.hpp:249-251: `swap(tmp[perm[i]], data[i])` for `i = i0, i0+1, ..` -/
def permSwapLoop : List Nat → Nat → List α → List α → Res (List α × List α)
  | [], _, tmp, data => .ok (tmp, data)
  | p :: perm, i, tmp, data => do
    let t ← rd tmp p
    let d ← rd data i
    let tmp' ← wr tmp p d
    let data' ← wr data i t
    permSwapLoop perm (i + 1) tmp' data'

/-- permutation.hpp:242-256 `apply_perm_swap(data, perm)`; `dflt` is the default-constructed `T()`. The second
loop swaps every position of `tmp` with `data`, so the new `data` is `tmp`. -/
def applyPermSwap (dflt : α) (data : List α) (perm : List Nat) : Res (List α) :=
  if perm.length ≠ data.length then .error .thrown else do
    let r ← permSwapLoop perm 0 (List.replicate data.length dflt) data
    pure r.1

/-- first loop of `apply_iperm_swap`, permutation.hpp:270-272: `swap(tmp[i], data[perm[i]])` -/
def ipermSwapLoop : List Nat → Nat → List α → List α → Res (List α × List α)
  | [], _, tmp, data => .ok (tmp, data)
  | p :: perm, i, tmp, data => do
    let t ← rd tmp i
    let d ← rd data p
    let tmp' ← wr tmp i d
    let data' ← wr data p t
    ipermSwapLoop perm (i + 1) tmp' data'

/-- permutation.hpp:263-277 `apply_iperm_swap(data, perm)` -/
def applyIPermSwap (dflt : α) (data : List α) (perm : List Nat) : Res (List α) :=
  if perm.length ≠ data.length then .error .thrown else do
    let r ← ipermSwapLoop perm 0 (List.replicate data.length dflt) data
    pure r.1

/-- loop of `partial_perm`, permutation.hpp:287-289 -/
def partialPermLoop : List Nat → Nat → List (Option Nat) → Res (List (Option Nat))
  | [], _, ret => .ok ret
  | i :: ind, k, ret => do
    let ret' ← wr ret i (some k)
    partialPermLoop ind (k + 1) ret'

/-- permutation.hpp:285-291 `partial_perm(ind, n)` -/
def partialPerm (ind : List Nat) (n : Nat) : Res (List (Option Nat)) :=
  partialPermLoop ind 0 (List.replicate n none)

/-- loop of `inv_perm`, permutation.hpp:355-357 -/
def invPermLoop : List Nat → Nat → List Nat → Res (List Nat)
  | [], _, invp => .ok invp
  | p :: ps, j, invp => do
    let invp' ← wr invp p j
    invPermLoop ps (j + 1) invp'

/-- permutation.hpp:352-359 `inv_perm(p)` -/
def invPerm (p : List Nat) : Res (List Nat) := invPermLoop p 0 (List.replicate p.length 0)

/-- permutation.hpp:366-376 `perm_inversions(p)`: double loop counting `i < j`, `p[i] > p[j]` -/
def permInversions [LT α] [DecidableRel (α := α) (· < ·)] : List α → Nat
  | [] => 0
  | x :: xs => xs.countP (fun y => decide (y < x)) + permInversions xs

/-- permutation.hpp:379-382 `perm_sign(p)` -/
def permSign [LT α] [DecidableRel (α := α) (· < ·)] (p : List α) : Int :=
  if permInversions p % 2 = 1 then -1 else 1

/-- permutation.hpp:389-393 `identity_perm(k)` -/
def identityPerm (k : Nat) : List Nat := List.range k

/-- permutation.hpp:427-445 `find_perm_from_vector(v)`: inverse of the stable sort permutation -/
def findPermFromVector [LinearOrder α] (v : List α) : Res (List Nat) :=
  invPermLoop (stableSortperm v) 0 (List.replicate v.length 0)

/-- permutation.hpp:449-458 `perm_to_the_end(index, length)` -/
def permToTheEnd1 (index length : Nat) : List Nat :=
  (List.range length).filter (fun i => i ≠ index) ++ [index]

/-- first loop of `perm_to_the_end(index_list, length)`, permutation.hpp:467-479: `n` iterations from `i` on,
`it` is the rest of `index_list` -/
def permToTheEndLoop : Nat → Nat → List Nat → List Nat
  | 0, _, _ => []
  | n + 1, i, [] => i :: permToTheEndLoop n (i + 1) []
  | n + 1, i, t :: it =>
    if i ≠ t then i :: permToTheEndLoop n (i + 1) (t :: it) else permToTheEndLoop n (i + 1) it

/-- permutation.hpp:463-485 `perm_to_the_end(index_list, length)` -/
def permToTheEnd (idx : List Nat) (length : Nat) : List Nat := permToTheEndLoop length 0 idx ++ idx

/-- permutation.hpp:490-509 `extension_perm(perm, length)` -/
def extensionPerm (perm : List Nat) (length : Nat) : List Nat :=
  if perm.isEmpty then identityPerm length
  else perm ++ (List.range (length - perm.length)).map (fun i => perm.length + i)

/-- the main loop and the two copy loops of `Kendall_tau_merge`, permutation.hpp:531-560. The arguments are what
is left of `leftArray` and `rightArray`; the result is the merged segment and `num_inv`. -/
def ktMerge [LinearOrder α] : List α → List α → List α × Nat
  | [], r => (r, 0)
  | l, [] => (l, 0)
  | a :: l, b :: r =>
    if a ≤ b then
      let (m, k) := ktMerge l (b :: r)
      (a :: m, k)
    else
      let (m, k) := ktMerge (a :: l) r
      (b :: m, k + (l.length + 1))
termination_by l r => l.length + r.length

/-- permutation.hpp:570-582 `Kendall_tau_inplace(array, begin, end)` on the segment `array[begin..end]`:
`mid = begin + (end - begin)/2`, so the left part has `(n-1)/2 + 1` elements. -/
def ktInplace [LinearOrder α] (seg : List α) : List α × Nat :=
  if _h : seg.length ≤ 1 then (seg, 0)
  else
    let c := (seg.length - 1) / 2 + 1
    let (l, k1) := ktInplace (seg.take c)
    let (r, k2) := ktInplace (seg.drop c)
    let (m, k3) := ktMerge l r
    (m, k1 + k2 + k3)
termination_by seg.length
decreasing_by
  · simp only [List.length_take]; omega
  · simp only [List.length_drop]; omega

/-- permutation.hpp:588-602 `Kendall_tau(perm)`. The elements are copied to an `int` array (values must fit in
`int`; the model keeps the values unchanged). -/
def kendallTau [LinearOrder α] (perm : List α) : Nat := (ktInplace perm).2

/-- permutation.hpp:607-625 `Kendall_tau(perm1, perm2)` -/
def kendallTau2 (perm1 perm2 : List Nat) : Res Nat := do
  let i2 ← invPerm perm2
  let t ← applyPermPtr i2 perm1
  pure (ktInplace t).2

end Perm
end BATS
