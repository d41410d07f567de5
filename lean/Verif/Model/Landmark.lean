import Verif.Model.Basic
import Verif.Model.Sorted
import Mathlib.Algebra.Order.Group.Defs

/-!
# Model of include/topology/landmark.hpp, of the metrics `L1Dist`, `LInfDist` and of `enclosing_radius` (include/topology/metric.hpp)

The landmark functions see the data only through `dist(D[i], D)`, the vector of the distances of point `i` to all points (metric.hpp:33-39).
The model takes the table of these vectors: `rows[i] = dist(D[i], D)`, `D.size() = rows.length`. Numbers are exact (no rounding, no NaN).
The results `D[inds]` (rows of the data in increasing order of the index) are modelled by the list of indices.
Loops `while (..)` which need not end take fuel; running out of it is `.error .diverge`.
-/

namespace BATS
namespace Lmk

variable {T : Type} [LinearOrder T]

/-- the loop of `std::max_element`: position `b` with value `v` is the best so far, the next position is `i` -/
def maxFrom (b : Nat) (v : T) : List T → Nat → Nat × T
  | [], _ => (b, v)
  | x :: xs, i => if v < x then maxFrom i x xs (i + 1) else maxFrom b v xs (i + 1)

/-- `it = std::max_element(d.cbegin(), d.cend())`, position and `*it`; dereferencing the end is undefined -/
def maxElement : List T → Res (Nat × T)
  | [] => .error .ub
  | x :: xs => .ok (maxFrom 0 x xs 1)

/-- the loop of `std::min_element` -/
def minFrom (b : Nat) (v : T) : List T → Nat → Nat × T
  | [], _ => (b, v)
  | x :: xs, i => if x < v then minFrom i x xs (i + 1) else minFrom b v xs (i + 1)

/-- `std::distance(mind.cbegin(), std::min_element(mind.cbegin(), mind.cend()))`, landmark.hpp:265-268 -/
def minIndex : List T → Nat
  | [] => 0
  | x :: xs => (minFrom 0 x xs 1).1

/-- landmark.hpp:59-61, 97-99, 140-142, 185-187, 231-233, 260: `d[k] = (d[k] < di[k]) ? d[k] : di[k]` for all `k < d.size()` -/
def updateMin : List T → List T → Res (List T)
  | [], _ => .ok []
  | x :: xs, y :: ys => do
    let r ← updateMin xs ys
    .ok ((if x < y then x else y) :: r)
  | _ :: _, [] => .error .ub

/-- landmark.hpp:261: `mind[jj] = (mind[jj] > di[jj]) ? mind[jj] : di[jj]` -/
def updateMax : List T → List T → Res (List T)
  | [], _ => .ok []
  | x :: xs, y :: ys => do
    let r ← updateMax xs ys
    .ok ((if y < x then x else y) :: r)
  | _ :: _, [] => .error .ub

/-- landmark.hpp:129-143, 174-188: `m` further landmarks and the value of `*it` before each; also returns the final `d` -/
def hdLoop (rows : List (List T)) : Nat → List T → Res (List Nat × List T × List T)
  | 0, d => .ok ([], [], d)
  | m + 1, d => do
    let p ← maxElement d
    let di ← rd rows p.1
    let d' ← updateMin d di
    let r ← hdLoop rows m d'
    .ok (p.1 :: r.1, p.2 :: r.2.1, r.2.2)

/-- landmark.hpp:117-148 `greedy_landmarks_hausdorff(D, dist, i0)` -/
def greedyHausdorff [Zero T] (rows : List (List T)) (i0 : Nat) : Res (List Nat × List T) := do
  let d ← rd rows i0
  let r ← hdLoop rows (rows.length - 1) d
  .ok (i0 :: r.1, r.2.1 ++ [0])

/-- landmark.hpp:159-194 `greedy_landmarks_hausdorff(D, dist, i0, k)` -/
def greedyHausdorffK (rows : List (List T)) (i0 k : Nat) : Res (List Nat × List T) := do
  let d ← rd rows i0
  let r ← hdLoop rows (k - 1) d
  let p ← maxElement r.2.2
  .ok (i0 :: r.1, r.2.1 ++ [p.2])

/-- `pdist[j]`: column `j` of a matrix in row-major format, naive_dense.hpp:185-194 -/
def matCol (pdist : List (List T)) (j : Nat) : Res (List T) := pdist.mapM (fun row => rd row j)

/-- landmark.hpp:220-234: `di = pdist[i]` is a column -/
def hdLoopMat (pdist : List (List T)) : Nat → List T → Res (List Nat × List T × List T)
  | 0, d => .ok ([], [], d)
  | m + 1, d => do
    let p ← maxElement d
    let di ← matCol pdist p.1
    let d' ← updateMin d di
    let r ← hdLoopMat pdist m d'
    .ok (p.1 :: r.1, p.2 :: r.2.1, r.2.2)

/-- landmark.hpp:203-239 `greedy_landmarks_hausdorff(pdist, i0)` for a matrix with `ncol` columns, given by its rows; the first vector is row `i0` -/
def greedyHausdorffMat [Zero T] (pdist : List (List T)) (ncol i0 : Nat) : Res (List Nat × List T) := do
  let d ← rd pdist i0
  let r ← hdLoopMat pdist (ncol - 1) d
  .ok (i0 :: r.1, r.2.1 ++ [0])

/-- landmark.hpp:48-62, the loop of `greedy_landmarks` -/
def greedyLoop (rows : List (List T)) (k : Nat) : Nat → List Nat → List T → Res (List Nat)
  | fuel, inds, d =>
    if inds.length < k then
      match fuel with
      | 0 => .error .diverge
      | fuel + 1 => do
        let p ← maxElement d
        let di ← rd rows p.1
        let d' ← updateMin d di
        greedyLoop rows k fuel (Srt.setInsert p.1 inds) d'
    else .ok inds

/-- landmark.hpp:36-65 `greedy_landmarks(D, k, dist, i0)` -/
def greedyLandmarks (fuel : Nat) (rows : List (List T)) (k i0 : Nat) : Res (List Nat) := do
  let d ← rd rows i0
  greedyLoop rows k fuel [i0] d

/-- landmark.hpp:85-105, the loop of `hausdorff_landmarks`; `it` is recomputed from `d` at the head of the loop -/
def hausdorffLoop (rows : List (List T)) (r : T) : Nat → List Nat → List T → Res (List Nat)
  | fuel, inds, d => do
    let p ← maxElement d
    if r < p.2 then
      match fuel with
      | 0 => .error .diverge
      | fuel + 1 => do
        let di ← rd rows p.1
        let d' ← updateMin d di
        hausdorffLoop rows r fuel (Srt.setInsert p.1 inds) d'
    else .ok inds

/-- landmark.hpp:74-108 `hausdorff_landmarks(D, r, dist, i0)` -/
def hausdorffLandmarks (fuel : Nat) (rows : List (List T)) (r : T) (i0 : Nat) : Res (List Nat) := do
  let d ← rd rows i0
  hausdorffLoop rows r fuel [i0] d

/-- landmark.hpp:252-263, the loop of `approx_center`; the variable called `maxd` in the code holds the distances to the nearest landmark -/
def centerLoop (rows : List (List T)) : Nat → List T → List T → Res (List T)
  | 0, _, mind => .ok mind
  | j + 1, maxd, mind => do
    let p ← maxElement maxd
    let di ← rd rows p.1
    let maxd' ← updateMin maxd di
    let mind' ← updateMax mind di
    centerLoop rows j maxd' mind'

/-- landmark.hpp:246-269 `approx_center(D, dist, k, i0)`; `dim = D.dim()` -/
def approxCenter (rows : List (List T)) (dim k i0 : Nat) : Res Nat := do
  let d ← rd rows i0
  let mind ← centerLoop rows (if k = 0 then dim + 1 else k) d d
  .ok (minIndex mind)

/-! ### metrics -/

section metric
variable [AddCommGroup T] [IsOrderedAddMonoid T]

/-- `std::abs` -/
def absT (x : T) : T := if x < 0 then -x else x

/-- metric.hpp:84-95 `L1Dist::dist(x, y)`; reading `y` outside its range is undefined -/
def l1Dist : T → List T → List T → Res T
  | n, [], _ => .ok n
  | n, x :: xs, y :: ys => l1Dist (n + absT (x - y)) xs ys
  | _, _ :: _, [] => .error .ub

/-- metric.hpp:98-109 `LInfDist::dist(x, y)` -/
def lInfDist : T → List T → List T → Res T
  | n, [], _ => .ok n
  | n, x :: xs, y :: ys => lInfDist (if absT (x - y) < n then n else absT (x - y)) xs ys
  | _, _ :: _, [] => .error .ub

/-- metric.hpp:56-64 `dist(X)`, row by row (33-39) -/
def pairwise (dist : List T → List T → Res T) (X : List (List T)) : Res (List (List T)) := X.mapM (fun x => X.mapM (fun y => dist x y))

/-- metric.hpp:198-200: the largest entry of a row, at least 0 -/
def rowMax (row : List T) : T := row.foldl (fun r x => if r < x then x else r) 0

/-- metric.hpp:193-206 `enclosing_radius(D)`; `tmax = std::numeric_limits<T>::max()` -/
def enclosingRadius (tmax : T) (D : List (List T)) : T := D.foldl (fun r row => if r < rowMax row then r else rowMax row) tmax

end metric
end Lmk
end BATS
