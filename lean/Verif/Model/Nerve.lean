import Verif.Model.Flag
import Verif.Model.Diagram

/-!
# Model of include/topology/nerve.hpp, of the combinatorial part of include/topology/cover.hpp and of the functor `Nerve` of include/multigraph/functors.hpp

A cover (`std::vector<std::set<size_t>>`, cover.hpp:22) is a list of lists; the `std::set`s are listed in increasing order.
-/

namespace BATS
namespace Nrv
open Srt

/-- `*std::min_element(spx.begin(), spx.end())`, nerve.hpp:25; dereferencing the end of an empty vector is undefined -/
def minElem : List Nat → Res Nat
  | [] => .error .ub
  | x :: xs => .ok (xs.foldl min x)

/-- nerve.hpp:14-43 `add_dimension_recursive_nerve(N, spx, cover, intersection, dmax)` with `m = dmax - dim`, for `dim ≤ dmax` (for `dim = dmax` the
function returns at once, so the test `dmax > dim+1` before the recursive call need not be repeated). `spx` is extended by `k` and restored. -/
def recNerve (cover : List (List Nat)) : Nat → List Nat → List Nat → SCpx → Res SCpx
  | 0, _, _, N => .ok N
  | m + 1, spx, inter, N => do
    let kmax ← minElem spx
    Flag.loop (fun k N => do
      let ck ← rd cover k
      let ik := intersectSorted ck inter
      if ik.length > 0 then do
        let r ← N.add (SCpx.sortV (spx ++ [k]))
        recNerve cover m (SCpx.sortV (spx ++ [k])) ik r.1
      else .ok N) (List.range kmax) N

/-- nerve.hpp:63-75: the edges from `i` to the earlier sets. The recursion is called only for `dmax > 1`; `dmax - 1` is `dmax - dim` of an edge. -/
def nerveEdges (cover : List (List Nat)) (dmax i : Nat) (N : SCpx) : Res SCpx :=
  Flag.loop (fun j N => do
    let ci ← rd cover i
    let cj ← rd cover j
    let inter := intersectSorted ci cj
    if inter.length > 0 then do
      let r ← N.add [j, i]
      if 1 < dmax then recNerve cover (dmax - 1) [j, i] inter r.1 else .ok r.1
    else .ok N) (List.range i) N

/-- nerve.hpp:48-78 `Nerve(cover, dmax)` -/
def nerve (cover : List (List Nat)) (dmax : Nat) : Res SCpx :=
  Flag.loop (fun i N => do
    let r ← N.add [i]
    nerveEdges cover dmax i r.1) (List.range cover.length) (SCpx.init dmax)

instance : Inhabited SCpx := ⟨SCpx.init 0⟩

/-- functors.hpp:22-50 `Nerve(D, dmax)` -/
def nerveFunctor (sc : Schedule) (D : Diagram (List (List Nat)) (List Nat)) (dmax : Nat) : Res (Diagram SCpx (List (CMat Int))) := do
  let TD ← nodeLoop D (fun c => nerve c dmax) sc.nodes (Diagram.init D.node.length D.edata.length)
  edgeLoop D (fun nodes s t f => do
    let X ← rd nodes s
    let Y ← rd nodes t
    SMap.simplicialMap X Y f) sc.edges TD

/-- the inner loop of cover.hpp:188-202: the sets `cover2[j], cover2[j+1], ..` against `cover1[i]` -/
def biRow (c1 : List Nat) (i : Nat) : List (List Nat) → Nat → List (List Nat) × List Nat × List Nat
  | [], _ => ([], [], [])
  | c2 :: cs, j =>
    let rest := biRow c1 i cs (j + 1)
    if (intersectSorted c1 c2).length > 0 then (intersectSorted c1 c2 :: rest.1, i :: rest.2.1, j :: rest.2.2) else rest

/-- the outer loop of cover.hpp:187-203 -/
def biLoop (cover2 : List (List Nat)) : List (List Nat) → Nat → List (List Nat) × List Nat × List Nat
  | [], _ => ([], [], [])
  | c1 :: cs, i =>
    let row := biRow c1 i cover2 0
    let rest := biLoop cover2 cs (i + 1)
    (row.1 ++ rest.1, row.2.1 ++ rest.2.1, row.2.2 ++ rest.2.2)

/-- cover.hpp:179-206 `bivariate_cover(cover1, cover2)` -/
def bivariateCover (cover1 cover2 : List (List Nat)) : List (List Nat) × List Nat × List Nat := biLoop cover2 cover1 0

section dist
variable {T : Type} [LinearOrder T]

/-- `*std::min_element(di.cbegin(), di.cend())` for a nonempty vector -/
def minOf (x : T) (xs : List T) : T := xs.foldl min x

variable [Add T]

/-- cover.hpp:157-164: the landmarks `j, j+1, ..` to which the point with the distances `di` to the landmarks is assigned; `lo` is the smallest distance -/
def epsRow (lo eps : T) : List T → Nat → List Nat
  | [], _ => []
  | d :: ds, j => if d < lo + eps then j :: epsRow lo eps ds (j + 1) else epsRow lo eps ds (j + 1)

/-- the landmarks of one point, cover.hpp:154-164 (for an empty row the minimum is not read) -/
def epsAssign (eps : T) : List T → List Nat
  | [] => []
  | d :: ds => epsRow (minOf d ds) eps (d :: ds) 0

/-- `cover[j].emplace(i)`: the points are visited in increasing order, so that `i` goes to the end of the set -/
def emplaceAll (i : Nat) : List Nat → List (List Nat) → Res (List (List Nat))
  | [], c => .ok c
  | j :: js, c => do
    let s ← rd c j
    let c' ← wr c j (s ++ [i])
    emplaceAll i js c'

/-- the loop of cover.hpp:153-165 over the rows `dist(X[i], L), dist(X[i+1], L), ..` -/
def epsLoop (eps : T) : List (List T) → Nat → List (List Nat) → Res (List (List Nat))
  | [], _, c => .ok c
  | di :: ds, i, c => do
    let c' ← emplaceAll i (epsAssign eps di) c
    epsLoop eps ds (i + 1) c'

/-- cover.hpp:144-167 `landmark_eps_cover(X, L, dist, eps)`; `rows[i]` is `dist(X[i], L)`, of length `nL`, in a type of numbers without rounding -/
def landmarkEpsCover (rows : List (List T)) (nL : Nat) (eps : T) : Res (List (List Nat)) := epsLoop eps rows 0 (List.replicate nL [])

end dist

end Nrv
end BATS
