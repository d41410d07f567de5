import Verif.Model.Filtration
import Verif.Model.Sorted

/-!
# Model of include/filtration/flag.hpp (FlagFiltration), include/topology/flag.hpp (FlagComplex) and the edge lists of
include/topology/rips.hpp
-/

namespace BATS

/-- flag.hpp:17-32 `filtered_edge<T>`: source, target, parameter -/
structure FEdge (T : Type) where
  s : Nat
  t : Nat
  r : T
deriving DecidableEq

namespace Flag
open Srt

section filt
variable {T : Type} [Zero T]

/-- the loop `for (auto k : iter_idxs)` of flag.hpp:50-60, 65-79 -/
def loop {α : Type} (f : Nat → α → Res α) : List Nat → α → Res α
  | [], x => .ok x
  | k :: ks, x => do
    let y ← f k x
    loop f ks y

/-- filtration/flag.hpp:38-81 `add_dimension_recursive_flag(F, nbrs, d, maxd, iter_idxs, spx_idxs, t)` with `m = maxd - d`
(the function is only called with `d ≤ maxd`). `spx_idxs` is extended by `k` and restored in every iteration; `sort_into`
(sorted.hpp:131-137) is a sorted copy. -/
def recFilt (nbrs : List (List Nat)) (t : T) : Nat → List Nat → List Nat → Filt T → Res (Filt T)
  | 0, iter, spx => loop (fun k Φ => do
      let r ← Φ.add t (SCpx.sortV (spx ++ [k]))
      pure r.1) iter
  | m + 1, iter, spx => loop (fun k Φ => do
      let r ← Φ.add t (SCpx.sortV (spx ++ [k]))
      let nb ← rd nbrs k
      recFilt nbrs t m (intersectSortedLt k iter nb) (SCpx.sortV (spx ++ [k])) r.1) iter

/-- filtration/flag.hpp:299-303: the vertices `k, k+1, ..` -/
def vertsFilt (t0 : T) : Nat → Nat → Filt T → Res (Filt T)
  | 0, _, Φ => .ok Φ
  | n + 1, k, Φ => do
    let r ← Φ.add t0 [k]
    vertsFilt t0 n (k + 1) r.1

/-- filtration/flag.hpp:319-320: the optional recursion -/
def recIf (maxdim : Nat) (nbrs : List (List Nat)) (t : T) (iter spx : List Nat) (Φ : Filt T) : Res (Filt T) :=
  if iter.isEmpty = false ∧ 1 < maxdim then recFilt nbrs t (maxdim - 2) iter spx Φ else .ok Φ

/-- filtration/flag.hpp:326-333: record the edge in the neighbour lists -/
def addNbrs (nbrs : List (List Nat)) (i j : Nat) : Res (List (List Nat)) := do
  let ni ← rd nbrs i
  let nbrs1 ← wr nbrs i (SCpx.sortV (ni ++ [j]))
  let nj ← rd nbrs1 j
  wr nbrs1 j (SCpx.sortV (nj ++ [i]))

/-- filtration/flag.hpp:309-334, the loop over the edges -/
def edgesFilt (maxdim : Nat) : List (FEdge T) → List (List Nat) → Filt T → Res (Filt T)
  | [], _, Φ => .ok Φ
  | e :: es, nbrs, Φ => do
    let r ← Φ.add e.r (SCpx.sortV [e.s, e.t])
    let ni ← rd nbrs e.s
    let nj ← rd nbrs e.t
    let Ψ ← recIf maxdim nbrs e.r (intersectSorted ni nj) (SCpx.sortV [e.s, e.t]) r.1
    let nbrs' ← addNbrs nbrs e.s e.t
    edgesFilt maxdim es nbrs' Ψ

variable [LinearOrder T]

/-- filtration/flag.hpp:26-32 `operator<`, as the total order "not greater" -/
def edgeLe (a b : FEdge T) : Prop := a.r < b.r ∨ (a.r = b.r ∧ (a.s < b.s ∨ (a.s = b.s ∧ a.t ≤ b.t)))

instance : DecidableRel (edgeLe (T := T)) := fun a b => by unfold edgeLe; infer_instance

/-- `std::sort(edges)`, filtration/flag.hpp:286. The order is total and edges that compare equal are equal, so every sorting
algorithm gives the same vector. -/
def sortEdges (edges : List (FEdge T)) : List (FEdge T) := edges.insertionSort edgeLe

/-- filtration/flag.hpp:278-337 `FlagFiltration(edges, n, maxdim, t0)` for `SimplicialComplex` -/
def flagFiltration (edges : List (FEdge T)) (n maxdim : Nat) (t0 : T) : Res (Filt T) := do
  let Φ0 ← Filt.ofCpx (SCpx.init maxdim)
  let Φ1 ← vertsFilt t0 n 0 Φ0
  edgesFilt maxdim (sortEdges edges) (List.replicate n []) Φ1

/-- inner loop of topology/rips.hpp:68-72 for `i, i+1, ..`: the entries `(i, j)` with `i < j` of the matrix -/
def ripsRow (pdist : Nat → Nat → T) (rmax : T) (j : Nat) : Nat → Nat → List (FEdge T)
  | 0, _ => []
  | c + 1, i => if pdist i j ≤ rmax then ⟨i, j, pdist i j⟩ :: ripsRow pdist rmax j c (i + 1) else ripsRow pdist rmax j c (i + 1)

/-- topology/rips.hpp:59-75 `rips_filtration_edges(pdist, rmax)` for an `n × n` matrix: columns `j, j+1, ..` -/
def ripsLoop (pdist : Nat → Nat → T) (rmax : T) : Nat → Nat → List (FEdge T)
  | 0, _ => []
  | c + 1, j => ripsRow pdist rmax j j 0 ++ ripsLoop pdist rmax c (j + 1)

/-- topology/rips.hpp:59-75 -/
def ripsFiltrationEdges (pdist : Nat → Nat → T) (n : Nat) (rmax : T) : List (FEdge T) := ripsLoop pdist rmax n 0

/-- topology/rips.hpp:142-151 `RipsFiltration(pdist, rmax, dmax)` -/
def ripsFiltration (pdist : Nat → Nat → T) (n : Nat) (rmax : T) (dmax : Nat) : Res (Filt T) :=
  flagFiltration (ripsFiltrationEdges pdist n rmax) n dmax 0

/-- inner loop of topology/rips.hpp:44-49 for `j, j+1, ..`: the pairs `(i, j)` with `j < i`; `d i j` is `dist(X[i], X[j])` -/
def ripsDataRow (d : Nat → Nat → T) (rmax : T) (i : Nat) : Nat → Nat → List (FEdge T)
  | 0, _ => []
  | c + 1, j => if d i j ≤ rmax then ⟨i, j, d i j⟩ :: ripsDataRow d rmax i c (j + 1) else ripsDataRow d rmax i c (j + 1)

/-- loop of topology/rips.hpp:43-50 -/
def ripsDataLoop (d : Nat → Nat → T) (rmax : T) : Nat → Nat → List (FEdge T)
  | 0, _ => []
  | c + 1, i => ripsDataRow d rmax i i 0 ++ ripsDataLoop d rmax c (i + 1)

/-- topology/rips.hpp:36-55 `rips_filtration_edges(X, dist, rmax)`, sorted at the end -/
def ripsDataEdges (d : Nat → Nat → T) (n : Nat) (rmax : T) : List (FEdge T) := sortEdges (ripsDataLoop d rmax n 0)

/-- topology/rips.hpp:129-140 `RipsFiltration(X, dist, rmax, dmax)` for `n` points -/
def ripsFiltrationData (d : Nat → Nat → T) (n : Nat) (rmax : T) (dmax : Nat) : Res (Filt T) :=
  flagFiltration (ripsDataEdges d n rmax) n dmax 0

end filt

/-- topology/flag.hpp:8-51 `add_dimension_recursive_flag(X, nbrs, d, maxd, iter_idxs, spx_idxs)` with `m = maxd - d`, for `d ≤ maxd` -/
def recCpx (nbrs : List (List Nat)) : Nat → List Nat → List Nat → SCpx → Res SCpx
  | 0, iter, spx => loop (fun k X => do
      let r ← X.add (SCpx.sortV (spx ++ [k]))
      pure r.1) iter
  | m + 1, iter, spx => loop (fun k X => do
      let r ← X.add (SCpx.sortV (spx ++ [k]))
      let nb ← rd nbrs k
      recCpx nbrs m (intersectSortedLt k iter nb) (SCpx.sortV (spx ++ [k])) r.1) iter

/-- topology/flag.hpp:76-79 -/
def vertsCpx : Nat → Nat → SCpx → Res SCpx
  | 0, _, X => .ok X
  | n + 1, k, X => do
    let r ← X.add [k]
    vertsCpx n (k + 1) r.1

/-- topology/flag.hpp:96-98: the recursion starts at dimension 2 and does nothing if `maxdim < 2` -/
def recIfCpx (maxdim : Nat) (nbrs : List (List Nat)) (iter spx : List Nat) (X : SCpx) : Res SCpx :=
  if iter.isEmpty = false ∧ 2 ≤ maxdim then recCpx nbrs (maxdim - 2) iter spx X else .ok X

/-- topology/flag.hpp:87-109, the loop over the pairs `(edges[2k], edges[2k+1])` -/
def edgesCpx (maxdim : Nat) : List Nat → List (List Nat) → SCpx → Res SCpx
  | i :: j :: es, nbrs, X => do
    let r ← X.add [i, j]
    let ni ← rd nbrs i
    let nj ← rd nbrs j
    let Y ← recIfCpx maxdim nbrs (intersectSorted ni nj) [i, j] r.1
    let nbrs' ← addNbrs nbrs i j
    edgesCpx maxdim es nbrs' Y
  | _, _, X => .ok X

/-- topology/flag.hpp:58-113 `FlagComplex(edges, n, maxdim)` -/
def flagComplex (edges : List Nat) (n maxdim : Nat) : Res SCpx :=
  if edges.length ≠ 2 * (edges.length / 2) then .error .thrown
  else do
    let X ← vertsCpx n 0 (SCpx.init maxdim)
    edgesCpx maxdim edges (List.replicate n []) X

end Flag
end BATS
