import Verif.Model.Flag
import Verif.Model.Nerve
import Verif.Model.Diagram
import Verif.Model.ZigzagFilt
import Mathlib.Algebra.Order.Group.Defs

/-!
# Model of include/topology/neighborhood.hpp, dowker.hpp, dowker_cover.hpp, rips_cover.hpp, of `firstk` (include/util/permutation.hpp) and of `Filtration::union_add`

A matrix is the list of its rows. Data sets with a metric are given by tables of distances: `rows[i]` is `dist(X[i], Y)`. Numbers are exact (no rounding, no NaN);
`tmax` is `std::numeric_limits<T>::max()`.
-/

namespace BATS
namespace Wit

section order
variable {T : Type} [LinearOrder T]

/-- `M(i, j)` of a matrix in row-major format, naive_dense.hpp:162-171 -/
def mget (M : List (List T)) (i j : Nat) : Res T := do
  let row ← rd M i
  rd row j

/-- `M(i, j) = v`, naive_dense.hpp:150-160 -/
def mset (M : List (List T)) (i j : Nat) (v : T) : Res (List (List T)) := do
  let row ← rd M i
  let row' ← wr row j v
  wr M i row'

/-! ### dowker.hpp -/

/-- dowker.hpp:26-30: the loop over the rows `pdist(i, j), pdist(i+1, j), ..`; `m` is `m[j]` and `mj` the smallest entry above it so far -/
def nextAbove (m : T) (j : Nat) : List (List T) → T → Res T
  | [], mj => .ok mj
  | row :: rows, mj => do
    let d ← rd row j
    nextAbove m j rows (if mj < d then mj else if m < d then d else mj)

/-- dowker.hpp:17-36 `increment_m(pdist, m)` for the entries `m[j], m[j+1], ..` -/
def incrementM (tmax : T) (pdist : List (List T)) : List T → Nat → Res (List T)
  | [], _ => .ok []
  | m :: ms, j => do
    let x ← nextAbove m j pdist tmax
    let r ← incrementM tmax pdist ms (j + 1)
    .ok (x :: r)

/-- dowker.hpp:46-50: `nu` calls of `increment_m` -/
def getMLoop (tmax : T) (pdist : List (List T)) : Nat → List T → Res (List T)
  | 0, m => .ok m
  | nu + 1, m => do
    let m' ← incrementM tmax pdist m 0
    getMLoop tmax pdist nu m'

/-- dowker.hpp:38-53 `get_m(pdist, nu)` for a matrix with `nX` columns -/
def getM [Zero T] (tmax : T) (pdist : List (List T)) (nX nu : Nat) : Res (List T) := getMLoop tmax pdist nu (List.replicate nX 0)

/-- dowker.hpp:64-66, for the columns `k, k+1, ..` -/
def edgeParamLoop (pdist : List (List T)) (i j : Nat) : Nat → Nat → T → Res T
  | 0, _, r => .ok r
  | c + 1, k, r => do
    let x ← mget pdist i k
    let y ← mget pdist j k
    edgeParamLoop pdist i j c (k + 1) (min r (max x y))

/-- dowker.hpp:57-68 `dowker_edge_param(pdist, i, j)` -/
def edgeParam (tmax : T) (pdist : List (List T)) (nX i j : Nat) : Res T := edgeParamLoop pdist i j nX 0 tmax

/-- dowker.hpp:82-84: `R(i,j) = R(j,i)` for `i, i+1, ..` -/
def copyCol (j : Nat) : Nat → Nat → List (List T) → Res (List (List T))
  | 0, _, R => .ok R
  | c + 1, i, R => do
    let v ← mget R j i
    let R' ← mset R i j v
    copyCol j c (i + 1) R'

/-- dowker.hpp:85-87: `R(i,j) = dowker_edge_param(pdist, i, j)` for `i, i+1, ..` -/
def fillCol (tmax : T) (pdist : List (List T)) (nX j : Nat) : Nat → Nat → List (List T) → Res (List (List T))
  | 0, _, R => .ok R
  | c + 1, i, R => do
    let v ← edgeParam tmax pdist nX i j
    let R' ← mset R i j v
    fillCol tmax pdist nX j c (i + 1) R'

/-- dowker.hpp:81-88: the columns `j, j+1, ..` -/
def paramLoop (tmax : T) (pdist : List (List T)) (nX : Nat) : Nat → Nat → List (List T) → Res (List (List T))
  | 0, _, R => .ok R
  | c + 1, j, R => do
    let R1 ← copyCol j j 0 R
    let R2 ← fillCol tmax pdist nX j (pdist.length - (j + 1)) (j + 1) R1
    paramLoop tmax pdist nX c (j + 1) R2

/-- dowker.hpp:72-90 `dowker_edge_param(pdist)`; a new matrix is filled with 0 (naive_dense.hpp:355-360) -/
def dowkerParam [Zero T] (tmax : T) (pdist : List (List T)) (nX : Nat) : Res (List (List T)) :=
  paramLoop tmax pdist nX pdist.length 0 (List.replicate pdist.length (List.replicate pdist.length 0))

/-- dowker.hpp:272-277, the inner loop of `flag_filtration_edges` for `j, j+1, ..` -/
def flagRow (R : List (List T)) (rmax : T) (i : Nat) : Nat → Nat → Res (List (FEdge T))
  | 0, _ => .ok []
  | c + 1, j => do
    let d ← mget R i j
    let es ← flagRow R rmax i c (j + 1)
    .ok (if d < rmax then ⟨i, j, d⟩ :: es else es)

/-- dowker.hpp:271-278, the rows `i, i+1, ..` -/
def flagLoop (R : List (List T)) (rmax : T) : Nat → Nat → Res (List (FEdge T))
  | 0, _ => .ok []
  | c + 1, i => do
    let a ← flagRow R rmax i i 0
    let b ← flagLoop R rmax c (i + 1)
    .ok (a ++ b)

/-- dowker.hpp:263-283 `flag_filtration_edges(pdist, rmax)` for a matrix with `n` columns -/
def flagFiltrationEdges [Zero T] (R : List (List T)) (n : Nat) (rmax : T) : Res (List (FEdge T)) := do
  let es ← flagLoop R rmax n 0
  .ok (Flag.sortEdges es)

/-- dowker.hpp:303-313 `DowkerFiltration(pdist, rmax, dmax)` for a matrix with `nX` columns; dowker.hpp:316-326 calls it with `pdist = dist(L, X)` -/
def dowkerFiltration [Zero T] (tmax : T) (pdist : List (List T)) (nX : Nat) (rmax : T) (dmax : Nat) : Res (Filt T) := do
  let R ← dowkerParam tmax pdist nX
  let edges ← flagFiltrationEdges R pdist.length rmax
  Flag.flagFiltration edges pdist.length dmax 0

section sub
variable [Zero T] [Sub T]

/-- dowker.hpp:111-114: the entries `pdist(i, j), pdist(i+1, j), ..` of column `j` -/
def adjustCol (m : T) (j : Nat) : Nat → Nat → List (List T) → Res (List (List T))
  | 0, _, p => .ok p
  | c + 1, i, p => do
    let x ← mget p i j
    let p' ← mset p i j (if 0 < x - m then x - m else 0)
    adjustCol m j c (i + 1) p'

/-- dowker.hpp:110-115: the columns `j, j+1, ..`; the inner loop runs over `nX` rows (line 111), not over the rows of the matrix -/
def adjustLoop (m : List T) (nX : Nat) : Nat → Nat → List (List T) → Res (List (List T))
  | 0, _, p => .ok p
  | c + 1, j, p => do
    let mj ← rd m j
    let p' ← adjustCol mj j nX 0 p
    adjustLoop m nX c (j + 1) p'

/-- dowker.hpp:94-118 `witness_edge_param(X, L, dist, nu)`; `pdist = dist(L, X)` -/
def witnessParam (tmax : T) (pdist : List (List T)) (nX nu : Nat) : Res (List (List T)) := do
  let m ← getM tmax pdist nX nu
  let p ← adjustLoop m nX nX 0 pdist
  dowkerParam tmax p nX

/-- dowker.hpp:287-299 `WitnessFiltration(L, X, dist, rmax, dmax)` -/
def witnessFiltration (tmax : T) (pdist : List (List T)) (nX : Nat) (rmax : T) (dmax : Nat) : Res (Filt T) := do
  let R ← witnessParam tmax pdist nX 0
  let edges ← flagFiltrationEdges R pdist.length rmax
  Flag.flagFiltration edges pdist.length dmax 0

end sub

/-! ### neighborhood.hpp -/

/-- neighborhood.hpp:14-31 `neighborhood(x, X, dist, r)`: the positions `i, i+1, ..` of the distances less than `r` -/
def within (r : T) : List T → Nat → List Nat
  | [], _ => []
  | d :: ds, i => if d < r then i :: within r ds (i + 1) else within r ds (i + 1)

/-- neighborhood.hpp:50-66 `neighborhoods(X, Y, dist, r)`: the vector is created with `X.size()` empty entries (line 58) and the neighbourhoods are appended, in the
order of the schedule. (With more than one thread the concurrent `emplace_back` on one vector is a data race; only schedules without overlap are modelled.) -/
def neighborhoodsR (rows : List (List T)) (r : T) (sched : List Nat) : Res (List (List Nat)) :=
  parFor (fun nbrs i => do
    let row ← rd rows i
    .ok (nbrs ++ [within r row 0])) sched (List.replicate rows.length [])

/-- neighborhood.hpp:106-110: the rows `i, i+1, ..` whose entry in column `j` is at most `eps` -/
def hoodRows (eps : T) (j : Nat) : List (List T) → Nat → Res (List Nat)
  | [], _ => .ok []
  | row :: rows, i => do
    let d ← rd row j
    let r ← hoodRows eps j rows (i + 1)
    .ok (if d ≤ eps then i :: r else r)

/-- neighborhood.hpp:105-111: the columns `j, j+1, ..` -/
def hoodLoop (pdist : List (List T)) (eps : T) : Nat → Nat → List (List Nat) → Res (List (List Nat))
  | 0, _, c => .ok c
  | n + 1, j, c => do
    let r ← hoodRows eps j pdist 0
    let c' ← Nrv.emplaceAll j r c
    hoodLoop pdist eps n (j + 1) c'

/-- neighborhood.hpp:97-113 `neighborhoods(pdist, eps)` for a matrix with `ncol` columns -/
def hoods (pdist : List (List T)) (ncol : Nat) (eps : T) : Res (List (List Nat)) := hoodLoop pdist eps ncol 0 (List.replicate pdist.length [])

/-- an implementation of `std::partial_sort(first, first + k, last, comp)`: for a strict weak ordering the result is a rearrangement in which none of the first `k` elements
comes before a smaller one (the order of equivalent elements, and the order of the elements from position `k` on, is not specified) -/
structure PartialSort where
  sort : {α : Type} → (α → α → Bool) → Nat → List α → List α
  spec : ∀ {α : Type} (cmp : α → α → Bool) (k : Nat) (l : List α), Zigzag.StrictWeakOn cmp l → k ≤ l.length →
    (sort cmp k l).Perm l ∧ ∀ (i j : Nat) (a b : α), i < j → i < k → (sort cmp k l)[i]? = some a → (sort cmp k l)[j]? = some b → cmp b a = false

/-- permutation.hpp:138-155 `firstk(begin, end, k)`; a middle iterator behind the end is undefined -/
def firstk [Zero T] (P : PartialSort) (d : List T) (k : Nat) : Res (List Nat) :=
  if d.length < k then .error .ub
  else .ok ((P.sort (fun a b => decide (d.getD a 0 < d.getD b 0)) k (List.range d.length)).take k)

/-- neighborhood.hpp:71-89 `neighborhoods(X, Y, dist, k)`, neighborhood.hpp:36-45 `neighborhood(x, X, dist, k)`; the iterations run in the order of the schedule -/
def neighborhoodsK [Zero T] (P : PartialSort) (rows : List (List T)) (k : Nat) (sched : List Nat) : Res (List (List Nat)) :=
  parFor (fun nbrs i => do
    let row ← rd rows i
    let nb ← firstk P row k
    wr nbrs i nb) sched (List.replicate rows.length [])

/-- cover.hpp:133-137, the loop of `landmark_cover` over the points `i, i+1, ..` -/
def landmarkLoop : List (List Nat) → Nat → List (List Nat) → Res (List (List Nat))
  | [], _, c => .ok c
  | nb :: ns, i, c => do
    let c' ← Nrv.emplaceAll i nb c
    landmarkLoop ns (i + 1) c'

/-- cover.hpp:123-140 `landmark_cover(X, L, dist, k)` for `nL` landmarks -/
def landmarkCover [Zero T] (P : PartialSort) (rows : List (List T)) (nL k : Nat) (sched : List Nat) : Res (List (List Nat)) := do
  let ns ← neighborhoodsK P rows k sched
  landmarkLoop ns 0 (List.replicate nL [])

/-- dowker.hpp:165-172, the inner loop of `witness_edges` for `j, j+1, ..` -/
def witnessEdgeRow (nbrs : List (List Nat)) (i : Nat) : Nat → Nat → Res (List Nat)
  | 0, _ => .ok []
  | c + 1, j => do
    let a ← rd nbrs i
    let b ← rd nbrs j
    let es ← witnessEdgeRow nbrs i c (j + 1)
    .ok (if 0 < (Srt.intersectSorted a b).length then j :: i :: es else es)

/-- dowker.hpp:164-173, for `i, i+1, ..` -/
def witnessEdgeLoop (nbrs : List (List Nat)) : Nat → Nat → Res (List Nat)
  | 0, _ => .ok []
  | c + 1, i => do
    let a ← witnessEdgeRow nbrs i i 0
    let b ← witnessEdgeLoop nbrs c (i + 1)
    .ok (a ++ b)

/-- dowker.hpp:147-175 `witness_edges(X, L, dist, rmax)`; `rows[i] = dist(L[i], X)` -/
def witnessEdges (rows : List (List T)) (rmax : T) (sched : List Nat) : Res (List Nat) := do
  let nbrs ← neighborhoodsR rows rmax sched
  witnessEdgeLoop nbrs rows.length 0

/-- dowker.hpp:207-209: `spx[j] = nbrs[i][j]` for `j < n` -/
def prefixOf (nb : List Nat) (n : Nat) : Res (List Nat) := if nb.length < n then .error .ub else .ok (nb.take n)

/-- dowker.hpp:206-212: the simplices of dimension `dim` which the points witness -/
def pointLoop (dim : Nat) : List (List Nat) → SCpx → Res SCpx
  | [], W => .ok W
  | nb :: ns, W => do
    let spx ← prefixOf nb (dim + 1)
    let r ← W.add spx
    pointLoop dim ns r.1

/-- dowker.hpp:203-213: the dimensions `dim, dim+1, ..` -/
def dimLoop (nbrs : List (List Nat)) : Nat → Nat → SCpx → Res SCpx
  | 0, _, W => .ok W
  | c + 1, dim, W => do
    let W' ← pointLoop dim nbrs W
    dimLoop nbrs c (dim + 1) W'

/-- dowker.hpp:179-216 `WitnessComplex(X, L, dist, dmax)` for `nL` landmarks; `rows[i] = dist(X[i], L)`. The loop 196-198 over the landmarks is that of `FlagComplex`. -/
def witnessComplex [Zero T] (P : PartialSort) (rows : List (List T)) (nL dmax : Nat) (sched : List Nat) : Res SCpx := do
  let nbrs ← neighborhoodsK P rows (dmax + 1) sched
  let W ← Flag.vertsCpx nL 0 (SCpx.init dmax)
  dimLoop nbrs dmax 1 W

/-- dowker.hpp:232-243, 248-260 `StrictWitnessComplex(X, L, dist, nu, rmax, dmax)`; `pdist = dist(L, X)` -/
def strictWitnessComplex [Zero T] [Sub T] (tmax : T) (pdist : List (List T)) (nX nu : Nat) (rmax : T) (dmax : Nat) : Res SCpx := do
  let R ← witnessParam tmax pdist nX nu
  let cover ← hoods R pdist.length rmax
  Nrv.nerve cover dmax

/-! ### rips_cover.hpp, dowker_cover.hpp -/

/-- `std::set<filtered_edge>::emplace` -/
def edgeInsert [Zero T] (e : FEdge T) : List (FEdge T) → List (FEdge T)
  | [] => [e]
  | f :: fs => if Flag.edgeLe e f then (if Flag.edgeLe f e then f :: fs else e :: f :: fs) else f :: edgeInsert e fs

/-- rips_cover.hpp:34-40, dowker_cover.hpp:38-44: the loop over `jit` -/
def coverRow [Zero T] (d : Nat → Nat → Res T) (rmax : T) (i : Nat) : List Nat → List (FEdge T) → Res (List (FEdge T))
  | [], S => .ok S
  | j :: js, S => do
    let x ← d i j
    coverRow d rmax i js (if x < rmax then edgeInsert ⟨i, j, x⟩ S else S)

/-- rips_cover.hpp:31-42, dowker_cover.hpp:35-46: the loop over `iit` -/
def coverPairs [Zero T] (d : Nat → Nat → Res T) (rmax : T) : List Nat → List (FEdge T) → Res (List (FEdge T))
  | [], S => .ok S
  | i :: rest, S => do
    let S' ← coverRow d rmax i rest S
    coverPairs d rmax rest S'

/-- rips_cover.hpp:28-43, dowker_cover.hpp:32-47: the loop over the cover -/
def coverEdges [Zero T] (d : Nat → Nat → Res T) (rmax : T) : List (List Nat) → List (FEdge T) → Res (List (FEdge T))
  | [], S => .ok S
  | U :: cover, S => do
    let S' ← coverPairs d rmax U S
    coverEdges d rmax cover S'

/-- `dist(X[i], X[j])` for a data set with `n` points -/
def dataDist (dist : Nat → Nat → T) (n i j : Nat) : Res T := if i < n ∧ j < n then .ok (dist i j) else .error .ub

/-- rips_cover.hpp:53-64 `RipsFiltration(X, cover, dist, rmax, dmax)` for `n` points -/
def ripsCoverFiltration [Zero T] (dist : Nat → Nat → T) (n : Nat) (cover : List (List Nat)) (rmax : T) (dmax : Nat) : Res (Filt T) := do
  let edges ← coverEdges (dataDist dist n) rmax cover []
  Flag.flagFiltration edges n dmax 0

/-- dowker_cover.hpp:57-66 `DowkerFiltration(pdist, cover, rmax, dmax)` -/
def dowkerCoverFiltration [Zero T] (tmax : T) (pdist : List (List T)) (nX : Nat) (cover : List (List Nat)) (rmax : T) (dmax : Nat) : Res (Filt T) := do
  let edges ← coverEdges (edgeParam tmax pdist nX) rmax cover []
  Flag.flagFiltration edges pdist.length dmax 0

/-- filtration.hpp:184-189: the cells `i, i+1, ..` of dimension `dim` -/
def unionRow [Zero T] (Φ2 : Filt T) (dim : Nat) : Nat → Nat → Filt T → Res (Filt T)
  | 0, _, Φ => .ok Φ
  | n + 1, i, Φ => do
    let s ← Φ2.X.getSimplex dim i
    let row ← rd Φ2.val dim
    let t ← rd row i
    let r ← Φ.X.add s
    let Ψ ← Filt.store Φ.val dim t r.1 r.2
    unionRow Φ2 dim n (i + 1) Ψ.1

/-- filtration.hpp:182-190: the dimensions `dim, dim+1, ..` -/
def unionLoop [Zero T] (Φ2 : Filt T) : Nat → Nat → Filt T → Res (Filt T)
  | 0, _, Φ => .ok Φ
  | c + 1, dim, Φ => do
    let n ← Φ2.X.numCells dim
    let Ψ ← unionRow Φ2 dim n 0 Φ
    unionLoop Φ2 c (dim + 1) Ψ

/-- filtration.hpp:180-191 `union_add(F2)`; `F2.maxdim() + 1` is the number of rows of `F2.val` -/
def unionAdd [Zero T] (Φ Φ2 : Filt T) : Res (Filt T) := unionLoop Φ2 Φ2.val.length 0 Φ

/-- rips_cover.hpp:87-93: the loop over `jit`, which appends to the vector -/
def strictRow (d : Nat → Nat → Res T) (rmax : T) (i : Nat) : List Nat → Res (List (FEdge T))
  | [] => .ok []
  | j :: js => do
    let x ← d i j
    let es ← strictRow d rmax i js
    .ok (if x < rmax then ⟨i, j, x⟩ :: es else es)

/-- rips_cover.hpp:84-95: the edges within one set -/
def strictPairs (d : Nat → Nat → Res T) (rmax : T) : List Nat → Res (List (FEdge T))
  | [] => .ok []
  | i :: rest => do
    let a ← strictRow d rmax i rest
    let b ← strictPairs d rmax rest
    .ok (a ++ b)

/-- rips_cover.hpp:81-98: the loop over the cover -/
def strictLoop [Zero T] (dist : Nat → Nat → T) (n : Nat) (rmax : T) (dmax : Nat) : List (List Nat) → Filt T → Res (Filt T)
  | [], Φ => .ok Φ
  | U :: cover, Φ => do
    let edges ← strictPairs (dataDist dist n) rmax U
    let FU ← Flag.flagFiltration edges n dmax 0
    let Ψ ← unionAdd Φ FU
    strictLoop dist n rmax dmax cover Ψ

/-- rips_cover.hpp:69-100 `StrictRipsCoverFiltration(X, cover, dist, rmax, dmax)`, over `SimplicialComplex` (filtration.hpp:82-88, simplicial_complex.hpp:300-303) -/
def strictRipsCoverFiltration [Zero T] (dist : Nat → Nat → T) (n : Nat) (cover : List (List Nat)) (rmax : T) (dmax : Nat) : Res (Filt T) := do
  let Φ ← Filt.ofCpx (SCpx.init dmax)
  strictLoop dist n rmax dmax cover Φ

end order
end Wit
end BATS
