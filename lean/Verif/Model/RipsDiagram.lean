import Verif.Model.Diagram
import Verif.Model.Flag
import Verif.Model.Landmark
import Verif.Model.Sorted
import Verif.Model.Nerve

/-!
# Model of the Rips functors of include/multigraph/functors.hpp, of include/topology/inclusion.hpp and of include/topology/zigzag_zoo.hpp

A `std::set<size_t>` is the increasing list of its elements. A data set with a metric is given by `dist : Nat → Nat → T`, where `dist i j` is
`dist(X[i], X[j])`. Arithmetic on distances is exact.
-/

namespace BATS
namespace Zoo
open Srt

/-! ### inclusion.hpp -/

/-- inclusion.hpp:19-22: `while (*it != x) { it++; ct++; }`; dereferencing the end of `t` is undefined -/
def seek (x : Nat) : List Nat → Nat → Res (List Nat × Nat)
  | [], _ => .error .ub
  | y :: t, ct => if y ≠ x then seek x t (ct + 1) else .ok (y :: t, ct)

/-- inclusion.hpp:18-24, the loop of `vertex_inclusion_map` over `s`, with the rest of `t` from `it` on -/
def inclLoop : List Nat → List Nat → Nat → Res (List Nat)
  | [], _, _ => .ok []
  | x :: s, t, ct => do
    let p ← seek x t ct
    let r ← inclLoop s p.1 p.2
    pure (p.2 :: r)

/-- inclusion.hpp:12-26 `vertex_inclusion_map(s, t)` -/
def vertexInclusionMap (s t : List Nat) : Res (List Nat) := inclLoop s t 0

/-- inclusion.hpp:33-37: `add_node(c)`, and for `i > 0` the edge back to the union before it -/
def unionBack (c : List Nat) (i : Nat) (D : Diagram (List Nat) (List Nat)) : Res (Diagram (List Nat) (List Nat)) :=
  if 0 < i then do
    let s ← rd (D.addNode c).1.node (D.addNode c).2
    let t ← rd (D.addNode c).1.node ((D.addNode c).2 - 1)
    let f ← vertexInclusionMap s t
    pure ((D.addNode c).1.addEdge (D.addNode c).2 ((D.addNode c).2 - 1) f).1
  else pure (D.addNode c).1

/-- inclusion.hpp:32-43, the loop of `linear_subset_union_diagram` for the subsets from `i` on -/
def unionLoop : List (List Nat) → Nat → Diagram (List Nat) (List Nat) → Res (Diagram (List Nat) (List Nat))
  | [], _, D => .ok D
  | c :: cs, i, D => do
    let D2 ← unionBack c i D
    match cs with
    | [] => .ok D2
    | c' :: _ => do
      let D3 := (D2.addNode (setUnion c c')).1
      let s ← rd D3.node (D.addNode c).2
      let t ← rd D3.node (D2.addNode (setUnion c c')).2
      let f ← vertexInclusionMap s t
      unionLoop cs (i + 1) (D3.addEdge (D.addNode c).2 (D2.addNode (setUnion c c')).2 f).1

/-- inclusion.hpp:28-46 `linear_subset_union_diagram(subsets)` -/
def linearSubsetUnionDiagram (subsets : List (List Nat)) : Res (Diagram (List Nat) (List Nat)) := unionLoop subsets 0 Diagram.empty

/-- inclusion.hpp:53-57: `add_node(c)`, and for `i > 0` the edge from the intersection before it; its target (line 56) is `i`, not `i1` -/
def interBack (c : List Nat) (i : Nat) (D : Diagram (List Nat) (List Nat)) : Res (Diagram (List Nat) (List Nat)) :=
  if 0 < i then do
    let s ← rd (D.addNode c).1.node ((D.addNode c).2 - 1)
    let t ← rd (D.addNode c).1.node (D.addNode c).2
    let f ← vertexInclusionMap s t
    pure ((D.addNode c).1.addEdge ((D.addNode c).2 - 1) i f).1
  else pure (D.addNode c).1

/-- inclusion.hpp:52-63, the loop of `linear_cover_intersection_diagram` from set `i` on -/
def interLoop : List (List Nat) → Nat → Diagram (List Nat) (List Nat) → Res (Diagram (List Nat) (List Nat))
  | [], _, D => .ok D
  | c :: cs, i, D => do
    let D2 ← interBack c i D
    match cs with
    | [] => .ok D2
    | c' :: _ => do
      let D3 := (D2.addNode (intersectSorted c c')).1
      let s ← rd D3.node (D2.addNode (intersectSorted c c')).2
      let t ← rd D3.node (D.addNode c).2
      let f ← vertexInclusionMap s t
      interLoop cs (i + 1) (D3.addEdge (D2.addNode (intersectSorted c c')).2 (D.addNode c).2 f).1

/-- inclusion.hpp:48-66 `linear_cover_intersection_diagram(cover)` -/
def linearCoverIntersectionDiagram (cover : List (List Nat)) : Res (Diagram (List Nat) (List Nat)) := interLoop cover 0 Diagram.empty

/-! ### Rips complexes of subsets -/

section rips
variable {T : Type} [LinearOrder T]

/-- rips.hpp:24-30, the inner loop of `rips_edges` for `j, j+1, ..` -/
def ripsEdgeRow (d : Nat → Nat → T) (rmax : T) (i : Nat) : Nat → Nat → List Nat
  | 0, _ => []
  | c + 1, j => if d i j ≤ rmax then j :: i :: ripsEdgeRow d rmax i c (j + 1) else ripsEdgeRow d rmax i c (j + 1)

/-- rips.hpp:23-31, the loop of `rips_edges` for `i, i+1, ..` -/
def ripsEdgeLoop (d : Nat → Nat → T) (rmax : T) : Nat → Nat → List Nat
  | 0, _ => []
  | c + 1, i => ripsEdgeRow d rmax i i 0 ++ ripsEdgeLoop d rmax c (i + 1)

/-- rips.hpp:18-33 `rips_edges(X, dist, rmax)` for `n` points -/
def ripsEdges (d : Nat → Nat → T) (n : Nat) (rmax : T) : List Nat := ripsEdgeLoop d rmax n 0

/-- rips.hpp:106-116 `RipsComplex(X, dist, rmax, dmax)` -/
def ripsCpx (d : Nat → Nat → T) (n : Nat) (rmax : T) (dmax : Nat) : Res SCpx := Flag.flagComplex (ripsEdges d n rmax) n dmax

/-- rips.hpp:79-95, 118-127 `RipsComplex(pdist, rmax, dmax)` for an `n × n` matrix: the loops are those of `rips_edges(X, dist, rmax)` with the names of the two
indices exchanged, and read `pdist(i, j)` for `i < j` -/
def ripsCpxMat (pdist : Nat → Nat → T) (n : Nat) (rmax : T) (dmax : Nat) : Res SCpx := ripsCpx (fun j i => pdist i j) n rmax dmax

/-- cover.hpp:103-117 `get_subset(X, ind)`: row `a` is the `a`-th element of `ind`; reading a row which `X` (with `n` points) does not have is undefined -/
def getSubset (n : Nat) (S : List Nat) : Res (List Nat) := if ∀ x ∈ S, x < n then .ok S else .error .ub

/-- functors.hpp:72-73, 108-109: the Rips complex of the subset of a node -/
def ripsNode (dist : Nat → Nat → T) (n : Nat) (rmax : T) (dmax : Nat) (S : List Nat) : Res SCpx := do
  let XI ← getSubset n S
  ripsCpx (fun a b => dist (XI.getD a 0) (XI.getD b 0)) XI.length rmax dmax

/-- a node loop whose iterations use the index, `set_node(i, g(i, D.node[i]))` -/
def nodeLoopI {N E N' E' : Type} (D : Diagram N E) (g : Nat → N → Res N') (sched : List Nat) (TD : Diagram N' E') : Res (Diagram N' E') :=
  parFor (fun s i => do
    let x ← rd D.node i
    let y ← g i x
    s.setNode i y) sched TD

/-- functors.hpp:55-88 `Rips(D, X, dist, rmax, dmax)` for a data set with `n` points -/
def ripsFunctor (sc : Schedule) (D : Diagram (List Nat) (List Nat)) (dist : Nat → Nat → T) (n : Nat) (rmax : T) (dmax : Nat) :
    Res (Diagram SCpx (List (CMat Int))) := do
  let TD ← nodeLoop D (ripsNode dist n rmax dmax) sc.nodes (Diagram.init D.node.length D.edata.length)
  edgeLoop D (fun nodes s t f => do
    let X ← rd nodes s
    let Y ← rd nodes t
    SMap.simplicialMap X Y f) sc.edges TD

/-- functors.hpp:91-130 `Rips(D, X, dist, rmax, dmax)` with a radius for every node -/
def ripsFunctorV (sc : Schedule) (D : Diagram (List Nat) (List Nat)) (dist : Nat → Nat → T) (n : Nat) (rmax : List T) (dmax : Nat) :
    Res (Diagram SCpx (List (CMat Int))) := do
  let TD ← nodeLoopI D (fun i S => do
    let r ← rd rmax i
    ripsNode dist n r dmax S) sc.nodes (Diagram.init D.node.length D.edata.length)
  edgeLoop D (fun nodes s t f => do
    let rt ← rd rmax t
    let rs ← rd rmax s
    if rt < rs then .error .thrown else do
      let X ← rd nodes s
      let Y ← rd nodes t
      SMap.simplicialMap X Y f) sc.edges TD

variable {F : Type} [Field F] [DecidableEq F]

/-- functors.hpp:289-313, the body of the edge loop of `RipsHom`; `Reduce(X, FT())` (basis.hpp:594-597) is the reduction of the chain complex -/
def ripsHomEdge (F : Type) [Field F] [DecidableEq F] (D : Diagram (List Nat) (List Nat)) (dist : Nat → Nat → T) (n : Nat) (rmax : List T) (hdim s t : Nat) (f : List Nat) :
    Res (CMat F) := do
  let rt ← rd rmax t
  let rs ← rd rmax s
  if rt < rs then .error .thrown else do
    let Is ← rd D.node s
    let It ← rd D.node t
    let Xs ← ripsNode dist n rs (hdim + 1) Is
    let Xt ← ripsNode dist n rt (hdim + 1) It
    let Bs ← (Xs.chainComplex : Res (List (CMat F)))
    let Rs ← RedCpx.mkStd Bs
    let Bt ← (Xt.chainComplex : Res (List (CMat F)))
    let Rt ← RedCpx.mkStd Bt
    let M ← SMap.simplicialMap Xs Xt f
    inducedMap (SMap.chainMap M) Rs Rt hdim

/-- functors.hpp:316-325, the sequential loop which sets the dimensions of the nodes, for the edges `i, i+1, ..` -/
def dimLoop (D : Diagram (List Nat) (List Nat)) : Nat → Nat → Diagram Nat (CMat F) → Res (Diagram Nat (CMat F))
  | 0, _, TD => .ok TD
  | c + 1, i, TD => do
    let st ← rd D.elist i
    let M ← rd TD.edata i
    let TD1 ← TD.setNode st.1 M.cols.length
    let TD2 ← TD1.setNode st.2 M.nrow
    dimLoop D c (i + 1) TD2

/-- functors.hpp:264-328 `RipsHom(D, X, dist, rmax, hdim, FT())`; only the schedule of the edge loop matters -/
def ripsHom (F : Type) [Field F] [DecidableEq F] (sched : List Nat) (D : Diagram (List Nat) (List Nat)) (dist : Nat → Nat → T) (n : Nat) (rmax : List T) (hdim : Nat) :
    Res (Diagram Nat (CMat F)) := do
  let TD ← edgeLoop D (fun _ s t f => ripsHomEdge F D dist n rmax hdim s t f) sched (Diagram.init D.node.length D.edata.length)
  dimLoop D D.edata.length 0 TD

end rips

/-! ### zigzag_zoo.hpp -/

section zoo
variable {T : Type} [Field T] [LinearOrder T]

/-- zigzag_zoo.hpp:33 -/
def zzEta (rho theta : T) : T := (3 * rho + 20) / (10 * theta * rho + 20)

/-- zigzag_zoo.hpp:42-47, the loop of `get_dM_ZZ_inds` from index `i` on; `last = hds2.back()` -/
def morozovLoop (eta : T) : List T → Nat → T → List Nat
  | [], _, _ => []
  | h :: hs, i, last => if ¬ eta * last < h then i :: morozovLoop eta hs (i + 1) h else morozovLoop eta hs (i + 1) last

/-- zigzag_zoo.hpp:27-50 `get_dM_ZZ_inds(hds, rho, theta)`; reading `hds[0]` of an empty vector is undefined -/
def morozovInds (hds : List T) (rho theta : T) : Res (List Nat) :=
  match hds with
  | [] => .error .ub
  | h :: hs => .ok (0 :: morozovLoop (zzEta rho theta) hs 1 h)

/-- zigzag_zoo.hpp:91-95, 164-168: `if (j > 0) { set_node(j, s); rmax[j] = prev; j++; }` -/
def zzPrev (s : List Nat) (prev : T) (j : Nat) (D : Diagram (List Nat) (List Nat)) (r : List T) : Res (Nat × Diagram (List Nat) (List Nat) × List T) :=
  if 0 < j then do
    let D1 ← D.setNode j s
    let r1 ← wr r j prev
    pure (j + 1, D1, r1)
  else pure (j, D, r)

/-- zigzag_zoo.hpp:91-99, 164-172: the node of the previous radius, if any, and `set_node(j, s); rmax[j] = cur; j++;` -/
def zzStep (s : List Nat) (prev cur : T) (j : Nat) (D : Diagram (List Nat) (List Nat)) (r : List T) : Res (Nat × Diagram (List Nat) (List Nat) × List T) := do
  let q ← zzPrev s prev j D r
  let D2 ← q.2.1.setNode q.1 s
  let r2 ← wr q.2.2 q.1 cur
  pure (q.1 + 1, D2, r2)

/-- zigzag_zoo.hpp:104-117, 181-196, the loop over the edges `i, i+1, ..` -/
def zzEdges : Nat → Nat → Diagram (List Nat) (List Nat) → Res (Diagram (List Nat) (List Nat))
  | 0, _, D => .ok D
  | c + 1, i, D => do
    let s ← rd D.node (2 * i)
    let t ← rd D.node (2 * i + 1)
    let f ← vertexInclusionMap s t
    let D1 ← D.setEdge (2 * i) (2 * i) (2 * i + 1) f
    let s' ← rd D1.node (2 * i + 2)
    let t' ← rd D1.node (2 * i + 1)
    let f' ← vertexInclusionMap s' t'
    let D2 ← D1.setEdge (2 * i + 1) (2 * i + 2) (2 * i + 1) f'
    zzEdges c (i + 1) D2

/-- zigzag_zoo.hpp:85-87: `while (s.size() <= k) s.emplace(*indit++);`; dereferencing the end of `inds` is undefined -/
def fillSet (k : Nat) : List Nat → List Nat → Res (List Nat × List Nat)
  | [], s => if s.length ≤ k then .error .ub else .ok ([], s)
  | i :: is, s => if s.length ≤ k then fillSet k is (setInsert i s) else .ok (i :: is, s)

/-- zigzag_zoo.hpp:79-101, the loop over `inds2`, with the remaining `inds`, the set `s`, the node index `j` and the radius of the previous level (not read
for `j = 0`) -/
def morozovNodes (hds : List T) (rho : T) : List Nat → List Nat → List Nat → T → Nat → Diagram (List Nat) (List Nat) → List T →
    Res (Diagram (List Nat) (List Nat) × List T)
  | [], _, _, _, _, D, r => .ok (D, r)
  | k :: ks, is, s, prev, j, D, r => do
    let p ← fillSet k is s
    let h ← rd hds k
    let q ← zzStep p.2 prev (h * rho) j D r
    morozovNodes hds rho ks p.1 p.2 (h * rho) q.1 q.2.1 q.2.2

/-- zigzag_zoo.hpp:53-120 `DiscreteMorozovZigzagSets(D, dist, rho)` for the table `rows` of distances; the data have dimension `dim`, and
`theta = sqrt(dim / (2 dim + 1))` is a parameter. -/
def morozovSets (rows : List (List T)) (dim : Nat) (rho theta : T) : Res (Diagram (List Nat) (List Nat) × List T) := do
  let i0 ← Lmk.approxCenter rows dim 0 0
  let p ← Lmk.greedyHausdorff rows i0
  let inds2 ← morozovInds p.2 rho theta
  let n := inds2.length
  let q ← morozovNodes p.2 rho inds2 p.1 [] 0 0 (Diagram.init (2 * n - 1) (2 * n - 2)) (List.replicate (2 * n - 1) 0)
  let D ← zzEdges (n - 1) 0 q.1
  pure (D, q.2)

/-- zigzag_zoo.hpp:156-178, the loop over the landmarks; `eps1` is not read for `j = 0` -/
def oscNodes (rho eta : T) : List Nat → List T → List Nat → T → Nat → Diagram (List Nat) (List Nat) → List T → Res (Diagram (List Nat) (List Nat) × List T)
  | [], _, _, _, _, D, r => .ok (D, r)
  | _ :: _, [], _, _, _, _, _ => .error .ub
  | i :: is, eps :: hs, s, eps1, j, D, r => do
    let q ← zzStep (setInsert i s) (rho * eps1) (eta * eps) j D r
    oscNodes rho eta is hs (setInsert i s) eps q.1 q.2.1 q.2.2

/-- zigzag_zoo.hpp:134-199 `OscillatingRipsZigzagSets(D, dist, rho, eta)` -/
def oscillatingSets (rows : List (List T)) (dim : Nat) (rho eta : T) : Res (Diagram (List Nat) (List Nat) × List T) :=
  if rho < eta then .error .thrown else do
    let i0 ← Lmk.approxCenter rows dim 0 0
    let p ← Lmk.greedyHausdorff rows i0
    let n := p.1.length
    let q ← oscNodes rho eta p.1 p.2 [] 0 0 (Diagram.init (2 * n - 1) (2 * n - 2)) (List.replicate (2 * n - 1) 0)
    let D ← zzEdges (n - 1) 0 q.1
    pure (D, q.2)

/-- zigzag_zoo.hpp:204-221 `DiscreteMorozovZigzag(D, dist, rho, dmax)` -/
def morozovZigzag (sc : Schedule) (rows : List (List T)) (dim : Nat) (rho theta : T) (dmax : Nat) : Res (Diagram SCpx (List (CMat Int)) × List T) := do
  let p ← morozovSets rows dim rho theta
  let R ← ripsFunctorV sc p.1 (fun a b => (rows.getD a []).getD b 0) rows.length p.2 dmax
  pure (R, p.2)

end zoo
end Zoo
end BATS
