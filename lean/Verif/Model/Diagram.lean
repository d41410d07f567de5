import Verif.Model.SimplicialMap
import Verif.Model.Induced
import Verif.Model.Quiver

/-!
# Model of include/multigraph/diagram.hpp and of the functors of include/multigraph/functors.hpp

A loop under `#pragma omp parallel for` is run in the order given by a schedule, a list of the iterations in the order in which they are executed. The
iterations of all loops modelled here only read data which the loop does not write, and write to different elements of the vectors of the result; finer
interleavings of such iterations have the same effect as running them one after the other. An exception which leaves an iteration ends the program; it is
modelled as the error of the loop.
-/

namespace BATS

/-- multigraph/diagram.hpp:12-27 `Diagram`: data of the nodes and edges, (source, target) of each edge -/
structure Diagram (N E : Type) where
  node : List N
  edata : List E
  elist : List (Nat × Nat)
  deriving DecidableEq

namespace Diagram
variable {N E : Type}

/-- multigraph/diagram.hpp:29 `Diagram()` -/
def empty : Diagram N E := ⟨[], [], []⟩

/-- multigraph/diagram.hpp:31-35 `Diagram(n, m)`: default constructed nodes, edge data and edges (the members `src`, `targ` of a default constructed edge are
indeterminate; they are modelled as 0 and overwritten before they are read) -/
def init [Inhabited N] [Inhabited E] (n m : Nat) : Diagram N E := ⟨List.replicate n default, List.replicate m default, List.replicate m (0, 0)⟩

/-- multigraph/diagram.hpp:47-55 `add_node` -/
def addNode (D : Diagram N E) (a : N) : Diagram N E × Nat := ({ D with node := D.node ++ [a] }, D.node.length)

/-- multigraph/diagram.hpp:67-77 `add_edge` -/
def addEdge (D : Diagram N E) (i j : Nat) (e : E) : Diagram N E × Nat := ({ D with edata := D.edata ++ [e], elist := D.elist ++ [(i, j)] }, D.edata.length)

/-- multigraph/diagram.hpp:57-65 `set_node` -/
def setNode (D : Diagram N E) (i : Nat) (a : N) : Res (Diagram N E) := do
  let n ← wr D.node i a
  pure { D with node := n }

/-- multigraph/diagram.hpp:84-87 `set_edge` -/
def setEdge (D : Diagram N E) (i s t : Nat) (e : E) : Res (Diagram N E) := do
  let d ← wr D.edata i e
  let l ← wr D.elist i (s, t)
  pure { D with edata := d, elist := l }

end Diagram

/-- `#pragma omp parallel for` with the given schedule -/
def parFor {σ : Type} (body : σ → Nat → Res σ) : List Nat → σ → Res σ
  | [], s => .ok s
  | i :: is, s => do
    let s' ← body s i
    parFor body is s'

variable {F : Type} [Field F] [DecidableEq F]

/-- the schedules of the loop over the nodes and of the loop over the edges -/
structure Schedule where
  nodes : List Nat
  edges : List Nat

/-- the node loop shared by the functors: `set_node(i, g(D.node[i]))` -/
def nodeLoop {N E N' E' : Type} (D : Diagram N E) (g : N → Res N') (sched : List Nat) (TD : Diagram N' E') : Res (Diagram N' E') :=
  parFor (fun s i => do
    let x ← rd D.node i
    let y ← g x
    s.setNode i y) sched TD

/-- the edge loop shared by the functors: `set_edge(j, s, t, g(D.edata[j], TD.node[s], TD.node[t]))` -/
def edgeLoop {N E N' E' : Type} (D : Diagram N E) (g : List N' → Nat → Nat → E → Res E') (sched : List Nat) (TD : Diagram N' E') : Res (Diagram N' E') :=
  parFor (fun s j => do
    let st ← rd D.elist j
    let e ← rd D.edata j
    let e' ← g s.node st.1 st.2 e
    s.setEdge j st.1 st.2 e') sched TD

/-- functors.hpp:132-153 `ChainFunctor(D)` for a diagram of simplicial complexes and cellular maps -/
def chainFunctor (F : Type) [Field F] [DecidableEq F] (sc : Schedule) (D : Diagram SCpx (List (CMat Int))) : Res (Diagram (List (CMat F)) (List (CMat F))) := do
  let CD ← nodeLoop D (fun X => X.chainComplex) sc.nodes (Diagram.init D.node.length D.edata.length)
  edgeLoop D (fun _ _ _ f => .ok (SMap.chainMap f)) sc.edges CD

instance : Inhabited (RedCpx F) := ⟨⟨[], [], [], []⟩⟩
instance : Inhabited (CMat F) := ⟨⟨0, []⟩⟩

/-- functors.hpp:185-213 `Hom(D, k)` -/
def homFunctor (sc : Schedule) (D : Diagram (List (CMat F)) (List (CMat F))) (k : Nat) : Res (Diagram (RedCpx F) (CMat F)) := do
  let HD ← nodeLoop D RedCpx.mkStd sc.nodes (Diagram.init D.node.length D.edata.length)
  edgeLoop D (fun nodes s t f => do
    let C ← rd nodes s
    let C' ← rd nodes t
    inducedMap f C C' k) sc.edges HD

/-- the loop over the dimensions, functors.hpp:253-255 -/
def inducedMaps (f : List (CMat F)) (C C' : RedCpx F) : Nat → Nat → Res (List (CMat F))
  | 0, _ => .ok []
  | n + 1, k => do
    let M ← inducedMap f C C' k
    let r ← inducedMaps f C C' n (k + 1)
    pure (M :: r)

/-- functors.hpp:227-262 `Hom(D, topd)` (for node 0 without any dimension and `topd = false` the wrapped value of `maxdim` is not modelled) -/
def homFunctorAll (sc : Schedule) (D : Diagram (List (CMat F)) (List (CMat F))) (topd : Bool) : Res (Diagram (RedCpx F) (List (CMat F))) := do
  let B ← rd D.node 0
  let maxdim := if topd then B.length else B.length - 1
  if maxdim = 0 then .error .thrown else do
    let HD ← nodeLoop D RedCpx.mkStd sc.nodes (Diagram.init D.node.length D.edata.length)
    edgeLoop D (fun nodes s t f => do
      let C ← rd nodes s
      let C' ← rd nodes t
      inducedMaps f C C' maxdim 0) sc.edges HD

namespace Diagram

/-- the argument of quiver/sparse.hpp `barcode(dgm, hdim, flag)` -/
def toDgm {N : Type} (D : Diagram N (CMat F)) : Dgm F := ⟨D.elist, D.edata⟩

/-- the argument of quiver/sparse.hpp `barcode(dgm, flag)` -/
def toDgmVec {N : Type} (D : Diagram N (List (CMat F))) : Quiver.DgmVec F := ⟨D.elist, D.edata⟩

end Diagram

end BATS
