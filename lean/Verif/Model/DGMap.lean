import Verif.Model.DG
import Verif.Model.Diagram

/-!
# Model of include/dgvs/dgmap.hpp, of the DG version of include/homology/induced_map.hpp and of the DG functors of include/multigraph/functors.hpp

`DGLinearMap<TM>` (dgmap.hpp:22-23) is its member `map`, a list of matrices.
-/

namespace BATS
open Reduction

variable {F : Type} [Field F] [DecidableEq F]

namespace RedDG

/-- the members which the code of dgbasis.hpp shares with basis.hpp -/
def asCpx (X : RedDG F) : RedCpx F := ⟨X.U, X.R, X.I, X.p2c⟩

/-- dgbasis.hpp:308-309 `dg_offset` -/
def offset (X : RedDG F) (k : Nat) : Nat := if X.degree = -1 then k else k + 1

/-- dgbasis.hpp:304-340 `find_preferred_representative(y, k)`: after `k += dg_offset` the code of basis.hpp:524-557 (`R.size() - 1` is what `maxdim()` is
there); the index of the neighbouring matrix is `k + 1` for both degrees -/
def findPreferredRepresentative (X : RedDG F) (y : SVec F) (k : Nat) : Res (SVec F) := X.asCpx.findPreferredRepresentative y (X.offset k)

/-- dgbasis.hpp:342-349 `chain_preferred_representative(c, k)`; `to_hom_basis` and `from_hom_basis` (275-289) use `U[k]`, without `dg_offset` -/
def chainPreferredRepresentative (X : RedDG F) (c : SVec F) (k : Nat) : Res (SVec F) := do
  let u ← rd X.U k
  let x ← CMat.uSolve u c
  let y ← X.findPreferredRepresentative x k
  let u' ← rd X.U k
  CMat.gemv u' y

end RedDG

/-- induced_map.hpp:90-124 `induced_map(F, C, D, k)` for DG vector spaces; the loop 112-119 is that of the version for complexes at index `k + dg_offset` -/
def dgInducedMap (Fm : List (CMat F)) (C D : RedDG F) (k : Nat) : Res (CMat F) :=
  if C.degree ≠ D.degree then .error .thrown else do
    let f ← rd Fm k
    let rc ← rd C.R (C.offset k)
    let rdd ← rd D.R (C.offset k)
    if f.cols.length ≠ rc.cols.length ∨ f.nrow ≠ rdd.cols.length then .error .thrown else do
      let ic ← rd C.I (C.offset k)
      let cols ← inducedLoop f C.asCpx D.asCpx (C.offset k) ic
      let n ← D.hdim k
      pure ⟨n, cols⟩

/-- dgmap.hpp:32-49, constructor of `DGLinearMap` from a cellular map and a degree; `.T()` is col_matrix.hpp's transpose -/
def dgLinearMap (F : Type) [Field F] [DecidableEq F] (f : List (CMat Int)) (deg : Int) : Res (List (CMat F)) :=
  if deg = -1 then .ok (SMap.chainMap f)
  else if deg = 1 then DGVS.transposeAll (SMap.chainMap f)
  else .error .thrown

instance : Inhabited (DGVS F) := ⟨⟨-1, []⟩⟩
instance : Inhabited (RedDG F) := ⟨⟨-1, [], [], [], []⟩⟩

/-- functors.hpp:333-360 `DGLinearFunctor(D, degree)`: with another degree than `-1` source and target of every edge are exchanged -/
def dgLinearFunctor (F : Type) [Field F] [DecidableEq F] (sc : Schedule) (D : Diagram SCpx (List (CMat Int))) (deg : Int) : Res (Diagram (DGVS F) (List (CMat F))) := do
  let DGD ← nodeLoop D (fun X => do
    let B ← X.chainComplex
    DGVS.ofComplex deg false B) sc.nodes (Diagram.init D.node.length D.edata.length)
  edgeLoop (if deg = -1 then D else { D with elist := D.elist.map Prod.swap }) (fun _ _ _ f => dgLinearMap F f deg) sc.edges DGD

/-- functors.hpp:366-396 `Hom(D, k)` for a diagram of DG vector spaces -/
def dgHom (sc : Schedule) (D : Diagram (DGVS F) (List (CMat F))) (k : Nat) : Res (Diagram (RedDG F) (CMat F)) := do
  let HD ← nodeLoop D RedDG.mkStd sc.nodes (Diagram.init D.node.length D.edata.length)
  edgeLoop D (fun nodes s t f => do
    let C ← rd nodes s
    let C' ← rd nodes t
    dgInducedMap f C C' k) sc.edges HD

/-- the loop over the dimensions, functors.hpp:433-435 -/
def dgInducedMaps (f : List (CMat F)) (C C' : RedDG F) : Nat → Nat → Res (List (CMat F))
  | 0, _ => .ok []
  | n + 1, k => do
    let M ← dgInducedMap f C C' k
    let r ← dgInducedMaps f C C' n (k + 1)
    pure (M :: r)

/-- functors.hpp:409-442 `Hom(D, topd)` for DG vector spaces; `maxdim()` (dgvs.hpp) is `differential.size() - 2` (wrapped values are not modelled) -/
def dgHomAll (sc : Schedule) (D : Diagram (DGVS F) (List (CMat F))) (topd : Bool) : Res (Diagram (RedDG F) (List (CMat F))) := do
  let C0 ← rd D.node 0
  let maxdim := if topd then C0.diff.length - 1 else C0.diff.length - 2
  if maxdim = 0 then .error .thrown else do
    let HD ← nodeLoop D RedDG.mkStd sc.nodes (Diagram.init D.node.length D.edata.length)
    edgeLoop D (fun nodes s t f => do
      let C ← rd nodes s
      let C' ← rd nodes t
      dgInducedMaps f C C' maxdim 0) sc.edges HD

end BATS
