import Verif.Model.Chain

/-!
# Model of the update of a reduced (filtered) complex: include/homology/basis.hpp:250-319 and
include/persistence/filtered_basis.hpp:144-168
-/

namespace BATS
open Reduction

variable {F : Type _} [Field F] [DecidableEq F]

namespace RedCpx

/-- the loop of basis.hpp:260-272, which puts the columns of `U[k]` in increasing pivot order and applies the same
swaps to `R[k]`; `todo` columns remain, the next one is `j`. A missing table entry is `NO_IND`, so that
`swap_cols(NO_IND, j)` is out of bounds. -/
def sortColsLoop : Nat → Nat → List (SVec F) → List (SVec F) → P2C → Res (List (SVec F) × List (SVec F))
  | 0, _, u, r, _ => .ok (u, r)
  | todo + 1, j, u, r, p => do
    let e ← rd p j
    if e = some j then sortColsLoop todo (j + 1) u r p
    else do
      let uj ← rd u j
      let pv ← SVec.lastnz uj
      match e with
      | none => .error .ub
      | some pc =>
        let up ← rd u pc
        let rp ← rd r pc
        let rj ← rd r j
        let p1 ← wr p j (some j)
        let p2 ← wr p1 pv.1 (some pc)
        sortColsLoop todo (j + 1) ((u.set pc uj).set j up) ((r.set pc rj).set j rp) p2

/-- basis.hpp:250-275 `update_reduction2(k)` on `U[k]`, `R[k]` (no algorithm flags): returns the new `R[k]`, `U[k]`, `p2c[k]` -/
def updateReduction2 (U R : CMat F) : Res (CMat F × CMat F × P2C) := do
  let s ← reduceStdU U R
  let t ← sortColsLoop s.2.1.cols.length 0 s.1.cols s.2.1.cols s.2.2
  reduceStdU ⟨s.2.1.nrow, t.2⟩ ⟨s.1.nrow, t.1⟩

/-- basis.hpp:292-307 `permute_matrices(k, perm)`, acting on the fields `U` and `R` -/
def permuteMatrices (U R : List (CMat F)) (k : Nat) (perm : List Nat) : Res (List (CMat F) × List (CMat F)) := do
  let q ← Perm.invPerm perm
  if k = 0 then do
    let R1 ← Cpx.modify R 1 (CMat.permuteRows q)
    pure (U, R1)
  else if k = R.length - 1 then do
    let U1 ← Cpx.modify U k (CMat.permuteRows q)
    pure (U1, R)
  else do
    let U1 ← Cpx.modify U k (CMat.permuteRows q)
    let R1 ← Cpx.modify R (k + 1) (CMat.permuteRows q)
    pure (U1, R1)

/-- first loop of basis.hpp:311-313 -/
def permuteMatricesFrom : Nat → List (List Nat) → List (CMat F) → List (CMat F) → Res (List (CMat F) × List (CMat F))
  | _, [], U, R => .ok (U, R)
  | k, p :: ps, U, R => do
    let s ← permuteMatrices U R k p
    permuteMatricesFrom (k + 1) ps s.1 s.2

/-- second loop of basis.hpp:315-317; `todo` dimensions remain -/
def updateFrom : Nat → Nat → List (CMat F) → List (CMat F) → List P2C → Res (List (CMat F) × List (CMat F) × List P2C)
  | 0, _, U, R, p => .ok (U, R, p)
  | todo + 1, k, U, R, p => do
    let u ← rd U k
    let r ← rd R k
    let s ← updateReduction2 u r
    let R' ← wr R k s.1
    let U' ← wr U k s.2.1
    let p' ← wr p k s.2.2
    updateFrom todo (k + 1) U' R' p'

/-- basis.hpp:309-319 `permute_basis(perm)` -/
def permuteBasis (C : RedCpx F) (perm : List (List Nat)) : Res (RedCpx F) := do
  let s ← permuteMatricesFrom 0 perm C.U C.R
  let t ← updateFrom perm.length 0 s.1 s.2 C.p2c
  let I ← setIndices t.2.1 t.2.2
  pure ⟨t.1, t.2.1, I, t.2.2⟩

end RedCpx

namespace RedFiltCpx
variable {T : Type _} [LinearOrder T]

/-- filtered_basis.hpp:144-168 `update_filtration(newval)` -/
def updateFiltration (X : RedFiltCpx T F) (newval : List (List T)) : Res (RedFiltCpx T F) := do
  let perms := FiltCpx.filtrationSortperm newval
  let iperm ← FiltCpx.filtrationIperm X.perm
  let up ← FiltCpx.updatePerms iperm perms
  let RC ← X.RC.permuteBasis up
  pure ⟨RC, newval, perms⟩

/-- a history of updates -/
def updateAll (X : RedFiltCpx T F) : List (List (List T)) → Res (RedFiltCpx T F)
  | [] => .ok X
  | v :: vs => do
    let X1 ← X.updateFiltration v
    X1.updateAll vs

end RedFiltCpx
end BATS
