import Verif.Model.DG
import Verif.Model.Filtration
import Verif.Model.MatOps
import Mathlib.Data.Int.Cast.Lemmas

/-!
# Model of the general update of a reduced filtered DG vector space

include/filtration/update_information.hpp:30-205 (`UpdateInfo2`), include/homology/dgbasis.hpp:374-389, 482-662,
include/persistence/filtered_dgbasis.hpp:196-207 and the functions of include/linalg/col_matrix.hpp and
include/linalg/sparse_vector.hpp they call. Timers and output to the console are left out.
-/

namespace BATS
open Reduction

variable {F : Type} [Field F] [DecidableEq F]

namespace SVec

/-- sparse_vector.hpp:57-62 `reverse_inds(n)` (indices at most `n`) -/
def reverseInds (n : Nat) (v : List (Nat × Int)) : List (Nat × Int) := (v.map (fun p => (n - p.1, p.2))).reverse

/-- sparse_vector.hpp:85-95 `cast_values` of a vector of integers -/
def castInts (v : List (Nat × Int)) : SVec F := (v.map (fun p => (p.1, (p.2 : F)))).filter (fun p => decide (p.2 ≠ 0))

end SVec

namespace CMat

/-- col_matrix.hpp:526-529 `erase_final_rows_unsafe`: only the number of rows changes (a failing assertion is `thrown`) -/
def eraseFinalRowsUnsafe (nd : Nat) (A : CMat F) : Res (CMat F) :=
  if nd ≤ A.nrow then .ok ⟨A.nrow - nd, A.cols⟩ else .error .thrown

/-- the loop dgbasis.hpp:606-609: `Vt.gemv(Di)` for every inserted row -/
def gemvAll (Vt : CMat F) : List (List (Nat × Int)) → Res (List (SVec F))
  | [] => .ok []
  | d :: ds => do
    let r ← Vt.gemv (SVec.castInts d)
    let rs ← gemvAll Vt ds
    pure (r :: rs)

end CMat

/-- update_information.hpp:30-55 `UpdateInfo2` -/
structure UpdInfo (T : Type) where
  ndel : List Nat
  insIdx : List (List Nat)
  insCols : List (List (List (Nat × Int)))
  perm : List (List Nat)
  newval : List (List T)
  perms2 : List (List Nat)
  reversed : Bool
  deriving DecidableEq

namespace UpdInfo
variable {T : Type}

/-- update_information.hpp:177-184: the boundary of an inserted cell, with its faces in filtration order -/
def bdryEntries (ip : List Nat) : List Nat → List Int → Res (List (Nat × Int))
  | [], _ => .ok []
  | _ :: _, [] => .error .ub
  | i :: is, v :: vs => do
    let p ← rd ip i
    let r ← bdryEntries ip is vs
    pure ((p, v) :: r)

/-- update_information.hpp:171-186. `X2.boundary(0, j)` evaluates `faces[0-1]`, which is out of bounds, also for vertices. -/
def insertedCol (X2 : SCpx) (iperms2 : List (List Nat)) (dim j2 : Nat) : Res (List (Nat × Int)) :=
  if dim = 0 then .error .ub else do
    let b ← X2.boundary dim j2
    let ip ← rd iperms2 (dim - 1)
    let es ← bdryEntries ip b.1 b.2
    pure (es.insertionSort (fun x y => x.1 ≤ y.1))

/-- what the loop update_information.hpp:156-188 builds -/
structure Row where
  /-- the part of `perm[dim]` filled so far -/
  acc : List Nat
  inter : List Bool
  ins : List Nat
  cols : List (List (Nat × Int))

/-- update_information.hpp:156-188, `todo` iterations from `fj2` on; `perm[dim]` has `n1` entries -/
def rowLoop (X1 X2 : SCpx) (iperms2 : List (List Nat)) (dim n1 : Nat) (X2dim : List (List Nat)) (p2 ip1 : List Nat) :
    Nat → Nat → Row → Res Row
  | 0, _, s => .ok s
  | todo + 1, fj2, s => do
    let j2 ← rd p2 fj2
    let σ ← rd X2dim j2
    match X1.findIdx σ with
    | some j1 => do
      let fj1 ← rd ip1 j1
      if s.acc.length < n1 then do
        let b ← wr s.inter j1 true
        rowLoop X1 X2 iperms2 dim n1 X2dim p2 ip1 todo (fj2 + 1) ⟨s.acc ++ [fj1], b, s.ins, s.cols⟩
      else .error .ub
    | none => do
      let c ← insertedCol X2 iperms2 dim j2
      rowLoop X1 X2 iperms2 dim n1 X2dim p2 ip1 todo (fj2 + 1) ⟨s.acc, s.inter, s.ins ++ [fj2], s.cols ++ [c]⟩

/-- update_information.hpp:192-198: the cells that are not in both complexes go to the end -/
def tailLoop (n1 : Nat) (inter : List Bool) (ip1 : List Nat) : Nat → Nat → List Nat → Res (List Nat)
  | 0, _, acc => .ok acc
  | todo + 1, j1, acc => do
    let b ← rd inter j1
    if b then tailLoop n1 inter ip1 todo (j1 + 1) acc
    else do
      let p ← rd ip1 j1
      if acc.length < n1 then tailLoop n1 inter ip1 todo (j1 + 1) (acc ++ [p]) else .error .ub

/-- update_information.hpp:139-201, the body of the loop over the dimensions: the entries of `ndeletions`, `insertion_indices`,
`insertion_cols` and `perm` for one dimension -/
def rowInfo (X1 X2 : SCpx) (iperms1 perms2 iperms2 : List (List Nat)) (dim : Nat) :
    Res (Nat × List Nat × List (List (Nat × Int)) × List Nat) := do
  let n1 ← X1.numCells dim
  let n2 ← X2.numCells dim
  let X2dim ← X2.getSimplices dim
  let p2 ← rd perms2 dim
  let ip1 ← rd iperms1 dim
  let s ← rowLoop X1 X2 iperms2 dim n1 X2dim p2 ip1 n2 0 ⟨[], List.replicate n1 false, [], []⟩
  let acc ← tailLoop n1 s.inter ip1 n1 0 s.acc
  let full := acc ++ List.replicate (n1 - acc.length) 0
  pure (n1 - s.acc.length, s.ins, s.cols, full.take s.acc.length ++ (full.drop s.acc.length).insertionSort (· ≤ ·))

/-- the loop over the dimensions -/
def rowsInfo (X1 X2 : SCpx) (iperms1 perms2 iperms2 : List (List Nat)) :
    Nat → Nat → Res (List (Nat × List Nat × List (List (Nat × Int)) × List Nat))
  | 0, _ => .ok []
  | todo + 1, dim => do
    let r ← rowInfo X1 X2 iperms1 perms2 iperms2 dim
    let rs ← rowsInfo X1 X2 iperms1 perms2 iperms2 todo (dim + 1)
    pure (r :: rs)

variable [LinearOrder T]

/-- update_information.hpp:108-203 `UpdateInfo2(F1, F2)` (for filtrations with at least one dimension) -/
def ofFilt (F1 F2 : Filt T) : Res (UpdInfo T) :=
  if F1.val.length ≠ F2.val.length then .error .thrown else do
    let iperms1 ← FiltCpx.filtrationIperm (FiltCpx.filtrationSortperm F1.val)
    let iperms2 ← FiltCpx.filtrationIperm (FiltCpx.filtrationSortperm F2.val)
    let rs ← rowsInfo F1.X F2.X iperms1 (FiltCpx.filtrationSortperm F2.val) iperms2 F1.val.length 0
    pure ⟨rs.map (·.1), rs.map (·.2.1), rs.map (·.2.2.1), rs.map (·.2.2.2), F2.val, FiltCpx.filtrationSortperm F2.val, false⟩

/-- update_information.hpp:82-103, the loop over `insertion_indices` (`np` is what the previous dimension has after the update) -/
def revIns : Nat → List Nat → List (List Nat) → List (List (List (Nat × Int))) → List (List Nat) → List (List Nat × List (List (Nat × Int)))
  | np, d :: ds, i :: is, c :: cs, p :: ps =>
    ((i.map (fun x => p.length - d + i.length - 1 - x)).reverse, (c.map (SVec.reverseInds (np - 1))).reverse) ::
      revIns (p.length - d + i.length) ds is cs ps
  | _, _, _, _, _ => []

/-- update_information.hpp:61-104 `reverse_for_cohomology` -/
def reverse (u : UpdInfo T) : UpdInfo T :=
  if u.reversed then u
  else
    let perm := u.perm.map (fun p => (p.map (fun x => p.length - 1 - x)).reverse)
    let r := revIns 0 u.ndel u.insIdx u.insCols perm
    ⟨u.ndel, r.map (·.1), r.map (·.2), perm, u.newval, u.perms2.map List.reverse, true⟩

end UpdInfo

namespace RedDG

/-- dgbasis.hpp:374-389 `_make_U_upper_triangular(k)` on `U[k]` and `R[k]`: returns the new `U[k]` and `R[k]`. The table it leaves
in `p2c[k]` is overwritten before it is read. -/
def makeUpper (U R : CMat F) : Res (CMat F × CMat F) := do
  let s ← reduceStdU U R
  let t ← RedCpx.sortColsLoop s.1.cols.length 0 s.1.cols s.2.1.cols s.2.2
  pure (⟨s.1.nrow, t.1⟩, ⟨s.2.1.nrow, t.2⟩)

/-- dgbasis.hpp:489-491 and 515-518: `R[k+1]` is only changed below the top dimension -/
def modifyAbove (N k : Nat) (f : CMat F → Res (CMat F)) (R : List (CMat F)) : Res (List (CMat F)) :=
  if k < N - 1 then Cpx.modify R (k + 1) f else .ok R

/-- dgbasis.hpp:485-507 `_delete_cells(k, UI)` on the members `U` and `R`; `N` is `UI.perm.size()`, `nd` is `UI.ndeletions[k]` -/
def deleteCells (deg : Int) (N k nd : Nat) (U R : List (CMat F)) : Res (List (CMat F) × List (CMat F)) :=
  if nd = 0 then .ok (U, R)
  else if deg = -1 then do
    let R1 ← modifyAbove N k (CMat.eraseFinalRowsUnsafe nd) R
    let U1 ← Cpx.modify U k (CMat.eraseFinalColumns nd)
    let U2 ← Cpx.modify U1 k (CMat.eraseFinalRowsUnsafe nd)
    let R2 ← Cpx.modify R1 k (CMat.eraseFinalColumns nd)
    pure (U2, R2)
  else do
    let R1 ← Cpx.modify R (k + 1) (CMat.eraseInitialCols nd)
    let U1 ← Cpx.modify U (k + 1) (CMat.eraseInitialCols nd)
    let U2 ← Cpx.modify U1 (k + 1) (fun A => .ok (CMat.eraseInitialRows nd A))
    let R2 ← Cpx.modify R1 k (fun A => .ok (CMat.eraseInitialRows nd A))
    pure (U2, R2)

/-- dgbasis.hpp:509-620 `_insert_cells(k, UI)`; `ins` and `cols` are `UI.insertion_indices[k]` and `UI.insertion_cols[k]` -/
def insertCells (deg : Int) (N k : Nat) (ins : List Nat) (cols : List (List (Nat × Int))) (U R : List (CMat F)) : Res (List (CMat F) × List (CMat F)) :=
  if ins = [] then .ok (U, R)
  else if cols.length < ins.length then .error .ub
  else if deg = -1 then do
    let R1 ← modifyAbove N k (fun A => .ok (CMat.insertZeroRows ins A)) R
    let R2 ← Cpx.modify R1 k (CMat.insertColumns ins ((cols.take ins.length).map SVec.castInts))
    let U1 ← Cpx.modify U k (fun A => .ok (CMat.insertZeroRows ins A))
    let U2 ← Cpx.modify U1 k (CMat.insertColumns ins (ins.map (fun i => [(i, 1)])))
    pure (U2, R2)
  else do
    let R1 ← Cpx.modify R (k + 1) (CMat.insertColumns ins (ins.map (fun _ => [])))
    let U1 ← Cpx.modify U (k + 1) (fun A => .ok (CMat.insertZeroRows ins A))
    let U2 ← Cpx.modify U1 (k + 1) (CMat.insertColumns ins (ins.map (fun i => [(i, 1)])))
    let u ← rd U2 k
    let Vt ← u.transpose
    let rows ← CMat.gemvAll Vt (cols.take ins.length)
    let R2 ← Cpx.modify R1 k (CMat.insertRows ins rows)
    pure (U2, R2)

/-- dgbasis.hpp:638-646: `todo` dimensions remain -/
def cellsLoop (deg : Int) (N : Nat) (ndel : List Nat) (insIdx : List (List Nat)) (insCols : List (List (List (Nat × Int)))) :
    Nat → Nat → List (CMat F) → List (CMat F) → Res (List (CMat F) × List (CMat F))
  | 0, _, U, R => .ok (U, R)
  | todo + 1, k, U, R => do
    let ki := if deg = -1 then k else k + 1
    let u ← rd U ki
    let r ← rd R ki
    let s ← makeUpper u r
    let U1 ← wr U ki s.1
    let R1 ← wr R ki s.2
    let nd ← rd ndel k
    let t ← deleteCells deg N k nd U1 R1
    let ins ← rd insIdx k
    let cols ← rd insCols k
    let w ← insertCells deg N k ins cols t.1 t.2
    cellsLoop deg N ndel insIdx insCols todo (k + 1) w.1 w.2

/-- one step of the final reduction, dgbasis.hpp:651-655 and 658-660: matrix `k`, cleared with the result at `k'` if there is one -/
def finishStep (k : Nat) (k' : Option Nat) (U R : List (CMat F)) (p : List P2C) : Res (List (CMat F) × List (CMat F) × List P2C) := do
  let r ← rd R k
  let u ← rd U k
  let s ← match k' with
    | none => reduceStdU r u
    | some k' => do
      let r' ← rd R k'
      let p' ← rd p k'
      reduceClearingU r u r' p'
  let R1 ← wr R k s.1
  let U1 ← wr U k s.2.1
  let p1 ← wr p k s.2.2
  pure (U1, R1, p1)

/-- dgbasis.hpp:650-656: `k = n-1, .., 0`, each cleared with `k + 1` except `N - 1` -/
def finishDown (N : Nat) : Nat → List (CMat F) → List (CMat F) → List P2C → Res (List (CMat F) × List (CMat F) × List P2C)
  | 0, U, R, p => .ok (U, R, p)
  | k + 1, U, R, p => do
    let s ← finishStep k (if k < N - 1 then some (k + 1) else none) U R p
    finishDown N k s.1 s.2.1 s.2.2

/-- dgbasis.hpp:657-661: `k, k+1, ..`, each cleared with `k - 1` except 0 -/
def finishUp : Nat → Nat → List (CMat F) → List (CMat F) → List P2C → Res (List (CMat F) × List (CMat F) × List P2C)
  | 0, _, U, R, p => .ok (U, R, p)
  | todo + 1, k, U, R, p => do
    let s ← finishStep k (if k = 0 then none else some (k - 1)) U R p
    finishUp todo (k + 1) s.1 s.2.1 s.2.2

/-- dgbasis.hpp:625-665 `update_basis(UI)` -/
def updateBasis {T : Type} (C : RedDG F) (u : UpdInfo T) : Res (RedDG F) := do
  let s ← permuteMatricesFrom C.degree 0 u.perm C.U C.R
  let t ← cellsLoop C.degree u.perm.length u.ndel u.insIdx u.insCols u.perm.length 0 s.1 s.2
  let w ← if C.degree = -1 then finishDown u.perm.length u.perm.length t.1 t.2 C.p2c
    else finishUp (u.perm.length + 1) 0 t.1 t.2 C.p2c
  let I ← setIndices C.degree w.2.1 w.2.2
  pure ⟨C.degree, w.1, w.2.1, I, w.2.2⟩

end RedDG

/-- filtered_dgbasis.hpp:196-207 `update_basis(UI)` -/
def RedFiltDG.updateBasis {T : Type} (X : RedFiltDG T F) (u : UpdInfo T) : Res (RedFiltDG T F) := do
  let u' := if X.RC.degree = 1 then u.reverse else u
  let RC ← X.RC.updateBasis u'
  pure ⟨RC, u'.newval, u'.perms2⟩

/-- a history of general updates, as in tests/update_new.cpp: for each new filtration build `UpdateInfo2` from the previous one and
call `update_basis` -/
def RedFiltDG.updateAllFilt {T : Type} [LinearOrder T] (X : RedFiltDG T F) (Φ : Filt T) : List (Filt T) → Res (RedFiltDG T F)
  | [] => .ok X
  | Ψ :: rest => do
    let u ← UpdInfo.ofFilt Φ Ψ
    let X1 ← X.updateBasis u
    X1.updateAllFilt Ψ rest

end BATS
