import Verif.Model.Complex

/-!
# Model of the preferred representatives of include/homology/basis.hpp, of include/homology/induced_map.hpp (homology version) and of
include/chain/chain_map.hpp

`ChainMap<MT>` (chain_map.hpp:11-12) is its member `map`, a list of matrices.
-/

namespace BATS
namespace RedCpx
open Reduction

variable {F : Type} [Field F] [DecidableEq F]

/-- `y.upper_bound(j-1)` as a position, sparse_vector.hpp:348-353: `j-1` wraps around to the largest index if `j = 0` -/
def ubBefore (y : SVec F) (j : Nat) : Nat := if j = 0 then y.length else (y.takeWhile (fun p => p.1 ≤ j - 1)).length

/-- loop of basis.hpp:536-556; the iterator `yit` is the position `pos`; `R`, `p` are `R[k+1]`, `p2c[k+1]` -/
def prefLoop (C : RedCpx F) (k : Nat) (R : CMat F) (p : P2C) : Nat → SVec F → Nat → Res (SVec F)
  | _, y, 0 => .ok y
  | 0, _, _ + 1 => .error .diverge
  | fuel + 1, y, pos + 1 => do
    let e ← rd y pos
    let c ← rd p e.1
    match c with
    | none => prefLoop C k R p fuel y pos
    | some i => do
      let u ← rd C.U k
      let col ← rd R.cols i
      let b ← CMat.uSolve u col
      let l ← SVec.lastnz b
      let a ← CMat.fdiv e.2 l.2
      prefLoop C k R p fuel (SVec.axpy (-a) b y) (ubBefore (SVec.axpy (-a) b y) e.1)

/-- basis.hpp:524-557 `find_preferred_representative(y, k)` -/
def findPreferredRepresentative (C : RedCpx F) (y : SVec F) (k : Nat) : Res (SVec F) :=
  if k = C.maxdim then .ok y else do
    let R ← rd C.R (k + 1)
    let p ← rd C.p2c (k + 1)
    prefLoop C k R p (2 * R.nrow + 2) y (y.takeWhile (fun q => q.1 ≤ R.nrow)).length

/-- basis.hpp:501-504 `to_hom_basis(v, k)` -/
def toHomBasis (C : RedCpx F) (v : SVec F) (k : Nat) : Res (SVec F) := do
  let u ← rd C.U k
  CMat.uSolve u v

/-- basis.hpp:506-509 `from_hom_basis(v, k)` -/
def fromHomBasis (C : RedCpx F) (v : SVec F) (k : Nat) : Res (SVec F) := do
  let u ← rd C.U k
  CMat.gemv u v

/-- basis.hpp:560-566 `chain_preferred_representative(c, k)` -/
def chainPreferredRepresentative (C : RedCpx F) (c : SVec F) (k : Nat) : Res (SVec F) := do
  let x ← C.toHomBasis c k
  let y ← C.findPreferredRepresentative x k
  C.fromHomBasis y k

end RedCpx

variable {F : Type} [Field F] [DecidableEq F]

/-- loop of induced_map.hpp:34-41 over the generators -/
def inducedLoop (f : CMat F) (C D : RedCpx F) (k : Nat) : List Nat → Res (List (SVec F))
  | [] => .ok []
  | i :: is => do
    let uc ← rd C.U k
    let g ← rd uc.cols i
    let w ← CMat.gemv f g
    let ud ← rd D.U k
    let x ← CMat.uSolve ud w
    let y ← D.findPreferredRepresentative x k
    let id ← rd D.I k
    let rest ← inducedLoop f C D k is
    pure (SVec.select y id :: rest)

/-- induced_map.hpp:18-43 `induced_map(F, C, D, k)` -/
def inducedMap (Fm : List (CMat F)) (C D : RedCpx F) (k : Nat) : Res (CMat F) := do
  let f ← rd Fm k
  let uc ← rd C.U k
  let ud ← rd D.U k
  if f.cols.length ≠ uc.nrow ∨ f.nrow ≠ ud.cols.length then .error .thrown else do
    let ic ← rd C.I k
    let id ← rd D.I k
    let cols ← inducedLoop f C D k ic
    pure ⟨id.length, cols⟩

end BATS
