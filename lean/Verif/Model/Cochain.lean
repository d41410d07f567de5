import Verif.Model.DG

/-!
# Model of include/chain/cochain_complex.hpp and include/homology/cohom_basis.hpp

`CochainComplex<MT>` (cochain_complex.hpp:13-16) is its member `coboundary`; `ReducedCochainComplex` has the members of `ReducedChainComplex` (and `dim`).
-/

namespace BATS
open Reduction

variable {F : Type} [Field F] [DecidableEq F]

namespace Cochain

/-- cochain_complex.hpp:22-37, constructor from a complex `X`: `coboundary[k]` is the transposed boundary matrix; `MT(1, dim[0])` is zero. The complex enters
through the list of the matrices that `ChainComplex(X)` stores. -/
def ofComplex (B : List (CMat F)) : Res (List (CMat F)) := DGVS.transposeAll B

/-- cohom_basis.hpp:48-67 `ReducedCochainComplex(C)` and 88-109 with `compute_basis_flag`: the loop and `set_indices` (34-43) are those of
`ReducedChainComplex`, with `U[k]` the identity of the number of columns of `coboundary[k]` -/
def mkStd (T : List (CMat F)) : Res (RedCpx F) := RedCpx.mkStd T

/-- cohom_basis.hpp:70-86 -/
def mkNoBasis (T : List (CMat F)) : Res (RedCpx F) := RedCpx.mkNoBasis T

/-- loop of cohom_basis.hpp:126-130 -/
def clearLoop : List Nat → List (CMat F) → Res (List (CMat F × P2C))
  | _, [] => .ok []
  | c, T :: Ts => do
    let r ← reduceClearing T c
    let rs ← clearLoop (getClearingInds r.2) Ts
    pure (r :: rs)

/-- cohom_basis.hpp:111-133 with `clearing_flag`; dimension 0 is reduced twice -/
def mkClearing (T : List (CMat F)) : Res (RedCpx F) :=
  match T with
  | [] => .error .ub
  | T0 :: Ts => do
    let r0 ← reduceStd T0
    let rs ← clearLoop (getClearingInds r0.2) (T0 :: Ts)
    RedCpx.assemble rs

/-- cohom_basis.hpp:150-158: top dimension first -/
def compDown : List (CMat F) → Res (List (CMat F × P2C))
  | [] => .error .ub
  | [T] => do
    let r ← reduceStd T
    pure [r]
  | T :: Ts => do
    let rs ← compDown Ts
    match rs with
    | [] => .error .ub
    | r1 :: rest =>
      let r ← reduceCompression T (getCompressionInds r1.1)
      pure (r :: r1 :: rest)

/-- cohom_basis.hpp:135-161 with `compression_flag` -/
def mkCompression (T : List (CMat F)) : Res (RedCpx F) := do
  let rs ← compDown T
  RedCpx.assemble rs

/-- the constructors -/
inductive Variant where
  | std | noBasis | clearing | compression
  deriving DecidableEq

/-- the constructor selected by the flags -/
def Variant.reduce (v : Variant) (T : List (CMat F)) : Res (RedCpx F) :=
  match v with
  | .std => mkStd T
  | .noBasis => mkNoBasis T
  | .clearing => mkClearing T
  | .compression => mkCompression T

end Cochain
end BATS
