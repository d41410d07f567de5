import Verif.Model.Reduction
import Verif.Model.Permutation

/-!
# Model of include/chain/chain_complex.hpp, include/homology/basis.hpp,
include/chain/filtered_chain_complex.hpp and include/persistence/filtered_basis.hpp

`ChainComplex<MT>` (chain_complex.hpp:15-17) is its member `boundary`, a list of matrices.
-/

namespace BATS
open Reduction

variable {F : Type _} [Field F] [DecidableEq F]

/-- basis.hpp:22-31 `ReducedChainComplex` -/
structure RedCpx (F : Type _) where
  U : List (CMat F)
  R : List (CMat F)
  I : List (List Nat)
  p2c : List P2C
  deriving DecidableEq

namespace RedCpx

/-- basis.hpp:64-70 `set_indices`: `I[k] = extract_basis_indices(R[k], p2c[k+1])` for `k < maxdim`, and
`I[maxdim] = extract_basis_indices(R[maxdim])`. Both lists are consumed from dimension 0 upwards. -/
def setIndices : List (CMat F) → List P2C → Res (List (List Nat))
  | [], _ => .error .ub
  | [R], _ => .ok [extractBasisIndicesTop R]
  | R :: Rs, _ :: p :: ps => do
    let i ← extractBasisIndices R p
    let is ← setIndices Rs (p :: ps)
    pure (i :: is)
  | _ :: _ :: _, _ => .error .ub

/-- loop of basis.hpp:86-91 (and 131-135): reduce every boundary matrix with basis -/
def reduceAllU : List (CMat F) → Res (List (CMat F × CMat F × P2C))
  | [] => .ok []
  | B :: Bs => do
    let r ← reduceStdU B (CMat.identity B.cols.length)
    let rs ← reduceAllU Bs
    pure (r :: rs)

/-- assemble the fields from per-dimension results, then `set_indices` -/
def assembleU (rs : List (CMat F × CMat F × P2C)) : Res (RedCpx F) := do
  let I ← setIndices (rs.map (·.1)) (rs.map (·.2.2))
  pure ⟨rs.map (·.2.1), rs.map (·.1), I, rs.map (·.2.2)⟩

/-- assemble without basis: `U` stays empty -/
def assemble (rs : List (CMat F × P2C)) : Res (RedCpx F) := do
  let I ← setIndices (rs.map (·.1)) (rs.map (·.2))
  pure ⟨[], rs.map (·.1), I, rs.map (·.2)⟩

/-- basis.hpp:77-95 `ReducedChainComplex(C)` (and 117-138 with the standard flag and `compute_basis_flag`) -/
def mkStd (C : List (CMat F)) : Res (RedCpx F) := do
  let rs ← reduceAllU C
  assembleU rs

/-- loop of basis.hpp:107-111 -/
def reduceAll : List (CMat F) → Res (List (CMat F × P2C))
  | [] => .ok []
  | B :: Bs => do
    let r ← reduceStd B
    let rs ← reduceAll Bs
    pure (r :: rs)

/-- basis.hpp:98-114 `ReducedChainComplex(C, algflag)` with the standard flag -/
def mkNoBasis (C : List (CMat F)) : Res (RedCpx F) := do
  let rs ← reduceAll C
  assemble rs

/-- loop of basis.hpp:107-111 with the extra-reduction flag -/
def reduceAllExtra : List (CMat F) → Res (List (CMat F × P2C))
  | [] => .ok []
  | B :: Bs => do
    let r ← reduceExtra B
    let rs ← reduceAllExtra Bs
    pure (r :: rs)

/-- basis.hpp:98-114 `ReducedChainComplex(C, extra_reduction_flag())` -/
def mkExtra (C : List (CMat F)) : Res (RedCpx F) := do
  let rs ← reduceAllExtra C
  assemble rs

/-- basis.hpp:152-160: top dimension first, then downwards with the clearing indices of the dimension above.
`R[dmax-1]` on an empty complex is undefined behaviour. -/
def clearAll : List (CMat F) → Res (List (CMat F × P2C))
  | [] => .error .ub
  | [B] => do
    let r ← reduceStd B
    pure [r]
  | B :: Bs => do
    let rs ← clearAll Bs
    match rs with
    | [] => .error .ub
    | (R1, p1) :: rest =>
      let r ← reduceClearing B (getClearingInds p1)
      pure (r :: (R1, p1) :: rest)

/-- basis.hpp:140-163 `ReducedChainComplex(C, algflag, clearing_flag)`, standard flag -/
def mkClearing (C : List (CMat F)) : Res (RedCpx F) := do
  let rs ← clearAll C
  assemble rs

/-- basis.hpp:178-187 -/
def clearAllU : List (CMat F) → Res (List (CMat F × CMat F × P2C))
  | [] => .error .ub
  | [B] => do
    let r ← reduceStdU B (CMat.identity B.cols.length)
    pure [r]
  | B :: Bs => do
    let rs ← clearAllU Bs
    match rs with
    | [] => .error .ub
    | (R1, U1, p1) :: rest =>
      let r ← reduceClearingU B (CMat.identity B.cols.length) R1 p1
      pure (r :: (R1, U1, p1) :: rest)

/-- basis.hpp:165-190 `ReducedChainComplex(C, algflag, clearing_flag, compute_basis_flag)`, standard flag -/
def mkClearingU (C : List (CMat F)) : Res (RedCpx F) := do
  let rs ← clearAllU C
  assembleU rs

/-- loop of basis.hpp:212-216; `comp` are the compression indices of the dimension below -/
def compLoop : List Bool → List (CMat F) → Res (List (CMat F × P2C))
  | _, [] => .ok []
  | comp, B :: Bs => do
    let r ← reduceCompression B comp
    let rs ← compLoop (getCompressionInds r.1) Bs
    pure (r :: rs)

/-- basis.hpp:192-219 `ReducedChainComplex(C, algflag, compression_flag)`, standard flag -/
def mkCompression (C : List (CMat F)) : Res (RedCpx F) :=
  match C with
  | [] => .error .ub
  | B :: Bs => do
    let r ← reduceStd B
    let rs ← compLoop (getCompressionInds r.1) Bs
    assemble (r :: rs)

/-- loop of basis.hpp:240-245 -/
def compLoopU : List Bool → List (CMat F) → Res (List (CMat F × CMat F × P2C))
  | _, [] => .ok []
  | comp, B :: Bs => do
    let r ← reduceCompressionU B (CMat.identity B.cols.length) comp
    let rs ← compLoopU (getCompressionInds r.1) Bs
    pure (r :: rs)

/-- basis.hpp:221-248 `ReducedChainComplex(C, algflag, compression_flag, compute_basis_flag)` -/
def mkCompressionU (C : List (CMat F)) : Res (RedCpx F) :=
  match C with
  | [] => .error .ub
  | B :: Bs => do
    let r ← reduceStdU B (CMat.identity B.cols.length)
    let rs ← compLoopU (getCompressionInds r.1) Bs
    assembleU (r :: rs)

/-- basis.hpp:34-35 `hdim(k)` / `betti(k)` -/
def hdim (C : RedCpx F) (k : Nat) : Res Nat := do
  let i ← rd C.I k
  pure i.length

/-- basis.hpp:36 `maxdim()` (for a nonempty complex) -/
def maxdim (C : RedCpx F) : Nat := C.R.length - 1

/-- basis.hpp:37 `dim(k)` -/
def dim (C : RedCpx F) (k : Nat) : Res Nat := do
  let r ← rd C.R k
  pure r.cols.length

/-- basis.hpp:515-520 `get_preferred_representative(j, k)` -/
def getPreferredRepresentative (C : RedCpx F) (j k : Nat) : Res (SVec F) := do
  let i ← rd C.I k
  let a ← rd i j
  let u ← rd C.U k
  rd u.cols a

end RedCpx

/-- persistence/barcode.hpp:11-17 `PersistencePair`; the death value of an infinite bar is
`numeric_limits<T>::infinity()`, modelled as `⊤` (this is what floating-point `T` gives; for integral `T` the C++
expression is `0`, see DESIGN.md). `NO_IND` is `none`. -/
structure PPair (T : Type _) where
  dim : Nat
  birthInd : Nat
  deathInd : Option Nat
  birth : T
  death : Option T
  deriving DecidableEq

/-- chain_complex: filtered_chain_complex.hpp:10-15 `FilteredChainComplex` -/
structure FiltCpx (T F : Type _) where
  val : List (List T)
  C : List (CMat F)
  perm : List (List Nat)

/-- filtered_basis.hpp:15-18 `ReducedFilteredChainComplex` -/
structure RedFiltCpx (T F : Type _) where
  RC : RedCpx F
  val : List (List T)
  perm : List (List Nat)

namespace RedFiltCpx

variable {T : Type _}

/-- `val[k][perm[k][i]]` -/
def valAt (X : RedFiltCpx T F) (k i : Nat) : Res T := do
  let p ← rd X.perm k
  let a ← rd p i
  let v ← rd X.val k
  rd v a

/-- critical index to report: `i` if `permuted`, else `perm[k][i]` -/
def indAt (X : RedFiltCpx T F) (permuted : Bool) (k i : Nat) : Res Nat :=
  if permuted then .ok i else do
    let p ← rd X.perm k
    rd p i

/-- body of the loops filtered_basis.hpp:48-68 / 70-90 for column `i` whose number of nonzeros is `nnz` -/
def pairAt (X : RedFiltCpx T F) (permuted : Bool) (k : Nat) (i : Nat) (nnz : Nat) : Res (Option (PPair T)) :=
  if nnz ≠ 0 then .ok none
  else if k = X.RC.maxdim then do
    let bi ← indAt X permuted k i
    let b ← valAt X k i
    pure (some ⟨k, bi, none, b, none⟩)
  else do
    let tab ← rd X.RC.p2c (k + 1)
    let e ← rd tab i
    match e with
    | none =>
      let bi ← indAt X permuted k i
      let b ← valAt X k i
      pure (some ⟨k, bi, none, b, none⟩)
    | some j =>
      let bi ← indAt X permuted k i
      let di ← indAt X permuted (k + 1) j
      let b ← valAt X k i
      let d ← valAt X (k + 1) j
      pure (some ⟨k, bi, some di, b, some d⟩)

/-- the loop over columns, starting at column `i` -/
def pairsLoop (X : RedFiltCpx T F) (permuted : Bool) (k : Nat) : Nat → List (SVec F) → Res (List (PPair T))
  | _, [] => .ok []
  | i, c :: cs => do
    let p ← pairAt X permuted k i c.length
    let ps ← pairsLoop X permuted k (i + 1) cs
    pure (match p with | some q => q :: ps | none => ps)

/-- filtered_basis.hpp:40-94 `persistence_pairs(k, permuted)` -/
def persistencePairs (X : RedFiltCpx T F) (k : Nat) (permuted : Bool) : Res (List (PPair T)) := do
  let r ← rd X.RC.R k
  pairsLoop X permuted k 0 r.cols

/-- filtered_basis.hpp:24-28 constructor -/
def mk' (X : FiltCpx T F) (reduce : List (CMat F) → Res (RedCpx F)) : Res (RedFiltCpx T F) := do
  let rc ← reduce X.C
  pure ⟨rc, X.val, X.perm⟩

end RedFiltCpx
end BATS
