import Verif.Model.Complex
import Verif.Model.Sorted

/-!
# Model of include/chain/chain_complex.hpp and include/chain/filtered_chain_complex.hpp

`ChainComplex` is the list `boundary` of its matrices.
-/

namespace BATS

namespace CMat
variable {F : Type _} [Field F] [DecidableEq F]

/-- col_matrix.hpp:786-788 `permute_cols` -/
def permuteCols (perm : List Nat) (A : CMat F) : Res (CMat F) := do
  let c ← Perm.applyPermSwap [] A.cols perm
  pure ⟨A.nrow, c⟩

/-- col_matrix.hpp:790-792 `ipermute_cols` -/
def ipermuteCols (perm : List Nat) (A : CMat F) : Res (CMat F) := do
  let c ← Perm.applyIPermSwap [] A.cols perm
  pure ⟨A.nrow, c⟩

/-- column loop of `submatrix`, col_matrix.hpp:597-599 -/
def submatrixLoop (prow : List (Option Nat)) (cols : List (SVec F)) : List Nat → Res (List (SVec F))
  | [] => .ok []
  | j :: cind => do
    let c ← rd cols j
    let v ← SVec.subvector prow c
    let r ← submatrixLoop prow cols cind
    pure (v :: r)

/-- col_matrix.hpp:587-601 `submatrix(rind, cind)` -/
def submatrix (rind cind : List Nat) (A : CMat F) : Res (CMat F) := do
  let prow ← Perm.partialPerm rind A.nrow
  let c ← submatrixLoop prow A.cols cind
  pure ⟨rind.length, c⟩

end CMat

namespace Cpx
variable {F : Type _} [Field F] [DecidableEq F]

/-- apply a fallible operation to `boundary[k]` -/
def modify (B : List (CMat F)) (k : Nat) (f : CMat F → Res (CMat F)) : Res (List (CMat F)) := do
  let M ← rd B k
  let M' ← f M
  wr B k M'

/-- chain_complex.hpp:124-137 `permute_basis(k, perm)`; `maxdim() = boundary.size() - 1` -/
def permuteBasis1 (B : List (CMat F)) (k : Nat) (perm : List Nat) : Res (List (CMat F)) :=
  if k = 0 then modify B 1 (CMat.permuteRows perm)
  else if k = B.length - 1 then modify B k (CMat.permuteCols perm)
  else do
    let B1 ← modify B k (CMat.permuteCols perm)
    modify B1 (k + 1) (CMat.permuteRows perm)

/-- loop of chain_complex.hpp:140-144 -/
def permuteBasisFrom : Nat → List (List Nat) → List (CMat F) → Res (List (CMat F))
  | _, [], B => .ok B
  | k, p :: ps, B => do
    let B1 ← permuteBasis1 B k p
    permuteBasisFrom (k + 1) ps B1

/-- chain_complex.hpp:140-144 `permute_basis(perm)` -/
def permuteBasis (B : List (CMat F)) (perms : List (List Nat)) : Res (List (CMat F)) := permuteBasisFrom 0 perms B

/-- chain_complex.hpp:146-158 `ipermute_basis(k, perm)` -/
def ipermuteBasis1 (B : List (CMat F)) (k : Nat) (perm : List Nat) : Res (List (CMat F)) :=
  if k = 0 then do
    let q ← Perm.invPerm perm
    modify B 1 (CMat.permuteRows q)
  else if k = B.length - 1 then modify B k (CMat.ipermuteCols perm)
  else do
    let B1 ← modify B k (CMat.ipermuteCols perm)
    let q ← Perm.invPerm perm
    modify B1 (k + 1) (CMat.permuteRows q)

/-- loop of chain_complex.hpp:160-164 -/
def ipermuteBasisFrom : Nat → List (List Nat) → List (CMat F) → Res (List (CMat F))
  | _, [], B => .ok B
  | k, p :: ps, B => do
    let B1 ← ipermuteBasis1 B k p
    ipermuteBasisFrom (k + 1) ps B1

/-- chain_complex.hpp:160-164 `ipermute_basis(perm)` -/
def ipermuteBasis (B : List (CMat F)) (perms : List (List Nat)) : Res (List (CMat F)) := ipermuteBasisFrom 0 perms B

/-- chain_complex.hpp:70-75 `is_valid_complex` (for a nonempty complex) -/
def isValidComplex : List (CMat F) → Res Bool
  | M :: M' :: Ms => do
    let P ← CMat.gemm M M'
    if P.isZero then isValidComplex (M' :: Ms) else pure false
  | _ => .ok true

/-- loop of chain_complex.hpp:81-88 for `k ≥ 1`; `prev` is `inds[k-1]` (already sorted) -/
def subcomplexFrom (prev : List Nat) : List (CMat F) → List (List Nat) → Res (List (CMat F))
  | [], _ => .ok []
  | _ :: _, [] => .error .ub
  | M :: Ms, ind :: inds => do
    let ind' := ind.insertionSort (· ≤ ·)
    let N ← CMat.submatrix prev ind' M
    let Ns ← subcomplexFrom ind' Ms inds
    pure (N :: Ns)

/-- chain_complex.hpp:79-90 `subcomplex(inds)` (`boundary[0]` becomes the `1 × |inds[0]|` zero matrix). The lists `inds`
are sorted in place in the C++; only the returned complex is modelled. -/
def subcomplex (B : List (CMat F)) (inds : List (List Nat)) : Res (List (CMat F)) :=
  match B, inds with
  | [], _ => .error .ub
  | _ :: _, [] => .error .ub
  | _ :: Ms, ind :: inds => do
    let ind' := ind.insertionSort (· ≤ ·)
    let Ns ← subcomplexFrom ind' Ms inds
    pure (CMat.zero 1 ind'.length :: Ns)

/-- loop of chain_complex.hpp:98-106 for `k ≥ 1`; `prev` is `cinds[k-1]` -/
def relativeFrom (prev : List Nat) : List (CMat F) → List (List Nat) → Res (List (CMat F))
  | [], _ => .ok []
  | _ :: _, [] => .error .ub
  | M :: Ms, ind :: inds => do
    let c ← Srt.sortedComplement (ind.insertionSort (· ≤ ·)) M.cols.length
    let N ← CMat.submatrix prev c M
    let Ns ← relativeFrom c Ms inds
    pure (N :: Ns)

/-- chain_complex.hpp:95-108 `relative_complex(inds)` (the number of columns of `boundary[0]` is
`dim(0) - inds[0].size()`, which is the number of complementary indices) -/
def relativeComplex (B : List (CMat F)) (inds : List (List Nat)) : Res (List (CMat F)) :=
  match B, inds with
  | [], _ => .error .ub
  | _ :: _, [] => .error .ub
  | M :: Ms, ind :: inds => do
    let c ← Srt.sortedComplement (ind.insertionSort (· ≤ ·)) M.cols.length
    let Ns ← relativeFrom c Ms inds
    pure (CMat.zero 1 (M.cols.length - ind.length) :: Ns)

end Cpx

namespace FiltCpx
variable {F : Type _} [Field F] [DecidableEq F] {T : Type _} [LinearOrder T]

/-- filtration.hpp:19-28 `filtration_sortperm(v)` -/
def filtrationSortperm (v : List (List T)) : List (List Nat) := v.map Perm.stableSortperm

/-- filtration.hpp:30-38 `filtration_iperm(perms)` -/
def filtrationIperm : List (List Nat) → Res (List (List Nat))
  | [] => .ok []
  | p :: ps => do
    let q ← Perm.invPerm p
    let qs ← filtrationIperm ps
    pure (q :: qs)

/-- filtered_chain_complex.hpp:18-28, constructor from a filtration: `val` are the filtration values, `B` the chain
complex of the underlying complex -/
def ofFiltration (val : List (List T)) (B : List (CMat F)) : Res (FiltCpx T F) := do
  let perms := filtrationSortperm val
  let C ← Cpx.ipermuteBasis B perms
  pure ⟨val, C, perms⟩

/-- loop of filtered_chain_complex.hpp:44-46 (and filtered_basis.hpp:154-156): `iperm[k]` is gathered by `perms[k]`.
`apply_perm(iperm[k].data(), tmp, perms[k])` writes `perms[k].size()` entries. -/
def updatePerms : List (List Nat) → List (List Nat) → Res (List (List Nat))
  | [], _ => .ok []
  | _ :: _, [] => .error .ub
  | q :: qs, p :: ps => do
    let r ← Perm.applyPermPtr q p
    let rs ← updatePerms qs ps
    pure (r :: rs)

/-- filtered_chain_complex.hpp:34-57 `update_filtration(newval)`. (The temporary is a `std::vector<FT>`: the permutation
entries pass through the filtration type; the model keeps them exact.) -/
def updateFiltration (X : FiltCpx T F) (newval : List (List T)) : Res (FiltCpx T F) := do
  let perms := filtrationSortperm newval
  let iperm ← filtrationIperm X.perm
  let up ← updatePerms iperm perms
  let C ← Cpx.permuteBasis X.C up
  pure ⟨newval, C, perms⟩

end FiltCpx

namespace RedFiltCpx
variable {F : Type _} [Field F] [DecidableEq F] {T : Type _} [LinearOrder T]

/-- filtered_basis.hpp:281-293 `Reduce(F, T(), flags...)`: build the filtered chain complex, then reduce it -/
def ofFiltration (reduce : List (CMat F) → Res (RedCpx F)) (val : List (List T)) (B : List (CMat F)) : Res (RedFiltCpx T F) := do
  let X ← FiltCpx.ofFiltration val B
  mk' X reduce

/-- filtered_basis.hpp:127-135 `representative(p, permuted)`. The first read `RC.U[p.dim][p.birth_ind]` happens in both cases. -/
def representative (X : RedFiltCpx T F) (p : PPair T) (permuted : Bool) : Res (SVec F) := do
  let U ← rd X.RC.U p.dim
  let v ← rd U.cols p.birthInd
  if permuted then pure v
  else do
    let pm ← rd X.perm p.dim
    let w ← rd U.cols (pm.idxOf p.birthInd)
    SVec.permute pm w

end RedFiltCpx
end BATS
