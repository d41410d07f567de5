import Verif.Model.Update

/-!
# Model of include/dgvs/dgvs.hpp, include/dgvs/filtered_dgvs.hpp, include/homology/dgbasis.hpp and
include/persistence/filtered_dgbasis.hpp

Differential graded vector spaces: chain complexes (degree `-1`) and cochain complexes (degree `+1`), their reductions,
and persistent (co)homology.
-/

namespace BATS
open Reduction

variable {F : Type _} [Field F] [DecidableEq F]

/-- dgvs.hpp:31-33 `DGVectorSpace`: the members `degree` and `differential` -/
structure DGVS (F : Type _) where
  degree : Int
  diff : List (CMat F)
  deriving DecidableEq

namespace DGVS

/-- col_matrix.hpp:53-55 `ColumnMatrix(m, n, a)`: every entry is `a` -/
def fill (m n : Nat) (a : F) : CMat F := ⟨m, List.replicate n (SVec.dense a m)⟩

/-- the loop dgvs.hpp:79-81 -/
def transposeAll : List (CMat F) → Res (List (CMat F))
  | [] => .ok []
  | B :: Bs => do
    let T ← B.transpose
    let Ts ← transposeAll Bs
    pure (T :: Ts)

/-- dgvs.hpp:62-91, constructor from a complex `X`, a degree and the augmentation flag. The complex enters through the
list `B` of the matrices that `ChainComplex(X)` stores: `X.boundary_csc(k)` is `B[k]` for `k ≥ 1` and `X.ncells(k)` is the
number of columns of `B[k]`. -/
def ofComplex (deg : Int) (aug : Bool) (B : List (CMat F)) : Res (DGVS F) :=
  match B with
  | [] => .error .ub
  | B0 :: Bs =>
    let n0 := B0.cols.length
    let ntop := (Bs.getLastD B0).cols.length
    if deg = -1 then
      .ok ⟨deg, (if aug then fill 1 n0 1 else CMat.zero 0 n0) :: Bs ++ [CMat.zero ntop 0]⟩
    else if deg = 1 then do
      let Ts ← transposeAll Bs
      pure ⟨deg, (if aug then fill n0 1 1 else CMat.zero n0 0) :: Ts ++ [CMat.zero 0 ntop]⟩
    else .error .thrown

/-- dgvs.hpp:95 `maxdim()` (for at least two differentials) -/
def maxdim (C : DGVS F) : Nat := C.diff.length - 2

/-- dgvs.hpp:96-98 `dim(k)` with `operator[]` (44-49), `k ≥ 0` -/
def dim (C : DGVS F) (k : Nat) : Res Nat := do
  let M ← rd C.diff (if C.degree = -1 then k else k + 1)
  pure M.cols.length

/-- dgvs.hpp:101-115 `permute_basis(k, perm)` (ignores the degree) -/
def permuteBasis1 (D : List (CMat F)) (k : Nat) (perm : List Nat) : Res (List (CMat F)) :=
  if k = 0 then Cpx.modify D 1 (CMat.permuteRows perm)
  else if k = D.length - 2 then Cpx.modify D k (CMat.permuteCols perm)
  else do
    let D1 ← Cpx.modify D k (CMat.permuteCols perm)
    Cpx.modify D1 (k + 1) (CMat.permuteRows perm)

/-- loop of dgvs.hpp:118-122 -/
def permuteBasisFrom : Nat → List (List Nat) → List (CMat F) → Res (List (CMat F))
  | _, [], D => .ok D
  | k, p :: ps, D => do
    let D1 ← permuteBasis1 D k p
    permuteBasisFrom (k + 1) ps D1

/-- dgvs.hpp:118-122 `permute_basis(perm)` -/
def permuteBasis (C : DGVS F) (perms : List (List Nat)) : Res (DGVS F) := do
  let D ← permuteBasisFrom 0 perms C.diff
  pure ⟨C.degree, D⟩

/-- dgvs.hpp:124-159 `ipermute_basis(k, perm)` -/
def ipermuteBasis1 (deg : Int) (D : List (CMat F)) (k : Nat) (perm : List Nat) : Res (List (CMat F)) :=
  if deg = -1 then
    if k = 0 then do
      let q ← Perm.invPerm perm
      Cpx.modify D 1 (CMat.permuteRows q)
    else if k = D.length - 2 then Cpx.modify D k (CMat.ipermuteCols perm)
    else do
      let D1 ← Cpx.modify D k (CMat.ipermuteCols perm)
      let q ← Perm.invPerm perm
      Cpx.modify D1 (k + 1) (CMat.permuteRows q)
  else
    if k = 0 then Cpx.modify D 1 (CMat.ipermuteCols perm)
    else if k = D.length - 2 then do
      let q ← Perm.invPerm perm
      Cpx.modify D k (CMat.permuteRows q)
    else do
      let D1 ← Cpx.modify D (k + 1) (CMat.ipermuteCols perm)
      let q ← Perm.invPerm perm
      Cpx.modify D1 k (CMat.permuteRows q)

/-- loop of dgvs.hpp:161-165 -/
def ipermuteBasisFrom (deg : Int) : Nat → List (List Nat) → List (CMat F) → Res (List (CMat F))
  | _, [], D => .ok D
  | k, p :: ps, D => do
    let D1 ← ipermuteBasis1 deg D k p
    ipermuteBasisFrom deg (k + 1) ps D1

/-- dgvs.hpp:161-165 `ipermute_basis(perm)` -/
def ipermuteBasis (C : DGVS F) (perms : List (List Nat)) : Res (DGVS F) := do
  let D ← ipermuteBasisFrom C.degree 0 perms C.diff
  pure ⟨C.degree, D⟩

/-- dgvs.hpp:170-172 `is_differential(k)`; `k + degree` is an unsigned index -/
def isDifferential (C : DGVS F) (k : Nat) : Res Bool := do
  let i := (k : Int) + C.degree
  if i < 0 then .error .ub
  else do
    let A ← rd C.diff i.toNat
    let M ← rd C.diff k
    let P ← CMat.gemm A M
    pure P.isZero

end DGVS

/-- dgbasis.hpp:22-33 `ReducedDGVectorSpace` -/
structure RedDG (F : Type _) where
  degree : Int
  U : List (CMat F)
  R : List (CMat F)
  I : List (List Nat)
  p2c : List P2C
  deriving DecidableEq

namespace RedDG

/-- the loops of dgbasis.hpp:71-73 and 77-79: the `i`-th matrix is paired with the `i`-th table -/
def zipExtract : List (CMat F) → List P2C → Res (List (List Nat))
  | [], _ => .ok []
  | _ :: _, [] => .error .ub
  | R :: Rs, p :: ps => do
    let i ← extractBasisIndices R p
    let is ← zipExtract Rs ps
    pure (i :: is)

/-- dgbasis.hpp:68-82 `set_indices`. Degree `-1`: `I[k] = extract_basis_indices(R[k], p2c[k+1])` for
`k < maxdim() + 1 = R.size() - 1` and `I[maxdim()+1] = extract_basis_indices(R[maxdim()])`. Degree `+1`:
`I[k] = extract_basis_indices(R[k], p2c[k-1])` for `1 ≤ k < R.size()`; `I[0]` keeps its previous value, which is empty.
With fewer than two matrices `maxdim()` wraps around. -/
def setIndices (deg : Int) (R : List (CMat F)) (p2c : List P2C) : Res (List (List Nat)) :=
  if R.length < 2 then .error .ub
  else if deg = -1 then do
    let is ← zipExtract R.dropLast p2c.tail
    let t ← rd R (R.length - 2)
    pure (is ++ [extractBasisIndicesTop t])
  else if deg = 1 then do
    let is ← zipExtract R.tail p2c
    pure ([] :: is)
  else .ok (R.map (fun _ => []))

/-- assemble the members from per-index results and call `set_indices` -/
def assembleU (deg : Int) (rs : List (CMat F × CMat F × P2C)) : Res (RedDG F) := do
  let I ← setIndices deg (rs.map (·.1)) (rs.map (·.2.2))
  pure ⟨deg, rs.map (·.2.1), rs.map (·.1), I, rs.map (·.2.2)⟩

/-- the same without basis -/
def assemble (deg : Int) (rs : List (CMat F × P2C)) : Res (RedDG F) := do
  let I ← setIndices deg (rs.map (·.1)) (rs.map (·.2))
  pure ⟨deg, [], rs.map (·.1), I, rs.map (·.2)⟩

/-- dgbasis.hpp:88-107 (and 129-150 with the standard flag): standard reduction of every differential, with basis -/
def mkStd (C : DGVS F) : Res (RedDG F) := do
  let rs ← RedCpx.reduceAllU C.diff
  assembleU C.degree rs

/-- dgbasis.hpp:110-126, standard flag: no basis -/
def mkNoBasis (C : DGVS F) : Res (RedDG F) := do
  let rs ← RedCpx.reduceAll C.diff
  assemble C.degree rs

/-- dgbasis.hpp:152-188 clearing without basis. `RedCpx.clearAll` treats its list from the last entry to the first
(degree `-1`: the loop 164-172); degree `+1` (173-184) treats the differentials from the first to the last, so it is
`clearAll` of the reversed list with the results put back in order. -/
def mkClearing (C : DGVS F) : Res (RedDG F) :=
  if C.degree = -1 then do
    let rs ← RedCpx.clearAll C.diff
    assemble C.degree rs
  else do
    let rs ← RedCpx.clearAll C.diff.reverse
    assemble C.degree rs.reverse

/-- dgbasis.hpp:190-226 clearing with basis; order as in `mkClearing` -/
def mkClearingU (C : DGVS F) : Res (RedDG F) :=
  if C.degree = -1 then do
    let rs ← RedCpx.clearAllU C.diff
    assembleU C.degree rs
  else do
    let rs ← RedCpx.clearAllU C.diff.reverse
    assembleU C.degree rs.reverse

/-- dgbasis.hpp:241-249 / 250-259: the first matrix normally, then each with the compression indices of the previous one -/
def compAll : List (CMat F) → Res (List (CMat F × P2C))
  | [] => .error .ub
  | B :: Bs => do
    let r ← reduceStd B
    let rs ← RedCpx.compLoop (getCompressionInds r.1) Bs
    pure (r :: rs)

/-- dgbasis.hpp:228-266 compression without basis: upwards for degree `-1`, downwards for degree `+1` -/
def mkCompression (C : DGVS F) : Res (RedDG F) :=
  if C.degree = -1 then do
    let rs ← compAll C.diff
    assemble C.degree rs
  else do
    let rs ← compAll C.diff.reverse
    assemble C.degree rs.reverse

/-- dgbasis.hpp:37-39 `hdim(k)` / `betti(k)` -/
def hdim (C : RedDG F) (k : Nat) : Res Nat := do
  let i ← rd C.I (if C.degree = -1 then k else k + 1)
  pure i.length

/-- dgbasis.hpp:41 `maxdim()` (for at least two matrices) -/
def maxdim (C : RedDG F) : Nat := C.R.length - 2

/-- dgbasis.hpp:42-44 `dim(k)` -/
def dim (C : RedDG F) (k : Nat) : Res Nat := do
  let r ← rd C.R (if C.degree = -1 then k else k + 1)
  pure r.cols.length

/-- dgbasis.hpp:296-301 `get_preferred_representative(j, k)` (does not look at the degree) -/
def getPreferredRepresentative (C : RedDG F) (j k : Nat) : Res (SVec F) := do
  let u ← rd C.U k
  let i ← rd C.I k
  let a ← rd i j
  rd u.cols a

/-- dgbasis.hpp:408-440 `permute_matrices(k, perm)` on the members `U` and `R` -/
def permuteMatrices (deg : Int) (U R : List (CMat F)) (k : Nat) (perm : List Nat) : Res (List (CMat F) × List (CMat F)) := do
  let q ← Perm.invPerm perm
  if deg = -1 then
    if k = 0 then do
      let R1 ← Cpx.modify R 1 (CMat.permuteRows q)
      pure (U, R1)
    else if k = R.length - 2 then do
      let U1 ← Cpx.modify U k (CMat.permuteRows q)
      pure (U1, R)
    else do
      let U1 ← Cpx.modify U k (CMat.permuteRows q)
      let R1 ← Cpx.modify R (k + 1) (CMat.permuteRows q)
      pure (U1, R1)
  else
    if k = 0 then do
      let U1 ← Cpx.modify U 1 (CMat.permuteRows q)
      pure (U1, R)
    else if k = R.length - 2 then do
      let R1 ← Cpx.modify R k (CMat.permuteRows q)
      pure (U, R1)
    else do
      let U1 ← Cpx.modify U (k + 1) (CMat.permuteRows q)
      let R1 ← Cpx.modify R k (CMat.permuteRows q)
      pure (U1, R1)

/-- first loop of dgbasis.hpp:445-447 -/
def permuteMatricesFrom (deg : Int) : Nat → List (List Nat) → List (CMat F) → List (CMat F) → Res (List (CMat F) × List (CMat F))
  | _, [], U, R => .ok (U, R)
  | k, p :: ps, U, R => do
    let s ← permuteMatrices deg U R k p
    permuteMatricesFrom deg (k + 1) ps s.1 s.2

/-- dgbasis.hpp:443-453 `permute_basis(perm)` without flags. `update_reduction2(k)` (392-402) is the code of
basis.hpp:250-275 at index `k` (degree `-1`) or `k + 1` (degree `+1`). -/
def permuteBasis (C : RedDG F) (perm : List (List Nat)) : Res (RedDG F) := do
  let s ← permuteMatricesFrom C.degree 0 perm C.U C.R
  let t ← RedCpx.updateFrom perm.length (if C.degree = -1 then 0 else 1) s.1 s.2 C.p2c
  let I ← setIndices C.degree t.2.1 t.2.2
  pure ⟨C.degree, t.1, t.2.1, I, t.2.2⟩

end RedDG

/-- filtered_dgvs.hpp:10-13 `FilteredDGVectorSpace` -/
structure FiltDG (T F : Type _) where
  val : List (List T)
  C : DGVS F
  perm : List (List Nat)

/-- filtered_dgbasis.hpp:14-18 `ReducedFilteredDGVectorSpace` -/
structure RedFiltDG (T F : Type _) where
  RC : RedDG F
  val : List (List T)
  perm : List (List Nat)

namespace FiltDG
variable {T : Type _} [LinearOrder T]

/-- filtered_dgvs.hpp:20-26: the sorting permutations, reversed for degree `+1` (also filtered_dgbasis.hpp:164-172) -/
def sortPerms (deg : Int) (val : List (List T)) : List (List Nat) :=
  let perms := FiltCpx.filtrationSortperm val
  if deg = 1 then perms.map List.reverse else perms

/-- filtered_dgvs.hpp:18-33 `_set_perms` -/
def setPerms (val : List (List T)) (C : DGVS F) : Res (FiltDG T F) := do
  let perms := sortPerms C.degree val
  let D ← C.ipermuteBasis perms
  pure ⟨val, D, perms⟩

/-- filtered_dgvs.hpp:37-40, constructor from a filtration -/
def ofFiltration (deg : Int) (aug : Bool) (val : List (List T)) (B : List (CMat F)) : Res (FiltDG T F) := do
  let C ← DGVS.ofComplex deg aug B
  setPerms val C

/-- filtered_dgvs.hpp:53-77 `update_filtration(newval)` (the temporary is a `std::vector<FT>`, see DESIGN.md; the model keeps
the permutation entries exact) -/
def updateFiltration (X : FiltDG T F) (newval : List (List T)) : Res (FiltDG T F) := do
  let perms := FiltCpx.filtrationSortperm newval
  let iperm ← FiltCpx.filtrationIperm X.perm
  let up ← FiltCpx.updatePerms iperm perms
  let C ← X.C.permuteBasis up
  pure ⟨newval, C, perms⟩

end FiltDG

namespace RedFiltDG
variable {T : Type _}

/-- filtered_dgbasis.hpp:24-28 -/
def mk' (X : FiltDG T F) (reduce : DGVS F → Res (RedDG F)) : Res (RedFiltDG T F) := do
  let rc ← reduce X.C
  pure ⟨rc, X.val, X.perm⟩

/-- `perm[k][i]` -/
def origAt (X : RedFiltDG T F) (k i : Nat) : Res Nat := do
  let p ← rd X.perm k
  rd p i

/-- `val[k][perm[k][i]]` -/
def valAt (X : RedFiltDG T F) (k i : Nat) : Res T := do
  let a ← origAt X k i
  let v ← rd X.val k
  rd v a

/-- an infinite bar born at position `i`: filtered_dgbasis.hpp:48-53, 89-97 -/
def infBar (X : RedFiltDG T F) (k i : Nat) : Res (Option (PPair T)) := do
  let bi ← origAt X k i
  let b ← valAt X k i
  pure (some ⟨k, bi, none, b, none⟩)

/-- a finite bar: filtered_dgbasis.hpp:55-61, 75-85 -/
def finBar (X : RedFiltDG T F) (k i j : Nat) : Res (Option (PPair T)) := do
  let bi ← origAt X k i
  let di ← origAt X (k + 1) j
  let b ← valAt X k i
  let d ← valAt X (k + 1) j
  pure (some ⟨k, bi, some di, b, some d⟩)

/-- body of the loop filtered_dgbasis.hpp:43-65 (degree `-1`) for column `c` of `R[k]` at position `i` -/
def pairAtHom (X : RedFiltDG T F) (k i : Nat) (c : SVec F) : Res (Option (PPair T)) :=
  if c.length ≠ 0 then .ok none
  else if k = X.RC.maxdim then infBar X k i
  else do
    let tab ← rd X.RC.p2c (k + 1)
    let e ← rd tab i
    match e with
    | none => infBar X k i
    | some j => finBar X k i j

/-- body of the loop filtered_dgbasis.hpp:72-100 (degree `+1`) for column `c` of `R[k+1]` at position `i` -/
def pairAtCoh (X : RedFiltDG T F) (k i : Nat) (c : SVec F) : Res (Option (PPair T)) :=
  if c.length > 0 then do
    let l ← SVec.lastnz c
    finBar X k i l.1
  else do
    let tab ← rd X.RC.p2c k
    let e ← rd tab i
    match e with
    | none => infBar X k i
    | some _ => .ok none

/-- the loop over the columns -/
def pairsLoop (f : Nat → SVec F → Res (Option (PPair T))) : Nat → List (SVec F) → Res (List (PPair T))
  | _, [] => .ok []
  | i, c :: cs => do
    let p ← f i c
    let ps ← pairsLoop f (i + 1) cs
    pure (match p with | some q => q :: ps | none => ps)

/-- filtered_dgbasis.hpp:38-130 `persistence_pairs(k)` -/
def persistencePairs (X : RedFiltDG T F) (k : Nat) : Res (List (PPair T)) :=
  if X.RC.degree = -1 then do
    let r ← rd X.RC.R k
    pairsLoop (pairAtHom X k) 0 r.cols
  else do
    let r ← rd X.RC.R (k + 1)
    pairsLoop (pairAtCoh X k) 0 r.cols

variable [LinearOrder T]

/-- build the filtered DG vector space, then reduce it -/
def ofFiltration (reduce : DGVS F → Res (RedDG F)) (deg : Int) (aug : Bool) (val : List (List T)) (B : List (CMat F)) :
    Res (RedFiltDG T F) := do
  let X ← FiltDG.ofFiltration deg aug val B
  mk' X reduce

/-- filtered_dgbasis.hpp:159-194 `update_filtration(newval)` -/
def updateFiltration (X : RedFiltDG T F) (newval : List (List T)) : Res (RedFiltDG T F) := do
  let perms := FiltDG.sortPerms X.RC.degree newval
  let iperm ← FiltCpx.filtrationIperm X.perm
  let up ← FiltCpx.updatePerms iperm perms
  let RC ← X.RC.permuteBasis up
  pure ⟨RC, newval, perms⟩

/-- a history of updates -/
def updateAll (X : RedFiltDG T F) : List (List (List T)) → Res (RedFiltDG T F)
  | [] => .ok X
  | v :: vs => do
    let X1 ← X.updateFiltration v
    X1.updateAll vs

end RedFiltDG
end BATS
