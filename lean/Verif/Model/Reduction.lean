import Verif.Model.Matrix

/-!
# Model of include/homology/reduction.hpp

`p2c_type` is `std::vector<size_t>` with `NO_IND` for "no column" (reduction.hpp:31): here `List (Option Nat)`.
-/

namespace BATS
namespace Reduction

variable {F : Type _} [Field F] [DecidableEq F]

/-- pivot-to-column table -/
abbrev P2C := List (Option Nat)

/-- the `while` loop on column `j` of `reduce_matrix_standard(M)`, reduction.hpp:63-79 -/
def stdColLoop (j : Nat) : Nat → List (SVec F) → P2C → Res (List (SVec F) × P2C)
  | 0, _, _ => .error .diverge
  | fuel + 1, cols, p2c => do
    let c ← rd cols j
    if c.isEmpty then .ok (cols, p2c)
    else do
      let piv ← SVec.lastnz c
      let e ← rd p2c piv.1
      match e with
      | some k =>
        let ck ← rd cols k
        let pk ← SVec.lastnz ck
        let a ← CMat.fdiv piv.2 pk.2
        stdColLoop j fuel (cols.set j (SVec.axpy (-a) ck c)) p2c
      | none => .ok (cols, p2c.set piv.1 (some j))

/-- the `for` loop over columns, reduction.hpp:62-80; `todo` columns remain, the next one is `j`.
Fuel per column: `nrow + 1` (theorem: enough). -/
def stdLoop (nrow : Nat) : Nat → Nat → List (SVec F) → P2C → Res (List (SVec F) × P2C)
  | 0, _, cols, p2c => .ok (cols, p2c)
  | todo + 1, j, cols, p2c => do
    let r ← stdColLoop j (nrow + 1) cols p2c
    stdLoop nrow todo (j + 1) r.1 r.2

/-- reduction.hpp:53-82 `reduce_matrix_standard(M)` (also `reduce_matrix(M)` 128-136): new `M` and the table -/
def reduceStd (M : CMat F) : Res (CMat F × P2C) := do
  let r ← stdLoop M.nrow M.cols.length 0 M.cols (List.replicate M.nrow none)
  pure (⟨M.nrow, r.1⟩, r.2)

/-- the `while` loop on column `j` of `reduce_matrix_standard(M, U)`, reduction.hpp:159-177 -/
def stdColLoopU (j : Nat) : Nat → List (SVec F) → List (SVec F) → P2C → Res (List (SVec F) × List (SVec F) × P2C)
  | 0, _, _, _ => .error .diverge
  | fuel + 1, cols, ucols, p2c => do
    let c ← rd cols j
    if c.isEmpty then .ok (cols, ucols, p2c)
    else do
      let piv ← SVec.lastnz c
      let e ← rd p2c piv.1
      match e with
      | some k =>
        let ck ← rd cols k
        let pk ← SVec.lastnz ck
        let a ← CMat.fdiv piv.2 pk.2
        let uj ← rd ucols j
        let uk ← rd ucols k
        stdColLoopU j fuel (cols.set j (SVec.axpy (-a) ck c)) (ucols.set j (SVec.axpy (-a) uk uj)) p2c
      | none => .ok (cols, ucols, p2c.set piv.1 (some j))

/-- the `for` loop, reduction.hpp:158-178 -/
def stdLoopU (nrow : Nat) : Nat → Nat → List (SVec F) → List (SVec F) → P2C →
    Res (List (SVec F) × List (SVec F) × P2C)
  | 0, _, cols, ucols, p2c => .ok (cols, ucols, p2c)
  | todo + 1, j, cols, ucols, p2c => do
    let r ← stdColLoopU j (nrow + 1) cols ucols p2c
    stdLoopU nrow todo (j + 1) r.1 r.2.1 r.2.2

/-- reduction.hpp:146-181 `reduce_matrix_standard(M, U)` (also `reduce_matrix(M, U)` 226-234) -/
def reduceStdU (M U : CMat F) : Res (CMat F × CMat F × P2C) :=
  if M.cols.length ≠ U.cols.length then .error .thrown else do
    let r ← stdLoopU M.nrow M.cols.length 0 M.cols U.cols (List.replicate M.nrow none)
    pure (⟨M.nrow, r.1⟩, ⟨U.nrow, r.2.1⟩, r.2.2)

/-- the `while` loop on column `j` of `reduce_matrix_extra(M)`, reduction.hpp:96-122. The iterator `piv` is
`nzend() - off`, so it designates position `nnz - off`; the guard is `piv - nzbegin > 0`. For an empty column
`nzend() - 1` points before the beginning (undefined behaviour in C++; with the usual pointer representation the
guard is then false and the loop is skipped, which is what the model does). -/
def extraColLoop (j : Nat) : Nat → Bool → Nat → List (SVec F) → P2C → Res (List (SVec F) × P2C)
  | 0, _, _, _, _ => .error .diverge
  | fuel + 1, found, off, cols, p2c => do
    let c ← rd cols j
    if c.length ≤ off then .ok (cols, p2c)
    else do
      let piv ← rd c (c.length - off)
      let e ← rd p2c piv.1
      match e with
      | some k =>
        let ck ← rd cols k
        let pk ← SVec.lastnz ck
        let a ← CMat.fdiv piv.2 pk.2
        extraColLoop j fuel found off (cols.set j (SVec.axpy (-a) ck c)) p2c
      | none =>
        if !found then extraColLoop j fuel true (off + 1) cols (p2c.set piv.1 (some j))
        else extraColLoop j fuel found (off + 1) cols p2c

/-- column loop of `reduce_matrix_extra(M)`, reduction.hpp:95-123; fuel per column `(nrow+1)*(nrow+2)` -/
def extraLoop (nrow : Nat) : Nat → Nat → List (SVec F) → P2C → Res (List (SVec F) × P2C)
  | 0, _, cols, p2c => .ok (cols, p2c)
  | todo + 1, j, cols, p2c => do
    let r ← extraColLoop j ((nrow + 1) * (nrow + 2)) false 1 cols p2c
    extraLoop nrow todo (j + 1) r.1 r.2

/-- reduction.hpp:86-125 `reduce_matrix_extra(M)` (also `reduce_matrix(M, extra_reduction_flag)` 138-141) -/
def reduceExtra (M : CMat F) : Res (CMat F × P2C) := do
  let r ← extraLoop M.nrow M.cols.length 0 M.cols (List.replicate M.nrow none)
  pure (⟨M.nrow, r.1⟩, r.2)

/-- indices `i`, starting at `i0`, whose table entry is set: reduction.hpp:392-407 `get_clearing_inds`
(the final `std::sort` acts on an already increasing list) -/
def clearingIndsFrom : Nat → P2C → List Nat
  | _, [] => []
  | i, some _ :: t => i :: clearingIndsFrom (i + 1) t
  | i, none :: t => clearingIndsFrom (i + 1) t
/-- reduction.hpp:392-407 -/
def getClearingInds (p2c : P2C) : List Nat := clearingIndsFrom 0 p2c

/-- loop `for (cind : clear_inds) M[cind].clear()`, reduction.hpp:425-428 -/
def clearColsLoop : List Nat → List (SVec F) → Res (List (SVec F))
  | [], cols => .ok cols
  | i :: is, cols => do
    let cols' ← wr cols i []
    clearColsLoop is cols'

/-- reduction.hpp:416-433 `reduce_matrix_clearing(M, clear_inds, flag)` with the standard flag -/
def reduceClearing (M : CMat F) (clearInds : List Nat) : Res (CMat F × P2C) := do
  let cols ← clearColsLoop clearInds M.cols
  reduceStd ⟨M.nrow, cols⟩

/-- loop of reduction.hpp:457-470: for every set table entry `p2c[i] = j`, clear column `i` of `M` and replace
column `i` of `U` by `R[j]` -/
def clearBasisLoop (Rcols : List (SVec F)) : Nat → P2C → List (SVec F) → List (SVec F) →
    Res (List (SVec F) × List (SVec F))
  | _, [], cols, ucols => .ok (cols, ucols)
  | i, none :: t, cols, ucols => clearBasisLoop Rcols (i + 1) t cols ucols
  | i, some j :: t, cols, ucols => do
    let cols' ← wr cols i []
    let rj ← rd Rcols j
    let ucols' ← wr ucols i rj
    clearBasisLoop Rcols (i + 1) t cols' ucols'

/-- reduction.hpp:447-475 `reduce_matrix_clearing(M, U, R, p2c, flag)` with the standard flag -/
def reduceClearingU (M U R : CMat F) (p2c : P2C) : Res (CMat F × CMat F × P2C) := do
  let r ← clearBasisLoop R.cols 0 p2c M.cols U.cols
  reduceStdU ⟨M.nrow, r.1⟩ ⟨U.nrow, r.2⟩

/-- reduction.hpp:480-487 `get_compression_inds` -/
def getCompressionInds (R : CMat F) : List Bool := R.cols.map (fun c => decide (c.length > 0))

/-- reduction.hpp:492-503 `reduce_matrix_compression(M, comp_inds, flag)` with the standard flag -/
def reduceCompression (M : CMat F) (compInds : List Bool) : Res (CMat F × P2C) := do
  let M' ← CMat.clearRows compInds M
  reduceStd M'

/-- reduction.hpp:506-518 `reduce_matrix_compression(M, U, comp_inds, flag)` -/
def reduceCompressionU (M U : CMat F) (compInds : List Bool) : Res (CMat F × CMat F × P2C) := do
  let M' ← CMat.clearRows compInds M
  reduceStdU M' U

/-- loop of reduction.hpp:603-612 -/
def basisIndsLoop (p2c : P2C) : Nat → List (SVec F) → Res (List Nat)
  | _, [] => .ok []
  | j, c :: cs => do
    if c.length = 0 then
      let e ← rd p2c j
      let r ← basisIndsLoop p2c (j + 1) cs
      match e with
      | none => pure (j :: r)
      | some _ => pure r
    else basisIndsLoop p2c (j + 1) cs

/-- reduction.hpp:597-615 `extract_basis_indices(Rk, p2ck1)` -/
def extractBasisIndices (Rk : CMat F) (p2ck1 : P2C) : Res (List Nat) := basisIndsLoop p2ck1 0 Rk.cols

/-- loop of reduction.hpp:628-634 -/
def basisIndsTopLoop : Nat → List (SVec F) → List Nat
  | _, [] => []
  | j, c :: cs => if c.length = 0 then j :: basisIndsTopLoop (j + 1) cs else basisIndsTopLoop (j + 1) cs

/-- reduction.hpp:621-637 `extract_basis_indices(Rk)` -/
def extractBasisIndicesTop (Rk : CMat F) : List Nat := basisIndsTopLoop 0 Rk.cols

end Reduction
end BATS
