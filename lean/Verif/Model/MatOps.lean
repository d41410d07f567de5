import Verif.Model.Fact
import Verif.Model.Chain

/-!
# Row and column operations: include/linalg/sparse_vector.hpp:492-736 and include/linalg/col_matrix.hpp:155-680, 794-892

The timing output of `insert_rows(r_inds, rows)` is not modelled.
-/

namespace BATS

variable {F : Type} [Field F] [DecidableEq F]

namespace SVec

/-- sparse_vector.hpp:620-659 `mix_rows(i, j, a, b, c, d)`. Iterators are positions: `pi`, `pj` are computed before the vector changes. An
insertion at a position past the end is undefined behaviour. -/
def mixRows (i j : Nat) (a b c d : F) (v : SVec F) : Res (SVec F) :=
  match find v i, find v j with
  | some vi, some vj => do
    let w := (v.set (lowerBound v i) (i, a * vi + b * vj)).set (lowerBound v j) (j, c * vi + d * vj)
    let w1 := if c * vi + d * vj = 0 then w.eraseIdx (lowerBound v j) else w
    let p ← rd w1 (lowerBound w1 i)
    pure (if p.2 = 0 then w1.eraseIdx (lowerBound w1 i) else w1)
  | some vi, none => do
    let w := v.set (lowerBound v i) (i, a * vi)
    let w1 := if c * vi ≠ 0 then w.insertIdx (lowerBound v j) (j, c * vi) else w
    let p ← rd w1 (lowerBound w1 i)
    pure (if p.2 = 0 then w1.eraseIdx (lowerBound w1 i) else w1)
  | none, some vj =>
    let w := if d * vj ≠ 0 then v.set (lowerBound v j) (j, d * vj) else v.eraseIdx (lowerBound v j)
    if b * vj ≠ 0 then
      if lowerBound v i ≤ w.length then .ok (w.insertIdx (lowerBound v i) (i, b * vj)) else .error .ub
    else .ok w
  | none, none => .ok v

/-- sparse_vector.hpp:684-692: the new index of an old entry: `lower_bound` in `r_inds`, then the inner loop (see `insertLoop`) -/
def insertTarget (rinds : List Nat) (i : Nat) : Nat :=
  (insertLoop (rinds.drop (rinds.takeWhile (fun r => r < i)).length) (i + (rinds.takeWhile (fun r => r < i)).length)).1

/-- sparse_vector.hpp:697-699: append the new entries; `r_vals` is read at the positions of `r_inds` -/
def insertVals : List Nat → List F → Res (SVec F)
  | [], _ => .ok []
  | _ :: _, [] => .error .ub
  | r :: rs, a :: as => do
    let t ← insertVals rs as
    pure ((r, a) :: t)

/-- sparse_vector.hpp:680-702 `insert_rows(r_inds, r_vals)` -/
def insertRows (rinds : List Nat) (rvals : List F) (v : SVec F) : Res (SVec F) :=
  if rinds.isEmpty then .ok v else do
    let t ← insertVals rinds rvals
    pure (sort (v.map (fun p => (insertTarget rinds p.1, p.2)) ++ t))

end SVec

namespace CMat

/-- col_matrix.hpp:161-164, 202 `append_column(..)` -/
def appendColumn (c : SVec F) (A : CMat F) : CMat F := ⟨A.nrow, A.cols ++ [c]⟩

/-- the permutation of col_matrix.hpp:184-191 and 209-216 -/
def insertColPerm (n index : Nat) : List Nat :=
  (List.range n).map (fun i => if i > index then i - 1 else if i = index then n - 1 else i)

/-- col_matrix.hpp:178-199 `insert_column(index, args..)` -/
def insertColumn (index : Nat) (c : SVec F) (A : CMat F) : Res (CMat F) :=
  ipermuteCols (insertColPerm (A.cols.length + 1) index) (appendColumn c A)

/-- col_matrix.hpp:205-218 `insert_column(index)`: a zero column -/
def insertZeroColumn (index : Nat) (A : CMat F) : Res (CMat F) :=
  permuteCols (insertColPerm (A.cols.length + 1) index) (appendColumn [] A)

/-- col_matrix.hpp:233-261: the loops of `insert_columns`; the arguments are the position `i`, what is left of `c_inds`, `insert_col`, `col`.
`newcol` has `n + c_inds.size()` entries; writing past it is checked by the caller. Reading `c_inds` past its end is undefined. -/
def insertColsLoop : Nat → List Nat → List (SVec F) → List (SVec F) → Res (List (SVec F))
  | _, _, [], old => .ok old
  | _, _, new, [] => .ok new
  | _, [], _ :: _, _ :: _ => .error .ub
  | i, c :: cs, x :: new, y :: old =>
    if i = c then do
      let r ← insertColsLoop (i + 1) cs new (y :: old)
      pure (x :: r)
    else do
      let r ← insertColsLoop (i + 1) (c :: cs) (x :: new) old
      pure (y :: r)
termination_by _ _ new old => new.length + old.length

/-- col_matrix.hpp:225-266 `insert_columns(c_inds, insert_col)`; for fewer columns than indices the rest of `newcol` stays empty, more are written
out of bounds -/
def insertColumns (cinds : List Nat) (new : List (SVec F)) (A : CMat F) : Res (CMat F) := do
  let r ← insertColsLoop 0 cinds new A.cols
  if A.cols.length + cinds.length < r.length then .error .ub
  else pure ⟨A.nrow, r ++ List.replicate (A.cols.length + cinds.length - r.length) []⟩

/-- loop of col_matrix.hpp:272-276 -/
def appendRowLoop (m : Nat) : List F → List (SVec F) → List (SVec F)
  | a :: row, c :: cs => (if a ≠ 0 then c ++ [(m, a)] else c) :: appendRowLoop m row cs
  | _, cs => cs

/-- col_matrix.hpp:269-277 `append_row(row)`; the assertion is an abort -/
def appendRow (row : List F) (A : CMat F) : Res (CMat F) :=
  if row.length ≠ A.cols.length then .error .thrown else .ok ⟨A.nrow + 1, appendRowLoop A.nrow row A.cols⟩

/-- loop of col_matrix.hpp:282-284 (and 402-404): append the entries of a sparse row as row `m` -/
def appendSparseLoop (m : Nat) : SVec F → List (SVec F) → Res (List (SVec F))
  | [], cs => .ok cs
  | p :: row, cs => do
    let c ← rd cs p.1
    appendSparseLoop m row (cs.set p.1 (c ++ [(m, p.2)]))

/-- col_matrix.hpp:280-285 `append_sparse_row(new_row)` -/
def appendSparseRow (row : SVec F) (A : CMat F) : Res (CMat F) := do
  let cs ← appendSparseLoop A.nrow row A.cols
  pure ⟨A.nrow + 1, cs⟩

/-- the permutation of col_matrix.hpp:292-299 and 358-365; `m` is the new number of rows -/
def insertRowPerm (m ind : Nat) : List Nat :=
  (List.range m).map (fun i => if i = m - 1 then ind else if i ≥ ind then i + 1 else i)

/-- col_matrix.hpp:288-301 `insert_row(ind, row)` -/
def insertRow (ind : Nat) (row : List F) (A : CMat F) : Res (CMat F) := do
  let B ← appendRow row A
  permuteRows (insertRowPerm B.nrow ind) B

/-- col_matrix.hpp:354-367 `insert_row(ind)`: a zero row -/
def insertZeroRow (ind : Nat) (A : CMat F) : Res (CMat F) :=
  permuteRows (insertRowPerm (A.nrow + 1) ind) ⟨A.nrow + 1, A.cols⟩

/-- first loop of col_matrix.hpp:312-314 -/
def appendSparseRows : List (SVec F) → CMat F → Res (CMat F)
  | [], A => .ok A
  | r :: rs, A => do
    let B ← appendSparseRow r A
    appendSparseRows rs B

/-- col_matrix.hpp:309-336 `insert_sparse_rows(r_inds, new_rows)` -/
def insertSparseRows (rinds : List Nat) (rows : List (SVec F)) (A : CMat F) : Res (CMat F) := do
  let B ← appendSparseRows rows A
  permuteRows ((List.range (B.nrow - rinds.length)).map (SVec.insertTarget rinds) ++ rinds) B

/-- col_matrix.hpp:374-375: how many rows are inserted before the first row, counting from `k` -/
def leadingRows : List Nat → Nat → Nat
  | r :: rs, k => if r = k then leadingRows rs (k + 1) else k
  | [], k => k

/-- col_matrix.hpp:372-381 `insert_rows(r_inds)`: zero rows -/
def insertZeroRows (rinds : List Nat) (A : CMat F) : CMat F :=
  ⟨A.nrow + rinds.length, A.cols.map (SVec.insertZeroRows rinds (leadingRows rinds 0))⟩

/-- the loops of col_matrix.hpp:396-409: the entries of `rperm` (of length `m`) from position `i` on, in the state `i0`, `iloc`. The inner
loop has no bound, so the writes `rperm[i++]` run past the end when an index is too large. -/
def insertPerm (m : Nat) : List Nat → Nat → Nat → Nat → Res (List Nat)
  | [], i, i0, _ => .ok (List.range' i0 (m - i))
  | r :: rs, i, i0, iloc =>
    if m ≤ i then .ok []
    else if m ≤ i + (r - i0) then .error .ub else do
      let t ← insertPerm m rs (i + (r - i0) + 1) (i0 + (r - i0)) (iloc + 1)
      pure (List.range' i0 (r - i0) ++ iloc :: t)

/-- loop of col_matrix.hpp:417-421 -/
def insertSparseLoop (m0 : Nat) : Nat → List Nat → List (SVec F) → List (SVec F) → Res (List (SVec F))
  | _, [], _, cs => .ok cs
  | _, _ :: _, [], _ => .error .ub
  | i1, _ :: rs, row :: rows, cs => do
    let cs' ← appendSparseLoop (i1 + m0) row cs
    insertSparseLoop m0 (i1 + 1) rs rows cs'

/-- col_matrix.hpp:386-435 `insert_rows(r_inds, rows)`; `sortperm` of a permutation is modelled by the stable sort -/
def insertRows (rinds : List Nat) (rows : List (SVec F)) (A : CMat F) : Res (CMat F) := do
  let rperm ← insertPerm (A.nrow + rinds.length) rinds 0 0 A.nrow
  let cs ← insertSparseLoop A.nrow 0 rinds rows A.cols
  permuteRows (Perm.stableSortperm rperm) ⟨A.nrow + rinds.length, cs⟩

/-- col_matrix.hpp:453-456 `erase_column(index)` -/
def eraseColumn (index : Nat) (A : CMat F) : Res (CMat F) :=
  if index < A.cols.length then .ok ⟨A.nrow, A.cols.eraseIdx index⟩ else .error .ub

/-- col_matrix.hpp:458-461 `erase_column()` -/
def eraseLastColumn (A : CMat F) : Res (CMat F) := if A.cols = [] then .error .ub else .ok ⟨A.nrow, A.cols.dropLast⟩

/-- col_matrix.hpp:466-470 `erase_final_columns(ndelete)`; too large an argument wraps around and `resize` throws -/
def eraseFinalColumns (k : Nat) (A : CMat F) : Res (CMat F) :=
  if k ≤ A.cols.length then .ok ⟨A.nrow, A.cols.take (A.cols.length - k)⟩ else .error .thrown

/-- col_matrix.hpp:475-481 `erase_initial_cols(ndelete)` -/
def eraseInitialCols (k : Nat) (A : CMat F) : Res (CMat F) :=
  if k = 0 then .ok A
  else if k ≤ A.cols.length then .ok ⟨A.nrow, (A.cols.drop k ++ A.cols.take k).take (A.cols.length - k)⟩
  else .error .ub

/-- col_matrix.hpp:486-491 `erase_row(index)`; `--m` is modelled with natural-number subtraction -/
def eraseRow (index : Nat) (A : CMat F) : CMat F := ⟨A.nrow - 1, A.cols.map (SVec.eraseForMatrix index)⟩

/-- col_matrix.hpp:496-501 `erase_row()` -/
def eraseLastRow (A : CMat F) : CMat F := ⟨A.nrow - 1, A.cols.map (SVec.eraseLastRow (A.nrow - 1))⟩

/-- col_matrix.hpp:506-517 `erase_rows(n_delete_rows)` -/
def eraseRows (k : Nat) (A : CMat F) : Res (CMat F) :=
  if A.nrow < k then .error .thrown
  else .ok ⟨A.nrow - k, A.cols.map (fun c => if k < A.nrow then SVec.eraseRowsAfter (A.nrow - k - 1) c else [])⟩

/-- col_matrix.hpp:540-545 `erase_initial_rows(ndelete)` -/
def eraseInitialRows (k : Nat) (A : CMat F) : CMat F := ⟨A.nrow - k, A.cols.map (SVec.eraseInitialRows k)⟩

/-- loop of col_matrix.hpp:630-632 -/
def setBlockLoop (i0 i1 : Nat) : Nat → Nat → List (SVec F) → List (SVec F) → Res (List (SVec F))
  | 0, _, _, cs => .ok cs
  | _ + 1, _, [], _ => .error .ub
  | n + 1, j, b :: bs, cs => do
    let c ← rd cs j
    setBlockLoop i0 i1 n (j + 1) bs (cs.set j (SVec.setBlock i0 i1 b c))

/-- col_matrix.hpp:621-633 `set_block(i0, i1, j0, j1, B)` -/
def setBlock (i0 i1 j0 j1 : Nat) (B A : CMat F) : Res (CMat F) := do
  let cs ← setBlockLoop i0 i1 (j1 - j0) j0 B.cols A.cols
  pure ⟨A.nrow, cs⟩

/-- col_matrix.hpp:650-657 `clear_cols(c)` -/
def clearCols (c : List Bool) (A : CMat F) : Res (CMat F) :=
  if c.length ≠ A.cols.length then .error .thrown
  else .ok ⟨A.nrow, A.cols.zipWith (fun v b => if b then [] else v) c⟩

/-- col_matrix.hpp:660-664 `swap_rows(i, i2)` -/
def swapRows (i j : Nat) (A : CMat F) : CMat F := ⟨A.nrow, A.cols.map (SVec.swapRows i j)⟩

/-- col_matrix.hpp:666-670 `mix_rows(i, i2, a, b, c, d)` -/
def mixRows (i j : Nat) (a b c d : F) (A : CMat F) : Res (CMat F) := do
  let cs ← mapCols (SVec.mixRows i j a b c d) A.cols
  pure ⟨A.nrow, cs⟩

/-- loop of col_matrix.hpp:735-741 -/
def vecMatLoop (x : SVec F) : Nat → List (SVec F) → SVec F
  | _, [] => []
  | j, c :: cs => if SVec.dot x c ≠ 0 then (j, SVec.dot x c) :: vecMatLoop x (j + 1) cs else vecMatLoop x (j + 1) cs

/-- col_matrix.hpp:732-743 `x * A` for a vector `x` -/
def vecMat (x : SVec F) (A : CMat F) : SVec F := vecMatLoop x 0 A.cols

/-- loop of col_matrix.hpp:861-866 -/
def schurComplementLoop (m i : Nat) (a11 : F) (cj : SVec F) : List (SVec F) → Res (List (SVec F))
  | [] => .ok []
  | c :: cs => do
    let w ← if SVec.getval c i ≠ 0 then do
        let q ← fdiv (-(SVec.getval c i)) a11
        pure (SVec.axpyRange q cj (i + 1) m c)
      else pure c
    let r ← schurComplementLoop m i a11 cj cs
    pure (w :: r)

/-- col_matrix.hpp:859-867 `schur_complement(i, j)` -/
def schurComplement (i j : Nat) (A : CMat F) : Res (CMat F) := do
  let cj ← rd A.cols j
  let r ← schurComplementLoop A.nrow i (SVec.getval cj i) cj (A.cols.drop (j + 1))
  pure ⟨A.nrow, A.cols.take (j + 1) ++ r⟩

/-- col_matrix.hpp:870-875 `row_scale(coeff)` -/
def rowScaleBy (co : List F) (A : CMat F) : Res (CMat F) := do
  let r ← mapCols (SVec.scaleBy co) A.cols
  pure ⟨A.nrow, r⟩

/-- loop of col_matrix.hpp:879-881 -/
def colInvScaleLoop : List F → List (SVec F) → Res (List (SVec F))
  | _, [] => .ok []
  | [], _ :: _ => .error .ub
  | a :: co, c :: cs => do
    let w ← fdiv 1 a
    let r ← colInvScaleLoop co cs
    pure (SVec.scale w c :: r)

/-- col_matrix.hpp:878-883 `col_inv_scale(coeff)` -/
def colInvScale (co : List F) (A : CMat F) : Res (CMat F) := do
  let r ← colInvScaleLoop co A.cols
  pure ⟨A.nrow, r⟩

end CMat
end BATS
