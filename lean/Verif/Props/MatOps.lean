import Verif.Proofs.MatOps3
import Verif.Proofs.Examples

set_option linter.unusedSectionVars false

/-!
# C49: row and column operations on sparse matrices

`ent1 A i j` is entry `(i, j)` of the stored matrix `A` (zero outside the shape); `A.Shape m n` says that `A` is well formed with `m` rows and `n`
columns: in every column the stored indices increase, are `< m`, and no stored value is zero (Verif/Spec/Reduction.lean). `oldRow`:
Verif/Spec/VecOps.lean. A matrix of the right shape is determined by its entries (`C49_extensional`), so every theorem below determines its
result completely.
-/

namespace BATS
open Reduction

variable {F : Type} [Field F] [DecidableEq F]

/-- the matrix `[[1, 0, 2], [0, 3, 4]]` used in the examples -/
def opsExample : CMat ℚ := ⟨2, [[(0, 1)], [(1, 3)], [(0, 2), (1, 4)]]⟩

theorem opsExample_shape : opsExample.Shape 2 3 := ⟨by decide +kernel, rfl, rfl⟩

/-- C49: a stored matrix of a given shape is determined by its entries -/
theorem C49_extensional {m n : Nat} {A B : CMat F} (hA : A.Shape m n) (hB : B.Shape m n) (h : ∀ i j, i < m → j < n → ent1 A i j = ent1 B i j) :
    A = B := by
  apply CMat.Shape.ext hA hB
  ext i j
  exact h i j i.2 j.2

/-- C49: reading an entry, and counting the entries that are not zero -/
theorem C49_read {m n : Nat} {A : CMat F} (hA : A.Shape m n) :
    (∀ i j, j < n → CMat.getval A i j = .ok (ent1 A i j)) ∧
    CMat.nnz A = ((Finset.range m ×ˢ Finset.range n).filter (fun p => ent1 A p.1 p.2 ≠ 0)).card :=
  ⟨fun _ _ hj => getval_spec hA hj, nnz_spec hA⟩

example : CMat.nnz opsExample = 4 ∧ CMat.getval opsExample 1 2 = .ok 4 ∧ CMat.getval opsExample 1 0 = .ok 0 := by decide +kernel

/-! ### columns -/

/-- C49: `append_column` -/
theorem C49_append_column {m n : Nat} {A : CMat F} (hA : A.Shape m n) {c : SVec F} (hc : VecOK c) (hb : Below m c) :
    (CMat.appendColumn c A).Shape m (n + 1) ∧ (∀ i j, j < n → ent1 (CMat.appendColumn c A) i j = ent1 A i j) ∧
    ∀ i, ent1 (CMat.appendColumn c A) i n = coef c i := appendColumn_spec hA hc hb

/-- C49: `insert_column(index, ...)` puts the column at `index` and moves the later columns up by one -/
theorem C49_insert_column {m n : Nat} {A : CMat F} (hA : A.Shape m n) {c : SVec F} (hc : VecOK c) (hb : Below m c) {index : Nat} (hi : index ≤ n) :
    ∃ A', CMat.insertColumn index c A = .ok A' ∧ A'.Shape m (n + 1) ∧ (∀ i, ent1 A' i index = coef c i) ∧
      (∀ i j, j < index → ent1 A' i j = ent1 A i j) ∧ ∀ i j, index ≤ j → j < n → ent1 A' i (j + 1) = ent1 A i j := insertColumn_spec hA hc hb hi

example : CMat.insertColumn 1 [(0, 7)] opsExample = .ok ⟨2, [[(0, 1)], [(0, 7)], [(1, 3)], [(0, 2), (1, 4)]]⟩ := by decide +kernel

/-- C49: `insert_column(index)`, which is meant to insert a zero column at `index`, instead removes column `index` and appends it at the end,
behind a zero column -/
theorem C49_insert_zero_column {m n : Nat} {A : CMat F} (hA : A.Shape m n) {index : Nat} (hi : index < n) :
    ∃ A', CMat.insertZeroColumn index A = .ok A' ∧ A'.Shape m (n + 1) ∧ (∀ i, ent1 A' i n = ent1 A i index) ∧ (∀ i, ent1 A' i (n - 1) = 0) ∧
      (∀ i j, j < index → ent1 A' i j = ent1 A i j) ∧ ∀ i j, index ≤ j → j + 1 < n → ent1 A' i j = ent1 A i (j + 1) := insertZeroColumn_spec hA hi

/-- C49: at the end it appends a zero column -/
theorem C49_insert_zero_column_end {m n : Nat} {A : CMat F} (hA : A.Shape m n) :
    ∃ A', CMat.insertZeroColumn n A = .ok A' ∧ A'.Shape m (n + 1) ∧ (∀ i, ent1 A' i n = 0) ∧ ∀ i j, j < n → ent1 A' i j = ent1 A i j :=
  insertZeroColumn_end hA

/-- C49: so `insert_column(0)` does not insert a zero column at the front: with a column there, it is the second column that is now at the front -/
theorem C49_insert_zero_column_wrong :
    opsExample.Shape 2 3 ∧ CMat.insertZeroColumn 0 opsExample = .ok ⟨2, [[(1, 3)], [(0, 2), (1, 4)], [], [(0, 1)]]⟩ :=
  ⟨opsExample_shape, by decide +kernel⟩

/-- C49: `insert_columns(c_inds, columns)`: `c_inds` are the positions in the result -/
theorem C49_insert_columns {m n : Nat} {A : CMat F} (hA : A.Shape m n) {cinds : List Nat} (hs : cinds.Pairwise (· < ·)) {new : List (SVec F)}
    (hl : cinds.length = new.length) (hb : ∀ c ∈ cinds, c < n + cinds.length) (hnew : ∀ c ∈ new, VecOK c ∧ Below m c) :
    ∃ A', CMat.insertColumns cinds new A = .ok A' ∧ A'.Shape m (n + cinds.length) ∧
      (∀ i k, k < cinds.length → ent1 A' i (cinds.getD k 0) = coef (new.getD k []) i) ∧
      (∀ i j, j ∉ cinds → ent1 A' i j = ent1 A i (oldRow cinds j)) := insertColumns_spec hA hs hl hb hnew

example : CMat.insertColumns [0, 2] [[(0, 7)], [(1, 8)]] opsExample = .ok ⟨2, [[(0, 7)], [(0, 1)], [(1, 8)], [(1, 3)], [(0, 2), (1, 4)]]⟩ := by
  decide +kernel

/-- C49: `erase_column(index)`, `erase_column()`, `erase_final_columns(k)`, `erase_initial_cols(k)` -/
theorem C49_erase_columns {m n : Nat} {A : CMat F} (hA : A.Shape m n) :
    (∀ index, index < n → ∃ A', CMat.eraseColumn index A = .ok A' ∧ A'.Shape m (n - 1) ∧
      ∀ i j, ent1 A' i j = if j < index then ent1 A i j else ent1 A i (j + 1)) ∧
    (0 < n → ∃ A', CMat.eraseLastColumn A = .ok A' ∧ A'.Shape m (n - 1) ∧ ∀ i j, j < n - 1 → ent1 A' i j = ent1 A i j) ∧
    (∀ k, k ≤ n → ∃ A', CMat.eraseFinalColumns k A = .ok A' ∧ A'.Shape m (n - k) ∧ ∀ i j, j < n - k → ent1 A' i j = ent1 A i j) ∧
    (∀ k, k ≤ n → ∃ A', CMat.eraseInitialCols k A = .ok A' ∧ A'.Shape m (n - k) ∧ ∀ i j, ent1 A' i j = ent1 A i (j + k)) := by
  refine ⟨fun index h => eraseColumn_spec hA h, ?_, fun k hk => eraseFinalColumns_spec hA hk, fun k hk => eraseInitialCols_spec hA hk⟩
  intro hn
  obtain ⟨n, rfl⟩ := Nat.exists_eq_succ_of_ne_zero (Nat.pos_iff_ne_zero.1 hn)
  exact eraseLastColumn_spec hA

example : CMat.eraseColumn 1 opsExample = .ok ⟨2, [[(0, 1)], [(0, 2), (1, 4)]]⟩ ∧ CMat.eraseInitialCols 2 opsExample = .ok ⟨2, [[(0, 2), (1, 4)]]⟩ := by
  decide +kernel

/-- C49: `swap_cols(a, b)` -/
theorem C49_swap_cols {m n : Nat} {A : CMat F} (hA : A.Shape m n) {a b : Nat} (ha : a < n) (hb : b < n) :
    ∃ A', CMat.swapCols a b A = .ok A' ∧ A'.Shape m n ∧ ∀ i j, ent1 A' i j = ent1 A i (if j = a then b else if j = b then a else j) :=
  swapCols_spec hA ha hb

/-- C49: `mix_cols(j, k, a, b, c, d)` multiplies by `[[a, b], [c, d]]` from the right; the result is well formed unless `a = 0 ≠ c` or `d = 0 ≠ b` -/
theorem C49_mix_cols {m n : Nat} {A : CMat F} (hA : A.Shape m n) {j k : Nat} (hj : j < n) (hk : k < n) (hjk : j ≠ k) (a b c d : F) :
    ∃ A', CMat.mixCols j k a b c d A = .ok A' ∧ A'.nrow = m ∧ A'.cols.length = n ∧
      ((a ≠ 0 ∨ c = 0) → (d ≠ 0 ∨ b = 0) → A'.Shape m n) ∧
      ∀ i l, ent1 A' i l = if l = j then a * ent1 A i j + c * ent1 A i k else if l = k then b * ent1 A i j + d * ent1 A i k else ent1 A i l :=
  mixCols_spec hA hj hk hjk a b c d

/-- C49: in the excluded cases the result may store explicit zeros: exchanging two columns through `mix_cols(0, 1, 0, 1, 1, 0)` -/
theorem C49_mix_cols_stores_zeros : opsExample.Shape 2 3 ∧
    ∃ A', CMat.mixCols 0 1 0 1 1 0 opsExample = .ok A' ∧ ¬ A'.Shape 2 3 ∧ A'.cols.getD 0 [] = [(0, 0), (1, 3)] := by
  refine ⟨opsExample_shape, ⟨2, [[(0, 0), (1, 3)], [(0, 1), (1, 0)], [(0, 2), (1, 4)]]⟩, by decide +kernel, ?_, rfl⟩
  rintro ⟨h, -, -⟩
  exact absurd h (by decide +kernel)

/-- C49: `clear_cols(c)` empties the marked columns -/
theorem C49_clear_cols {m n : Nat} {A : CMat F} (hA : A.Shape m n) {c : List Bool} (hc : c.length = n) :
    ∃ A', CMat.clearCols c A = .ok A' ∧ A'.Shape m n ∧ ∀ i j, j < n → ent1 A' i j = if c.getD j false then 0 else ent1 A i j := clearCols_spec hA hc

/-! ### rows -/

/-- C49: `append_row(row)` -/
theorem C49_append_row {m n : Nat} {A : CMat F} (hA : A.Shape m n) {row : List F} (hl : row.length = n) :
    ∃ A', CMat.appendRow row A = .ok A' ∧ A'.Shape (m + 1) n ∧ (∀ j, ent1 A' m j = row.getD j 0) ∧ ∀ i j, i < m → ent1 A' i j = ent1 A i j :=
  appendRow_spec hA hl

/-- C49: `append_sparse_row(row)` -/
theorem C49_append_sparse_row {m n : Nat} {A : CMat F} (hA : A.Shape m n) {row : SVec F} (hr : VecOK row) (hb : Below n row) :
    ∃ A', CMat.appendSparseRow row A = .ok A' ∧ A'.Shape (m + 1) n ∧ (∀ j, ent1 A' m j = coef row j) ∧ ∀ i j, i < m → ent1 A' i j = ent1 A i j :=
  appendSparseRow_spec hA hr hb

/-- C49: `insert_row(ind, row)` and `insert_row(ind)` put a (zero) row at `ind` and move the later rows down by one -/
theorem C49_insert_row {m n : Nat} {A : CMat F} (hA : A.Shape m n) {ind : Nat} (hi : ind ≤ m) :
    (∀ row : List F, row.length = n →
      ∃ A', CMat.insertRow ind row A = .ok A' ∧ A'.Shape (m + 1) n ∧ (∀ j, j < n → ent1 A' ind j = row.getD j 0) ∧
        (∀ i j, j < n → i < ind → ent1 A' i j = ent1 A i j) ∧ ∀ i j, j < n → ind ≤ i → i < m → ent1 A' (i + 1) j = ent1 A i j) ∧
    ∃ A', CMat.insertZeroRow ind A = .ok A' ∧ A'.Shape (m + 1) n ∧ (∀ j, j < n → ent1 A' ind j = 0) ∧
      (∀ i j, j < n → i < ind → ent1 A' i j = ent1 A i j) ∧ ∀ i j, j < n → ind ≤ i → i < m → ent1 A' (i + 1) j = ent1 A i j :=
  ⟨fun _ hl => insertRow_spec hA hl hi, insertZeroRow_spec hA hi⟩

example : CMat.insertRow 1 [5, 0, 6] opsExample = .ok ⟨3, [[(0, 1), (1, 5)], [(2, 3)], [(0, 2), (1, 6), (2, 4)]]⟩ := by
  unfold CMat.insertRow CMat.permuteRows
  simp only [CMat.appendRow]
  decide +kernel

/-- C49: `insert_sparse_rows(r_inds, rows)`: `r_inds` are the positions in the result -/
theorem C49_insert_sparse_rows {m n : Nat} {A : CMat F} (hA : A.Shape m n) {rinds : List Nat} (hs : rinds.Pairwise (· < ·)) {rows : List (SVec F)}
    (hl : rinds.length = rows.length) (hb : ∀ r ∈ rinds, r < m + rinds.length) (hr : ∀ r ∈ rows, VecOK r ∧ Below n r) :
    ∃ A', CMat.insertSparseRows rinds rows A = .ok A' ∧ A'.Shape (m + rinds.length) n ∧
      (∀ k j, k < rinds.length → j < n → ent1 A' (rinds.getD k 0) j = coef (rows.getD k []) j) ∧
      (∀ i j, i < m + rinds.length → j < n → i ∉ rinds → ent1 A' i j = ent1 A (oldRow rinds i) j) := insertSparseRows_spec hA hs hl hb hr

/-- C49: `insert_rows(r_inds)`: `r_inds` are the positions in the result -/
theorem C49_insert_zero_rows {m n : Nat} {A : CMat F} (hA : A.Shape m n) {rinds : List Nat} (hs : rinds.Pairwise (· < ·)) :
    (CMat.insertZeroRows rinds A).Shape (m + rinds.length) n ∧
    (∀ i j, i ∈ rinds → ent1 (CMat.insertZeroRows rinds A) i j = 0) ∧
    (∀ i j, i ∉ rinds → ent1 (CMat.insertZeroRows rinds A) i j = ent1 A (oldRow rinds i) j) := insertZeroRows_mat hA hs

/-- C49: `insert_rows(r_inds, rows)` on the other hand takes positions in the *original* matrix: row `k` ends up at `r_inds[k] + k`, and an original
row `i` is moved down by the number of `r_inds[k] ≤ i` -/
theorem C49_insert_rows {m n : Nat} {A : CMat F} (hA : A.Shape m n) {rinds : List Nat} (hs : rinds.Pairwise (· ≤ ·)) {rows : List (SVec F)}
    (hl : rinds.length = rows.length) (hb : ∀ r ∈ rinds, r ≤ m) (hr : ∀ r ∈ rows, VecOK r ∧ Below n r) :
    ∃ A', CMat.insertRows rinds rows A = .ok A' ∧ A'.Shape (m + rinds.length) n ∧
      (∀ k j, k < rinds.length → j < n → ent1 A' (rinds.getD k 0 + k) j = coef (rows.getD k []) j) ∧
      (∀ i j, i < m → j < n → ent1 A' (i + (rinds.filter (fun r => decide (r ≤ i))).length) j = ent1 A i j) := insertRows_mat hA hs hl hb hr

/-- C49: hence the three functions agree on one index, but not on two: inserting zero rows at `[0, 1]` through `insert_rows(r_inds)` leaves the rows of
the matrix last, and through `insert_rows(r_inds, rows)` one of them between the new rows -/
theorem C49_insert_rows_disagree : opsExample.Shape 2 3 ∧
    CMat.insertZeroRows [0, 1] opsExample = ⟨4, [[(2, 1)], [(3, 3)], [(2, 2), (3, 4)]]⟩ ∧
    ∃ A', CMat.insertRows [0, 1] [[], []] opsExample = .ok A' ∧ A'.Shape 4 3 ∧ ent1 A' 1 0 = 1 ∧ ent1 A' 3 1 = 3 := by
  obtain ⟨A', h1, h2, -, h4⟩ := insertRows_mat opsExample_shape (rinds := [0, 1]) (rows := [[], []]) (by decide) rfl (by decide)
    (by intro r hr; simp at hr; subst hr; exact ⟨⟨List.Pairwise.nil, by simp [NoZero]⟩, by simp [Below]⟩)
  refine ⟨opsExample_shape, by decide +kernel, A', h1, h2, ?_, ?_⟩
  · have := h4 0 0 (by omega) (by omega)
    exact this.trans (by decide +kernel)
  · have := h4 1 1 (by omega) (by omega)
    exact this.trans (by decide +kernel)

/-- C49: `erase_row(index)`, `erase_row()`, `erase_rows(k)` (the last `k`) and `erase_initial_rows(k)` -/
theorem C49_erase_rows {m n : Nat} {A : CMat F} (hA : A.Shape m n) :
    (∀ index, index < m → (CMat.eraseRow index A).Shape (m - 1) n ∧
      ∀ i j, ent1 (CMat.eraseRow index A) i j = if i < index then ent1 A i j else ent1 A (i + 1) j) ∧
    (0 < m → (CMat.eraseLastRow A).Shape (m - 1) n ∧ ∀ i j, i < m - 1 → ent1 (CMat.eraseLastRow A) i j = ent1 A i j) ∧
    (∀ k, k ≤ m → ∃ A', CMat.eraseRows k A = .ok A' ∧ A'.Shape (m - k) n ∧ ∀ i j, i < m - k → ent1 A' i j = ent1 A i j) ∧
    (∀ k, (CMat.eraseInitialRows k A).Shape (m - k) n ∧ ∀ i j, ent1 (CMat.eraseInitialRows k A) i j = ent1 A (i + k) j) := by
  refine ⟨fun index h => eraseRow_spec hA h, ?_, fun k hk => eraseRows_spec hA hk, fun k => eraseInitialRows_mat hA k⟩
  intro hm
  obtain ⟨m, rfl⟩ := Nat.exists_eq_succ_of_ne_zero (Nat.pos_iff_ne_zero.1 hm)
  exact eraseLastRow_mat hA

example : CMat.eraseRow 0 opsExample = ⟨1, [[], [(0, 3)], [(0, 4)]]⟩ ∧ CMat.eraseLastRow opsExample = ⟨1, [[(0, 1)], [], [(0, 2)]]⟩ ∧
    CMat.eraseInitialRows 1 opsExample = ⟨1, [[], [(0, 3)], [(0, 4)]]⟩ := by decide +kernel

/-- C49: `swap_rows(a, b)` -/
theorem C49_swap_rows {m n : Nat} {A : CMat F} (hA : A.Shape m n) {a b : Nat} (ha : a < m) (hb : b < m) :
    (CMat.swapRows a b A).Shape m n ∧ ∀ i j, j < n → ent1 (CMat.swapRows a b A) i j = ent1 A (if i = a then b else if i = b then a else i) j :=
  swapRows_mat hA ha hb

/-- C49: `mix_rows(i1, i2, a, b, c, d)` multiplies by `[[a, b], [c, d]]` from the left, if `i1 < i2`, or `d ≠ 0`, or `b = 0`, or no column has an entry in
row `i2` only (in the remaining case the result is wrong: `C48_mix_rows_wrong`) -/
theorem C49_mix_rows {m n : Nat} {A : CMat F} (hA : A.Shape m n) {i1 i2 : Nat} (h1 : i1 < m) (h2 : i2 < m) (hne : i1 ≠ i2) (a b c d : F)
    (h : i1 < i2 ∨ d ≠ 0 ∨ b = 0 ∨ ∀ j, j < n → ent1 A i1 j ≠ 0 ∨ ent1 A i2 j = 0) :
    ∃ A', CMat.mixRows i1 i2 a b c d A = .ok A' ∧ A'.Shape m n ∧ ∀ i j, j < n → ent1 A' i j =
      if i = i1 then a * ent1 A i1 j + b * ent1 A i2 j else if i = i2 then c * ent1 A i1 j + d * ent1 A i2 j else ent1 A i j :=
  mixRows_mat hA h1 h2 hne a b c d h

example : CMat.mixRows 0 1 2 (-1) 1 1 opsExample = .ok ⟨2, [[(0, 2), (1, 1)], [(0, -3), (1, 3)], [(1, 6)]]⟩ := by decide +kernel

/-- C49: `permute_rows(perm)` sends row `i` to `perm[i]`; `ipermute_rows(perm)`, which should be its inverse, is the same function -/
theorem C49_permute_rows {m n : Nat} {A : CMat F} (hA : A.Shape m n) {perm : List Nat} (hp : IsPermOf m perm) :
    CMat.ipermuteRows perm A = CMat.permuteRows perm A ∧
    ∃ A', CMat.permuteRows perm A = .ok A' ∧ A'.Shape m n ∧ ∀ i j k : Nat, j < n → perm[i]? = some k → ent1 A' k j = ent1 A i j := by
  obtain ⟨A', g1, g2, g3⟩ := permuteRows_spec hA hp
  exact ⟨rfl, A', g1, g2, g3⟩

/-! ### blocks -/

/-- C49: `block(i0, i1, j0, j1)` -/
theorem C49_block {m n : Nat} {A : CMat F} (hA : A.Shape m n) {i0 i1 j0 j1 : Nat} (hj : j0 ≤ j1) (hj1 : j1 ≤ n) :
    ∃ B, CMat.block i0 i1 j0 j1 A = .ok B ∧ B.Shape (i1 - i0) (j1 - j0) ∧
      ∀ i j, i < i1 - i0 → j < j1 - j0 → ent1 B i j = ent1 A (i0 + i) (j0 + j) := block_spec hA hj hj1

/-- C49: `set_block(i0, i1, j0, j1, B)` writes `B` to rows `i0, .., i1 - 1` of columns `j0, .., j1 - 1`, and also erases row `i1` in these columns -/
theorem C49_set_block {m n : Nat} {A B : CMat F} (hA : A.Shape m n) {i0 i1 j0 j1 : Nat} (hi : i0 ≤ i1) (hi1 : i1 ≤ m) (hj : j0 ≤ j1) (hj1 : j1 ≤ n)
    (hB : B.Shape (i1 - i0) (j1 - j0)) :
    ∃ A', CMat.setBlock i0 i1 j0 j1 B A = .ok A' ∧ A'.Shape m n ∧
      (∀ i j, i < i1 - i0 → j < j1 - j0 → ent1 A' (i0 + i) (j0 + j) = ent1 B i j) ∧
      (∀ j, j0 ≤ j → j < j1 → ent1 A' i1 j = 0) ∧
      (∀ i j, j < j0 ∨ j1 ≤ j ∨ i < i0 ∨ i1 < i → ent1 A' i j = ent1 A i j) := setBlock_mat hA hi hi1 hj hj1 hB

/-- C49: the erased row is data loss: overwriting the entry `2` of the example by `5` removes the `4` below it -/
theorem C49_set_block_wrong : opsExample.Shape 2 3 ∧ CMat.setBlock 0 1 2 3 ⟨1, [[(0, 5)]]⟩ opsExample = .ok ⟨2, [[(0, 1)], [(1, 3)], [(0, 5)]]⟩ :=
  ⟨opsExample_shape, by decide +kernel⟩

/-- C49: `submatrix(rind, cind)` for distinct row indices and any column indices, in any order -/
theorem C49_submatrix {m n : Nat} {A : CMat F} (hA : A.Shape m n) {rind cind : List Nat} (hr : rind.Nodup) (hrb : ∀ i ∈ rind, i < m)
    (hc : ∀ j ∈ cind, j < n) :
    ∃ B, CMat.submatrix rind cind A = .ok B ∧ B.Shape rind.length cind.length ∧
      ∀ i j (hi : i < rind.length) (hj : j < cind.length), ent1 B i j = ent1 A rind[i] cind[j] := submatrix_spec hA hr hrb hc

/-- C49: `direct_sum(A, B)` -/
theorem C49_direct_sum {m n m' n' : Nat} {A B : CMat F} (hA : A.Shape m n) (hB : B.Shape m' n') :
    (CMat.directSum A B).Shape (m + m') (n + n') ∧
    (∀ i j, j < n → ent1 (CMat.directSum A B) i j = ent1 A i j) ∧
    (∀ i j, ent1 (CMat.directSum A B) (m + i) (n + j) = ent1 B i j) ∧
    (∀ i j, i < m → ent1 (CMat.directSum A B) i (n + j) = 0) := directSum_spec hA hB

example : CMat.directSum opsExample ⟨1, [[(0, 9)]]⟩ = ⟨3, [[(0, 1)], [(1, 3)], [(0, 2), (1, 4)], [(2, 9)]]⟩ := by decide +kernel

/-! ### arithmetic -/

/-- C49: the product of a row vector with a matrix -/
theorem C49_vec_mat {m n : Nat} {A : CMat F} (hA : A.Shape m n) {x : SVec F} (hx : VecOK x) (hb : Below m x) :
    VecOK (CMat.vecMat x A) ∧ Below n (CMat.vecMat x A) ∧ ∀ j, coef (CMat.vecMat x A) j = ∑ i ∈ Finset.range m, coef x i * ent1 A i j :=
  vecMat_spec hA hx hb

example : CMat.vecMat [(0, 2), (1, -1)] opsExample = [(0, 2), (1, -3)] := by decide +kernel

/-- C49: `schur_complement(i, j)` eliminates with the entry `(i, j)` in the rows below and the columns to the right -/
theorem C49_schur_complement {m n : Nat} {A : CMat F} (hA : A.Shape m n) {i j : Nat} (hj : j < n) (ha : ent1 A i j ≠ 0) :
    ∃ A', CMat.schurComplement i j A = .ok A' ∧ A'.Shape m n ∧
      (∀ r c, c ≤ j ∨ r ≤ i → ent1 A' r c = ent1 A r c) ∧
      ∀ r c, i < r → j < c → c < n → ent1 A' r c = ent1 A r c - ent1 A i c / ent1 A i j * ent1 A r j := schurComplement_spec hA hj ha

/-- C49: multiplication by a scalar (also zero), of the rows by nonzero scalars, and of the columns by the inverses of nonzero scalars -/
theorem C49_scale {m n : Nat} {A : CMat F} (hA : A.Shape m n) :
    (∀ a : F, (CMat.smul A a).Shape m n ∧ ∀ i j, ent1 (CMat.smul A a) i j = ent1 A i j * a) ∧
    (∀ co : List F, co.length = m → (∀ a ∈ co, a ≠ 0) →
      ∃ A', CMat.rowScaleBy co A = .ok A' ∧ A'.Shape m n ∧ ∀ i j, j < n → ent1 A' i j = ent1 A i j * co.getD i 0) ∧
    (∀ co : List F, co.length = n → (∀ a ∈ co, a ≠ 0) →
      ∃ A', CMat.colInvScale co A = .ok A' ∧ A'.Shape m n ∧ ∀ i j, j < n → ent1 A' i j = ent1 A i j / co.getD j 0) :=
  ⟨fun a => smul_mat hA a, fun _ hl hnz => rowScaleBy_spec hA hl hnz, fun _ hl hnz => colInvScale_spec hA hl hnz⟩

example : CMat.rowScaleBy [2, 3] opsExample = .ok ⟨2, [[(0, 2)], [(1, 9)], [(0, 4), (1, 12)]]⟩ ∧
    CMat.colInvScale [1, 3, 2] opsExample = .ok ⟨2, [[(0, 1)], [(1, 1)], [(0, 1), (1, 2)]]⟩ := by decide +kernel

end BATS
