import Verif.Proofs.VecOps3
import Verif.Proofs.Examples

set_option linter.unusedSectionVars false

/-!
# C48: row operations on sparse vectors

`coef v k` is coordinate `k` of the vector stored as `v`; `VecOK v` says that the stored indices increase and no stored value is zero;
`Below m v` that all stored indices are `< m` (Verif/Spec/Vec.lean). `insertedBefore`, `oldRow`: Verif/Spec/VecOps.lean.
-/

namespace BATS
open Reduction

variable {F : Type} [Field F] [DecidableEq F]

/-- C48: `nzinds` lists exactly the coordinates that are not zero, in increasing order; `firstnz` is the first and `lastnz` the last of them. -/
theorem C48_nonzeros {v : SVec F} (hv : VecOK v) :
    (SVec.nzinds v).Pairwise (· < ·) ∧ (∀ i, i ∈ SVec.nzinds v ↔ coef v i ≠ 0) ∧
    (∀ p, SVec.firstnz v = .ok p → coef v p.1 = p.2 ∧ p.2 ≠ 0 ∧ ∀ i, i < p.1 → coef v i = 0) ∧
    (∀ p, SVec.lastnz v = .ok p → coef v p.1 = p.2 ∧ p.2 ≠ 0 ∧ ∀ i, p.1 < i → coef v i = 0) ∧
    (SVec.firstnz v = .error .ub ↔ ∀ i, coef v i = 0) ∧ (SVec.lastnz v = .error .ub ↔ ∀ i, coef v i = 0) := by
  have hnil : v = [] ↔ ∀ i, coef v i = 0 := by
    constructor
    · rintro rfl; simp
    · intro h
      cases v with
      | nil => rfl
      | cons p v =>
        have := h p.1
        rw [coef_of_mem (a := p.2) hv.1 (by simp)] at this
        exact absurd this (hv.2 p (by simp))
  refine ⟨sorted_iff_fst.1 hv.1, ?_, ?_, ?_, ?_, ?_⟩
  · intro i
    constructor
    · intro hi
      obtain ⟨p, hp, rfl⟩ := List.mem_map.1 hi
      rw [coef_of_mem (a := p.2) hv.1 hp]; exact hv.2 p hp
    · intro hi
      obtain ⟨a, ha⟩ := exists_mem_of_coef_ne hi
      exact List.mem_map.2 ⟨_, ha, rfl⟩
  · intro p hp
    cases v with
    | nil => simp [SVec.firstnz] at hp
    | cons q v =>
      have : q = p := by simpa [SVec.firstnz] using hp
      subst this
      refine ⟨coef_of_mem hv.1 (by simp), hv.2 q (by simp), ?_⟩
      intro i hi
      apply coef_eq_zero_of_notMem
      intro x hx
      rcases List.mem_cons.1 hx with rfl | hx
      · omega
      · have := hv.1.head x hx; omega
  · intro p hp
    rcases List.eq_nil_or_concat v with rfl | ⟨u, q, rfl⟩
    · simp [SVec.lastnz] at hp
    · rw [List.concat_eq_append] at hp hv ⊢
      have : q = p := by simpa [SVec.lastnz] using hp
      subst this
      refine ⟨coef_of_mem hv.1 (by simp), hv.2 q (by simp), ?_⟩
      intro i hi
      apply coef_eq_zero_of_notMem
      intro x hx
      rcases List.mem_append.1 hx with hx | hx
      · have := (List.pairwise_append.1 hv.1).2.2 x hx q (by simp); omega
      · rw [List.mem_singleton] at hx; subst hx; omega
  · rw [← hnil]
    unfold SVec.firstnz
    cases v <;> simp
  · rw [← hnil]
    unfold SVec.lastnz
    rcases List.eq_nil_or_concat v with rfl | ⟨u, q, rfl⟩ <;> simp

/-- C48: the constructors: `indicator` is a multiple of a unit vector, `dense` is constant on the first `m` coordinates. -/
theorem C48_constructors {a : F} (ha : a ≠ 0) (i m : Nat) :
    VecOK (SVec.indicator i a) ∧ (∀ k, coef (SVec.indicator i a) k = if k = i then a else 0) ∧
    VecOK (SVec.dense a m) ∧ (∀ k, coef (SVec.dense a m) k = if k < m then a else 0) := by
  refine ⟨⟨List.pairwise_singleton _ _, ?_⟩, ?_, dense_ok ha m, coef_dense a m⟩
  · intro p hp
    rw [SVec.indicator, List.mem_singleton] at hp
    subst hp; exact ha
  · intro k
    unfold SVec.indicator
    rw [coef_cons']
    simp only [coef_nil, add_zero]
    by_cases h : k = i
    · rw [if_pos h, if_pos h.symm]
    · rw [if_neg h, if_neg (fun e => h e.symm)]

/-- C48: `swap_rows(i, j)` exchanges the coordinates `i` and `j` and changes nothing else. -/
theorem C48_swap_rows {v : SVec F} (hv : VecOK v) (i j : Nat) :
    VecOK (SVec.swapRows i j v) ∧ coef (SVec.swapRows i j v) i = coef v j ∧ coef (SVec.swapRows i j v) j = coef v i ∧
    ∀ k, k ≠ i → k ≠ j → coef (SVec.swapRows i j v) k = coef v k := by
  obtain ⟨h1, h2, _⟩ := swapRows_spec hv i j
  refine ⟨h1, by rw [h2, if_pos rfl], ?_, fun k hi hj => by rw [h2, if_neg hi, if_neg hj]⟩
  rw [h2]
  by_cases h : j = i
  · rw [if_pos h, h]
  · rw [if_neg h, if_pos rfl]

/-- C48: `scale_inplace(i, c)` multiplies coordinate `i` by `c`, also for `c = 0` without leaving a stored zero. -/
theorem C48_scale_entry {v : SVec F} (hv : VecOK v) (i : Nat) (c : F) :
    VecOK (SVec.scaleEntry i c v) ∧ coef (SVec.scaleEntry i c v) i = c * coef v i ∧ ∀ k, k ≠ i → coef (SVec.scaleEntry i c v) k = coef v k := by
  obtain ⟨h1, h2, _⟩ := scaleEntry_spec hv i c
  exact ⟨h1, by rw [h2, if_pos rfl], fun k hk => by rw [h2, if_neg hk]⟩

/-- C48: `scale_inplace(coeff)` multiplies coordinate `k` by `coeff[k]`; it keeps the list of stored indices, so a zero coefficient leaves a
stored zero. -/
theorem C48_scale_by {co : List F} {v : SVec F} (hv : VecOK v) (hb : Below co.length v) :
    ∃ w, SVec.scaleBy co v = .ok w ∧ Sorted w ∧ SVec.nzinds w = SVec.nzinds v ∧ (∀ k, coef w k = coef v k * co.getD k 0) ∧
      ((∀ a ∈ co, a ≠ 0) → VecOK w) := by
  obtain ⟨w, h1, h2, h3, h4⟩ := scaleBy_spec co v hv hb
  have hs : Sorted w := sorted_iff_fst.2 (by rw [h2]; exact sorted_iff_fst.1 hv.1)
  exact ⟨w, h1, hs, h2, h3, fun h => ⟨hs, h4 h⟩⟩

/-- C48: the operations that delete rows. `erase_for_matrix(i)` deletes row `i` and moves the later ones up; `erase_initial_rows(n)` deletes the
first `n`; `erase_rows_after(m)` everything behind row `m`; `erase_last_row_of_matrix(i)` the last row of a vector of length `i + 1`. -/
theorem C48_erase_rows {v : SVec F} (hv : VecOK v) (i : Nat) :
    (VecOK (SVec.eraseForMatrix i v) ∧ ∀ k, coef (SVec.eraseForMatrix i v) k = if k < i then coef v k else coef v (k + 1)) ∧
    (VecOK (SVec.eraseInitialRows i v) ∧ ∀ k, coef (SVec.eraseInitialRows i v) k = coef v (k + i)) ∧
    (VecOK (SVec.eraseRowsAfter i v) ∧ ∀ k, coef (SVec.eraseRowsAfter i v) k = if k ≤ i then coef v k else 0) ∧
    (Below (i + 1) v → VecOK (SVec.eraseLastRow i v) ∧ ∀ k, coef (SVec.eraseLastRow i v) k = if k = i then 0 else coef v k) := by
  refine ⟨⟨(eraseForMatrix_ok hv i).1, eraseForMatrix_coef hv.1 i⟩, ⟨(eraseInitialRows_spec hv i).1, (eraseInitialRows_spec hv i).2.1⟩,
    ⟨(eraseRowsAfter_spec hv i).1, (eraseRowsAfter_spec hv i).2.2⟩, ?_⟩
  intro hb
  exact ⟨(eraseLastRow_spec hv hb).1, (eraseLastRow_spec hv hb).2.2⟩

/-- C48: `mix_rows(i, j, a, b, c, d)` replaces `(v_i, v_j)` by `(a v_i + b v_j, c v_i + d v_j)`, unless `j < i`, `v_i = 0`, `v_j ≠ 0`, `d = 0` and
`b ≠ 0` all hold (see `C48_mix_rows_wrong`). -/
theorem C48_mix_rows {v : SVec F} (hv : VecOK v) {i j : Nat} (hij : i ≠ j) (a b c d : F)
    (h : i < j ∨ coef v i ≠ 0 ∨ coef v j = 0 ∨ d ≠ 0 ∨ b = 0) :
    ∃ w, SVec.mixRows i j a b c d v = .ok w ∧ VecOK w ∧ coef w i = a * coef v i + b * coef v j ∧ coef w j = c * coef v i + d * coef v j ∧
      ∀ k, k ≠ i → k ≠ j → coef w k = coef v k := by
  obtain ⟨w, h1, h2, h3⟩ := mixRows_spec hv hij a b c d h
  exact ⟨w, h1, h2, by rw [h3, if_pos rfl], by rw [h3, if_neg (Ne.symm hij), if_pos rfl], fun k hi hj => by rw [h3, if_neg hi, if_neg hj]⟩

/-- C48 (what the code does in the remaining case): after erasing entry `j` the new entry is inserted through an iterator that is one position
too far. If the vector has a later entry the result is out of order; otherwise the insertion is past the end, undefined behaviour. -/
theorem C48_mix_rows_wrong {v : SVec F} (hv : VecOK v) {i j : Nat} (hij : j < i) (a b c : F) (hi : coef v i = 0) (hj : coef v j ≠ 0) (hb : b ≠ 0) :
    ((∃ k, i < k ∧ coef v k ≠ 0) → ∃ w, SVec.mixRows i j a b c 0 v = .ok w ∧ ¬ Sorted w) ∧
    ((∀ k, i < k → coef v k = 0) → SVec.mixRows i j a b c 0 v = .error .ub) := by
  obtain ⟨h1, h2⟩ := mixRows_bad hv hij a b c hi hj hb
  constructor
  · rintro ⟨k, hk, hne⟩
    obtain ⟨x, hx⟩ := exists_mem_of_coef_ne hne
    exact h1 ⟨_, hx, hk⟩
  · intro h
    apply h2
    intro p hp
    by_contra hlt
    have := h p.1 (by omega)
    rw [coef_of_mem (a := p.2) hv.1 hp] at this
    exact hv.2 p hp this

example : VecOK [(0, (1 : ℚ)), (3, 5)] ∧ SVec.mixRows 1 0 0 1 1 0 [(0, (1 : ℚ)), (3, 5)] = .ok [(3, 5), (1, 1)] ∧
    SVec.mixRows 0 1 0 1 1 0 [(0, (1 : ℚ)), (3, 5)] = .ok [(1, 1), (3, 5)] ∧
    SVec.mixRows 3 0 2 1 1 1 [(0, (1 : ℚ)), (3, 5)] = .ok [(0, 6), (3, 11)] := by decide +kernel

/-- C48: inserting zero rows at the increasing positions `rinds` of the result: row `k` of the result is zero if `k` is one of them, and
otherwise the old row `k - #{r ∈ rinds : r < k}`. This holds for every correct lower bound `n` on the number of leading inserted rows. -/
theorem C48_insert_zero_rows {rinds : List Nat} (h : rinds.Pairwise (· < ·)) {v : SVec F} (hv : VecOK v) {n : Nat} (hn : n ≤ rinds.length)
    (hlead : ∀ r ∈ rinds.take n, r < n) :
    VecOK (SVec.insertZeroRows rinds n v) ∧
    (∀ k, k ∈ rinds → coef (SVec.insertZeroRows rinds n v) k = 0) ∧
    (∀ k, k ∉ rinds → coef (SVec.insertZeroRows rinds n v) k = coef v (oldRow rinds k)) ∧
    ∀ m, Below m v → Below (m + rinds.length) (SVec.insertZeroRows rinds n v) := by
  obtain ⟨h1, h2, h3⟩ := insertZeroRows_spec h hv hn hlead
  exact ⟨h1, fun k hk => by rw [h2, if_pos hk], fun k hk => by rw [h2, if_neg hk], h3⟩

/-- C48: `oldRow` numbers the rows that are not inserted one after the other: it is strictly increasing on them and takes every value. -/
theorem C48_insert_order {rinds : List Nat} (h : rinds.Pairwise (· < ·)) :
    (∀ j k, j ∉ rinds → k ∉ rinds → j < k → oldRow rinds j < oldRow rinds k) ∧ ∀ i, ∃ k, k ∉ rinds ∧ oldRow rinds k = i :=
  ⟨fun _ _ hj _ hjk => oldRow_strictMono h hj hjk, fun i => ⟨_, insertTarget_spec h i⟩⟩

/-- C48: the same with given values for the new rows. -/
theorem C48_insert_rows {rinds : List Nat} (h : rinds.Pairwise (· < ·)) {rvals : List F} (hl : rinds.length = rvals.length)
    {v : SVec F} (hv : VecOK v) :
    ∃ w, SVec.insertRows rinds rvals v = .ok w ∧ Sorted w ∧ ((∀ a ∈ rvals, a ≠ 0) → VecOK w) ∧
      (∀ k, k ∉ rinds → coef w k = coef v (oldRow rinds k)) ∧
      (∀ n, n < rinds.length → coef w (rinds.getD n 0) = rvals.getD n 0) := insertRows_spec h hl hv

example : [1, 3, 4].Pairwise (· < ·) ∧ VecOK [(3, (7 : ℚ)), (5, 8)] ∧
    SVec.insertZeroRows [1, 3, 4] 0 [(3, (7 : ℚ)), (5, 8)] = [(6, 7), (8, 8)] ∧
    SVec.insertRows [1, 3, 4] [10, 11, 12] [(3, (7 : ℚ)), (5, 8)] = .ok [(1, 10), (3, 11), (4, 12), (6, 7), (8, 8)] ∧
    oldRow [1, 3, 4] 6 = 3 ∧ oldRow [1, 3, 4] 8 = 5 := by decide +kernel

/-- C48: `subvector(pind)` moves coordinate `i` to `pind[i]` and drops it if there is none. -/
theorem C48_subvector {pind : List (Option Nat)} (hinj : ∀ i j k : Nat, pind[i]? = some (some k) → pind[j]? = some (some k) → i = j)
    {v : SVec F} (hv : VecOK v) (hb : Below pind.length v) :
    ∃ w, SVec.subvector pind v = .ok w ∧ VecOK w ∧
      (∀ i k : Nat, pind[i]? = some (some k) → coef w k = coef v i) ∧
      (∀ k : Nat, (∀ i : Nat, pind[i]? ≠ some (some k)) → coef w k = 0) := subvector_spec hinj hv hb

/-- C48 (what the code does): `ipermute(perm)` is not the inverse of `permute(perm)`: both move coordinate `i` to `perm[i]`. So `ipermute` undoes
`permute` only for permutations that are their own inverse. -/
theorem C48_ipermute {perm : List Nat} (hnd : perm.Nodup) {v : SVec F} (hv : VecOK v) (hb : Below perm.length v) :
    ∃ w, SVec.ipermute perm v = .ok w ∧ VecOK w ∧ ∀ i, i < perm.length → coef w (perm.getD i 0) = coef v i := by
  obtain ⟨w, h1, h2, h3⟩ := permute_spec hnd hv hb
  refine ⟨w, h1, h2, fun i hi => ?_⟩
  rw [List.getD_eq_getElem?_getD (l := perm), List.getElem?_eq_getElem hi]
  exact h3.1 i hi

/-- C48 (witness): permuting with a 3-cycle and then calling `ipermute` does not give the vector back. -/
theorem C48_ipermute_wrong : ∃ (perm : List Nat) (v w u : SVec ℚ), perm.Perm (List.range 3) ∧ VecOK v ∧ Below 3 v ∧
    SVec.permute perm v = .ok w ∧ SVec.ipermute perm w = .ok u ∧ u ≠ v :=
  ⟨[1, 2, 0], [(0, 1)], [(1, 1)], [(2, 1)], by decide, by decide +kernel, by decide +kernel, by decide +kernel, by decide +kernel, by decide +kernel⟩

/-- C48: `shift_inds(s)` moves every coordinate `s` places down. -/
theorem C48_shift {v : SVec F} (hv : VecOK v) (s : Nat) :
    VecOK (SVec.shiftInds v s) ∧ (∀ k, coef (SVec.shiftInds v s) (k + s) = coef v k) ∧ ∀ k, k < s → coef (SVec.shiftInds v s) k = 0 := by
  obtain ⟨h1, h2⟩ := shiftInds_spec hv s
  exact ⟨h1, fun k => by rw [h2, if_pos (by omega), Nat.add_sub_cancel], fun k hk => by rw [h2, if_neg (by omega)]⟩

/-- C48: the scalar product, and the number of common nonzero coordinates. -/
theorem C48_dot {u v : SVec F} (hu : VecOK u) (hv : VecOK v) {n : Nat} (hun : Below n u) (hvn : Below n v) :
    SVec.dot u v = ∑ k ∈ Finset.range n, coef u k * coef v k ∧
    SVec.nnzIntersection u v = ((Finset.range n).filter (fun k => coef u k ≠ 0 ∧ coef v k ≠ 0)).card := by
  refine ⟨dot_spec u v hu.1 hv.1 hun hvn, ?_⟩
  rw [nnzIntersection_spec u v hu.1 hv.1]
  have hnd : ((u.map Prod.fst).filter (fun i => decide (i ∈ v.map Prod.fst))).Nodup := hu.1.nodup.filter _
  rw [← List.toFinset_card_of_nodup hnd]
  congr 1
  ext k
  rw [List.mem_toFinset, List.mem_filter, Finset.mem_filter, Finset.mem_range, decide_eq_true_eq]
  have key : ∀ w : SVec F, VecOK w → (k ∈ w.map Prod.fst ↔ coef w k ≠ 0) := fun w hw => (C48_nonzeros hw).2.1 k
  rw [key u hu, key v hv]
  constructor
  · rintro ⟨h1, h2⟩
    refine ⟨?_, h1, h2⟩
    obtain ⟨a, ha⟩ := exists_mem_of_coef_ne h1
    exact hun _ ha
  · rintro ⟨_, h1, h2⟩
    exact ⟨h1, h2⟩

/-- C48: `kron(v, m)` is the Kronecker product with a vector of length `m`: coordinate `m i + k` is `u_i v_k`. -/
theorem C48_kron {u v : SVec F} (hu : VecOK u) (hv : VecOK v) {m : Nat} (hb : Below m v) :
    VecOK (SVec.kron u v m) ∧ (∀ i k, k < m → coef (SVec.kron u v m) (m * i + k) = coef u i * coef v k) ∧
    ∀ n, Below n u → Below (n * m) (SVec.kron u v m) := by
  obtain ⟨h1, h2, h3⟩ := kron_spec hu hv hb
  refine ⟨h1, ?_, h3⟩
  intro i k hk
  have hm : 0 < m := by omega
  rw [h2 _ hm, Nat.mul_add_div hm, Nat.div_eq_of_lt hk, Nat.mul_add_mod, Nat.mod_eq_of_lt hk, Nat.add_zero]

/-- C48: scalar multiples. -/
theorem C48_smul {v : SVec F} (hv : VecOK v) (a : F) : VecOK (SVec.smul v a) ∧ ∀ k, coef (SVec.smul v a) k = coef v k * a :=
  ⟨vecOK_smul a hv, coef_smul a v⟩

/-- C48: `axpy(x, coeff, inds)` adds `coeff[t] x[inds[t]]` to coordinate `t`, for every increasing list `inds` that contains all nonzero
coordinates of `x`. -/
theorem C48_axpy_coefficients {x y : SVec F} (hx : VecOK x) (hy : VecOK y) {coeff : List F} {inds : List Nat} (hl : coeff.length = inds.length)
    (hs : inds.Pairwise (· < ·)) (hm : ∀ i, coef x i ≠ 0 → i ∈ inds) :
    ∃ w, SVec.lazyAxpy x coeff inds y = .ok w ∧ Sorted w ∧ ((∀ a ∈ coeff, a ≠ 0) → VecOK w) ∧
      ∀ t, coef w t = coef y t + if t < inds.length then coeff.getD t 0 * coef x (inds.getD t 0) else 0 := by
  apply lazyAxpy_spec hx hy hl hs
  intro p hp
  apply hm
  rw [coef_of_mem (a := p.2) hx.1 hp]; exact hx.2 p hp

/-- C48 (witness): without that condition the loop can take the value of a coordinate that is not in `inds`. -/
theorem C48_axpy_coefficients_wrong : ∃ (x : SVec ℚ) (inds : List Nat), VecOK x ∧ inds.Pairwise (· < ·) ∧ coef x 5 = 0 ∧
    SVec.lazyAxpy x [1] inds [] = .ok [(0, 7)] ∧ inds = [5] :=
  ⟨[(3, 7)], [5], by decide +kernel, by decide, by decide +kernel, by decide +kernel, rfl⟩

example : VecOK [(2, (7 : ℚ)), (5, 1)] ∧ [1, 2, 5].Pairwise (· < ·) ∧
    SVec.lazyAxpy [(2, (7 : ℚ)), (5, 1)] [4, 2, 3] [1, 2, 5] [(0, 1), (1, 1)] = .ok [(0, 1), (1, 15), (2, 3)] := by decide +kernel

end BATS
