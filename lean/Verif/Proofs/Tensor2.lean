import Verif.Proofs.Tensor1
import Verif.Proofs.Complex

set_option linter.unusedSectionVars false
set_option linter.unusedVariables false
set_option linter.unusedSimpArgs false

/-! # The columns of the tensor product -/

namespace BATS
open Finset

variable {F : Type} [Field F] [DecidableEq F] {A B : List (CMat F)} {sA sB : Nat → Nat}

theorem tShift_succ (n i : Nat) : tShift A B n (i + 1) = tShift A B n i + cdim A i * cdim B (n - i) := by
  unfold tShift; rw [sum_range_succ]

theorem tShift_mono {n i i' : Nat} (h : i ≤ i') : tShift A B n i ≤ tShift A B n i' := by
  unfold tShift; exact sum_le_sum_of_subset (range_mono h)

/-- positions in different blocks are different -/
theorem tShift_apart {n i i' x x' : Nat} (hx : x < cdim A i * cdim B (n - i)) (hx' : x' < cdim A i' * cdim B (n - i'))
    (h : tShift A B n i + x = tShift A B n i' + x') : i = i' ∧ x = x' := by
  rcases lt_trichotomy i i' with hlt | rfl | hlt
  · have := tShift_mono (A := A) (B := B) (n := n) (show i + 1 ≤ i' from hlt)
    rw [tShift_succ] at this
    omega
  · exact ⟨rfl, by omega⟩
  · have := tShift_mono (A := A) (B := B) (n := n) (show i' + 1 ≤ i from hlt)
    rw [tShift_succ] at this
    omega

theorem shiftInds_block {v : SVec F} (hv : VecOK v) {N k : Nat} (hk : k ≤ N) (hb : Below (cdim A k * cdim B (N - k)) v) :
    VecOK (SVec.shiftInds v (tShift A B N k)) ∧ Below (tShift A B N (N + 1)) (SVec.shiftInds v (tShift A B N k)) ∧
    ∀ i' x, x < cdim A i' * cdim B (N - i') → coef (SVec.shiftInds v (tShift A B N k)) (tShift A B N i' + x) = if i' = k then coef v x else 0 := by
  obtain ⟨h1, h2⟩ := shiftInds_spec hv (tShift A B N k)
  refine ⟨h1, ?_, ?_⟩
  · intro p hp
    unfold SVec.shiftInds at hp
    obtain ⟨q, hq, rfl⟩ := List.mem_map.1 hp
    have := hb q hq
    have h3 := tShift_mono (A := A) (B := B) (n := N) (show k + 1 ≤ N + 1 by omega)
    rw [tShift_succ] at h3
    dsimp only
    omega
  · intro i' x hx
    rw [h2]
    by_cases e : i' = k
    · subst e
      rw [if_pos (by omega), if_pos rfl, Nat.add_sub_cancel_left]
    · rw [if_neg e]
      split
      · rename_i hle
        apply coef_eq_zero_of_notMem
        intro p hp he
        have hlt := hb p hp
        have := tShift_apart (A := A) (B := B) (n := N) (i := i') (i' := k) hx hlt (by omega)
        exact e this.1
      · rfl

theorem indicator_ok (i : Nat) {a : F} (ha : a ≠ 0) : VecOK (SVec.indicator i a) := by
  unfold SVec.indicator
  refine ⟨by unfold Sorted; simp, ?_⟩
  intro p hp
  rw [List.mem_singleton] at hp
  subst hp
  exact ha

theorem coef_indicator' (i k : Nat) (a : F) : coef (SVec.indicator i a) k = if i = k then a else 0 := by
  unfold SVec.indicator
  simp [coef_cons]

theorem col_shape (hA : IsChainComplex A) {i a : Nat} (ha : a < cdim A i) :
    VecOK ((A.getD i ⟨0, []⟩).cols.getD a []) ∧ Below (rdim A i) ((A.getD i ⟨0, []⟩).cols.getD a []) := by
  have hi : i < A.length := by
    by_contra hc
    rw [cdim_big (by omega)] at ha
    omega
  have hs := hA.shape i hi
  have := hs.ok ((A.getD i ⟨0, []⟩).cols.getD a []) (by
    unfold cdim at ha
    rw [List.getD_eq_getElem?_getD (l := (A.getD i ⟨0, []⟩).cols), List.getElem?_eq_getElem ha]
    exact List.getElem_mem ha)
  rw [hs.nrow] at this
  exact this

theorem col_zero (zA : ZeroBdry0 A) {a : Nat} (ha : a < cdim A 0) : (A.getD 0 ⟨0, []⟩).cols.getD a [] = [] := by
  apply zA
  unfold cdim at ha
  rw [List.getD_eq_getElem?_getD (l := (A.getD 0 ⟨0, []⟩).cols), List.getElem?_eq_getElem ha]
  exact List.getElem_mem ha

/-- the columns of the tensor product -/
theorem tCol_spec (hA : IsChainComplex A) (hB : IsChainComplex B) (zA : ZeroBdry0 A) (zB : ZeroBdry0 B) {n i a b : Nat} (hn : 0 < n) (hi : i ≤ n)
    (ha : a < cdim A i) (hb : b < cdim B (n - i)) :
    VecOK (tCol A B sA sB n i a b) ∧ Below (tShift A B (n - 1) n) (tCol A B sA sB n i a b) ∧
    ∀ i' a' b', i' ≤ n - 1 → a' < cdim A i' → b' < cdim B (n - 1 - i') →
      coef (tCol A B sA sB n i a b) (tShift A B (n - 1) i' + (a' * cdim B (n - 1 - i') + b')) =
        (if i' + 1 = i then ent A i a' a * (if b' = b then 1 else 0) else 0) +
        (if i' = i then (if a' = a then (-1) ^ i else 0) * ent B (n - i) b' b else 0) := by
  have hin : ∀ i' a' b', i' ≤ n - 1 → a' < cdim A i' → b' < cdim B (n - 1 - i') → a' * cdim B (n - 1 - i') + b' < cdim A i' * cdim B (n - 1 - i') := by
    intro i' a' b' _ ha' hb'
    calc a' * cdim B (n - 1 - i') + b' < a' * cdim B (n - 1 - i') + cdim B (n - 1 - i') := by omega
      _ = (a' + 1) * cdim B (n - 1 - i') := by ring
      _ ≤ _ := Nat.mul_le_mul_right _ (by omega)
  have hN : n - 1 + 1 = n := by omega
  -- first summand
  obtain ⟨P, hP⟩ : ∃ P, P = SVec.shiftInds (SVec.kron ((A.getD i ⟨0, []⟩).cols.getD a []) (SVec.indicator b) (tensorDim B (n - i)))
      (if i = 0 then sA (n - i) else (fun p q => tShift A B (p + q) p) (i - 1) (n - i)) := ⟨_, rfl⟩
  have p1 : VecOK P ∧ Below (tShift A B (n - 1) n) P ∧ ∀ i' a' b', i' ≤ n - 1 → a' < cdim A i' → b' < cdim B (n - 1 - i') →
      coef P (tShift A B (n - 1) i' + (a' * cdim B (n - 1 - i') + b')) = if i' + 1 = i then ent A i a' a * (if b' = b then 1 else 0) else 0 := by
    by_cases h0 : i = 0
    · subst h0
      rw [col_zero zA ha] at hP
      have : P = [] := by rw [hP]; rfl
      rw [this]
      exact ⟨⟨List.Pairwise.nil, by intro p hp; exact absurd hp List.not_mem_nil⟩, (by intro p hp; exact absurd hp List.not_mem_nil), fun i' a' b' _ _ _ => by rw [if_neg (by omega)]; rfl⟩
    · rw [if_neg h0] at hP
      dsimp only at hP
      rw [show i - 1 + (n - i) = n - 1 by omega] at hP
      obtain ⟨c1, c2⟩ := col_shape hA ha
      have hr : rdim A i = cdim A (i - 1) := by
        obtain ⟨i0, rfl⟩ : ∃ i0, i = i0 + 1 := ⟨i - 1, by omega⟩
        rfl
      rw [hr] at c2
      obtain ⟨k1, k2, k3⟩ := kron_spec c1 (indicator_ok b (one_ne_zero (α := F))) (m := cdim B (n - i)) (by
        intro p hp; unfold SVec.indicator at hp; rw [List.mem_singleton] at hp; subst hp; exact hb)
      have k3 := k3 _ c2
      have e1 : n - 1 - (i - 1) = n - i := by omega
      obtain ⟨s1, s2, s3⟩ := shiftInds_block (A := A) (B := B) k1 (N := n - 1) (k := i - 1) (by omega) (by rw [e1]; exact k3)
      rw [hN] at s2
      rw [hP]
      refine ⟨s1, s2, ?_⟩
      intro i' a' b' hi' ha' hb'
      show coef (SVec.shiftInds (SVec.kron _ _ (cdim B (n - i))) _) _ = _
      rw [s3 _ _ (hin i' a' b' hi' ha' hb')]
      by_cases e : i' + 1 = i
      · rw [if_pos e, if_pos (by omega)]
        have e2 : n - 1 - i' = n - i := by omega
        rw [e2] at hb' ⊢
        rw [k2 _ (by omega), mul_comm a', Nat.mul_add_div (by omega), Nat.mul_add_mod, Nat.div_eq_of_lt hb', Nat.mod_eq_of_lt hb', Nat.add_zero, coef_indicator']
        unfold ent
        simp only [eq_comm]
      · rw [if_neg e, if_neg (by omega)]
  obtain ⟨Q, hQ⟩ : ∃ Q, Q = SVec.shiftInds (SVec.kron (SVec.indicator a (if i % 2 = 1 then (-1 : F) else 1)) ((B.getD (n - i) ⟨0, []⟩).cols.getD b []) (B.getD (n - i) ⟨0, []⟩).nrow)
      (if n - i = 0 then sB i else (fun p q => tShift A B (p + q) p) i (n - i - 1)) := ⟨_, rfl⟩
  have hsign : (if i % 2 = 1 then (-1 : F) else 1) = (-1) ^ i := by
    split
    · rename_i h; exact (Odd.neg_one_pow (Nat.odd_iff.2 h)).symm
    · rename_i h; exact (Even.neg_one_pow (Nat.even_iff.2 (by omega))).symm
  have q1 : VecOK Q ∧ Below (tShift A B (n - 1) n) Q ∧ ∀ i' a' b', i' ≤ n - 1 → a' < cdim A i' → b' < cdim B (n - 1 - i') →
      coef Q (tShift A B (n - 1) i' + (a' * cdim B (n - 1 - i') + b')) = if i' = i then (if a' = a then (-1) ^ i else 0) * ent B (n - i) b' b else 0 := by
    by_cases h0 : n - i = 0
    · rw [h0] at hb
      rw [h0, col_zero zB hb] at hQ
      have : Q = [] := by rw [hQ]; rfl
      rw [this]
      exact ⟨⟨List.Pairwise.nil, by intro p hp; exact absurd hp List.not_mem_nil⟩, (by intro p hp; exact absurd hp List.not_mem_nil), fun i' a' b' _ _ _ => by rw [if_neg (by omega)]; rfl⟩
    · rw [if_neg h0, hsign] at hQ
      dsimp only at hQ
      rw [show i + (n - i - 1) = n - 1 by omega] at hQ
      obtain ⟨c1, c2⟩ := col_shape hB hb
      have hl : n - i < B.length := by
        by_contra hc
        rw [cdim_big (by omega)] at hb
        omega
      have hr : rdim B (n - i) = cdim B (n - 1 - i) := by
        obtain ⟨j0, hj⟩ : ∃ j0, n - i = j0 + 1 := ⟨n - i - 1, by omega⟩
        rw [hj, show n - 1 - i = j0 by omega]
        rfl
      rw [hB.nrow hl, hr] at hQ
      rw [hr] at c2
      obtain ⟨k1, k2, k3⟩ := kron_spec (indicator_ok a (pow_ne_zero i (neg_ne_zero.2 (one_ne_zero (α := F))))) c1 c2
      have k3 := k3 (cdim A i) (by intro p hp; unfold SVec.indicator at hp; rw [List.mem_singleton] at hp; subst hp; exact ha)
      obtain ⟨s1, s2, s3⟩ := shiftInds_block (A := A) (B := B) k1 (N := n - 1) (k := i) (by omega) k3
      rw [hN] at s2
      rw [hQ]
      refine ⟨s1, s2, ?_⟩
      intro i' a' b' hi' ha' hb'
      rw [s3 _ _ (hin i' a' b' hi' ha' hb')]
      by_cases e : i' = i
      · subst e
        rw [if_pos rfl, if_pos rfl, k2 _ (by omega), mul_comm a', Nat.mul_add_div (by omega), Nat.mul_add_mod, Nat.div_eq_of_lt hb', Nat.mod_eq_of_lt hb', Nat.add_zero, coef_indicator']
        unfold ent
        simp only [eq_comm]
      · rw [if_neg e, if_neg e]
  have hT : tCol A B sA sB n i a b = SVec.add P Q := by
    rw [hP, hQ]; rfl
  rw [hT]
  unfold SVec.add
  refine ⟨vecOK_axpy 1 q1.1 p1.1, below_axpy 1 q1.2.1 p1.2.1, ?_⟩
  intro i' a' b' hi' ha' hb'
  rw [coef_axpy, one_mul, p1.2.2 i' a' b' hi' ha' hb', q1.2.2 i' a' b' hi' ha' hb']

end BATS
