import Verif.Proofs.ZZPref

set_option linter.unusedSectionVars false
set_option linter.unusedSimpArgs false
set_option linter.unusedVariables false

/-! # Zigzag: the maps induced by inserting a cycle or a boundary -/

namespace BATS
namespace Zigzag
open Reduction Matrix

variable {F : Type} [Field F] [DecidableEq F]

/-- `big` is `small` with `x` inserted at position `pos`, and `big` is increasing -/
structure Ins (small big : List Nat) (x pos : Nat) : Prop where
  le : pos ≤ small.length
  eq : big = small.insertIdx pos x
  sorted : big.Pairwise (· < ·)

section
variable {small big : List Nat} {x pos : Nat}

theorem Ins.length (h : Ins small big x pos) : big.length = small.length + 1 := by rw [h.eq, List.length_insertIdx_of_le_length h.le]

theorem Ins.lt (h : Ins small big x pos) {t : Nat} (ht : t < pos) : big[t]? = small[t]? := by
  rw [h.eq, List.getElem?_insertIdx_of_lt ht]
theorem Ins.self (h : Ins small big x pos) : big[pos]? = some x := by
  rw [h.eq, List.getElem?_insertIdx_self, if_pos h.le]
theorem Ins.gt (h : Ins small big x pos) {t : Nat} (ht : pos ≤ t) : big[t + 1]? = small[t]? := by
  rw [h.eq, List.getElem?_insertIdx_of_gt (by omega)]; simp

theorem Ins.sorted_small (h : Ins small big x pos) : small.Pairwise (· < ·) := by
  have := h.sorted
  rw [h.eq] at this
  have e : small = (small.insertIdx pos x).eraseIdx pos := (List.eraseIdx_insertIdx_self x).symm
  rw [e]
  exact this.sublist (List.eraseIdx_sublist _ _)

theorem Ins.mem (h : Ins small big x pos) (c : Nat) : c ∈ big ↔ c = x ∨ c ∈ small := by
  rw [h.eq, List.mem_insertIdx h.le]

theorem sorted_get {l : List Nat} (h : l.Pairwise (· < ·)) {i j a b : Nat} (hi : l[i]? = some a) (hj : l[j]? = some b) : a < b ↔ i < j := by
  obtain ⟨hi', rfl⟩ := List.getElem?_eq_some_iff.1 hi
  obtain ⟨hj', rfl⟩ := List.getElem?_eq_some_iff.1 hj
  constructor
  · intro hlt
    by_contra hc
    rcases Nat.lt_or_ge j i with h1 | h1
    · have := List.pairwise_iff_getElem.1 h j i hj' hi' h1; omega
    · have : i = j := by omega
      subst this; omega
  · intro hlt
    exact List.pairwise_iff_getElem.1 h i j hi' hj' hlt

theorem Ins.notMem (h : Ins small big x pos) : x ∉ small := by
  intro hx
  obtain ⟨t, ht, he⟩ := List.mem_iff_getElem.1 hx
  have hs : small[t]? = some x := by rw [List.getElem?_eq_getElem ht, he]
  rcases Nat.lt_or_ge t pos with h1 | h1
  · have := (sorted_get h.sorted ((h.lt h1).trans hs) h.self).2 h1; omega
  · have := (sorted_get h.sorted h.self ((h.gt h1).trans hs)).2 (by omega); omega

end

/-- `A` describes a map from the generators `src` to the generators `tgt` modulo `W` -/
structure ArrowOK {V : Type} [AddCommGroup V] [Module F V] (W : Submodule F V) (gen : Nat → V) (src tgt : List Nat) (A : CMat F) : Prop where
  shape : A.Shape tgt.length src.length
  map : ∀ a c, src[a]? = some c → gen c - ∑ b ∈ Finset.range tgt.length, coef (A.cols.getD a []) b • gen (tgt.getD b 0) ∈ W

theorem sum_unit {V : Type} [AddCommGroup V] [Module F V] (g : Nat → V) {N t : Nat} (ht : t < N) :
    ∑ b ∈ Finset.range N, coef ([(t, 1)] : SVec F) b • g b = g t := by
  rw [Finset.sum_eq_single t]
  · rw [coef_unit, if_pos rfl, one_smul]
  · intro b _ hb
    rw [coef_unit, if_neg hb, zero_smul]
  · intro hh; exact absurd (Finset.mem_range.2 ht) hh

theorem getD_of_get? {α : Type} {l : List α} {i : Nat} {a d : α} (h : l[i]? = some a) : l.getD i d = a := by
  rw [List.getD_eq_getElem?_getD, h]; rfl

theorem cycleInsertion_spec {V : Type} [AddCommGroup V] [Module F V] (W : Submodule F V) (gen : Nat → V) {small big : List Nat} {x pos : Nat}
    (h : Ins small big x pos) : ∃ A : CMat F, cycleInsertionMap big x = .ok A ∧ ArrowOK W gen small big A := by
  have hl := h.length
  have hcol : ∀ k, k < small.length → ∃ t, t < big.length ∧ big[t]? = small[k]? ∧
      (if big.getD k 0 < x then [(k, (1 : F))] else [(k + 1, 1)]) = [(t, 1)] := by
    intro k hk
    have hb : big[k]? = some (big.getD k 0) := by
      rw [List.getElem?_eq_getElem (by omega)]; congr 1
      rw [List.getD_eq_getElem?_getD, List.getElem?_eq_getElem (by omega)]; rfl
    by_cases hlt : big.getD k 0 < x
    · rw [if_pos hlt]
      exact ⟨k, by omega, h.lt ((sorted_get h.sorted hb h.self).1 hlt), rfl⟩
    · rw [if_neg hlt]
      have : ¬ k < pos := fun hh => hlt ((sorted_get h.sorted hb h.self).2 hh)
      exact ⟨k + 1, by omega, h.gt (by omega), rfl⟩
  refine ⟨⟨big.length, (List.range (big.length - 1)).map (fun k => if big.getD k 0 < x then [(k, 1)] else [(k + 1, 1)])⟩, ?_, ⟨?_, rfl, by simp; omega⟩, ?_⟩
  · unfold cycleInsertionMap; rw [if_neg (by omega)]
  · intro c hc
    have hc' : c ∈ (List.range (big.length - 1)).map (fun k => if big.getD k 0 < x then [(k, (1 : F))] else [(k + 1, 1)]) := hc
    rw [List.mem_map] at hc'
    obtain ⟨k, hk, rfl⟩ := hc'
    rw [List.mem_range] at hk
    obtain ⟨t, ht, _, e⟩ := hcol k (by omega)
    rw [e]
    exact ⟨vecOK_unit t, below_unit ht⟩
  · intro a c hac
    have ha : a < small.length := (List.getElem?_eq_some_iff.1 hac).1
    obtain ⟨t, ht, e1, e2⟩ := hcol a ha
    have e3 : ((List.range (big.length - 1)).map (fun k => if big.getD k 0 < x then [(k, (1 : F))] else [(k + 1, 1)])).getD a [] = [(t, 1)] := by
      rw [List.getD_eq_getElem?_getD, List.getElem?_map, List.getElem?_range (by omega)]; exact e2
    show gen c - ∑ b ∈ Finset.range big.length, coef (((List.range (big.length - 1)).map (fun k => if big.getD k 0 < x then [(k, (1 : F))] else [(k + 1, 1)])).getD a []) b • gen (big.getD b 0) ∈ W
    rw [e3, sum_unit (fun b => gen (big.getD b 0)) ht, getD_of_get? (e1.trans hac), sub_self]
    exact W.zero_mem

/-- column `t` of the boundary insertion map -/
def bcol (pos : Nat) (v : SVec F) (t : Nat) : SVec F := if t < pos then [(t, 1)] else if t = pos then v else [(t - 1, 1)]

theorem bimLoop_spec {I : List Nat} {i pos : Nat} (v : SVec F) (hp : pos ≤ I.length) (hpos : ∀ k a, I[k]? = some a → (a < i ↔ k < pos)) :
    ∀ (xs : List Nat) (k : Nat) (seen : Bool) (col : List (SVec F)), xs = I.drop k → k ≤ I.length → col.length = I.length + 1 →
      seen = decide (pos < k) → (∀ t, t < (if pos < k then k + 1 else k) → col.getD t [] = bcol pos v t) →
      ∃ col', bimLoop i v xs k seen col = (decide (pos < I.length), col') ∧ col'.length = I.length + 1 ∧
        ∀ t, t < (if pos < I.length then I.length + 1 else I.length) → col'.getD t [] = bcol pos v t := by
  intro xs
  induction xs with
  | nil =>
    intro k seen col hxs hk hlen hseen hcol
    have : k = I.length := by
      have := congrArg List.length hxs
      rw [List.length_nil, List.length_drop] at this; omega
    subst this
    exact ⟨col, by rw [bimLoop, hseen], hlen, hcol⟩
  | cons x xs ih =>
    intro k seen col hxs hk hlen hseen hcol
    have hkl : k < I.length := by
      by_contra hh
      rw [List.drop_eq_nil_of_le (by omega)] at hxs; cases hxs
    have hx : I[k]? = some x := by
      have : (I.drop k)[0]? = some x := by rw [← hxs]; rfl
      rw [List.getElem?_drop] at this; simpa using this
    have hxs' : xs = I.drop (k + 1) := by
      have := congrArg List.tail hxs
      rw [List.tail_cons, List.tail_drop] at this; exact this
    have hiff := hpos k x hx
    rw [bimLoop]
    by_cases hxi : x < i
    · rw [if_pos hxi]
      have hkp := hiff.1 hxi
      refine ih (k + 1) seen _ hxs' (by omega) (by rw [List.length_set, hlen]) ?_ ?_
      · rw [hseen]; congr 1; apply propext; omega
      · rw [if_neg (by omega)]
        rw [if_neg (by omega)] at hcol
        intro t ht
        rw [getD_set _ _ (by omega)]
        by_cases e : k = t
        · rw [if_pos e]; unfold bcol; rw [if_pos (by omega), e]
        · rw [if_neg e]; exact hcol t (by omega)
    · rw [if_neg hxi]
      have hkp : ¬ k < pos := fun hh => hxi (hiff.2 hh)
      by_cases hs : pos < k
      · rw [hseen]
        simp only [hs, decide_true, Bool.not_true, Bool.false_eq_true, if_false]
        refine ih (k + 1) true _ hxs' (by omega) (by rw [List.length_set, hlen]) ?_ ?_
        · symm; rw [decide_eq_true_iff]; omega
        · rw [if_pos (by omega)]
          rw [if_pos hs] at hcol
          intro t ht
          rw [getD_set _ _ (by omega)]
          by_cases e : k + 1 = t
          · rw [if_pos e]; unfold bcol; rw [if_neg (by omega), if_neg (by omega), ← e]; rfl
          · rw [if_neg e]; exact hcol t (by omega)
      · have hk : k = pos := by omega
        rw [hseen]
        simp only [hs, decide_false, Bool.not_false, if_true]
        refine ih (k + 1) true _ hxs' (by omega) (by rw [List.length_set, List.length_set, hlen]) ?_ ?_
        · symm; rw [decide_eq_true_iff]; omega
        · rw [if_pos (by omega)]
          rw [if_neg hs] at hcol
          intro t ht
          rw [getD_set _ _ (by rw [List.length_set]; omega)]
          by_cases e : k + 1 = t
          · rw [if_pos e]; unfold bcol; rw [if_neg (by omega), if_neg (by omega), ← e]; rfl
          · rw [if_neg e, getD_set _ _ (by omega)]
            by_cases e' : k = t
            · rw [if_pos e']; unfold bcol; rw [if_neg (by omega), if_pos (by omega)]
            · rw [if_neg e']; exact hcol t (by omega)

theorem boundaryInsertion_cols {small big : List Nat} {x pos : Nat} (h : Ins small big x pos) (v : SVec F) :
    (boundaryInsertionMap small x v).nrow = small.length ∧ (boundaryInsertionMap small x v).cols.length = small.length + 1 ∧
      ∀ t, t < small.length + 1 → (boundaryInsertionMap small x v).cols.getD t [] = bcol pos v t := by
  obtain ⟨col, h1, h2, h3⟩ := bimLoop_spec (I := small) (i := x) v h.le (by
    intro k a ha
    rcases Nat.lt_or_ge k pos with h1 | h1
    · exact sorted_get h.sorted ((h.lt h1).trans ha) h.self
    · rw [sorted_get h.sorted ((h.gt h1).trans ha) h.self]; omega) small 0 false (List.replicate (small.length + 1) []) rfl (by omega) (by simp) rfl
    (by intro t ht; simp at ht)
  unfold boundaryInsertionMap
  simp only [h1]
  by_cases hp : pos < small.length
  · simp only [hp, decide_true, if_true] at h3 ⊢
    exact ⟨trivial, h2, h3⟩
  · have hpe : pos = small.length := by have := h.le; omega
    simp only [hp, decide_false, if_false, Bool.false_eq_true] at h3 ⊢
    refine ⟨trivial, by rw [List.length_set, h2], ?_⟩
    intro t ht
    rw [getD_set _ _ (by omega)]
    by_cases e : small.length = t
    · rw [if_pos e]; unfold bcol; rw [if_neg (by omega), if_pos (by omega)]
    · rw [if_neg e]; exact h3 t (by omega)

theorem sum_sorted {V : Type} [AddCommGroup V] [Module F V] (g : Nat → V) {small : List Nat} (hs : small.Nodup) {n : Nat} (hn : ∀ c ∈ small, c < n) {y : Nat → F}
    (hy : ∀ c, y c ≠ 0 → c ∈ small) :
    ∑ b ∈ Finset.range small.length, y (small.getD b 0) • g (small.getD b 0) = ∑ c ∈ Finset.range n, y c • g c := by
  have e : ∑ c ∈ Finset.range n, y c • g c = ∑ c ∈ small.toFinset, y c • g c := by
    symm
    apply Finset.sum_subset
    · intro c hc; rw [List.mem_toFinset] at hc; exact Finset.mem_range.2 (hn c hc)
    · intro c _ hc
      have : y c = 0 := by by_contra hh; exact hc (List.mem_toFinset.2 (hy c hh))
      rw [this, zero_smul]
  rw [e]
  refine Finset.sum_bij (fun b _ => small.getD b 0) ?_ ?_ ?_ ?_
  · intro b hb
    rw [Finset.mem_range] at hb
    rw [List.mem_toFinset, getD_eq_get 0 hb]; exact List.getElem_mem hb
  · intro b hb b' hb' hbb
    rw [Finset.mem_range] at hb hb'
    rw [getD_eq_get 0 hb, getD_eq_get 0 hb'] at hbb
    exact (hs.getElem_inj_iff).1 hbb
  · intro c hc
    rw [List.mem_toFinset] at hc
    obtain ⟨b, hb, e⟩ := List.mem_iff_getElem.1 hc
    exact ⟨b, Finset.mem_range.2 hb, by rw [getD_eq_get 0 hb]; exact e⟩
  · intro b _; rfl

theorem boundaryInsertion_spec {V : Type} [AddCommGroup V] [Module F V] {W : Submodule F V} {gen : Nat → V} {small big : List Nat} {x pos : Nat}
    (h : Ins small big x pos) {n : Nat} (hn : ∀ c ∈ small, c < n) {y : SVec F} (hy : VecOK y) (hsupp : ∀ c, coef y c ≠ 0 → c ∈ small)
    (hW : gen x - ∑ c ∈ Finset.range n, coef y c • gen c ∈ W) : ArrowOK W gen big small (boundaryInsertionMap small x (SVec.select y small)) := by
  obtain ⟨c1, c2, c3⟩ := boundaryInsertion_cols h (SVec.select y small)
  obtain ⟨s1, s2, s3⟩ := select_spec hy h.sorted_small
  have hl := h.length
  refine ⟨⟨?_, c1, by rw [c2, hl]⟩, ?_⟩
  · intro c hc
    rw [c1]
    obtain ⟨t, ht, e⟩ := List.mem_iff_getElem.1 hc
    have hc' : c = bcol pos (SVec.select y small) t := by rw [← e, ← c3 t (by omega), getD_eq_get [] ht]
    rw [hc']
    have := h.le
    unfold bcol
    split
    · exact ⟨vecOK_unit t, below_unit (by omega)⟩
    · split
      · exact ⟨s1, s2⟩
      · exact ⟨vecOK_unit _, below_unit (by omega)⟩
  · intro a c hac
    have ha : a < big.length := (List.getElem?_eq_some_iff.1 hac).1
    have := h.le
    rw [c3 a (by omega)]
    unfold bcol
    by_cases h1 : a < pos
    · rw [if_pos h1, sum_unit (fun b => gen (small.getD b 0)) (by omega), getD_of_get? ((h.lt h1).symm.trans hac), sub_self]; exact W.zero_mem
    · rw [if_neg h1]
      by_cases h2 : a = pos
      · rw [if_pos h2]
        subst h2
        have : c = x := by rw [h.self] at hac; injection hac with hac; exact hac.symm
        subst this
        have e : ∑ b ∈ Finset.range small.length, coef (SVec.select y small) b • gen (small.getD b 0) = ∑ c ∈ Finset.range n, coef y c • gen c := by
          rw [← sum_sorted gen (h.sorted_small.imp (fun h => ne_of_lt h)) hn hsupp]
          refine Finset.sum_congr rfl (fun b hb => ?_)
          rw [Finset.mem_range] at hb
          rw [s3 b hb, getD_eq_get 0 hb]
        rw [e]; exact hW
      · rw [if_neg h2, sum_unit (fun b => gen (small.getD b 0)) (by omega)]
        obtain ⟨a', rfl⟩ : ∃ a', a = a' + 1 := ⟨a - 1, by omega⟩
        rw [Nat.add_sub_cancel, getD_of_get? ((h.gt (by omega)).symm.trans hac), sub_self]; exact W.zero_mem

end Zigzag
end BATS
