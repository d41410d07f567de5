import Verif.Model.Sorted
import Verif.Proofs.SVecOps
import Verif.Proofs.Examples

set_option linter.unusedSectionVars false
set_option linter.unusedVariables false
set_option linter.unusedSimpArgs false

/-! # C27: operations on sorted containers (include/util/sorted.hpp, set.hpp) -/

namespace BATS
open Srt

variable {α : Type} [LinearOrder α]

/-- strictly increasing -/
def Increasing (l : List α) : Prop := l.Pairwise (· < ·)

theorem mem_intersectSorted (a b : List α) (ha : Increasing a) (hb : Increasing b) (z : α) :
    z ∈ intersectSorted a b ↔ z ∈ a ∧ z ∈ b := by
  fun_induction intersectSorted a b with
  | case1 b => simp
  | case2 x a => simp
  | case3 x a y b h ih =>
    rw [ih (List.pairwise_cons.1 ha).2 hb]
    have : ∀ w ∈ y :: b, x ≠ w := by
      intro w hw
      rcases List.mem_cons.1 hw with rfl | hw
      · exact ne_of_lt h
      · exact ne_of_lt (lt_trans h ((List.pairwise_cons.1 hb).1 w hw))
    constructor
    · rintro ⟨h1, h2⟩; exact ⟨List.mem_cons_of_mem _ h1, h2⟩
    · rintro ⟨h1, h2⟩
      rcases List.mem_cons.1 h1 with rfl | h1
      · exact absurd rfl (this z h2)
      · exact ⟨h1, h2⟩
  | case4 x a y b h1 h2 ih =>
    rw [ih ha (List.pairwise_cons.1 hb).2]
    have : ∀ w ∈ x :: a, y ≠ w := by
      intro w hw
      rcases List.mem_cons.1 hw with rfl | hw
      · exact ne_of_lt h2
      · exact ne_of_lt (lt_trans h2 ((List.pairwise_cons.1 ha).1 w hw))
    constructor
    · rintro ⟨g1, g2⟩; exact ⟨g1, List.mem_cons_of_mem _ g2⟩
    · rintro ⟨g1, g2⟩
      rcases List.mem_cons.1 g2 with rfl | g2
      · exact absurd rfl (this _ g1)
      · exact ⟨g1, g2⟩
  | case5 x a y b h1 h2 ih =>
    have hxy : x = y := le_antisymm (not_lt.1 h2) (not_lt.1 h1)
    subst hxy
    rw [List.mem_cons, ih (List.pairwise_cons.1 ha).2 (List.pairwise_cons.1 hb).2]
    have hxa : ∀ w ∈ a, x ≠ w := fun w hw => ne_of_lt ((List.pairwise_cons.1 ha).1 w hw)
    have hxb : ∀ w ∈ b, x ≠ w := fun w hw => ne_of_lt ((List.pairwise_cons.1 hb).1 w hw)
    by_cases hz : z = x
    · simp [hz]
    · simp [hz]

theorem intersectSorted_sublist (a b : List α) : (intersectSorted a b).Sublist a := by
  fun_induction intersectSorted a b with
  | case1 b => simp
  | case2 x a => simp
  | case3 x a y b h ih => exact ih.cons x
  | case4 x a y b h1 h2 ih => exact ih
  | case5 x a y b h1 h2 ih => exact ih.cons_cons x

/-- C27: `intersect_sorted` (and `set_intersection`) returns the intersection in increasing order. -/
theorem C27_intersect_sorted {a b : List α} (ha : Increasing a) (hb : Increasing b) :
    Increasing (intersectSorted a b) ∧ ∀ z, z ∈ intersectSorted a b ↔ z ∈ a ∧ z ∈ b :=
  ⟨List.Pairwise.sublist (intersectSorted_sublist a b) ha, mem_intersectSorted a b ha hb⟩

/-- C27: `has_intersect_sorted` decides whether the intersection is nonempty. -/
theorem C27_has_intersect_sorted {a b : List α} (ha : Increasing a) (hb : Increasing b) :
    hasIntersectSorted a b = true ↔ ∃ z, z ∈ a ∧ z ∈ b := by
  have h : hasIntersectSorted a b = !(intersectSorted a b).isEmpty := by
    clear ha hb
    fun_induction intersectSorted a b with
    | case1 b => simp [hasIntersectSorted]
    | case2 x a => simp [hasIntersectSorted]
    | case3 x a y b h ih => unfold hasIntersectSorted; rw [if_pos h, ih]
    | case4 x a y b h1 h2 ih => unfold hasIntersectSorted; rw [if_neg h1, if_pos h2, ih]
    | case5 x a y b h1 h2 ih => unfold hasIntersectSorted; rw [if_neg h1, if_neg h2]; rfl
  rw [h]
  have hm := mem_intersectSorted a b ha hb
  constructor
  · intro hne
    cases hl : intersectSorted a b with
    | nil => rw [hl] at hne; simp at hne
    | cons z l => exact ⟨z, (hm z).1 (by rw [hl]; simp)⟩
  · rintro ⟨z, hz⟩
    have := (hm z).2 hz
    cases hl : intersectSorted a b with
    | nil => rw [hl] at this; simp at this
    | cons z l => rfl

/-- the first elements are equal and not below `maxval` -/
def BadHead (maxval : α) (a b : List α) : Prop := ∃ x, a.head? = some x ∧ b.head? = some x ∧ ¬ x < maxval

theorem intersectSorted_eq_nil {a b : List α} (ha : Increasing a) (hb : Increasing b)
    (h : ∀ z ∈ a, z ∉ b) : intersectSorted a b = [] := by
  apply List.eq_nil_iff_forall_not_mem.2
  intro z hz
  have := (mem_intersectSorted a b ha hb z).1 hz
  exact h z this.1 this.2

theorem stopAt_all {maxval : α} {a : List α} (ha : Increasing a) (h : stopAt maxval a = true) : ∀ x ∈ a, ¬ x < maxval := by
  cases a with
  | nil => simp
  | cons y a =>
    simp only [stopAt, Bool.not_eq_eq_eq_not, Bool.not_true, decide_eq_false_iff_not] at h
    intro x hx
    rcases List.mem_cons.1 hx with rfl | hx
    · exact h
    · exact fun hlt => h (lt_trans ((List.pairwise_cons.1 ha).1 x hx) hlt)

theorem filter_intersect_nil {maxval : α} {a b : List α} (ha : Increasing a) (hb : Increasing b)
    (h : (∀ x ∈ a, ¬ x < maxval) ∨ (∀ x ∈ b, ¬ x < maxval)) :
    (intersectSorted a b).filter (fun z => decide (z < maxval)) = [] := by
  rw [List.filter_eq_nil_iff]
  intro z hz
  have := (mem_intersectSorted a b ha hb z).1 hz
  rcases h with h | h
  · simpa using h z this.1
  · simpa using h z this.2

theorem intersectSortedLt_eq (maxval : α) (a b : List α) (ha : Increasing a) (hb : Increasing b)
    (hbad : ¬ BadHead maxval a b) :
    intersectSortedLt maxval a b = (intersectSorted a b).filter (fun z => decide (z < maxval)) := by
  fun_induction intersectSortedLt maxval a b with
  | case1 b => simp [intersectSorted]
  | case2 x a => simp [intersectSorted]
  | case3 x a y b h hs =>
    symm
    unfold intersectSorted
    rw [if_pos h]
    exact filter_intersect_nil (List.pairwise_cons.1 ha).2 hb (Or.inl (stopAt_all (List.pairwise_cons.1 ha).2 hs))
  | case4 x a y b h hs ih =>
    rw [ih (List.pairwise_cons.1 ha).2 hb]
    · conv => rhs; unfold intersectSorted
      rw [if_pos h]
    · rintro ⟨z, h1, h2, h3⟩
      cases a with
      | nil => simp at h1
      | cons w a =>
        simp only [List.head?_cons, Option.some.injEq] at h1; subst h1
        simp [stopAt, h3] at hs
  | case5 x a y b h1 h2 hs =>
    symm
    unfold intersectSorted
    rw [if_neg h1, if_pos h2]
    exact filter_intersect_nil ha (List.pairwise_cons.1 hb).2 (Or.inr (stopAt_all (List.pairwise_cons.1 hb).2 hs))
  | case6 x a y b h1 h2 hs ih =>
    rw [ih ha (List.pairwise_cons.1 hb).2]
    · conv => rhs; unfold intersectSorted
      rw [if_neg h1, if_pos h2]
    · rintro ⟨z, g1, g2, g3⟩
      cases b with
      | nil => simp at g2
      | cons w b =>
        simp only [List.head?_cons, Option.some.injEq] at g2; subst g2
        simp [stopAt, g3] at hs
  | case7 x a y b h1 h2 ih =>
    have hxy : x = y := le_antisymm (not_lt.1 h2) (not_lt.1 h1)
    subst hxy
    have hx : x < maxval := by
      by_contra hx; exact hbad ⟨x, rfl, rfl, hx⟩
    conv => rhs; unfold intersectSorted
    rw [if_neg h1, if_neg h2, List.filter_cons_of_pos (by simpa using hx)]
    by_cases hs : (stopAt maxval a || stopAt maxval b) = true
    · rw [if_pos hs, filter_intersect_nil (List.pairwise_cons.1 ha).2 (List.pairwise_cons.1 hb).2]
      rw [Bool.or_eq_true] at hs
      rcases hs with hs | hs
      · exact Or.inl (stopAt_all (List.pairwise_cons.1 ha).2 hs)
      · exact Or.inr (stopAt_all (List.pairwise_cons.1 hb).2 hs)
    · rw [if_neg hs, ih (List.pairwise_cons.1 ha).2 (List.pairwise_cons.1 hb).2]
      rintro ⟨z, g1, g2, g3⟩
      cases b with
      | nil => simp at g2
      | cons w b =>
        simp only [List.head?_cons, Option.some.injEq] at g2; subst g2
        simp [stopAt, g3] at hs

/-- C27: unless both lists start with the same element and that element is not below `maxval`,
`intersect_sorted_lt` returns the elements below `maxval` of the intersection. -/
theorem C27_intersect_sorted_lt {maxval : α} {a b : List α} (ha : Increasing a) (hb : Increasing b)
    (hbad : ¬ BadHead maxval a b) :
    Increasing (intersectSortedLt maxval a b) ∧
    ∀ z, z ∈ intersectSortedLt maxval a b ↔ z ∈ a ∧ z ∈ b ∧ z < maxval := by
  rw [intersectSortedLt_eq maxval a b ha hb hbad]
  refine ⟨(C27_intersect_sorted ha hb).1.filter _, fun z => ?_⟩
  rw [List.mem_filter, mem_intersectSorted a b ha hb, decide_eq_true_eq, and_assoc]

/-- C27 (defect): in the remaining case it returns exactly that common first element, although it is not below
`maxval`. -/
theorem C27_intersect_sorted_lt_bad_head {maxval : α} {a b : List α} (ha : Increasing a) (hb : Increasing b)
    {x : α} (h1 : a.head? = some x) (h2 : b.head? = some x) (h3 : ¬ x < maxval) :
    intersectSortedLt maxval a b = [x] ∧ hasIntersectSortedLt maxval a b = true := by
  cases a with
  | nil => simp at h1
  | cons y a =>
    cases b with
    | nil => simp at h2
    | cons z b =>
      simp only [List.head?_cons, Option.some.injEq] at h1 h2
      subst h1; subst h2
      have hs : stopAt maxval a = true := by
        cases a with
        | nil => rfl
        | cons w a =>
          simp only [stopAt, Bool.not_eq_eq_eq_not, Bool.not_true, decide_eq_false_iff_not]
          intro hlt
          exact h3 (lt_trans ((List.pairwise_cons.1 ha).1 w (by simp)) hlt)
      constructor
      · unfold intersectSortedLt
        simp [hs]
      · unfold hasIntersectSortedLt; simp

/-- C27: `has_intersect_sorted_lt` decides whether a common element below `maxval` exists, with the same exception. -/
theorem C27_has_intersect_sorted_lt {maxval : α} {a b : List α} (ha : Increasing a) (hb : Increasing b)
    (hbad : ¬ BadHead maxval a b) :
    hasIntersectSortedLt maxval a b = true ↔ ∃ z, z ∈ a ∧ z ∈ b ∧ z < maxval := by
  have h : hasIntersectSortedLt maxval a b = !(intersectSortedLt maxval a b).isEmpty := by
    clear ha hb hbad
    fun_induction intersectSortedLt maxval a b with
    | case1 b => simp [hasIntersectSortedLt]
    | case2 x a => simp [hasIntersectSortedLt]
    | case3 x a y b h hs => unfold hasIntersectSortedLt; rw [if_pos h, if_pos hs]; rfl
    | case4 x a y b h hs ih => unfold hasIntersectSortedLt; rw [if_pos h, if_neg hs, ih]
    | case5 x a y b h1 h2 hs => unfold hasIntersectSortedLt; rw [if_neg h1, if_pos h2, if_pos hs]; rfl
    | case6 x a y b h1 h2 hs ih => unfold hasIntersectSortedLt; rw [if_neg h1, if_pos h2, if_neg hs, ih]
    | case7 x a y b h1 h2 ih => unfold hasIntersectSortedLt; rw [if_neg h1, if_neg h2]; rfl
  rw [h]
  have hm := (C27_intersect_sorted_lt ha hb hbad).2
  constructor
  · intro hne
    cases hl : intersectSortedLt maxval a b with
    | nil => rw [hl] at hne; simp at hne
    | cons z l => exact ⟨z, (hm z).1 (by rw [hl]; simp)⟩
  · rintro ⟨z, hz⟩
    have := (hm z).2 hz
    cases hl : intersectSortedLt maxval a b with
    | nil => rw [hl] at this; simp at this
    | cons z l => rfl

example : Increasing [1, 4, 6, 9] ∧ Increasing [2, 4, 6, 9] ∧ ¬ BadHead 9 [1, 4, 6, 9] [2, 4, 6, 9] ∧
    intersectSortedLt 9 [1, 4, 6, 9] [2, 4, 6, 9] = [4, 6] ∧ intersectSortedLt 3 [5] [5] = [5] := by
  refine ⟨by unfold Increasing; decide, by unfold Increasing; decide, ?_, by decide +kernel, by decide +kernel⟩
  rintro ⟨x, h1, h2, _⟩
  simp at h1 h2; omega

/-! ### find_sorted_lt -/

/-- C27: when some element is below `v`, `find_sorted_lt` returns the position of the last one. -/
theorem C27_find_sorted_lt {l : List α} (hl : Increasing l) {v : α} (hex : ∃ x ∈ l, x < v) :
    ∃ k, findSortedLt l v = .ok (some k) ∧ (∃ x, l[k]? = some x ∧ x < v) ∧
      ∀ j y, k < j → l[j]? = some y → ¬ y < v := by
  obtain ⟨x0, hx0, hlt0⟩ := hex
  have hne : l.isEmpty = false := by cases l with
    | nil => simp at hx0
    | cons _ _ => rfl
  have htake : ∀ (l : List α), Increasing l → ∀ j y, l[j]? = some y →
      (y < v ↔ j < (l.takeWhile (fun x => decide (x < v))).length) := by
    intro l
    induction l with
    | nil => intro _ j y h; simp at h
    | cons w l ih =>
      intro hl j y hj
      rw [List.takeWhile_cons]
      by_cases hw : w < v
      · simp only [hw, decide_true, if_true, List.length_cons]
        cases j with
        | zero => simp only [List.getElem?_cons_zero, Option.some.injEq] at hj; subst hj; simp [hw]
        | succ j =>
          rw [ih (List.pairwise_cons.1 hl).2 j y (by simpa using hj)]; omega
      · simp only [hw, decide_false, if_false, List.length_nil]
        simp only [Bool.false_eq_true, if_false, List.length_nil, Nat.not_lt_zero, iff_false]
        cases j with
        | zero => simp only [List.getElem?_cons_zero, Option.some.injEq] at hj; subst hj; exact hw
        | succ j =>
          intro hy
          have : y ∈ l := List.mem_of_getElem? (by simpa using hj)
          exact hw (lt_trans ((List.pairwise_cons.1 hl).1 y this) hy)
  unfold findSortedLt
  rw [hne]
  obtain ⟨j, hj, ej⟩ := List.getElem_of_mem hx0
  have h0 := (htake l hl j x0 (by rw [List.getElem?_eq_getElem hj, ej])).1 hlt0
  cases hk : (l.takeWhile (fun x => decide (x < v))).length with
  | zero => omega
  | succ k =>
    have hkl : k < l.length := by
      have := (List.takeWhile_sublist (p := fun x => decide (x < v)) (l := l)).length_le
      omega
    have hxk := (htake l hl k l[k] (List.getElem?_eq_getElem hkl)).2 (by omega)
    refine ⟨k, ?_, ⟨l[k], List.getElem?_eq_getElem hkl, hxk⟩, ?_⟩
    · simp only [Bool.false_eq_true, if_false]
      rw [rd, List.getElem?_eq_getElem hkl]
      show (if l[k] < v then (pure (some k) : Res _) else pure none) = _
      rw [if_pos hxk]; rfl
    · intro j' y hj' hy h
      have := (htake l hl j' y hy).1 h
      omega

/-- C27 (defect): on a nonempty list with no element below `v` the iterator is moved before the beginning: undefined
behaviour instead of `NO_IND`. -/
theorem C27_find_sorted_lt_ub {l : List α} (hne : l ≠ []) {v : α} (h : ∀ x ∈ l, ¬ x < v) :
    findSortedLt l v = .error .ub := by
  cases l with
  | nil => exact absurd rfl hne
  | cons x l => unfold findSortedLt; simp [h x (by simp)]

/-! ### sort_sum_reduce -/

theorem sumReduceLoop_spec {F : Type} [Field F] [DecidableEq F] : ∀ (l : List (Nat × F)) (cur : Nat × F),
    (cur :: l).Pairwise (fun p q => p.1 ≤ q.1) →
    VecOK (sumReduceLoop cur l) ∧ (∀ p ∈ sumReduceLoop cur l, cur.1 ≤ p.1 ∧ ∃ q ∈ cur :: l, q.1 = p.1) ∧
      ∀ i, coef (sumReduceLoop cur l) i = coef (cur :: l) i
  | [], cur, _ => by
    unfold sumReduceLoop
    split
    · rename_i h
      refine ⟨vecOK_nil, by simp, fun i => ?_⟩
      obtain ⟨k, a⟩ := cur
      simp only at h; subst h
      simp [coef]
    · rename_i h
      refine ⟨⟨by unfold Sorted; simp, by intro p hp; simp at hp; rw [hp]; exact h⟩, by simp, fun i => rfl⟩
  | p :: l, cur, hs => by
    have hs' := List.pairwise_cons.1 hs
    have hcp : cur.1 ≤ p.1 := hs'.1 p (by simp)
    unfold sumReduceLoop
    split
    · rename_i h
      obtain ⟨h1, h2, h3⟩ := sumReduceLoop_spec l (cur.1, cur.2 + p.2) (by
        rw [List.pairwise_cons]
        exact ⟨fun q hq => hs'.1 q (by simp [hq]), (List.pairwise_cons.1 hs'.2).2⟩)
      refine ⟨h1, fun q hq => ?_, fun i => ?_⟩
      · obtain ⟨g1, r, g2, g3⟩ := h2 q hq
        refine ⟨g1, ?_⟩
        rcases List.mem_cons.1 g2 with rfl | g2
        · exact ⟨cur, by simp, g3⟩
        · exact ⟨r, by simp [g2], g3⟩
      · rw [h3 i, coef_cons', coef_cons', coef_cons', h]
        by_cases hi : cur.1 = i
        · simp only [hi, if_true]; ring
        · simp only [hi, if_false]; ring
    · rename_i h
      have hlt : cur.1 < p.1 := lt_of_le_of_ne hcp (Ne.symm h)
      obtain ⟨h1, h2, h3⟩ := sumReduceLoop_spec l p hs'.2
      split
      · rename_i h0
        refine ⟨h1, fun q hq => ?_, fun i => ?_⟩
        · obtain ⟨g1, r, g2, g3⟩ := h2 q hq
          exact ⟨by omega, r, List.mem_cons_of_mem _ g2, g3⟩
        · rw [h3 i, coef_cons' cur, h0]; simp
      · rename_i h0
        refine ⟨⟨?_, ?_⟩, fun q hq => ?_, fun i => ?_⟩
        · unfold Sorted
          rw [List.pairwise_cons]
          exact ⟨fun q hq => by have := (h2 q hq).1; omega, h1.1⟩
        · intro q hq
          rcases List.mem_cons.1 hq with rfl | hq
          · exact h0
          · exact h1.2 q hq
        · rcases List.mem_cons.1 hq with rfl | hq
          · exact ⟨le_refl _, q, by simp, rfl⟩
          · obtain ⟨g1, r, g2, g3⟩ := h2 q hq
            exact ⟨by omega, r, List.mem_cons_of_mem _ g2, g3⟩
        · rw [coef_cons', coef_cons' cur, h3 i]

/-- C27: `sort_sum_reduce` on a nonempty list of (index, value) pairs returns the sorted, zero-free list with the same
coordinate sums. On an empty one it reads out of bounds. -/
theorem C27_sort_sum_reduce {F : Type} [Field F] [DecidableEq F] (v : List (Nat × F)) :
    (v ≠ [] → ∃ r, sortSumReduce v = .ok r ∧ VecOK r ∧ ∀ i, coef r i = coef v i) ∧
    sortSumReduce ([] : List (Nat × F)) = .error .ub := by
  refine ⟨fun hne => ?_, rfl⟩
  unfold sortSumReduce
  have hperm := sort_perm v
  cases hs : SVec.sort v with
  | nil => rw [hs] at hperm; exact absurd hperm.symm.eq_nil hne
  | cons cur rest =>
    have hpw : (cur :: rest).Pairwise (fun p q => p.1 ≤ q.1) := by
      rw [← hs]
      have htot : Std.Total (fun p q : Nat × F => p.1 ≤ q.1) := ⟨fun a b => Nat.le_total _ _⟩
      have htr : IsTrans (Nat × F) (fun p q : Nat × F => p.1 ≤ q.1) := ⟨fun a b c => Nat.le_trans⟩
      exact List.pairwise_insertionSort _ v
    obtain ⟨h1, -, h3⟩ := sumReduceLoop_spec rest cur hpw
    exact ⟨_, rfl, h1, fun i => by rw [h3 i, ← hs, coef_sort]⟩

example : sortSumReduce [(3, (1 : ℚ)), (0, 2), (3, -1), (1, 0), (0, 5)] = .ok [(0, 7)] := by decide +kernel

/-! ### sorted_complement -/

theorem complementLoop_spec (n : Nat) : ∀ (fuel i : Nat) (ind : List Nat), Increasing ind → (∀ x ∈ ind, i ≤ x ∧ x < n) →
    n - i < fuel → i ≤ n → ∃ r, complementLoop n fuel i ind = .ok r ∧ r = (List.range' i (n - i)).filter (fun x => x ∉ ind) := by
  intro fuel
  induction fuel with
  | zero => intro i ind _ _ h _; omega
  | succ fuel ih =>
    intro i ind hs hlt hf hin
    cases ind with
    | nil => exact ⟨_, rfl, by simp⟩
    | cons x ind =>
      obtain ⟨hix, hxn⟩ := hlt x (by simp)
      have htail := (List.pairwise_cons.1 hs).1
      have hr : List.range' i (n - i) = i :: List.range' (i + 1) (n - (i + 1)) := by
        rw [show n - i = (n - (i + 1)) + 1 by omega, List.range'_succ]
      unfold complementLoop
      by_cases hx : x = i
      · rw [if_pos hx]
        obtain ⟨r, h1, h2⟩ := ih (i + 1) ind (List.pairwise_cons.1 hs).2
          (fun y hy => ⟨by have := htail y hy; omega, (hlt y (by simp [hy])).2⟩) (by omega) (by omega)
        refine ⟨r, h1, ?_⟩
        rw [h2, hr, List.filter_cons_of_neg (by simp [hx])]
        apply List.filter_congr
        intro y hy
        have : i + 1 ≤ y := (List.mem_range'_1.1 hy).1
        have : y ≠ x := by omega
        simp [this]
      · rw [if_neg hx]
        obtain ⟨r, h1, h2⟩ := ih (i + 1) (x :: ind) hs (fun y hy => by
          rcases List.mem_cons.1 hy with rfl | hy
          · omega
          · have := htail y hy; have := hlt y (by simp [hy]); omega) (by omega) (by omega)
        refine ⟨i :: r, by rw [h1]; rfl, ?_⟩
        rw [hr, List.filter_cons_of_pos, h2]
        have : i ∉ x :: ind := by
          rw [List.mem_cons, not_or]
          exact ⟨fun e => hx e.symm, fun hy => by have := htail i hy; omega⟩
        simpa using this

/-- C27: `sorted_complement(ind, n)` of an increasing list of indices below `n` terminates and returns the remaining
indices in increasing order. -/
theorem C27_sorted_complement {ind : List Nat} {n : Nat} (hs : Increasing ind) (hlt : ∀ x ∈ ind, x < n) :
    ∃ r, sortedComplement ind n = .ok r ∧ Increasing r ∧ ∀ x, x ∈ r ↔ x < n ∧ x ∉ ind := by
  have hlen : ind.length ≤ n := by
    have hnd : ind.Nodup := hs.imp (fun h => ne_of_lt h)
    have := (List.subperm_of_subset hnd (fun x hx => List.mem_range.2 (hlt x hx))).length_le
    simpa using this
  obtain ⟨r, h1, h2⟩ := complementLoop_spec n (n + ind.sum + ind.length + 1) 0 ind hs
    (fun x hx => ⟨Nat.zero_le _, hlt x hx⟩) (by omega) (by omega)
  refine ⟨r, ?_, ?_, ?_⟩
  · unfold sortedComplement
    rw [if_neg (by omega), h1]
  · rw [h2]
    exact (List.pairwise_lt_range').filter _
  · intro x
    rw [h2, List.mem_filter, List.mem_range'_1]
    simp

/-- C27 (defect): on an unsorted index list the loop does not meet its element and never stops. -/
theorem C27_sorted_complement_diverges : sortedComplement [1, 0] 3 = .error .diverge := by decide +kernel

example : Increasing [1, 3] ∧ sortedComplement [1, 3] 5 = .ok [0, 2, 4] :=
  ⟨by unfold Increasing; decide, by decide +kernel⟩

/-! ### set_union -/

theorem setInsert_spec (x : α) : ∀ (s : List α), Increasing s →
    Increasing (setInsert x s) ∧ ∀ z, z ∈ setInsert x s ↔ z = x ∨ z ∈ s
  | [], _ => by simp [setInsert, Increasing]
  | y :: s, h => by
    obtain ⟨h1, h2⟩ := setInsert_spec x s (List.pairwise_cons.1 h).2
    have hy := (List.pairwise_cons.1 h).1
    unfold setInsert
    split
    · rename_i hxy
      refine ⟨?_, by simp⟩
      unfold Increasing
      rw [List.pairwise_cons]
      refine ⟨fun z hz => ?_, h⟩
      rcases List.mem_cons.1 hz with rfl | hz
      · exact hxy
      · exact lt_trans hxy (hy z hz)
    · split
      · rename_i hxy hyx
        refine ⟨?_, fun z => by rw [List.mem_cons, h2, List.mem_cons]; tauto⟩
        unfold Increasing
        rw [List.pairwise_cons]
        refine ⟨fun z hz => ?_, h1⟩
        rcases (h2 z).1 hz with rfl | hz
        · exact hyx
        · exact hy z hz
      · rename_i hxy hyx
        have : x = y := le_antisymm (not_lt.1 hyx) (not_lt.1 hxy)
        subst this
        exact ⟨h, fun z => by simp⟩

/-- C27: `set_union` of arbitrary containers is the union, as an increasing sequence (`to_set` is the case of one
container). -/
theorem C27_set_union (s1 s2 : List α) : Increasing (setUnion s1 s2) ∧ ∀ z, z ∈ setUnion s1 s2 ↔ z ∈ s1 ∨ z ∈ s2 := by
  have key : ∀ (l s : List α), Increasing s → Increasing (l.foldl (fun s x => setInsert x s) s) ∧
      ∀ z, z ∈ l.foldl (fun s x => setInsert x s) s ↔ z ∈ s ∨ z ∈ l := by
    intro l
    induction l with
    | nil => intro s hs; exact ⟨hs, by simp⟩
    | cons x l ih =>
      intro s hs
      obtain ⟨h1, h2⟩ := setInsert_spec x s hs
      obtain ⟨h3, h4⟩ := ih _ h1
      refine ⟨h3, fun z => ?_⟩
      show z ∈ l.foldl (fun s x => setInsert x s) (setInsert x s) ↔ _
      rw [h4, h2, List.mem_cons]; tauto
  obtain ⟨h1, h2⟩ := key s1 [] List.Pairwise.nil
  obtain ⟨h3, h4⟩ := key s2 _ h1
  refine ⟨h3, fun z => ?_⟩
  unfold setUnion
  rw [h4, h2]; simp

example : setUnion [3, 1, 3] [2, 1] = [1, 2, 3] := by decide +kernel

end BATS
