import Verif.Model.SparseVec
import Verif.Spec.Vec
import Mathlib.Tactic.Ring
import Mathlib.Tactic.LinearCombination
import Mathlib.Tactic.Linarith
import Mathlib.Algebra.BigOperators.Group.List.Basic

set_option linter.unusedSectionVars false
set_option linter.unusedSimpArgs false
set_option linter.unusedVariables false

/-! # Lemmas about sparse vectors -/

namespace BATS

variable {F : Type _} [Field F] [DecidableEq F]

@[simp] theorem coef_nil (i : Nat) : coef ([] : List (Nat × F)) i = 0 := rfl
@[simp] theorem coef_cons (k : Nat) (a : F) (v) (i : Nat) :
    coef ((k, a) :: v) i = (if k = i then a else 0) + coef v i := rfl

theorem coef_cons' (p : Nat × F) (v) (i : Nat) :
    coef (p :: v) i = (if p.1 = i then p.2 else 0) + coef v i := rfl

theorem coef_append (u v : List (Nat × F)) (i : Nat) : coef (u ++ v) i = coef u i + coef v i := by
  induction u with
  | nil => simp
  | cons p u ih => obtain ⟨k, a⟩ := p; simp [ih, add_assoc]

theorem coef_eq_zero_of_notMem {v : List (Nat × F)} {i : Nat} (h : ∀ p ∈ v, p.1 ≠ i) : coef v i = 0 := by
  induction v with
  | nil => rfl
  | cons p v ih =>
    obtain ⟨k, a⟩ := p
    have hk : k ≠ i := h (k, a) (by simp)
    simp [hk, ih (fun q hq => h q (by simp [hq]))]

theorem coef_perm {u v : List (Nat × F)} (h : u.Perm v) (i : Nat) : coef u i = coef v i := by
  induction h with
  | nil => rfl
  | cons p _ ih => rw [coef_cons', coef_cons', ih]
  | swap p q l => simp only [coef_cons']; ring
  | trans _ _ ih1 ih2 => rw [ih1, ih2]

theorem coef_map_smul (a : F) (v : List (Nat × F)) (i : Nat) :
    coef (v.map (fun p => (p.1, a * p.2))) i = a * coef v i := by
  induction v with
  | nil => simp
  | cons p v ih =>
    obtain ⟨k, b⟩ := p
    simp only [List.map_cons, coef_cons, ih, mul_add]
    split <;> simp

theorem Sorted.tail {p : Nat × F} {v} (h : Sorted (p :: v)) : Sorted v := (List.pairwise_cons.1 h).2
theorem Sorted.head {p : Nat × F} {v} (h : Sorted (p :: v)) : ∀ q ∈ v, p.1 < q.1 := (List.pairwise_cons.1 h).1
theorem sorted_nil : Sorted ([] : List (Nat × F)) := List.Pairwise.nil
theorem sorted_cons {p : Nat × F} {v} : Sorted (p :: v) ↔ (∀ q ∈ v, p.1 < q.1) ∧ Sorted v := List.pairwise_cons
theorem noZero_nil : NoZero ([] : List (Nat × F)) := by intro p hp; simp at hp
theorem noZero_cons {p : Nat × F} {v} : NoZero (p :: v) ↔ p.2 ≠ 0 ∧ NoZero v := by simp [NoZero]
theorem vecOK_nil : VecOK ([] : List (Nat × F)) := ⟨sorted_nil, noZero_nil⟩
theorem VecOK.tail {p : Nat × F} {v} (h : VecOK (p :: v)) : VecOK v := ⟨h.1.tail, (noZero_cons.1 h.2).2⟩
theorem below_nil (m : Nat) : Below m ([] : List (Nat × F)) := by intro p hp; simp at hp
theorem below_cons {m : Nat} {p : Nat × F} {v} : Below m (p :: v) ↔ p.1 < m ∧ Below m v := by simp [Below]
theorem Below.mono {m n : Nat} {v : List (Nat × F)} (h : Below m v) (hmn : m ≤ n) : Below n v :=
  fun p hp => lt_of_lt_of_le (h p hp) hmn

theorem coef_of_lt_head {v : List (Nat × F)} {i : Nat} (h : ∀ q ∈ v, i < q.1) : coef v i = 0 :=
  coef_eq_zero_of_notMem (fun p hp => by have := h p hp; omega)

theorem coef_of_mem {v : List (Nat × F)} (hs : Sorted v) {k : Nat} {a : F} (h : (k, a) ∈ v) : coef v k = a := by
  induction v with
  | nil => simp at h
  | cons p v ih =>
    obtain ⟨j, b⟩ := p
    rcases List.mem_cons.1 h with h | h
    · cases h
      simp [coef_of_lt_head hs.head]
    · have : j < k := hs.head _ h
      simp [Nat.ne_of_lt this, ih hs.tail h]

theorem Below.coef_eq_zero {m : Nat} {v : List (Nat × F)} (h : Below m v) {i : Nat} (hi : m ≤ i) : coef v i = 0 :=
  coef_eq_zero_of_notMem (fun p hp => by have := h p hp; omega)

theorem exists_mem_of_coef_ne {v : List (Nat × F)} {i : Nat} (h : coef v i ≠ 0) : ∃ a, (i, a) ∈ v := by
  by_contra hc
  apply h
  apply coef_eq_zero_of_notMem
  rintro ⟨k, a⟩ hp rfl
  exact hc ⟨a, hp⟩

/-- Two valid sparse vectors denoting the same function are identical as stored. -/
theorem VecOK.ext {u v : List (Nat × F)} (hu : VecOK u) (hv : VecOK v) (h : ∀ i, coef u i = coef v i) : u = v := by
  induction u generalizing v with
  | nil =>
    cases v with
    | nil => rfl
    | cons p v =>
      obtain ⟨k, a⟩ := p
      have := h k
      rw [coef_of_mem hv.1 (List.mem_cons_self)] at this
      exact absurd this.symm (hv.2 (k, a) (by simp))
  | cons p u ih =>
    obtain ⟨k, a⟩ := p
    cases v with
    | nil =>
      have := h k
      rw [coef_of_mem hu.1 (List.mem_cons_self)] at this
      exact absurd this (hu.2 (k, a) (by simp))
    | cons q v =>
      obtain ⟨j, b⟩ := q
      have ha : a ≠ 0 := hu.2 (k, a) (by simp)
      have hb : b ≠ 0 := hv.2 (j, b) (by simp)
      have hk := h k
      have hj := h j
      rw [coef_of_mem hu.1 (List.mem_cons_self)] at hk
      rw [coef_of_mem hv.1 (List.mem_cons_self)] at hj
      have hkj : k = j := by
        rcases lt_trichotomy k j with hlt | heq | hgt
        · exfalso
          have : coef ((j, b) :: v) k = 0 := coef_of_lt_head (by
            intro q hq; rcases List.mem_cons.1 hq with rfl | hq
            · exact hlt
            · exact lt_trans hlt (hv.1.head q hq))
          rw [this] at hk; exact ha hk
        · exact heq
        · exfalso
          have : coef ((k, a) :: u) j = 0 := coef_of_lt_head (by
            intro q hq; rcases List.mem_cons.1 hq with rfl | hq
            · exact hgt
            · exact lt_trans hgt (hu.1.head q hq))
          rw [this] at hj; exact hb hj.symm
      subst hkj
      have hab : a = b := by rw [hk, coef_of_mem hv.1 (List.mem_cons_self)]
      subst hab
      congr 1
      apply ih hu.tail hv.tail
      intro i
      have := h i
      simp only [coef_cons] at this
      exact add_left_cancel this

theorem VecOK.eq_nil_iff {u : List (Nat × F)} (hu : VecOK u) : u = [] ↔ ∀ i, coef u i = 0 := by
  constructor
  · rintro rfl i; rfl
  · intro h; exact hu.ext vecOK_nil (by simpa using h)

/-! ### getval -/

theorem getval_eq_coef {v : List (Nat × F)} (hs : Sorted v) (i : Nat) : SVec.getval v i = coef v i := by
  unfold SVec.getval
  induction v with
  | nil => simp
  | cons p v ih =>
    obtain ⟨k, a⟩ := p
    by_cases h : k < i
    · have hd : ((k, a) :: v).dropWhile (fun p => decide (p.1 < i)) = v.dropWhile (fun p => decide (p.1 < i)) := by
        simp [List.dropWhile_cons, h]
      rw [hd, ih hs.tail]
      simp [Nat.ne_of_lt h]
    · have hd : ((k, a) :: v).dropWhile (fun p => decide (p.1 < i)) = (k, a) :: v := by
        simp [List.dropWhile_cons, h]
      rw [hd]
      simp only [coef_cons]
      by_cases hk : k = i
      · subst hk; simp [coef_of_lt_head hs.head]
      · have : coef v i = 0 := coef_of_lt_head (fun q hq => by have := hs.head q hq; simp at this; omega)
        simp [hk, this]

/-! ### clear_zeros -/

theorem coef_clearZeros (v : List (Nat × F)) (i : Nat) : coef (SVec.clearZeros v) i = coef v i := by
  unfold SVec.clearZeros
  induction v with
  | nil => rfl
  | cons p v ih =>
    obtain ⟨k, a⟩ := p
    by_cases h : a = 0
    · simp only [List.filter_cons, h, ne_eq, not_true_eq_false, decide_false, coef_cons]
      simp only [ne_eq] at ih
      rw [if_neg (by simp), ih]; simp
    · simp only [List.filter_cons, ne_eq, h, not_false_eq_true, decide_true, if_true, coef_cons]
      simp only [ne_eq] at ih
      rw [ih]

theorem sorted_clearZeros {v : List (Nat × F)} (h : Sorted v) : Sorted (SVec.clearZeros v) := h.filter _
theorem noZero_clearZeros (v : List (Nat × F)) : NoZero (SVec.clearZeros v) := by
  intro p hp; simpa using (List.mem_filter.1 hp).2
theorem below_clearZeros {m} {v : List (Nat × F)} (h : Below m v) : Below m (SVec.clearZeros v) :=
  fun p hp => h p (List.mem_filter.1 hp).1

/-! ### axpy -/

theorem coef_axpyMerge (a : F) (y x : List (Nat × F)) (i : Nat) :
    coef (SVec.axpyMerge a y x) i = coef y i + a * coef x i := by
  fun_induction SVec.axpyMerge a y x with
  | case1 x => rw [coef_map_smul]; simp
  | case2 y => simp
  | case3 u y k v x h ih =>
    simp only [coef_cons, ih]; split <;> ring
  | case4 u y k v x h ih =>
    have h : a * v + u = 0 := by simpa using h
    have hu : u = - (a * v) := by linear_combination h
    simp only [coef_cons, ih, hu]; split <;> ring
  | case5 i' u y k v x h1 h2 ih => simp only [coef_cons, ih]; ring
  | case6 i' u y k v x h1 h2 ih =>
    simp only [coef_cons, ih, mul_add]; split <;> ring

theorem mem_axpyMerge_fst (a : F) (y x : List (Nat × F)) :
    ∀ p ∈ SVec.axpyMerge a y x, (∃ q ∈ y, q.1 = p.1) ∨ (∃ q ∈ x, q.1 = p.1) := by
  fun_induction SVec.axpyMerge a y x with
  | case1 x =>
    intro p hp
    obtain ⟨q, hq, rfl⟩ := List.mem_map.1 hp
    exact Or.inr ⟨q, hq, rfl⟩
  | case2 y => intro p hp; exact Or.inl ⟨p, hp, rfl⟩
  | case3 u y k v x h ih =>
    intro p hp
    rcases List.mem_cons.1 hp with rfl | hp
    · exact Or.inl ⟨(k, u), by simp, rfl⟩
    · rcases ih p hp with ⟨q, hq, e⟩ | ⟨q, hq, e⟩
      · exact Or.inl ⟨q, by simp [hq], e⟩
      · exact Or.inr ⟨q, by simp [hq], e⟩
  | case4 u y k v x h ih =>
    intro p hp
    rcases ih p hp with ⟨q, hq, e⟩ | ⟨q, hq, e⟩
    · exact Or.inl ⟨q, by simp [hq], e⟩
    · exact Or.inr ⟨q, by simp [hq], e⟩
  | case5 i' u y k v x h1 h2 ih =>
    intro p hp
    rcases List.mem_cons.1 hp with rfl | hp
    · exact Or.inl ⟨(i', u), by simp, rfl⟩
    · rcases ih p hp with ⟨q, hq, e⟩ | ⟨q, hq, e⟩
      · exact Or.inl ⟨q, by simp [hq], e⟩
      · exact Or.inr ⟨q, hq, e⟩
  | case6 i' u y k v x h1 h2 ih =>
    intro p hp
    rcases List.mem_cons.1 hp with rfl | hp
    · exact Or.inr ⟨(k, v), by simp, rfl⟩
    · rcases ih p hp with ⟨q, hq, e⟩ | ⟨q, hq, e⟩
      · exact Or.inl ⟨q, hq, e⟩
      · exact Or.inr ⟨q, by simp [hq], e⟩

theorem sorted_axpyMerge (a : F) (y x : List (Nat × F)) (hy : Sorted y) (hx : Sorted x) :
    Sorted (SVec.axpyMerge a y x) := by
  fun_induction SVec.axpyMerge a y x with
  | case1 x =>
    unfold Sorted
    rw [List.pairwise_map]
    exact hx
  | case2 y => exact hy
  | case3 u y k v x h ih =>
    rw [sorted_cons]
    refine ⟨?_, ih hy.tail hx.tail⟩
    intro p hp
    rcases mem_axpyMerge_fst a y x p hp with ⟨q, hq, e⟩ | ⟨q, hq, e⟩
    · have := hy.head q hq; simp at this ⊢; omega
    · have := hx.head q hq; simp at this ⊢; omega
  | case4 u y k v x h ih => exact ih hy.tail hx.tail
  | case5 i' u y k v x h1 h2 ih =>
    rw [sorted_cons]
    refine ⟨?_, ih hy.tail hx⟩
    intro p hp
    rcases mem_axpyMerge_fst a y _ p hp with ⟨q, hq, e⟩ | ⟨q, hq, e⟩
    · have := hy.head q hq; simp at this ⊢; omega
    · rcases List.mem_cons.1 hq with rfl | hq
      · simp at e ⊢; omega
      · have := hx.head q hq; simp at this ⊢; omega
  | case6 i' u y k v x h1 h2 ih =>
    rw [sorted_cons]
    refine ⟨?_, ih hy hx.tail⟩
    intro p hp
    rcases mem_axpyMerge_fst a _ x p hp with ⟨q, hq, e⟩ | ⟨q, hq, e⟩
    · rcases List.mem_cons.1 hq with rfl | hq
      · simp at e ⊢; omega
      · have := hy.head q hq; simp at this ⊢; omega
    · have := hx.head q hq; simp at this ⊢; omega

theorem noZero_axpyMerge (a : F) (ha : a ≠ 0) (y x : List (Nat × F)) (hy : NoZero y) (hx : NoZero x) :
    NoZero (SVec.axpyMerge a y x) := by
  fun_induction SVec.axpyMerge a y x with
  | case1 x =>
    intro p hp
    obtain ⟨q, hq, rfl⟩ := List.mem_map.1 hp
    exact mul_ne_zero ha (hx q hq)
  | case2 y => exact hy
  | case3 u y k v x h ih =>
    rw [noZero_cons] at hy hx ⊢
    exact ⟨by simpa using h, ih hy.2 hx.2⟩
  | case4 u y k v x h ih => exact ih (noZero_cons.1 hy).2 (noZero_cons.1 hx).2
  | case5 i' u y k v x h1 h2 ih =>
    rw [noZero_cons]; exact ⟨(noZero_cons.1 hy).1, ih (noZero_cons.1 hy).2 hx⟩
  | case6 i' u y k v x h1 h2 ih =>
    rw [noZero_cons]; exact ⟨mul_ne_zero ha (noZero_cons.1 hx).1, ih hy (noZero_cons.1 hx).2⟩

theorem coef_axpy (a : F) (x y : List (Nat × F)) (i : Nat) :
    coef (SVec.axpy a x y) i = coef y i + a * coef x i := by
  unfold SVec.axpy
  split
  · rename_i h; rw [coef_clearZeros, h]; simp
  · split
    · rename_i h; rw [List.isEmpty_iff] at h; subst h; simp
    · exact coef_axpyMerge a y x i

theorem sorted_axpy (a : F) {x y : List (Nat × F)} (hx : Sorted x) (hy : Sorted y) : Sorted (SVec.axpy a x y) := by
  unfold SVec.axpy
  split
  · exact sorted_clearZeros hy
  · split
    · exact hy
    · exact sorted_axpyMerge a y x hy hx

theorem noZero_axpy (a : F) {x y : List (Nat × F)} (hx : NoZero x) (hy : NoZero y) : NoZero (SVec.axpy a x y) := by
  unfold SVec.axpy
  split
  · exact noZero_clearZeros y
  · rename_i ha
    split
    · exact hy
    · exact noZero_axpyMerge a ha y x hy hx

theorem vecOK_axpy (a : F) {x y : List (Nat × F)} (hx : VecOK x) (hy : VecOK y) : VecOK (SVec.axpy a x y) :=
  ⟨sorted_axpy a hx.1 hy.1, noZero_axpy a hx.2 hy.2⟩

theorem below_axpyMerge (a : F) {m} {x y : List (Nat × F)} (hx : Below m x) (hy : Below m y) :
    Below m (SVec.axpyMerge a y x) := by
  intro p hp
  rcases mem_axpyMerge_fst a y x p hp with ⟨q, hq, e⟩ | ⟨q, hq, e⟩
  · rw [← e]; exact hy q hq
  · rw [← e]; exact hx q hq

theorem below_axpy (a : F) {m} {x y : List (Nat × F)} (hx : Below m x) (hy : Below m y) :
    Below m (SVec.axpy a x y) := by
  unfold SVec.axpy
  split
  · exact below_clearZeros hy
  · split
    · exact hy
    · exact below_axpyMerge a hx hy

/-! ### windowed axpy -/

theorem coef_dropWhile_lt {v : List (Nat × F)} (hs : Sorted v) (n i : Nat) :
    coef (v.dropWhile (fun p => decide (p.1 < n))) i = if n ≤ i then coef v i else 0 := by
  induction v with
  | nil => simp
  | cons p v ih =>
    obtain ⟨k, a⟩ := p
    by_cases h : k < n
    · have hd : ((k, a) :: v).dropWhile (fun p => decide (p.1 < n)) = v.dropWhile (fun p => decide (p.1 < n)) := by
        simp [List.dropWhile_cons, h]
      rw [hd, ih hs.tail]
      by_cases hn : n ≤ i
      · have : k ≠ i := by omega
        simp [hn, this]
      · simp [hn]
    · have hd : ((k, a) :: v).dropWhile (fun p => decide (p.1 < n)) = (k, a) :: v := by
        simp [List.dropWhile_cons, h]
      rw [hd]
      by_cases hn : n ≤ i
      · simp [hn]
      · rw [if_neg hn]
        apply coef_of_lt_head
        intro q hq
        rcases List.mem_cons.1 hq with rfl | hq
        · simp; omega
        · have := hs.head q hq; simp at this; omega

theorem coef_takeWhile_lt {v : List (Nat × F)} (hs : Sorted v) (n i : Nat) :
    coef (v.takeWhile (fun p => decide (p.1 < n))) i = if i < n then coef v i else 0 := by
  have h1 : coef v i = coef (v.takeWhile (fun p => decide (p.1 < n))) i
      + coef (v.dropWhile (fun p => decide (p.1 < n))) i := by
    rw [← coef_append, List.takeWhile_append_dropWhile]
  rw [coef_dropWhile_lt hs] at h1
  by_cases hn : n ≤ i
  · rw [if_pos hn] at h1
    rw [if_neg (by omega)]
    exact (left_eq_add.1 (by rw [add_comm] at h1; exact h1))
  · rw [if_neg hn] at h1
    rw [if_pos (by omega), h1, add_zero]

theorem sorted_dropWhile {v : List (Nat × F)} (hs : Sorted v) (f) : Sorted (v.dropWhile f) :=
  List.Pairwise.sublist (List.dropWhile_sublist f) hs
theorem sorted_takeWhile {v : List (Nat × F)} (hs : Sorted v) (f) : Sorted (v.takeWhile f) :=
  List.Pairwise.sublist (List.takeWhile_sublist f) hs
theorem noZero_sublist {u v : List (Nat × F)} (h : u.Sublist v) (hv : NoZero v) : NoZero u :=
  fun p hp => hv p (h.subset hp)
theorem below_sublist {m} {u v : List (Nat × F)} (h : u.Sublist v) (hv : Below m v) : Below m u :=
  fun p hp => hv p (h.subset hp)

theorem coef_axpyRange (a : F) {x : List (Nat × F)} (hx : Sorted x) (first last : Nat) (y : List (Nat × F)) (i : Nat) :
    coef (SVec.axpyRange a x first last y) i =
      coef y i + (if first ≤ i ∧ i < last then a * coef x i else 0) := by
  have hw : coef ((x.dropWhile (fun p => decide (p.1 < first))).takeWhile (fun p => decide (p.1 < last))) i
      = if first ≤ i ∧ i < last then coef x i else 0 := by
    rw [coef_takeWhile_lt (sorted_dropWhile hx _), coef_dropWhile_lt hx]
    by_cases h1 : first ≤ i <;> by_cases h2 : i < last <;> simp [h1, h2]
  unfold SVec.axpyRange
  split
  · rename_i h; simp [h]
  · simp only
    split
    · rename_i h
      rw [List.isEmpty_iff] at h
      rw [h] at hw
      simp only [coef_nil] at hw
      split
      · rename_i hc; rw [if_pos hc] at hw; rw [← hw]; simp
      · simp
    · rw [coef_axpyMerge, hw]; split <;> simp

theorem sorted_axpyRange (a : F) {x y : List (Nat × F)} (hx : Sorted x) (hy : Sorted y) (f l : Nat) :
    Sorted (SVec.axpyRange a x f l y) := by
  unfold SVec.axpyRange
  split
  · exact hy
  · simp only
    split
    · exact hy
    · exact sorted_axpyMerge a y _ hy (sorted_takeWhile (sorted_dropWhile hx _) _)

theorem noZero_axpyRange (a : F) {x y : List (Nat × F)} (hx : NoZero x) (hy : NoZero y) (f l : Nat) :
    NoZero (SVec.axpyRange a x f l y) := by
  unfold SVec.axpyRange
  split
  · exact hy
  · rename_i ha
    simp only
    split
    · exact hy
    · exact noZero_axpyMerge a ha y _ hy
        (noZero_sublist ((List.takeWhile_sublist _).trans (List.dropWhile_sublist _)) hx)

theorem below_axpyRange (a : F) {m} {x y : List (Nat × F)} (hx : Below m x) (hy : Below m y) (f l : Nat) :
    Below m (SVec.axpyRange a x f l y) := by
  unfold SVec.axpyRange
  split
  · exact hy
  · simp only
    split
    · exact hy
    · exact below_axpyMerge a (below_sublist ((List.takeWhile_sublist _).trans (List.dropWhile_sublist _)) hx) hy

theorem vecOK_axpyRange (a : F) {x y : List (Nat × F)} (hx : VecOK x) (hy : VecOK y) (f l : Nat) :
    VecOK (SVec.axpyRange a x f l y) :=
  ⟨sorted_axpyRange a hx.1 hy.1 f l, noZero_axpyRange a hx.2 hy.2 f l⟩

/-! ### last nonzero -/

theorem lastnz_ok {v : List (Nat × F)} (h : v ≠ []) : SVec.lastnz v = .ok (v.getLast h) := by
  unfold SVec.lastnz; rw [List.getLast?_eq_some_getLast h]

theorem Sorted.le_getLast {v : List (Nat × F)} (hs : Sorted v) (h : v ≠ []) :
    ∀ p ∈ v, p.1 ≤ (v.getLast h).1 := by
  induction v with
  | nil => exact absurd rfl h
  | cons q v ih =>
    intro p hp
    by_cases hv : v = []
    · subst hv; simp at hp ⊢; rw [hp]
    · rw [List.getLast_cons hv]
      rcases List.mem_cons.1 hp with rfl | hp
      · exact le_of_lt (hs.head _ (List.getLast_mem hv))
      · exact ih hs.tail hv p hp

theorem Sorted.coef_gt_getLast {v : List (Nat × F)} (hs : Sorted v) (h : v ≠ []) {i : Nat}
    (hi : (v.getLast h).1 < i) : coef v i = 0 :=
  coef_eq_zero_of_notMem (fun p hp => by have := hs.le_getLast h p hp; omega)

theorem Sorted.coef_getLast {v : List (Nat × F)} (hs : Sorted v) (h : v ≠ []) :
    coef v (v.getLast h).1 = (v.getLast h).2 :=
  coef_of_mem hs (by exact List.getLast_mem h)

end BATS
