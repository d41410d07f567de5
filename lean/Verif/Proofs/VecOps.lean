import Verif.Proofs.SVecOps
import Verif.Proofs.Solve
import Verif.Model.MatOps

set_option linter.unusedSectionVars false
set_option linter.unusedSimpArgs false
set_option linter.unusedVariables false
set_option linter.unnecessarySeqFocus false

/-! # Row operations on sparse vectors -/

namespace BATS
open Reduction

variable {F : Type} [Field F] [DecidableEq F]

/-! ### lookup -/

theorem find_spec {v : SVec F} (hs : Sorted v) (i : Nat) : ∀ a, SVec.find v i = some a ↔ (i, a) ∈ v := by
  induction v with
  | nil => intro a; simp [SVec.find]
  | cons p v ih =>
    intro a
    obtain ⟨k, b⟩ := p
    unfold SVec.find
    by_cases h : k < i
    · rw [List.dropWhile_cons_of_pos (by simpa using h)]
      have := ih hs.tail a
      unfold SVec.find at this
      rw [this, List.mem_cons]
      constructor
      · exact Or.inr
      · rintro (e | h')
        · have := congrArg Prod.fst e; simp at this; omega
        · exact h'
    · rw [List.dropWhile_cons_of_neg (by simpa using h)]
      simp only [List.mem_cons, Prod.mk.injEq]
      by_cases hk : k = i
      · subst hk
        rw [if_pos rfl]
        constructor
        · intro e; left; simp at e; exact ⟨rfl, e.symm⟩
        · rintro (⟨_, e⟩ | h')
          · rw [e]
          · exact absurd (hs.head _ h') (by simp)
      · rw [if_neg hk]
        constructor
        · intro e; simp at e
        · rintro (⟨e, _⟩ | h')
          · exact absurd e.symm hk
          · have := hs.head _ h'; simp at this; omega

theorem find_none {v : SVec F} (hs : Sorted v) (i : Nat) : SVec.find v i = none ↔ ∀ p ∈ v, p.1 ≠ i := by
  constructor
  · intro h p hp e
    have := (find_spec hs i p.2).2 (by rw [← e]; exact hp)
    rw [h] at this; simp at this
  · intro h
    cases hf : SVec.find v i with
    | none => rfl
    | some a => exact absurd rfl (h _ ((find_spec hs i a).1 hf))

theorem find_some_coef {v : SVec F} (hs : Sorted v) {i : Nat} {a : F} (h : SVec.find v i = some a) : coef v i = a :=
  coef_of_mem hs ((find_spec hs i a).1 h)

theorem find_none_coef {v : SVec F} (hs : Sorted v) {i : Nat} (h : SVec.find v i = none) : coef v i = 0 :=
  coef_eq_zero_of_notMem ((find_none hs i).1 h)

/-! ### positions -/

theorem lb_split {v : SVec F} (hs : Sorted v) (i : Nat) :
    v = v.take (SVec.lowerBound v i) ++ v.drop (SVec.lowerBound v i) ∧
    v.take (SVec.lowerBound v i) = v.takeWhile (fun p => decide (p.1 < i)) ∧
    v.drop (SVec.lowerBound v i) = v.dropWhile (fun p => decide (p.1 < i)) := by
  refine ⟨(List.take_append_drop _ _).symm, ?_, ?_⟩
  · unfold SVec.lowerBound
    induction v with
    | nil => rfl
    | cons p v ih =>
      by_cases h : p.1 < i
      · rw [List.takeWhile_cons_of_pos (by simpa using h), List.length_cons, List.take_succ_cons, ih hs.tail]
      · rw [List.takeWhile_cons_of_neg (by simpa using h)]; rfl
  · unfold SVec.lowerBound
    induction v with
    | nil => rfl
    | cons p v ih =>
      by_cases h : p.1 < i
      · rw [List.takeWhile_cons_of_pos (by simpa using h), List.length_cons, List.drop_succ_cons, ih hs.tail,
          List.dropWhile_cons_of_pos (by simpa using h)]
      · rw [List.takeWhile_cons_of_neg (by simpa using h), List.dropWhile_cons_of_neg (by simpa using h)]; rfl

/-- a vector with entry `(i, a)`: what is before and after it -/
theorem split_at {v : SVec F} (hs : Sorted v) {i : Nat} {a : F} (h : (i, a) ∈ v) :
    ∃ A B, v = A ++ (i, a) :: B ∧ A.length = SVec.lowerBound v i ∧ (∀ p ∈ A, p.1 < i) ∧ (∀ p ∈ B, i < p.1) := by
  obtain ⟨A, B, e⟩ := List.append_of_mem h
  subst e
  have h2 := List.pairwise_append.1 hs
  have hA : ∀ p ∈ A, p.1 < i := fun p hp => h2.2.2 p hp (i, a) (by simp)
  have hB : ∀ p ∈ B, i < p.1 := (List.pairwise_cons.1 h2.2.1).1
  refine ⟨A, B, rfl, ?_, hA, hB⟩
  unfold SVec.lowerBound
  rw [List.takeWhile_append_of_pos (by intro p hp; simpa using hA p hp), List.takeWhile_cons_of_neg (by simp), List.append_nil]

theorem set_lb {v : SVec F} (hs : Sorted v) {i : Nat} {a : F} (h : (i, a) ∈ v) (b : F) :
    v.set (SVec.lowerBound v i) (i, b) = SVec.putVal v i b := by
  obtain ⟨A, B, e, hl, hA, hB⟩ := split_at hs h
  rw [← hl]
  conv_lhs => rw [e]
  rw [List.set_append_right _ _ (Nat.le_refl _), Nat.sub_self, List.set_cons_zero]
  conv_rhs => rw [e]
  unfold SVec.putVal
  rw [List.map_append, List.map_cons, if_pos rfl]
  congr 1
  · symm; conv_rhs => rw [← List.map_id A]
    apply List.map_congr_left
    intro p hp; rw [if_neg (by have := hA p hp; omega)]; rfl
  · congr 1
    symm; conv_rhs => rw [← List.map_id B]
    apply List.map_congr_left
    intro p hp; rw [if_neg (by have := hB p hp; omega)]; rfl

theorem erase_lb {v : SVec F} (hs : Sorted v) {i : Nat} {a : F} (h : (i, a) ∈ v) :
    v.eraseIdx (SVec.lowerBound v i) = v.filter (fun p => decide (p.1 ≠ i)) := by
  obtain ⟨A, B, e, hl, hA, hB⟩ := split_at hs h
  rw [← hl]
  conv_lhs => rw [e]
  rw [List.eraseIdx_append_of_length_le (Nat.le_refl _), Nat.sub_self, List.eraseIdx_cons_zero]
  conv_rhs => rw [e]
  rw [List.filter_append, List.filter_cons_of_neg (by simp)]
  congr 1
  · symm; apply List.filter_eq_self.2; intro p hp; have := hA p hp; simp; omega
  · symm; apply List.filter_eq_self.2; intro p hp; have := hB p hp; simp; omega

theorem coef_filter_ne (v : SVec F) (i k : Nat) :
    coef (v.filter (fun p => decide (p.1 ≠ i))) k = if k = i then 0 else coef v k := by
  induction v with
  | nil => simp
  | cons p v ih =>
    by_cases h : p.1 = i
    · rw [List.filter_cons_of_neg (by simpa using h), ih, coef_cons']
      by_cases hk : k = i
      · rw [if_pos hk, if_pos hk]
      · rw [if_neg hk, if_neg hk, if_neg (by omega), zero_add]
    · rw [List.filter_cons_of_pos (by simpa using h), coef_cons', ih, coef_cons']
      by_cases hk : k = i
      · rw [if_pos hk, if_pos hk, if_neg (by omega), zero_add]
      · rw [if_neg hk, if_neg hk]

theorem vecOK_filter {v : SVec F} (hv : VecOK v) (f : Nat × F → Bool) : VecOK (v.filter f) :=
  ⟨hv.1.filter _, fun p hp => hv.2 p (List.mem_filter.1 hp).1⟩

theorem insertIdx_split {α : Type} : ∀ (l : List α) {n : Nat}, n ≤ l.length → ∀ a, l.insertIdx n a = l.take n ++ a :: l.drop n
  | l, 0, _, a => by simp
  | [], n + 1, h, a => by simp at h
  | b :: l, n + 1, h, a => by
    rw [List.insertIdx_succ_cons, insertIdx_split l (by simpa using h)]; rfl

theorem insert_lb {v : SVec F} (hv : Sorted v) {i : Nat} (h : ∀ p ∈ v, p.1 ≠ i) (b : F) :
    SVec.lowerBound v i ≤ v.length ∧ Sorted (v.insertIdx (SVec.lowerBound v i) (i, b)) ∧
    (∀ k, coef (v.insertIdx (SVec.lowerBound v i) (i, b)) k = if k = i then b else coef v k) ∧
    (∀ p, p ∈ v.insertIdx (SVec.lowerBound v i) (i, b) → p = (i, b) ∨ p ∈ v) ∧
    (v.insertIdx (SVec.lowerBound v i) (i, b)).length = v.length + 1 := by
  obtain ⟨h1, h2, h3⟩ := lb_split hv i
  have hle : SVec.lowerBound v i ≤ v.length := by
    unfold SVec.lowerBound; exact (List.takeWhile_prefix _).length_le
  have e : v.insertIdx (SVec.lowerBound v i) (i, b) =
      v.takeWhile (fun p => decide (p.1 < i)) ++ (i, b) :: v.dropWhile (fun p => decide (p.1 < i)) := by
    rw [← h2, ← h3]
    exact insertIdx_split v hle _
  have hd : ∀ p ∈ v.dropWhile (fun p => decide (p.1 < i)), i < p.1 := by
    intro p hp
    have := mem_dropWhile_ge hv p hp
    have := h p ((List.dropWhile_sublist _).subset hp)
    omega
  rw [e]
  refine ⟨hle, ?_, ?_, ?_, ?_⟩
  · unfold Sorted
    rw [List.pairwise_append]
    refine ⟨sorted_takeWhile hv _, List.pairwise_cons.2 ⟨hd, sorted_dropWhile hv _⟩, ?_⟩
    intro p hp q hq
    have hp' := mem_takeWhile_lt p hp
    rcases List.mem_cons.1 hq with rfl | hq
    · exact hp'
    · have := hd q hq; omega
  · intro k
    rw [coef_append, coef_cons', coef_takeWhile_lt hv, coef_dropWhile_lt hv]
    have h0 : coef v i = 0 := coef_eq_zero_of_notMem h
    rcases lt_trichotomy k i with hk | hk | hk
    · simp [hk, show ¬ i = k by omega, show ¬ i ≤ k by omega, show ¬ k = i by omega]
    · subst hk; simp [h0]
    · simp [show ¬ k < i by omega, show ¬ i = k by omega, show i ≤ k by omega, show ¬ k = i by omega]
  · intro p hp
    rw [List.mem_append, List.mem_cons] at hp
    rcases hp with hp | hp | hp
    · exact Or.inr ((List.takeWhile_sublist _).subset hp)
    · exact Or.inl hp
    · exact Or.inr ((List.dropWhile_sublist _).subset hp)
  · rw [List.length_append, List.length_cons]
    have := congrArg List.length (List.takeWhile_append_dropWhile (p := fun p : Nat × F => decide (p.1 < i)) (l := v))
    rw [List.length_append] at this; omega

theorem lowerBound_fst {u v : SVec F} (h : u.map Prod.fst = v.map Prod.fst) (i : Nat) : SVec.lowerBound u i = SVec.lowerBound v i := by
  unfold SVec.lowerBound
  induction u generalizing v with
  | nil => cases v with
    | nil => rfl
    | cons q v => simp at h
  | cons p u ih => cases v with
    | nil => simp at h
    | cons q v =>
      simp only [List.map_cons, List.cons.injEq] at h
      by_cases hp : p.1 < i
      · rw [List.takeWhile_cons_of_pos (by simpa using hp), List.takeWhile_cons_of_pos (by rw [← h.1]; simpa using hp), List.length_cons,
          List.length_cons, ih h.2]
      · rw [List.takeWhile_cons_of_neg (by simpa using hp), List.takeWhile_cons_of_neg (by rw [← h.1]; simpa using hp)]

theorem mem_fst_of_eq {u v : SVec F} (h : u.map Prod.fst = v.map Prod.fst) (i : Nat) : (∃ a, (i, a) ∈ u) ↔ ∃ a, (i, a) ∈ v := by
  have e : ∀ w : SVec F, (∃ a, (i, a) ∈ w) ↔ i ∈ w.map Prod.fst := by intro w; simp
  rw [e, e, h]

/-! ### swapping two rows -/

theorem swapRows_spec {v : SVec F} (hv : VecOK v) (i j : Nat) :
    VecOK (SVec.swapRows i j v) ∧
    (∀ k, coef (SVec.swapRows i j v) k = coef v (if k = i then j else if k = j then i else k)) ∧
    ∀ m, i < m → j < m → Below m v → Below m (SVec.swapRows i j v) := by
  have hone : ∀ (i j : Nat) (a : F), (i, a) ∈ v → (∀ p ∈ v, p.1 ≠ j) →
      VecOK (SVec.sort (v.map (fun p => if p.1 = i then (j, p.2) else p))) ∧
      (∀ k, coef (SVec.sort (v.map (fun p => if p.1 = i then (j, p.2) else p))) k =
        coef v (if k = i then j else if k = j then i else k)) ∧
      ∀ m, i < m → j < m → Below m v → Below m (SVec.sort (v.map (fun p => if p.1 = i then (j, p.2) else p))) := by
    intro i j a hi hj
    have hij : i ≠ j := hj _ hi
    have e : v.map (fun p => if p.1 = i then (j, p.2) else p) =
        v.map (fun p => ((fun x => if x = i then j else x) p.1, p.2)) := by
      apply List.map_congr_left
      intro p _
      show (if p.1 = i then (j, p.2) else p) = ((if p.1 = i then j else p.1), p.2)
      by_cases h : p.1 = i
      · rw [if_pos h, if_pos h]
      · rw [if_neg h, if_neg h]
    rw [e]
    refine ⟨vecOK_sort_map hv (fun x => if x = i then j else x) ?_, ?_, ?_⟩
    · intro p hp q hq h
      have h1 := hj p hp; have h2 := hj q hq
      have h : (if p.1 = i then j else p.1) = (if q.1 = i then j else q.1) := h
      split at h <;> split at h <;> omega
    · intro k
      rw [coef_sort]
      by_cases hk : k = i
      · subst hk
        rw [if_pos rfl, coef_eq_zero_of_notMem hj]
        apply coef_eq_zero_of_notMem
        intro p hp
        obtain ⟨q, hq, rfl⟩ := List.mem_map.1 hp
        show (if q.1 = k then j else q.1) ≠ k
        split <;> omega
      · rw [if_neg hk]
        by_cases hk' : k = j
        · subst hk'
          rw [if_pos rfl]
          have := coef_map_inj (fun x => if x = i then k else x) v i (by
            intro p hp h
            have := hj p hp
            simp only [if_true] at h
            by_contra hne
            rw [if_neg hne] at h; exact this h)
          simpa using this
        · rw [if_neg hk']
          have := coef_map_inj (fun x => if x = i then j else x) v k (by
            intro p hp h
            have h : (if p.1 = i then j else p.1) = (if k = i then j else k) := h
            rw [if_neg hk] at h
            split at h
            · omega
            · exact h)
          simpa [hk] using this
    · intro m h1 h2 hb
      apply below_sort
      intro p hp
      obtain ⟨q, hq, rfl⟩ := List.mem_map.1 hp
      show (if q.1 = i then j else q.1) < m
      split
      · exact h2
      · exact hb q hq
  unfold SVec.swapRows
  cases hi : SVec.find v i with
  | none =>
    have hi0 := (find_none hv.1 i).1 hi
    cases hj : SVec.find v j with
    | none =>
      have hj0 := (find_none hv.1 j).1 hj
      refine ⟨hv, ?_, fun m _ _ h => h⟩
      intro k
      show coef v k = _
      by_cases h : k = i
      · rw [if_pos h, h, coef_eq_zero_of_notMem hi0, coef_eq_zero_of_notMem hj0]
      · rw [if_neg h]
        by_cases h : k = j
        · rw [if_pos h, h, coef_eq_zero_of_notMem hi0, coef_eq_zero_of_notMem hj0]
        · rw [if_neg h]
    | some b =>
      obtain ⟨h1, h2, h3⟩ := hone j i b ((find_spec hv.1 j b).1 hj) hi0
      refine ⟨h1, ?_, fun m a b => h3 m b a⟩
      intro k
      refine (h2 k).trans ?_
      congr 1
      by_cases h : k = i <;> by_cases h' : k = j <;> simp [h, h'] <;> omega
  | some a =>
    have hi1 := (find_spec hv.1 i a).1 hi
    cases hj : SVec.find v j with
    | none => exact hone i j a hi1 ((find_none hv.1 j).1 hj)
    | some b =>
      have hj1 := (find_spec hv.1 j b).1 hj
      have ha : a ≠ 0 := hv.2 _ hi1
      have hb : b ≠ 0 := hv.2 _ hj1
      have hok := vecOK_putVal hv i hb
      obtain ⟨c, hc⟩ := (mem_fst_of_eq (putVal_fst v i b) j).2 ⟨b, hj1⟩
      refine ⟨vecOK_putVal hok j ha, ?_, fun m _ _ h => below_putVal (below_putVal h i b) j a⟩
      intro k
      rw [coef_putVal hok.1 hc, coef_putVal hv.1 hi1]
      by_cases hkj : k = j
      · subst hkj
        rw [if_pos rfl]
        by_cases hki : k = i
        · rw [if_pos hki, hki, coef_of_mem hv.1 hi1]
        · rw [if_neg hki, if_pos rfl, coef_of_mem hv.1 hi1]
      · rw [if_neg hkj]
        by_cases hki : k = i
        · rw [if_pos hki, if_pos hki, coef_of_mem hv.1 hj1]
        · rw [if_neg hki, if_neg hki, if_neg hkj]

/-! ### scaling one entry -/

theorem scaleEntry_spec {v : SVec F} (hv : VecOK v) (i : Nat) (c : F) :
    VecOK (SVec.scaleEntry i c v) ∧ (∀ k, coef (SVec.scaleEntry i c v) k = if k = i then c * coef v i else coef v k) ∧
    ∀ m, Below m v → Below m (SVec.scaleEntry i c v) := by
  unfold SVec.scaleEntry
  cases hi : SVec.find v i with
  | none =>
    refine ⟨hv, ?_, fun m h => h⟩
    intro k
    show coef v k = _
    by_cases h : k = i
    · rw [if_pos h, h, find_none_coef hv.1 hi, mul_zero]
    · rw [if_neg h]
  | some a =>
    have hi1 := (find_spec hv.1 i a).1 hi
    by_cases hc : c = 0
    · simp only [hc, if_true]
      refine ⟨vecOK_filter hv _, ?_, fun m h => below_sublist List.filter_sublist h⟩
      intro k
      rw [coef_filter_ne]
      split <;> simp
    · simp only [hc, if_false]
      refine ⟨vecOK_putVal hv i (mul_ne_zero hc (hv.2 _ hi1)), ?_, fun m h => below_putVal h i _⟩
      intro k
      rw [coef_putVal hv.1 hi1, coef_of_mem hv.1 hi1]

/-! ### erasing rows -/

theorem eraseLastRow_spec {v : SVec F} (hv : VecOK v) {i : Nat} (hb : Below (i + 1) v) :
    VecOK (SVec.eraseLastRow i v) ∧ Below i (SVec.eraseLastRow i v) ∧
    ∀ k, coef (SVec.eraseLastRow i v) k = if k = i then 0 else coef v k := by
  unfold SVec.eraseLastRow
  rcases List.eq_nil_or_concat v with rfl | ⟨u, p, rfl⟩
  · refine ⟨vecOK_nil, below_nil _, by simp⟩
  · rw [List.concat_eq_append] at hv hb ⊢
    rw [List.getLast?_append_of_ne_nil _ (by simp)]
    simp only [List.getLast?_singleton]
    have hs := List.pairwise_append.1 hv.1
    have hu : ∀ q ∈ u, q.1 < p.1 := fun q hq => hs.2.2 q hq p (by simp)
    have hp : p.1 < i + 1 := hb p (by simp)
    by_cases h : i = p.1
    · rw [if_pos h, List.dropLast_concat]
      refine ⟨⟨hs.1, fun q hq => hv.2 q (by simp [hq])⟩, fun q hq => by rw [h]; exact hu q hq, ?_⟩
      intro k
      rw [coef_append]
      split
      · rename_i hk
        rw [coef_eq_zero_of_notMem]
        intro q hq; have := hu q hq; omega
      · rename_i hk
        rw [coef_cons', if_neg (by omega)]; simp
    · rw [if_neg h]
      have hbi : Below i (u ++ [p]) := by
        intro q hq
        rcases List.mem_append.1 hq with hq | hq
        · have := hu q hq; omega
        · rw [List.mem_singleton] at hq; subst hq; omega
      refine ⟨hv, hbi, ?_⟩
      intro k
      split
      · rename_i hk; subst hk; exact hbi.coef_eq_zero (Nat.le_refl _)
      · rfl

theorem eraseRowsAfter_eq {v : SVec F} (hv : Sorted v) (m : Nat) :
    SVec.eraseRowsAfter m v = v.takeWhile (fun p => decide (p.1 < m + 1)) := by
  unfold SVec.eraseRowsAfter
  induction v using List.reverseRecOn with
  | nil => rfl
  | append_singleton u p ih =>
    have hs := List.pairwise_append.1 hv
    have hu : ∀ q ∈ u, q.1 < p.1 := fun q hq => hs.2.2 q hq p (by simp)
    rw [List.reverse_append, List.reverse_singleton, List.singleton_append]
    by_cases h : p.1 > m
    · rw [List.dropWhile_cons_of_pos (by simpa using h), ih hs.1, List.takeWhile_append]
      split
      · rename_i hl
        rw [List.takeWhile_cons_of_neg (by simp; omega), List.append_nil]
        exact (List.takeWhile_prefix _).eq_of_length (by omega)
      · rfl
    · rw [List.dropWhile_cons_of_neg (by simpa using h), List.reverse_cons, List.reverse_reverse]
      rw [List.takeWhile_append_of_pos (by intro q hq; have := hu q hq; simp; omega),
        List.takeWhile_cons_of_pos (by simp; omega)]
      rfl

theorem eraseRowsAfter_spec {v : SVec F} (hv : VecOK v) (m : Nat) :
    VecOK (SVec.eraseRowsAfter m v) ∧ Below (m + 1) (SVec.eraseRowsAfter m v) ∧
    ∀ k, coef (SVec.eraseRowsAfter m v) k = if k ≤ m then coef v k else 0 := by
  rw [eraseRowsAfter_eq hv.1]
  refine ⟨⟨sorted_takeWhile hv.1 _, noZero_sublist (List.takeWhile_sublist _) hv.2⟩, fun p hp => mem_takeWhile_lt p hp, ?_⟩
  intro k
  rw [coef_takeWhile_lt hv.1]
  simp only [Nat.lt_succ_iff]

theorem eraseInitialRows_spec {v : SVec F} (hv : VecOK v) (nd : Nat) :
    VecOK (SVec.eraseInitialRows nd v) ∧ (∀ k, coef (SVec.eraseInitialRows nd v) k = coef v (k + nd)) ∧
    ∀ m, Below m v → Below (m - nd) (SVec.eraseInitialRows nd v) := by
  unfold SVec.eraseInitialRows
  have hge : ∀ p ∈ v.dropWhile (fun p => decide (p.1 < nd)), nd ≤ p.1 := fun p hp => mem_dropWhile_ge hv.1 p hp
  refine ⟨⟨?_, ?_⟩, ?_, ?_⟩
  · unfold Sorted
    rw [List.pairwise_map]
    apply (sorted_dropWhile hv.1 _).imp_of_mem
    intro p q hp hq h
    have := hge p hp; have := hge q hq
    dsimp only; omega
  · intro p hp
    obtain ⟨q, hq, rfl⟩ := List.mem_map.1 hp
    exact hv.2 q ((List.dropWhile_sublist _).subset hq)
  · intro k
    rw [coef_map_sub hge, coef_dropWhile_lt hv.1]
    simp
  · intro m hb p hp
    obtain ⟨q, hq, rfl⟩ := List.mem_map.1 hp
    have := hge q hq
    have := hb q ((List.dropWhile_sublist _).subset hq)
    dsimp only; omega

theorem eraseForMatrix_ok {v : SVec F} (hv : VecOK v) (i : Nat) :
    VecOK (SVec.eraseForMatrix i v) ∧ ∀ m, i < m → Below m v → Below (m - 1) (SVec.eraseForMatrix i v) := by
  have e : ∃ B : SVec F, SVec.eraseForMatrix i v = v.takeWhile (fun p => decide (p.1 < i)) ++ B.map (fun q => (q.1 - 1, q.2)) ∧
      B.Sublist v ∧ (∀ p ∈ B, i < p.1) := by
    unfold SVec.eraseForMatrix
    have hge : ∀ p ∈ v.dropWhile (fun p => decide (p.1 < i)), i ≤ p.1 := fun p hp => mem_dropWhile_ge hv.1 p hp
    have hso := sorted_dropWhile hv.1 (fun p => decide (p.1 < i))
    have hsub : (v.dropWhile (fun p => decide (p.1 < i))).Sublist v := List.dropWhile_sublist _
    revert hge hso hsub
    generalize v.dropWhile (fun p => decide (p.1 < i)) = w
    intro hge hso hsub
    cases w with
    | nil => exact ⟨[], by simp, by simp, by simp⟩
    | cons p post =>
      dsimp only
      by_cases h : p.1 = i
      · rw [if_pos h]
        refine ⟨post, rfl, (List.sublist_cons_self _ _).trans hsub, ?_⟩
        intro q hq; have := hso.head q hq; omega
      · rw [if_neg h]
        refine ⟨p :: post, rfl, hsub, ?_⟩
        intro q hq
        have := hge p (by simp)
        rcases List.mem_cons.1 hq with rfl | hq
        · omega
        · have := hso.head q hq; omega
  obtain ⟨B, e, hsub, hB⟩ := e
  rw [e]
  refine ⟨⟨?_, ?_⟩, ?_⟩
  · unfold Sorted
    rw [List.pairwise_append, List.pairwise_map]
    refine ⟨sorted_takeWhile hv.1 _, ?_, ?_⟩
    · apply (List.Pairwise.sublist hsub hv.1).imp_of_mem
      intro p q hp hq h
      have := hB p hp; have := hB q hq
      dsimp only; omega
    · intro p hp q hq
      obtain ⟨r, hr, rfl⟩ := List.mem_map.1 hq
      have := mem_takeWhile_lt p hp
      have := hB r hr
      dsimp only; omega
  · intro p hp
    rcases List.mem_append.1 hp with hp | hp
    · exact hv.2 p ((List.takeWhile_sublist _).subset hp)
    · obtain ⟨r, hr, rfl⟩ := List.mem_map.1 hp
      exact hv.2 r (hsub.subset hr)
  · intro m hm hb p hp
    rcases List.mem_append.1 hp with hp | hp
    · have := mem_takeWhile_lt p hp; omega
    · obtain ⟨r, hr, rfl⟩ := List.mem_map.1 hp
      have := hb r (hsub.subset hr)
      have := hB r hr
      dsimp only; omega

end BATS
