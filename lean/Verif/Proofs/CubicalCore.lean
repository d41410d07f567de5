import Verif.Spec.Cubical
import Verif.Proofs.Simplicial
import Verif.Proofs.CSC

set_option linter.unusedSectionVars false
set_option linter.unusedVariables false
set_option linter.unusedSimpArgs false

/-! # Combinatorics of elementary cubes -/

namespace BATS
namespace Cub
open Reduction

/-- a list of intervals -/
def ValidP : List Nat → Prop
  | a :: b :: s => (b = a ∨ b = a + 1) ∧ ValidP s
  | [_] => False
  | [] => True

/-- faces of `pre ++ s` that change an interval of `s`, with signs, in the order of the loop -/
def facesOf (pre : List Nat) (c : Int) : List Nat → List (List Nat × Int)
  | a :: b :: s => if a = b then facesOf (pre ++ [a] ++ [b]) c s
      else (pre ++ b :: b :: s, c) :: (pre ++ a :: a :: s, -c) :: facesOf (pre ++ [a] ++ [b]) (-c) s
  | _ => []

/-- signed faces of a cube -/
abbrev faces1 (s : List Nat) : List (List Nat × Int) := facesOf [] 1 s

theorem facesOf_eq : ∀ (s pre : List Nat) (c : Int), facesOf pre c s = (faces1 s).map (fun p => (pre ++ p.1, c * p.2))
  | [], pre, c => rfl
  | [_], pre, c => rfl
  | a :: b :: s, pre, c => by
    unfold facesOf
    have h1 := fun c' => facesOf_eq s (pre ++ [a] ++ [b]) c'
    have h2 := fun c' => facesOf_eq s ([] ++ [a] ++ [b]) c'
    split
    · rw [h1, h2, List.map_map]
      apply List.map_congr_left
      intro p _
      simp
    · rw [h1, h2]
      simp only [List.map_cons, List.map_map, List.nil_append, mul_one, mul_neg, List.cons.injEq, true_and]
      apply List.map_congr_left
      intro p _
      simp

theorem faces1_same (a : Nat) (s : List Nat) : faces1 (a :: a :: s) = (faces1 s).map (fun p => (a :: a :: p.1, p.2)) := by
  show (if a = a then facesOf ([] ++ [a] ++ [a]) 1 s
      else ([] ++ a :: a :: s, (1 : Int)) :: ([] ++ a :: a :: s, -1) :: facesOf ([] ++ [a] ++ [a]) (-1) s) = _
  rw [if_pos rfl, facesOf_eq]
  apply List.map_congr_left
  intro p _
  simp

theorem faces1_ne {a b : Nat} (h : a ≠ b) (s : List Nat) : faces1 (a :: b :: s) =
    (b :: b :: s, 1) :: (a :: a :: s, -1) :: (faces1 s).map (fun p => (a :: b :: p.1, - p.2)) := by
  show (if a = b then facesOf ([] ++ [a] ++ [b]) 1 s
      else ([] ++ b :: b :: s, (1 : Int)) :: ([] ++ a :: a :: s, -1) :: facesOf ([] ++ [a] ++ [b]) (-1) s) = _
  rw [if_neg h, facesOf_eq]
  simp only [List.nil_append, List.cons.injEq, true_and]
  apply List.map_congr_left
  intro p _
  simp

theorem cubeDim_same (a : Nat) (s : List Nat) : cubeDim (a :: a :: s) = cubeDim s := by simp [cubeDim]
theorem cubeDim_succ (a : Nat) (s : List Nat) : cubeDim (a :: (a + 1) :: s) = cubeDim s + 1 := by simp [cubeDim]; omega

theorem faces1_len : ∀ (s : List Nat), ∀ p ∈ faces1 s, p.1.length = s.length
  | [], p, h => by simp [facesOf] at h
  | [_], p, h => by simp [facesOf] at h
  | a :: b :: s, p, h => by
    by_cases hab : a = b
    · subst hab
      rw [faces1_same, List.mem_map] at h
      obtain ⟨q, hq, rfl⟩ := h
      simp [faces1_len s q hq]
    · rw [faces1_ne hab] at h
      simp only [List.mem_cons, List.mem_map] at h
      rcases h with rfl | rfl | ⟨q, hq, rfl⟩
      · rfl
      · rfl
      · simp [faces1_len s q hq]

theorem faces1_valid : ∀ (s : List Nat), ValidP s → ∀ p ∈ faces1 s, ValidP p.1 ∧ cubeDim p.1 + 1 = cubeDim s
  | [], _, p, h => by simp [facesOf] at h
  | [_], hv, p, h => hv.elim
  | a :: b :: s, hv, p, h => by
    obtain ⟨h1, h2⟩ := hv
    by_cases hab : a = b
    · subst hab
      rw [faces1_same, List.mem_map] at h
      obtain ⟨q, hq, rfl⟩ := h
      have := faces1_valid s h2 q hq
      exact ⟨⟨Or.inl rfl, this.1⟩, by rw [cubeDim_same, cubeDim_same]; exact this.2⟩
    · have hb : b = a + 1 := by rcases h1 with h1 | h1 <;> omega
      subst hb
      rw [faces1_ne hab] at h
      simp only [List.mem_cons, List.mem_map] at h
      rcases h with rfl | rfl | ⟨q, hq, rfl⟩
      · exact ⟨⟨Or.inl rfl, h2⟩, by rw [cubeDim_same, cubeDim_succ]⟩
      · exact ⟨⟨Or.inl rfl, h2⟩, by rw [cubeDim_same, cubeDim_succ]⟩
      · have := faces1_valid s h2 q hq
        exact ⟨⟨Or.inr rfl, this.1⟩, by rw [cubeDim_succ, cubeDim_succ]; omega⟩

theorem faces1_count : ∀ (s : List Nat), ValidP s → (faces1 s).length = 2 * cubeDim s
  | [], _ => rfl
  | [_], hv => hv.elim
  | a :: b :: s, hv => by
    obtain ⟨h1, h2⟩ := hv
    by_cases hab : a = b
    · subst hab
      rw [faces1_same, List.length_map, cubeDim_same, faces1_count s h2]
    · have hb : b = a + 1 := by rcases h1 with h1 | h1 <;> omega
      subst hb
      rw [faces1_ne hab, cubeDim_succ]
      simp only [List.length_cons, List.length_map, faces1_count s h2]
      omega

theorem faces1_sign : ∀ (s : List Nat), ∀ p ∈ faces1 s, p.2 = 1 ∨ p.2 = -1
  | [], p, h => by simp [facesOf] at h
  | [_], p, h => by simp [facesOf] at h
  | a :: b :: s, p, h => by
    by_cases hab : a = b
    · subst hab
      rw [faces1_same, List.mem_map] at h
      obtain ⟨q, hq, rfl⟩ := h
      exact faces1_sign s q hq
    · rw [faces1_ne hab] at h
      simp only [List.mem_cons, List.mem_map] at h
      rcases h with rfl | rfl | ⟨q, hq, rfl⟩
      · exact Or.inl rfl
      · exact Or.inr rfl
      · rcases faces1_sign s q hq with h | h
        · right; simp [h]
        · left; simp [h]

theorem faces1_nodup : ∀ (s : List Nat), ((faces1 s).map Prod.fst).Nodup
  | [] => by simp [facesOf]
  | [_] => by simp [facesOf]
  | a :: b :: s => by
    have ih := faces1_nodup s
    have hm : ∀ x y : Nat, ((faces1 s).map (fun p => x :: y :: p.1)).Nodup := by
      intro x y
      have : (faces1 s).map (fun p => x :: y :: p.1) = ((faces1 s).map Prod.fst).map (fun t => x :: y :: t) := by rw [List.map_map]; rfl
      rw [this]
      exact ih.map (fun u v h => by simpa using h)
    by_cases hab : a = b
    · subst hab
      rw [faces1_same, List.map_map]
      exact hm a a
    · rw [faces1_ne hab]
      simp only [List.map_cons, List.map_map, List.nodup_cons, List.mem_cons, List.mem_map, Function.comp_apply, not_or, not_exists, not_and]
      refine ⟨⟨?_, ?_⟩, ?_, hm a b⟩
      · intro h; simp at h; exact hab h.symm
      · intro q _ h; simp at h; exact hab h.1
      · intro q _ h; simp at h; exact hab h.1.symm

/-- pairing of the boundary of `s` with a function -/
def pair {R : Type} [Ring R] (s : List Nat) (g : List Nat → R) : R := ((faces1 s).map (fun p => (p.2 : R) * g p.1)).sum

theorem pair_same {R : Type} [Ring R] (a : Nat) (s : List Nat) (g : List Nat → R) : pair (a :: a :: s) g = pair s (fun t => g (a :: a :: t)) := by
  unfold pair
  rw [faces1_same, List.map_map]; rfl

theorem pair_ne {R : Type} [Ring R] {a b : Nat} (h : a ≠ b) (s : List Nat) (g : List Nat → R) :
    pair (a :: b :: s) g = g (b :: b :: s) - g (a :: a :: s) - pair s (fun t => g (a :: b :: t)) := by
  unfold pair
  rw [faces1_ne h]
  simp only [List.map_cons, List.sum_cons, List.map_map, Int.cast_one, one_mul, Int.cast_neg, neg_mul]
  have : (List.map ((fun p : List Nat × Int => (p.2 : R) * g p.1) ∘ fun p => (a :: b :: p.1, -p.2)) (faces1 s)).sum =
      - (List.map (fun p : List Nat × Int => (p.2 : R) * g (a :: b :: p.1)) (faces1 s)).sum := by
    rw [List.sum_neg, List.map_map]
    congr 1
    apply List.map_congr_left
    intro p _
    simp
  rw [this]
  abel

theorem pair_sub {R : Type} [Ring R] (s : List Nat) (g h : List Nat → R) : pair s (fun t => g t - h t) = pair s g - pair s h := by
  unfold pair
  generalize faces1 s = l
  induction l with
  | nil => simp
  | cons p l ih => simp only [List.map_cons, List.sum_cons]; rw [ih, mul_sub]; abel

theorem pair_congr {R : Type} [Ring R] {s : List Nat} {g h : List Nat → R} (e : ∀ p ∈ faces1 s, g p.1 = h p.1) : pair s g = pair s h := by
  unfold pair
  congr 1
  apply List.map_congr_left
  intro p hp
  rw [e p hp]

/-- the boundary of the boundary vanishes -/
theorem pair_pair {R : Type} [Ring R] : ∀ (s : List Nat) (g : List Nat → R), pair s (fun t => pair t g) = 0
  | [], g => rfl
  | [_], g => rfl
  | a :: b :: s, g => by
    by_cases hab : a = b
    · subst hab
      rw [pair_same]
      simp only [pair_same]
      exact pair_pair s _
    · rw [pair_ne hab, pair_same, pair_same]
      simp only [pair_ne hab]
      rw [pair_sub, pair_sub, pair_pair s]
      abel

/-! ### the loops -/

theorem rd_pre {α : Type} (pre : List α) (a : α) (s : List α) : rd (pre ++ a :: s) pre.length = .ok a := by
  apply rd_some; simp

theorem rd_pre1 {α : Type} (pre : List α) (a b : α) (s : List α) : rd (pre ++ a :: b :: s) (pre.length + 1) = .ok b := by
  apply rd_some; rw [List.getElem?_append_right (by omega)]; simp

theorem set_pre {α : Type} (pre : List α) (a b : α) (s : List α) : (pre ++ a :: s).set pre.length b = pre ++ b :: s := by
  rw [List.set_append_right _ _ le_rfl]; simp

theorem set_pre1 {α : Type} (pre : List α) (a b c : α) (s : List α) : (pre ++ a :: b :: s).set (pre.length + 1) c = pre ++ a :: c :: s := by
  rw [List.set_append_right _ _ (by omega)]; simp

/-! ### relation to the specification -/

theorem lo_cons (a b : Nat) (s : List Nat) (i : Nat) : lo (a :: b :: s) (i + 1) = lo s i := by
  unfold lo; rw [show 2 * (i + 1) = 2 * i + 1 + 1 by ring]; rfl
theorem hi_cons (a b : Nat) (s : List Nat) (i : Nat) : hi (a :: b :: s) (i + 1) = hi s i := by
  unfold hi; rw [show 2 * (i + 1) + 1 = 2 * i + 1 + 1 + 1 by ring]; rfl
theorem lo_zero (a b : Nat) (s : List Nat) : lo (a :: b :: s) 0 = a := rfl
theorem hi_zero (a b : Nat) (s : List Nat) : hi (a :: b :: s) 0 = b := rfl

theorem isCube_cons {D a b : Nat} {s : List Nat} : IsCube (D + 1) (a :: b :: s) ↔ (b = a ∨ b = a + 1) ∧ IsCube D s := by
  unfold IsCube
  constructor
  · rintro ⟨h1, h2⟩
    refine ⟨h2 0 (by omega), by simp at h1; omega, ?_⟩
    intro i hi
    have := h2 (i + 1) (by omega)
    rw [lo_cons, hi_cons] at this; exact this
  · rintro ⟨h1, h2, h3⟩
    refine ⟨by simp [h2]; omega, ?_⟩
    intro i hi
    cases i with
    | zero => exact h1
    | succ i => rw [lo_cons, hi_cons]; exact h3 i (by omega)

theorem isCube_split {D : Nat} {s : List Nat} (h : s.length = 2 * (D + 1)) : ∃ a b t, s = a :: b :: t := by
  match s, h with
  | a :: b :: t, _ => exact ⟨a, b, t, rfl⟩
  | [_], h => simp at h; omega
  | [], h => simp at h

theorem isCube_iff : ∀ {D : Nat} {s : List Nat}, IsCube D s ↔ s.length = 2 * D ∧ ValidP s
  | 0, s => by
    unfold IsCube
    constructor
    · rintro ⟨h1, _⟩
      have : s = [] := by simpa using h1
      subst this; exact ⟨h1, trivial⟩
    · rintro ⟨h1, _⟩; exact ⟨h1, by intro i hi; omega⟩
  | D + 1, s => by
    constructor
    · intro h
      obtain ⟨a, b, t, rfl⟩ := isCube_split h.1
      rw [isCube_cons] at h
      exact ⟨by simp [h.2.1]; omega, h.1, (isCube_iff.1 h.2).2⟩
    · rintro ⟨h1, h2⟩
      obtain ⟨a, b, t, rfl⟩ := isCube_split h1
      rw [isCube_cons]
      exact ⟨h2.1, isCube_iff.2 ⟨by simp at h1; omega, h2.2⟩⟩

theorem dirs_cons (D a b : Nat) (s : List Nat) : dirs (D + 1) (a :: b :: s) =
    (if a = b then ∅ else {0}) ∪ (dirs D s).map ⟨Nat.succ, Nat.succ_injective⟩ := by
  ext i
  simp only [dirs, Finset.mem_filter, Finset.mem_range, Finset.mem_union, Finset.mem_map, Function.Embedding.coeFn_mk]
  cases i with
  | zero =>
    rw [lo_zero, hi_zero]
    by_cases h : a = b <;> simp [h]
  | succ i =>
    rw [lo_cons, hi_cons]
    by_cases h : a = b <;> simp [h]

theorem card_dirs_cons (D a b : Nat) (s : List Nat) : (dirs (D + 1) (a :: b :: s)).card = (if a = b then 0 else 1) + (dirs D s).card := by
  rw [dirs_cons, Finset.card_union_of_disjoint, Finset.card_map]
  · split <;> simp
  · split
    · simp
    · simp

theorem cubeDimension_eq : ∀ {D : Nat} {s : List Nat}, IsCube D s → cubeDimension D s = cubeDim s
  | 0, s, h => by
    have : s = [] := by simpa [IsCube] using h.1
    subst this; rfl
  | D + 1, s, h => by
    obtain ⟨a, b, t, rfl⟩ := isCube_split h.1
    rw [isCube_cons] at h
    have ih := cubeDimension_eq h.2
    unfold cubeDimension at ih ⊢
    rw [card_dirs_cons, ih]
    rcases h.1 with rfl | rfl
    · rw [cubeDim_same]; simp
    · rw [cubeDim_succ, if_neg (by omega)]; omega

theorem cubeDim_le {D : Nat} {s : List Nat} (h : IsCube D s) : cubeDim s ≤ D := by
  rw [← cubeDimension_eq h]
  unfold cubeDimension dirs
  exact (Finset.card_filter_le _ _).trans (by simp)

theorem upperFace_zero (a b : Nat) (s : List Nat) : upperFace (a :: b :: s) 0 = b :: b :: s := rfl
theorem lowerFace_zero (a b : Nat) (s : List Nat) : lowerFace (a :: b :: s) 0 = a :: a :: s := rfl
theorem upperFace_succ (a b : Nat) (s : List Nat) (i : Nat) : upperFace (a :: b :: s) (i + 1) = a :: b :: upperFace s i := by
  unfold upperFace
  rw [hi_cons, show 2 * (i + 1) = 2 * i + 1 + 1 by ring]; rfl
theorem lowerFace_succ (a b : Nat) (s : List Nat) (i : Nat) : lowerFace (a :: b :: s) (i + 1) = a :: b :: lowerFace s i := by
  unfold lowerFace
  rw [lo_cons, show 2 * (i + 1) + 1 = 2 * i + 1 + 1 + 1 by ring]; rfl

theorem filter_lt_cons (D a b : Nat) (s : List Nat) (i : Nat) : ((dirs (D + 1) (a :: b :: s)).filter (· < i + 1)).card =
    (if a = b then 0 else 1) + ((dirs D s).filter (· < i)).card := by
  rw [dirs_cons, Finset.filter_union, Finset.card_union_of_disjoint]
  · congr 1
    · split
      · simp
      · simp [Finset.filter_singleton]
    · rw [Finset.filter_map, Finset.card_map]
      congr 1
      apply Finset.filter_congr
      intro x _
      simp
  · apply Finset.disjoint_filter_filter
    split
    · simp
    · simp

/-- the pairing as a sum over directions -/
theorem pair_eq_sum {R : Type} [CommRing R] : ∀ {D : Nat} {s : List Nat} (h : s.length = 2 * D) (g : List Nat → R),
    pair s g = ∑ i ∈ dirs D s, (-1) ^ ((dirs D s).filter (· < i)).card * (g (upperFace s i) - g (lowerFace s i))
  | 0, s, h, g => by
    have : s = [] := by simpa using h
    subst this
    simp [pair, facesOf, dirs]
  | D + 1, s, h, g => by
    obtain ⟨a, b, t, rfl⟩ := isCube_split h
    have ht : t.length = 2 * D := by simp at h; omega
    have key : ∑ i ∈ dirs (D + 1) (a :: b :: t), (-1 : R) ^ ((dirs (D + 1) (a :: b :: t)).filter (· < i)).card *
          (g (upperFace (a :: b :: t) i) - g (lowerFace (a :: b :: t) i)) =
        (if a = b then 0 else g (b :: b :: t) - g (a :: a :: t)) +
        ∑ i ∈ dirs D t, (-1 : R) ^ ((if a = b then 0 else 1) + ((dirs D t).filter (· < i)).card) *
          (g (a :: b :: upperFace t i) - g (a :: b :: lowerFace t i)) := by
      conv_lhs => rw [show dirs (D + 1) (a :: b :: t) = dirs (D + 1) (a :: b :: t) from rfl]
      rw [Finset.sum_congr (dirs_cons D a b t) (fun _ _ => rfl), Finset.sum_union]
      · congr 1
        · split
          · simp
          · rw [Finset.sum_singleton]
            simp [upperFace_zero, lowerFace_zero]
        · rw [Finset.sum_map]
          apply Finset.sum_congr rfl
          intro i _
          simp only [Function.Embedding.coeFn_mk, Nat.succ_eq_add_one]
          rw [filter_lt_cons, upperFace_succ, lowerFace_succ]
      · split
        · simp
        · simp
    rw [key]
    by_cases hab : a = b
    · subst hab
      rw [pair_same, pair_eq_sum ht]
      simp
    · rw [pair_ne hab, pair_eq_sum ht]
      simp only [hab, if_false]
      rw [sub_eq_add_neg, ← Finset.sum_neg_distrib]
      congr 1
      apply Finset.sum_congr rfl
      intro i _
      rw [pow_add]; ring

/-- membership in the list of faces -/
theorem mem_faces1 : ∀ {D : Nat} {s : List Nat} (h : s.length = 2 * D) (t : List Nat),
    t ∈ (faces1 s).map Prod.fst ↔ ∃ i ∈ dirs D s, t = upperFace s i ∨ t = lowerFace s i
  | 0, s, h, t => by
    have : s = [] := by simpa using h
    subst this
    simp [facesOf, dirs]
  | D + 1, s, h, t => by
    obtain ⟨a, b, u, rfl⟩ := isCube_split h
    have hu : u.length = 2 * D := by simp at h; omega
    have ih := fun t => mem_faces1 hu t
    simp only [dirs_cons, Finset.mem_union, Finset.mem_map, Function.Embedding.coeFn_mk]
    constructor
    · intro ht
      by_cases hab : a = b
      · subst hab
        rw [faces1_same, List.map_map, List.mem_map] at ht
        obtain ⟨q, hq, rfl⟩ := ht
        obtain ⟨i, hi, e⟩ := (ih q.1).1 (List.mem_map_of_mem hq)
        refine ⟨i + 1, Or.inr ⟨i, hi, rfl⟩, ?_⟩
        rw [upperFace_succ, lowerFace_succ]
        rcases e with e | e
        · left; simp [e]
        · right; simp [e]
      · rw [faces1_ne hab] at ht
        simp only [List.map_cons, List.mem_cons, List.map_map, List.mem_map, Function.comp_apply] at ht
        rcases ht with rfl | rfl | ⟨q, hq, rfl⟩
        · exact ⟨0, Or.inl (by simp [hab]), Or.inl rfl⟩
        · exact ⟨0, Or.inl (by simp [hab]), Or.inr rfl⟩
        · obtain ⟨i, hi, e⟩ := (ih q.1).1 (List.mem_map_of_mem hq)
          refine ⟨i + 1, Or.inr ⟨i, hi, rfl⟩, ?_⟩
          rw [upperFace_succ, lowerFace_succ]
          rcases e with e | e
          · left; simp [e]
          · right; simp [e]
    · rintro ⟨i, hi, ht⟩
      rcases hi with hi | ⟨i, hi, rfl⟩
      · by_cases hab : a = b
        · simp [hab] at hi
        · have : i = 0 := by simpa [hab] using hi
          subst this
          rw [faces1_ne hab]
          rcases ht with rfl | rfl
          · rw [upperFace_zero]; simp
          · rw [lowerFace_zero]; simp
      · have hm := (ih (if t = upperFace (a :: b :: u) (i + 1) then upperFace u i else lowerFace u i)).2 ⟨i, hi, by split <;> simp⟩
        rw [List.mem_map] at hm
        obtain ⟨q, hq, e⟩ := hm
        have ht' : t = a :: b :: q.1 := by
          rw [e]
          simp only [Nat.succ_eq_add_one] at ht
          rcases ht with ht | ht
          · rw [if_pos ht, ht, upperFace_succ]
          · split
            · rename_i h'; rw [h', upperFace_succ]
            · rw [ht, lowerFace_succ]
        rw [ht', List.mem_map]
        by_cases hab : a = b
        · subst hab
          exact ⟨(a :: a :: q.1, q.2), by rw [faces1_same]; exact List.mem_map.2 ⟨q, hq, rfl⟩, rfl⟩
        · refine ⟨(a :: b :: q.1, -q.2), ?_, rfl⟩
          rw [faces1_ne hab]
          exact List.mem_cons_of_mem _ (List.mem_cons_of_mem _ (List.mem_map.2 ⟨q, hq, rfl⟩))

theorem cubeFace_cons {D a b c d : Nat} {s t : List Nat} : CubeFace (D + 1) (c :: d :: t) (a :: b :: s) ↔
    ((d = c ∨ d = c + 1) ∧ a ≤ c ∧ d ≤ b) ∧ CubeFace D t s := by
  unfold CubeFace
  rw [isCube_cons]
  constructor
  · rintro ⟨⟨h1, h2⟩, h3⟩
    refine ⟨⟨h1, h3 0 (by omega)⟩, h2, ?_⟩
    intro i hi
    have := h3 (i + 1) (by omega)
    simpa only [lo_cons, hi_cons] using this
  · rintro ⟨⟨h1, h2⟩, h3, h4⟩
    refine ⟨⟨h1, h3⟩, ?_⟩
    intro i hi
    cases i with
    | zero => exact h2
    | succ i => simpa only [lo_cons, hi_cons] using h4 i (by omega)

/-- the faces of a cube are the cube itself and the faces of its faces of codimension one -/
theorem cubeFace_iff : ∀ {D : Nat} {s t : List Nat}, IsCube D s → (CubeFace D t s ↔ t = s ∨ ∃ p ∈ faces1 s, CubeFace D t p.1)
  | 0, s, t, h => by
    have : s = [] := by simpa [IsCube] using h.1
    subst this
    simp only [CubeFace, IsCube, facesOf]
    constructor
    · rintro ⟨⟨h1, _⟩, _⟩; left; simpa using h1
    · rintro (rfl | ⟨p, hp, _⟩)
      · simp
      · simp at hp
  | D + 1, s, t, h => by
    obtain ⟨a, b, s, rfl⟩ := isCube_split h.1
    rw [isCube_cons] at h
    obtain ⟨h1, h2⟩ := h
    constructor
    · intro ht
      obtain ⟨c, d, t, rfl⟩ := isCube_split ht.1.1
      rw [cubeFace_cons] at ht
      obtain ⟨⟨h3, h4, h5⟩, h6⟩ := ht
      rcases (cubeFace_iff h2).1 h6 with rfl | ⟨p, hp, hp'⟩
      · by_cases hab : a = b
        · left; simp; omega
        · by_cases hcd : c = d
          · subst hcd
            right
            rw [faces1_ne hab]
            have hcab : c = a ∨ c = b := by omega
            rcases hcab with rfl | rfl
            · exact ⟨(c :: c :: t, -1), by simp, cubeFace_cons.2 ⟨by omega, h6⟩⟩
            · exact ⟨(c :: c :: t, 1), by simp, cubeFace_cons.2 ⟨by omega, h6⟩⟩
          · left; simp; omega
      · right
        by_cases hab : a = b
        · subst hab
          exact ⟨(a :: a :: p.1, p.2), by rw [faces1_same]; exact List.mem_map.2 ⟨p, hp, rfl⟩, cubeFace_cons.2 ⟨⟨h3, h4, h5⟩, hp'⟩⟩
        · refine ⟨(a :: b :: p.1, -p.2), ?_, cubeFace_cons.2 ⟨⟨h3, h4, h5⟩, hp'⟩⟩
          rw [faces1_ne hab]
          exact List.mem_cons_of_mem _ (List.mem_cons_of_mem _ (List.mem_map.2 ⟨p, hp, rfl⟩))
    · rintro (rfl | ⟨p, hp, hp'⟩)
      · refine ⟨isCube_cons.2 ⟨h1, h2⟩, fun i _ => ⟨le_rfl, le_rfl⟩⟩
      · obtain ⟨c, d, t, rfl⟩ := isCube_split hp'.1.1
        by_cases hab : a = b
        · subst hab
          rw [faces1_same, List.mem_map] at hp
          obtain ⟨q, hq, rfl⟩ := hp
          rw [cubeFace_cons] at hp' ⊢
          exact ⟨hp'.1, (cubeFace_iff h2).2 (Or.inr ⟨q, hq, hp'.2⟩)⟩
        · rw [faces1_ne hab] at hp
          simp only [List.mem_cons, List.mem_map] at hp
          rcases hp with rfl | rfl | ⟨q, hq, rfl⟩
          · rw [cubeFace_cons] at hp' ⊢
            exact ⟨by omega, hp'.2⟩
          · rw [cubeFace_cons] at hp' ⊢
            exact ⟨by omega, hp'.2⟩
          · rw [cubeFace_cons] at hp' ⊢
            exact ⟨hp'.1, (cubeFace_iff h2).2 (Or.inr ⟨q, hq, hp'.2⟩)⟩

theorem cubeFace_refl {D : Nat} {s : List Nat} (h : IsCube D s) : CubeFace D s s := ⟨h, fun _ _ => ⟨le_rfl, le_rfl⟩⟩

theorem cubeFace_trans {D : Nat} {s t u : List Nat} (h : CubeFace D s t) (h' : CubeFace D t u) : CubeFace D s u :=
  ⟨h.1, fun i hi => ⟨(h'.2 i hi).1.trans (h.2 i hi).1, (h.2 i hi).2.trans (h'.2 i hi).2⟩⟩

theorem validLoop_iff : ∀ {D : Nat} {s : List Nat}, s.length = 2 * D → (validLoop s = true ↔ ValidP s)
  | 0, s, h => by
    have : s = [] := by simpa using h
    subst this; simp [validLoop, ValidP]
  | D + 1, s, h => by
    obtain ⟨a, b, s, rfl⟩ := isCube_split h
    have ih := validLoop_iff (D := D) (s := s) (by simp at h; omega)
    unfold validLoop ValidP
    by_cases hc : b < a ∨ a + 1 < b
    · rw [if_pos (by simpa using hc)]
      constructor
      · intro h; cases h
      · rintro ⟨h1, _⟩; omega
    · rw [if_neg (by simpa using hc), ih]
      constructor
      · intro h; exact ⟨by omega, h⟩
      · exact And.right

theorem isValidCube_iff {X : Cub} {s : List Nat} : X.isValidCube s = true ↔ IsCube X.D s := by
  unfold isValidCube
  rw [isCube_iff]
  by_cases h : s.length = 2 * X.D
  · rw [if_neg (by simpa using h), validLoop_iff h]; simp [h]
  · rw [if_pos h]; simp [h]

end Cub
end BATS
