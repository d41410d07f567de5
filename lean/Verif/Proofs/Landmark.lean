import Verif.Model.Landmark
import Verif.Spec.Landmark
import Verif.Props.Sorted
import Verif.Proofs.Reduction
import Verif.Proofs.Perm

set_option linter.unusedSectionVars false
set_option linter.unusedVariables false
set_option linter.unusedSimpArgs false

/-! # Lemmas for C67: landmarks -/

namespace BATS
namespace Lmk
open Reduction Srt

variable {T : Type} [LinearOrder T]

theorem maxFrom_spec (b : Nat) (v : T) (xs : List T) (i : Nat) (hb : b < i) :
    ∃ p, maxFrom b v xs i = p ∧ ((p = (b, v)) ∨ (i ≤ p.1 ∧ xs[p.1 - i]? = some p.2 ∧ v < p.2 ∧ ∀ j, i ≤ j → j < p.1 → ∀ x, xs[j - i]? = some x → x < p.2)) ∧
      v ≤ p.2 ∧ ∀ x ∈ xs, x ≤ p.2 := by
  induction xs generalizing b v i with
  | nil => exact ⟨_, rfl, Or.inl rfl, le_refl _, by simp⟩
  | cons y ys ih =>
    rw [maxFrom]
    by_cases h : v < y
    · rw [if_pos h]
      obtain ⟨p, h1, h2, h3, h4⟩ := ih i y (i + 1) (by omega)
      refine ⟨p, h1, Or.inr ?_, (le_of_lt h).trans h3, ?_⟩
      · rcases h2 with rfl | ⟨q1, q2, q3, q4⟩
        · refine ⟨le_refl _, by simp, h, fun j hj hj' => by simp at hj'; omega⟩
        · refine ⟨by omega, ?_, h.trans q3, ?_⟩
          · have e : p.1 - i = (p.1 - (i + 1)) + 1 := by omega
            rw [e, List.getElem?_cons_succ]; exact q2
          · intro j hj hj' x hx
            by_cases hji : j = i
            · subst hji; simp at hx; subst hx; exact q3
            · have e : j - i = (j - (i + 1)) + 1 := by omega
              rw [e, List.getElem?_cons_succ] at hx
              exact q4 j (by omega) hj' x hx
      · intro x hx
        rcases List.mem_cons.1 hx with rfl | hx
        · exact h3
        · exact h4 x hx
    · rw [if_neg h]
      obtain ⟨p, h1, h2, h3, h4⟩ := ih b v (i + 1) (by omega)
      refine ⟨p, h1, ?_, h3, ?_⟩
      · rcases h2 with h2 | ⟨q1, q2, q3, q4⟩
        · exact Or.inl h2
        · refine Or.inr ⟨by omega, ?_, q3, ?_⟩
          · have e : p.1 - i = (p.1 - (i + 1)) + 1 := by omega
            rw [e, List.getElem?_cons_succ]; exact q2
          · intro j hj hj' x hx
            by_cases hji : j = i
            · subst hji; simp at hx; subst hx; exact lt_of_le_of_lt (not_lt.1 h) q3
            · have e : j - i = (j - (i + 1)) + 1 := by omega
              rw [e, List.getElem?_cons_succ] at hx
              exact q4 j (by omega) hj' x hx
      · intro x hx
        rcases List.mem_cons.1 hx with rfl | hx
        · exact (not_lt.1 h).trans h3
        · exact h4 x hx

/-- `max_element` returns the first position of the largest value -/
theorem maxElement_spec (d : List T) (hd : d ≠ []) :
    ∃ p, maxElement d = .ok p ∧ d[p.1]? = some p.2 ∧ (∀ x ∈ d, x ≤ p.2) ∧ ∀ j, j < p.1 → ∀ x, d[j]? = some x → x < p.2 := by
  cases d with
  | nil => exact absurd rfl hd
  | cons y ys =>
    obtain ⟨p, h1, h2, h3, h4⟩ := maxFrom_spec 0 y ys 1 (by omega)
    refine ⟨p, by rw [maxElement, h1], ?_, ?_, ?_⟩
    · rcases h2 with rfl | ⟨q1, q2, _, _⟩
      · rfl
      · have e : p.1 = (p.1 - 1) + 1 := by omega
        rw [e, List.getElem?_cons_succ]; exact q2
    · intro x hx
      rcases List.mem_cons.1 hx with rfl | hx
      · exact h3
      · exact h4 x hx
    · intro j hj x hx
      rcases h2 with rfl | ⟨q1, q2, q3, q4⟩
      · simp at hj
      · cases j with
        | zero => simp at hx; subst hx; exact q3
        | succ j => rw [List.getElem?_cons_succ] at hx; exact q4 (j + 1) (by omega) hj x (by simpa using hx)

theorem minFrom_eq (b : Nat) (v : T) (xs : List T) (i : Nat) :
    minFrom b v xs i = maxFrom (T := Tᵒᵈ) b v xs i := by
  induction xs generalizing b v i with
  | nil => rfl
  | cons y ys ih =>
    have e : maxFrom (T := Tᵒᵈ) b v (y :: ys) i = if (OrderDual.toDual v) < (OrderDual.toDual y) then maxFrom (T := Tᵒᵈ) i y ys (i + 1)
      else maxFrom (T := Tᵒᵈ) b v ys (i + 1) := rfl
    rw [minFrom]
    refine Eq.trans ?_ e.symm
    by_cases h : y < v
    · rw [if_pos h, if_pos (show (OrderDual.toDual v) < (OrderDual.toDual y) from h)]; exact ih _ _ _
    · rw [if_neg h, if_neg (show ¬ (OrderDual.toDual v) < (OrderDual.toDual y) from h)]; exact ih _ _ _

/-- `min_element` returns the first position of the smallest value -/
theorem minIndex_spec (d : List T) (hd : d ≠ []) :
    ∃ v, d[minIndex d]? = some v ∧ (∀ x ∈ d, v ≤ x) ∧ ∀ j, j < minIndex d → ∀ x, d[j]? = some x → v < x := by
  cases d with
  | nil => exact absurd rfl hd
  | cons y ys =>
    obtain ⟨p, h1, h2, h3, h4⟩ := maxElement_spec (T := Tᵒᵈ) (y :: ys) (by simp)
    have e : minIndex (y :: ys) = p.1 := by
      rw [minIndex, minFrom_eq]
      have h1 : Except.ok (maxFrom (T := Tᵒᵈ) 0 y ys 1) = (Except.ok p : Res (Nat × Tᵒᵈ)) := h1
      injection h1 with h1
      rw [← h1]
    rw [e]
    exact ⟨p.2, h2, h3, h4⟩

theorem updateMin_spec (d di : List T) (h : d.length ≤ di.length) :
    ∃ r, updateMin d di = .ok r ∧ r.length = d.length ∧ ∀ (k : Nat) (x y : T), d[k]? = some x → di[k]? = some y → r[k]? = some (min x y) := by
  induction d generalizing di with
  | nil => exact ⟨[], by rw [updateMin], rfl, by simp⟩
  | cons a d ih =>
    cases di with
    | nil => simp at h
    | cons b di =>
      obtain ⟨r, h1, h2, h3⟩ := ih di (by simpa using h)
      refine ⟨(if a < b then a else b) :: r, by rw [updateMin, h1]; rfl, by simp [h2], ?_⟩
      intro k x y hx hy
      cases k with
      | zero =>
        simp at hx hy; subst hx; subst hy
        simp only [List.getElem?_cons_zero, Option.some.injEq]
        by_cases hab : a < b
        · rw [if_pos hab, min_eq_left (le_of_lt hab)]
        · rw [if_neg hab, min_eq_right (not_lt.1 hab)]
      | succ k => exact h3 k x y (by simpa using hx) (by simpa using hy)

theorem updateMax_eq (d di : List T) : updateMax d di = updateMin (T := Tᵒᵈ) d di := by
  induction d generalizing di with
  | nil => rw [updateMax]; rfl
  | cons a d ih =>
    cases di with
    | nil => rfl
    | cons b di =>
      have e : updateMin (T := Tᵒᵈ) (a :: d) (b :: di) = (do
        let r ← updateMin (T := Tᵒᵈ) d di
        .ok ((if (OrderDual.toDual a) < (OrderDual.toDual b) then a else b) :: r)) := rfl
      rw [updateMax]
      refine Eq.trans ?_ e.symm
      rw [ih]
      rfl

variable [Zero T]

theorem tab_row {rows : List (List T)} (ht : IsTable rows) {i : Nat} (hi : i < rows.length) :
    ∃ row, rows[i]? = some row ∧ row.length = rows.length ∧ ∀ x, x < rows.length → row[x]? = some (tab rows i x) := by
  have hl := ht _ (List.getElem_mem hi)
  refine ⟨rows[i], List.getElem?_eq_getElem hi, hl, ?_⟩
  intro x hx
  unfold tab
  rw [List.getD_eq_getElem?_getD (l := rows), List.getElem?_eq_getElem hi, List.getD_eq_getElem?_getD]
  simp only [Option.getD_some]
  rw [List.getElem?_eq_getElem (by omega)]; rfl

/-- `d` holds the distances to the set `L` -/
def DOK (rows : List (List T)) (L : List Nat) (d : List T) : Prop :=
  d.length = rows.length ∧ ∀ x, x < rows.length → ∃ m, d[x]? = some m ∧ IsDistTo rows L x m

theorem IsDistTo.unique {rows : List (List T)} {L : List Nat} {x : Nat} {a b : T} (h : IsDistTo rows L x a) (h' : IsDistTo rows L x b) : a = b := by
  obtain ⟨⟨l, l1, l2⟩, h2⟩ := h
  obtain ⟨⟨m, m1, m2⟩, h2'⟩ := h'
  exact le_antisymm (by rw [← m2]; exact h2 m m1) (by rw [← l2]; exact h2' l l1)

theorem IsHausdorff.unique {rows : List (List T)} {L : List Nat} {a b : T} (h : IsHausdorff rows L a) (h' : IsHausdorff rows L b) : a = b := by
  obtain ⟨⟨l, l1, l2⟩, h2⟩ := h
  obtain ⟨⟨m, m1, m2⟩, h2'⟩ := h'
  exact le_antisymm (h2' l l1 _ l2) (h2 m m1 _ m2)

theorem dok_init {rows : List (List T)} (ht : IsTable rows) {i : Nat} (hi : i < rows.length) : ∃ d, rd rows i = .ok d ∧ DOK rows [i] d := by
  obtain ⟨row, h1, h2, h3⟩ := tab_row ht hi
  refine ⟨row, by unfold rd; rw [h1], h2, fun x hx => ⟨_, h3 x hx, ⟨i, by simp, rfl⟩, by simp⟩⟩

theorem dok_step {rows : List (List T)} (ht : IsTable rows) {L : List Nat} {d : List T} (hd : DOK rows L d) (hn : 0 < rows.length) :
    ∃ p di d', maxElement d = .ok p ∧ rd rows p.1 = .ok di ∧ updateMin d di = .ok d' ∧ p.1 < rows.length ∧ IsHausdorff rows L p.2 ∧ IsDistTo rows L p.1 p.2 ∧
      (∀ x, x < p.1 → ∀ m, IsDistTo rows L x m → m < p.2) ∧ DOK rows (L ++ [p.1]) d' := by
  obtain ⟨p, h1, h2, h3, h4⟩ := maxElement_spec d (by rintro rfl; have := hd.1; simp at this; omega)
  have hp : p.1 < rows.length := by
    have := (List.getElem?_eq_some_iff.1 h2).1
    rw [hd.1] at this; exact this
  have hpd : IsDistTo rows L p.1 p.2 := by
    obtain ⟨m, e, hm⟩ := hd.2 p.1 hp
    rw [h2] at e; cases e; exact hm
  obtain ⟨di, e1, e2, e3⟩ := tab_row ht hp
  obtain ⟨d', u1, u2, u3⟩ := updateMin_spec d di (by rw [hd.1, e2])
  refine ⟨p, di, d', h1, by unfold rd; rw [e1], u1, hp, ⟨⟨p.1, hp, hpd⟩, ?_⟩, hpd, ?_, u2.trans hd.1, ?_⟩
  · intro x hx m hm
    obtain ⟨m', q1, q2⟩ := hd.2 x hx
    rw [hm.unique q2]
    exact h3 _ (List.mem_of_getElem? q1)
  · intro x hx m hm
    obtain ⟨m', q1, q2⟩ := hd.2 x (by omega)
    rw [hm.unique q2]
    exact h4 x hx _ q1
  · intro x hx
    obtain ⟨m, q1, q2⟩ := hd.2 x hx
    refine ⟨_, u3 x _ _ q1 (e3 x hx), ?_, ?_⟩
    · rcases le_total m (tab rows p.1 x) with h | h
      · rw [min_eq_left h]
        obtain ⟨l, l1, l2⟩ := q2.1
        exact ⟨l, List.mem_append_left _ l1, l2⟩
      · rw [min_eq_right h]
        exact ⟨p.1, by simp, rfl⟩
    · intro l hl
      rcases List.mem_append.1 hl with h | h
      · exact (min_le_left _ _).trans (q2.2 l h)
      · rw [List.mem_singleton.1 h]; exact min_le_right _ _

/-- `is` continues the landmarks `L` greedily, `hs` are the Hausdorff distances before each -/
structure Greedy (rows : List (List T)) (L is : List Nat) (hs : List T) : Prop where
  len : hs.length = is.length
  lt : ∀ i ∈ is, i < rows.length
  hd : ∀ (j : Nat) (h : T), hs[j]? = some h → IsHausdorff rows (L ++ is.take j) h
  far : ∀ (j i : Nat) (h : T), is[j]? = some i → hs[j]? = some h → IsDistTo rows (L ++ is.take j) i h ∧ ∀ x, x < i → ∀ m, IsDistTo rows (L ++ is.take j) x m → m < h

theorem hdLoop_spec {rows : List (List T)} (ht : IsTable rows) (hn : 0 < rows.length) (m : Nat) :
    ∀ (L : List Nat) (d : List T), DOK rows L d → ∃ is hs d', hdLoop rows m d = .ok (is, hs, d') ∧ is.length = m ∧ Greedy rows L is hs ∧ DOK rows (L ++ is) d' := by
  induction m with
  | zero =>
    intro L d hd
    exact ⟨[], [], d, rfl, rfl, ⟨rfl, by simp, by simp, by simp⟩, by simpa using hd⟩
  | succ m ih =>
    intro L d hd
    obtain ⟨p, di, d', h1, h2, h3, h4, h5, h6, h7, h8⟩ := dok_step ht hd hn
    obtain ⟨is, hs, d'', g1, g2, g3, g4⟩ := ih _ _ h8
    refine ⟨p.1 :: is, p.2 :: hs, d'', ?_, by simp [g2], ⟨by simp [g3.len], ?_, ?_, ?_⟩, by rw [List.append_assoc] at g4; exact g4⟩
    · rw [hdLoop, h1]
      show (do
        let di ← rd rows p.1
        let d' ← updateMin d di
        let r ← hdLoop rows m d'
        Except.ok (p.1 :: r.1, p.2 :: r.2.1, r.2.2)) = _
      rw [h2]
      show (do
        let d' ← updateMin d di
        let r ← hdLoop rows m d'
        Except.ok (p.1 :: r.1, p.2 :: r.2.1, r.2.2)) = _
      rw [h3]
      show (do
        let r ← hdLoop rows m d'
        Except.ok (p.1 :: r.1, p.2 :: r.2.1, r.2.2)) = _
      rw [g1]; rfl
    · intro i hi
      rcases List.mem_cons.1 hi with rfl | hi
      · exact h4
      · exact g3.lt i hi
    · intro j h hj
      cases j with
      | zero => simp at hj; subst hj; simpa using h5
      | succ j =>
        have := g3.hd j h (by simpa using hj)
        rw [List.append_assoc] at this
        simpa using this
    · intro j i h hi hj
      cases j with
      | zero => simp at hi hj; subst hi; subst hj; simpa using ⟨h6, h7⟩
      | succ j =>
        have := g3.far j i h (by simpa using hi) (by simpa using hj)
        rw [List.append_assoc] at this
        simpa using this

end Lmk
end BATS
