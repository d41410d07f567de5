import Verif.Model.Trie
import Mathlib.Data.List.Infix

set_option linter.unusedSectionVars false
set_option linter.unusedSimpArgs false

/-! # Lemmas about tries -/

namespace BATS
namespace Trie

variable {T : Type}

theorem lookup_assign (a b : Nat) (t : Trie T) (m : List (Nat × Trie T)) :
    lookup b (assign a t m) = if b = a then some t else lookup b m := by
  induction m with
  | nil => simp only [assign, lookup]; simp only [eq_comm (a := a)]
  | cons p m ih =>
    obtain ⟨c, u⟩ := p
    simp only [assign]
    by_cases hc : c = a
    · subst hc
      simp only [if_true, lookup]
      by_cases h : b = c
      · simp [h]
      · simp [h, Ne.symm h]
    · simp only [hc, if_false, lookup, ih]
      by_cases h : c = b
      · subst h; simp [hc]
      · simp [h]

variable [Zero T]

theorem get?_nil (t : Trie T) : get? [] t = some t.val := rfl

theorem get?_cons (a : Nat) (k : List Nat) (t : Trie T) :
    get? (a :: k) t = ((t.children.getD []) |> lookup a).bind (get? k) := by
  obtain ⟨v, c⟩ := t
  cases c with
  | none => rfl
  | some m =>
    simp only [get?, children, Option.getD_some]
    cases lookup a m <;> rfl

theorem get?_empty (k : List Nat) : get? k (empty : Trie T) = if k = [] then some 0 else none := by
  cases k with
  | nil => rfl
  | cons a k => simp [get?, empty, children]

theorem get?_insert (k : List Nat) (v : T) (t : Trie T) (q : List Nat) :
    get? q (insert k v t) = if q = k then some v else if q <+: k then some ((get? q t).getD 0) else get? q t := by
  induction k generalizing t q with
  | nil =>
    obtain ⟨w, c⟩ := t
    cases q with
    | nil => simp [insert, get?, val]
    | cons b q => simp [insert, get?, children]
  | cons a k ih =>
    obtain ⟨w, c⟩ := t
    cases q with
    | nil => simp [insert, get?, val]
    | cons b q =>
      rw [insert, get?_cons, get?_cons]
      simp only [children, Option.getD_some, lookup_assign]
      by_cases h : b = a
      · subst h
        simp only [if_true, Option.bind_some, ih, List.cons.injEq, true_and, List.cons_prefix_cons]
        cases hl : lookup b (c.getD []) with
        | some u => simp
        | none =>
          simp only [Option.getD_none, Option.bind_none, get?_empty]
          by_cases hq : q = k
          · simp [hq]
          · simp only [hq, if_false]
            by_cases hp : q <+: k
            · simp only [hp, if_true]
              by_cases hn : q = [] <;> simp [hn]
            · simp only [hp, if_false]
              have : q ≠ [] := by rintro rfl; exact hp (List.nil_prefix)
              simp [this]
      · simp [h]

theorem getRef_of_get? {k : List Nat} {t : Trie T} {v : T} (h : get? k t = some v) : getRef k t = .ok v := by
  induction k generalizing t with
  | nil => simp only [get?, Option.some.injEq] at h; rw [getRef, h]
  | cons a k ih =>
    obtain ⟨w, c⟩ := t
    cases c with
    | none => simp [get?, children] at h
    | some m =>
      simp only [get?, children, getRef] at h ⊢
      cases hl : lookup a m with
      | none => rw [hl] at h; simp at h
      | some u => rw [hl] at h; simpa using ih h

theorem count_eq (k : List Nat) (t : Trie T) : count k t = if (get? k t).isSome then 1 else 0 := by
  induction k generalizing t with
  | nil => simp [count, get?]
  | cons a k ih =>
    obtain ⟨w, c⟩ := t
    cases c with
    | none => simp [get?, children, count]
    | some m =>
      have e := get?_cons a k (node w (some m))
      simp only [children, Option.getD_some] at e
      rw [e]
      simp only [children, count]
      rcases lookup a m with _ | u
      · simp
      · simpa using ih u

theorem getRef_ne_ok {k : List Nat} {t : Trie T} (h : get? k t = none) : ∃ e, getRef k t = .error e := by
  induction k generalizing t with
  | nil => simp [get?] at h
  | cons a k ih =>
    obtain ⟨w, c⟩ := t
    cases c with
    | none => exact ⟨_, rfl⟩
    | some m =>
      simp only [get?, children, getRef] at h ⊢
      cases hl : lookup a m with
      | none => exact ⟨_, rfl⟩
      | some u => rw [hl] at h; simpa using ih h

/-- insert a history of (key, value) pairs, oldest first -/
def insertAll (h : List (List Nat × T)) (t : Trie T) : Trie T := h.foldl (fun t p => insert p.1 p.2 t) t

end Trie
end BATS
