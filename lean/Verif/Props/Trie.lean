import Verif.Proofs.Trie

set_option linter.unusedSimpArgs false

/-!
# C28: the trie behaves as a finite map

`hist` is the list of insertions, oldest first, starting from a default-constructed trie.
-/

namespace BATS

open Trie

variable {T : Type} [Zero T]

/-- the value most recently inserted under `k` in a history, if any -/
def lastInserted (hist : List (List Nat × T)) (k : List Nat) : Option T :=
  (hist.reverse.find? (fun p => decide (p.1 = k))).map Prod.snd

/-- `k` is a prefix of a key that was inserted (every key is a prefix of itself), or the empty key -/
def IsPrefixOfInserted (hist : List (List Nat × T)) (k : List Nat) : Prop := k = [] ∨ ∃ p ∈ hist, k <+: p.1

theorem trie_get?_spec (hist : List (List Nat × T)) (k : List Nat) :
    (IsPrefixOfInserted hist k → get? k (insertAll hist empty) = some ((lastInserted hist k).getD 0)) ∧
    (¬ IsPrefixOfInserted hist k → get? k (insertAll hist empty) = none) := by
  induction hist using List.reverseRecOn with
  | nil =>
    simp only [insertAll, List.foldl_nil, get?_empty, lastInserted, IsPrefixOfInserted]
    constructor
    · rintro (rfl | ⟨p, h, _⟩)
      · simp
      · simp at h
    · intro h; push Not at h; simp [h.1]
  | append_singleton hist p ih =>
    have e : insertAll (hist ++ [p]) (empty : Trie T) = insert p.1 p.2 (insertAll hist empty) := by
      simp [insertAll, List.foldl_append]
    have hl : lastInserted (hist ++ [p]) k = if p.1 = k then some p.2 else lastInserted hist k := by
      unfold lastInserted
      rw [List.reverse_append, List.reverse_singleton, List.singleton_append, List.find?_cons]
      by_cases h : p.1 = k <;> simp [h]
    have hm : IsPrefixOfInserted (hist ++ [p]) k ↔ IsPrefixOfInserted hist k ∨ k <+: p.1 := by
      unfold IsPrefixOfInserted
      simp only [List.mem_append, List.mem_singleton]
      constructor
      · rintro (h | ⟨q, hq | rfl, h⟩)
        · exact Or.inl (Or.inl h)
        · exact Or.inl (Or.inr ⟨q, hq, h⟩)
        · exact Or.inr h
      · rintro ((h | ⟨q, hq, h⟩) | h)
        · exact Or.inl h
        · exact Or.inr ⟨q, Or.inl hq, h⟩
        · exact Or.inr ⟨p, Or.inr rfl, h⟩
    rw [e, get?_insert, hl, hm]
    by_cases h1 : k = p.1
    · subst h1; simp
    · rw [if_neg h1, if_neg (Ne.symm h1)]
      by_cases h2 : k <+: p.1
      · simp only [h2, if_true, or_true, true_implies, not_true, false_implies, and_true]
        by_cases h3 : IsPrefixOfInserted hist k
        · rw [ih.1 h3]; simp
        · rw [ih.2 h3]
          have : lastInserted hist k = none := by
            unfold lastInserted
            rw [Option.map_eq_none_iff, List.find?_eq_none]
            intro q hq hqk
            simp only [decide_eq_true_eq] at hqk
            exact h3 (Or.inr ⟨q, List.mem_reverse.1 hq, hqk ▸ List.prefix_rfl⟩)
          rw [this]
      · simpa only [h2, if_false, or_false] using ih

/-- C28: after any history, a key that was inserted looks up (by `get` with any default, by `operator[]`, and `count` is 1) to
the value last inserted for it. -/
theorem C28_last_inserted (hist : List (List Nat × T)) (k : List Nat) (v : T) (h : lastInserted hist k = some v) (d : T) :
    getDef k d (insertAll hist empty) = v ∧ getRef k (insertAll hist empty) = .ok v ∧ count k (insertAll hist empty) = 1 := by
  have hp : IsPrefixOfInserted hist k := by
    unfold lastInserted at h
    rw [Option.map_eq_some_iff] at h
    obtain ⟨p, hp, _⟩ := h
    have h1 := List.mem_of_find?_eq_some hp
    have h2 := List.find?_some hp
    simp only [decide_eq_true_eq] at h2
    exact Or.inr ⟨p, List.mem_reverse.1 h1, h2 ▸ List.prefix_rfl⟩
  have hg := (trie_get?_spec hist k).1 hp
  rw [h, Option.getD_some] at hg
  refine ⟨?_, getRef_of_get? hg, ?_⟩
  · unfold getDef; rw [hg]; rfl
  · rw [count_eq, hg]; rfl

/-- C28: a key that is not a prefix of an inserted key is absent: `get` returns the default, `count` is 0 and `operator[]` does
not return. -/
theorem C28_absent (hist : List (List Nat × T)) (k : List Nat) (h : ¬ IsPrefixOfInserted hist k) (d : T) :
    getDef k d (insertAll hist empty) = d ∧ count k (insertAll hist empty) = 0 ∧
      ∃ e, getRef k (insertAll hist empty) = .error e := by
  have hg := (trie_get?_spec hist k).2 h
  refine ⟨?_, ?_, getRef_ne_ok hg⟩
  · unfold getDef; rw [hg]; rfl
  · rw [count_eq, hg]; rfl

/-- C28, exact behaviour on the remaining keys: a key never inserted that is a prefix of an inserted key (or is empty) counts
as present, with value 0. -/
theorem C28_prefix (hist : List (List Nat × T)) (k : List Nat) (h : lastInserted hist k = none) (hp : IsPrefixOfInserted hist k) (d : T) :
    getDef k d (insertAll hist empty) = 0 ∧ getRef k (insertAll hist empty) = .ok 0 ∧ count k (insertAll hist empty) = 1 := by
  have hg := (trie_get?_spec hist k).1 hp
  rw [h, Option.getD_none] at hg
  refine ⟨?_, getRef_of_get? hg, ?_⟩
  · unfold getDef; rw [hg]; rfl
  · rw [count_eq, hg]; rfl

/-- a history with an overwritten key, a prefix, and an absent key -/
example : lastInserted [([1, 2], 5), ([3], 6), ([1, 2], 7)] [1, 2] = some 7 ∧
    ¬ IsPrefixOfInserted [([1, 2], 5), ([3], 6), ([1, 2], 7)] [2] ∧
    lastInserted [([1, 2], 5), ([3], 6), ([1, 2], 7)] [1] = none ∧
    IsPrefixOfInserted [([1, 2], 5), ([3], 6), ([1, 2], 7)] [1] := by
  refine ⟨by decide, ?_, by decide, Or.inr ⟨([1, 2], 5), by simp, by decide⟩⟩
  rintro (h | ⟨p, hp, h⟩)
  · simp at h
  · simp only [List.mem_cons, List.not_mem_nil, or_false] at hp
    rcases hp with rfl | rfl | rfl <;> simp at h

end BATS
