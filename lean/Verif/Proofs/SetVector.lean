import Verif.Spec.SetVector
import Mathlib.Tactic.Ring
import Mathlib.Data.List.Basic
import Mathlib.Data.List.Nodup
import Mathlib.Data.List.TakeWhile

set_option linter.unusedSectionVars false
set_option linter.unusedSimpArgs false
set_option linter.unusedVariables false

namespace BATS
namespace SetVec
variable {F : Type}

theorem inc_cons {p : Nat × F} {L : List (Nat × F)} : Inc (p :: L) ↔ (∀ q ∈ L, p.1 < q.1) ∧ Inc L := List.pairwise_cons

theorem emplace_mem {p q : Nat × F} {L : SetVec F} (h : q ∈ emplace p L) : q = p ∨ q ∈ L := by
  induction L with
  | nil => simp [emplace] at h; exact Or.inl h
  | cons x L ih =>
    unfold emplace at h
    split at h
    · rcases List.mem_cons.1 h with h | h
      · exact Or.inl h
      · exact Or.inr h
    · split at h
      · rcases List.mem_cons.1 h with h | h
        · exact Or.inr (by simp [h])
        · rcases ih h with h | h
          · exact Or.inl h
          · exact Or.inr (by simp [h])
      · exact Or.inr h

theorem emplace_inc {p : Nat × F} {L : SetVec F} (h : Inc L) : Inc (emplace p L) := by
  induction L with
  | nil => simp [emplace, Inc]
  | cons x L ih =>
    have hh := inc_cons.1 h
    unfold emplace
    split
    · rename_i h1
      refine inc_cons.2 ⟨?_, h⟩
      intro q hq
      rcases List.mem_cons.1 hq with e | e
      · rw [e]; exact h1
      · exact lt_trans h1 (hh.1 q e)
    · split
      · rename_i h1 h2
        refine inc_cons.2 ⟨?_, ih hh.2⟩
        intro q hq
        rcases emplace_mem hq with e | e
        · rw [e]; exact h2
        · exact hh.1 q e
      · exact h

theorem lookup_cons' (i j : Nat) (v : F) (L : List (Nat × F)) : ((j, v) :: L).lookup i = if i = j then some v else L.lookup i := by
  rw [List.lookup_cons]
  by_cases h : i = j
  · simp [h]
  · have hb : (i == j) = false := by simpa using h
    rw [hb, if_neg h]

theorem lookup_none {i : Nat} {L : List (Nat × F)} (h : ∀ q ∈ L, i < q.1) : L.lookup i = none := by
  induction L with
  | nil => rfl
  | cons x L ih =>
    obtain ⟨j, v⟩ := x
    rw [lookup_cons', if_neg, ih (fun q hq => h q (by simp [hq]))]
    exact Nat.ne_of_lt (h (j, v) (by simp))

theorem emplace_lookup {p : Nat × F} {L : SetVec F} (h : Inc L) (i : Nat) :
    (emplace p L).lookup i = if i = p.1 then some ((L.lookup i).getD p.2) else L.lookup i := by
  obtain ⟨k, u⟩ := p
  induction L with
  | nil => simp [emplace, lookup_cons']
  | cons x L ih =>
    obtain ⟨j, v⟩ := x
    have hh := inc_cons.1 h
    unfold emplace
    by_cases h1 : k < j
    · rw [if_pos (by exact h1)]
      have hn : List.lookup k ((j, v) :: L) = none := lookup_none (by
        intro q hq
        rcases List.mem_cons.1 hq with e | e
        · rw [e]; exact h1
        · exact lt_trans h1 (hh.1 q e))
      rw [lookup_cons']
      by_cases e : i = k
      · subst e; rw [if_pos rfl, if_pos rfl, hn]; rfl
      · rw [if_neg e, if_neg e]
    · rw [if_neg (by exact h1)]
      by_cases h2 : j < k
      · rw [if_pos (by exact h2), lookup_cons', ih hh.2, lookup_cons']
        by_cases e : i = j
        · have : i ≠ k := by omega
          simp [e, this]
          try omega
        · simp [e]
      · rw [if_neg (by exact h2)]
        have : j = k := by omega
        subst this
        rw [lookup_cons']
        by_cases e : i = j
        · simp [e]
        · simp [e]

theorem get_eq [Zero F] (L : SetVec F) (i : Nat) : get L i = (L.lookup i).getD 0 := by
  unfold get
  induction L with
  | nil => rfl
  | cons x L ih =>
    obtain ⟨j, v⟩ := x
    rw [lookup_cons', List.find?_cons]
    by_cases h : i = j
    · simp [h]
    · have hb : decide ((j, v).1 = i) = false := decide_eq_false (fun e => h e.symm)
      rw [if_neg h, ← ih, hb]

theorem get_cons [Zero F] (i j : Nat) (v : F) (L : SetVec F) : get ((j, v) :: L) i = if i = j then v else get L i := by
  rw [get_eq, lookup_cons', get_eq]; split <;> rfl

theorem get_none [Zero F] {i : Nat} {L : List (Nat × F)} (h : ∀ q ∈ L, i < q.1) : get L i = 0 := by
  rw [get_eq, lookup_none h]; rfl

theorem erase_lookup (j i : Nat) (L : SetVec F) : (erase j L).lookup i = if i = j then none else L.lookup i := by
  unfold erase
  induction L with
  | nil => simp
  | cons x L ih =>
    obtain ⟨k, v⟩ := x
    rw [List.filter_cons, lookup_cons']
    by_cases h : k = j
    · have hb : ¬ decide ((k, v).1 ≠ j) = true := by simp [h]
      rw [if_neg hb, ih]
      by_cases e : i = j
      · simp [e]
      · rw [if_neg e, if_neg e, if_neg (fun e' => e (e'.trans h))]
    · have hb : decide ((k, v).1 ≠ j) = true := by simp [h]
      rw [if_pos hb, lookup_cons', ih]
      by_cases e : i = j
      · have : ¬ i = k := fun e' => h (e'.symm.trans e)
        rw [if_neg this, if_pos e, if_pos e]
      · rw [if_neg e, if_neg e]

theorem mem_keys (i : Nat) (L : SetVec F) : i ∈ L.map Prod.fst ↔ L.lookup i ≠ none := by
  induction L with
  | nil => simp
  | cons x L ih =>
    obtain ⟨k, v⟩ := x
    rw [lookup_cons', List.map_cons, List.mem_cons, ih]
    by_cases e : i = k <;> simp [e]

theorem set_spec {p : Nat × F} {L : SetVec F} (h : Inc L) : Inc (set p L) ∧ ∀ i, (set p L).lookup i = if i = p.1 then some p.2 else L.lookup i := by
  have he : Inc (erase p.1 L) := h.filter _
  unfold set
  split
  · refine ⟨emplace_inc he, fun i => ?_⟩
    rw [emplace_lookup he, erase_lookup]
    by_cases e : i = p.1 <;> simp [e]
  · rename_i hc
    refine ⟨emplace_inc h, fun i => ?_⟩
    rw [emplace_lookup h]
    have hn : L.lookup p.1 = none := by
      by_contra hne
      exact hc (by rw [List.contains_iff_mem]; exact (mem_keys _ _).2 hne)
    by_cases e : i = p.1
    · subst e; simp [hn]
    · simp [e]

theorem ofPairs_aux (l : List (Nat × F)) : ∀ {L : SetVec F}, Inc L → Inc (l.foldl (fun L p => emplace p L) L) ∧
    ∀ i, (l.foldl (fun L p => emplace p L) L).lookup i = (L.lookup i).or (l.lookup i) := by
  induction l with
  | nil => intro L h; exact ⟨h, fun i => by simp⟩
  | cons p l ih =>
    intro L h
    obtain ⟨a, b⟩ := ih (emplace_inc (p := p) h)
    refine ⟨a, fun i => ?_⟩
    obtain ⟨j, v⟩ := p
    rw [List.foldl_cons, b, emplace_lookup h, lookup_cons']
    by_cases e : i = j
    · subst e
      rw [if_pos rfl, if_pos rfl]
      cases L.lookup i <;> simp
    · rw [if_neg e, if_neg e]

theorem permuteLoop_spec (perm : List Nat) (hp : perm.Nodup) : ∀ (L : SetVec F) {new : SetVec F}, Inc L → Inc new → (∀ q ∈ L, q.1 < perm.length) →
    ∃ M, permuteLoop perm L new = .ok M ∧ Inc M ∧ ∀ i (hi : i < perm.length), M.lookup perm[i] = (new.lookup perm[i]).or (L.lookup i) := by
  intro L
  induction L with
  | nil => intro new _ hn _; exact ⟨new, rfl, hn, fun i hi => by simp⟩
  | cons q L ih =>
    intro new hL hn hb
    obtain ⟨k, v⟩ := q
    have hk : k < perm.length := hb (k, v) (by simp)
    obtain ⟨M, m1, m2, m3⟩ := ih (new := emplace (perm[k], v) new) (inc_cons.1 hL).2 (emplace_inc hn) (fun q hq => hb q (by simp [hq]))
    refine ⟨M, ?_, m2, ?_⟩
    · unfold permuteLoop
      have : rd perm k = .ok perm[k] := by unfold rd; rw [List.getElem?_eq_getElem hk]
      rw [this]; exact m1
    · intro i hi
      rw [m3 i hi, emplace_lookup hn, lookup_cons']
      by_cases e : i = k
      · subst e
        rw [if_pos rfl, if_pos rfl]
        cases new.lookup perm[i] <;> simp
      · have : perm[i] ≠ perm[k] := fun h => e ((List.Nodup.getElem_inj_iff hp).1 h)
        rw [if_neg this, if_neg e]

theorem permuteLoop_other (perm : List Nat) : ∀ (L : SetVec F) {new M : SetVec F}, Inc new → permuteLoop perm L new = .ok M →
    ∀ k, k ∉ perm → M.lookup k = new.lookup k := by
  intro L
  induction L with
  | nil => intro new M _ h k _; cases h; rfl
  | cons q L ih =>
    intro new M hn h k hk
    unfold permuteLoop at h
    rcases hr : rd perm q.1 with e | j
    · rw [hr] at h; cases h
    · rw [hr] at h
      have hj : j ∈ perm := by
        unfold rd at hr
        split at hr
        · rename_i x hx
          cases hr
          exact List.mem_of_getElem? hx
        · cases hr
      rw [ih (emplace_inc hn) h k hk, emplace_lookup hn, if_neg (fun e => hk (by rw [e]; exact hj))]

theorem permuteLoop_ub (perm : List Nat) : ∀ (L : SetVec F) {new : SetVec F}, (∃ q ∈ L, perm.length ≤ q.1) → permuteLoop perm L new = .error .ub := by
  intro L
  induction L with
  | nil => rintro _ ⟨q, hq, _⟩; cases hq
  | cons q L ih =>
    rintro new ⟨p, hp, h⟩
    unfold permuteLoop
    rcases Nat.lt_or_ge q.1 perm.length with hl | hl
    · have : rd perm q.1 = .ok perm[q.1] := by unfold rd; rw [List.getElem?_eq_getElem hl]
      rw [this]
      refine ih ⟨p, ?_, h⟩
      rcases List.mem_cons.1 hp with e | e
      · rw [e] at h; omega
      · exact e
    · have : rd perm q.1 = .error .ub := by unfold rd; rw [List.getElem?_eq_none hl]
      rw [this]; rfl

variable [Field F] [DecidableEq F]

theorem emplaceAll_spec (a : F) (x : List (Nat × F)) : ∀ {L : SetVec F}, Inc L → Inc (emplaceAll a x L) ∧
    (∀ i, (emplaceAll a x L).lookup i = (L.lookup i).or ((x.lookup i).map (a * ·))) ∧ ∀ q ∈ emplaceAll a x L, q ∈ L ∨ ∃ p ∈ x, p.1 = q.1 ∧ q.2 = a * p.2 := by
  unfold emplaceAll
  induction x with
  | nil => intro L h; exact ⟨h, fun i => by simp, fun q hq => Or.inl hq⟩
  | cons p x ih =>
    intro L h
    obtain ⟨j, v⟩ := p
    obtain ⟨a1, b1, c1⟩ := ih (emplace_inc (p := (j, a * v)) h)
    refine ⟨a1, fun i => ?_, ?_⟩
    · rw [List.foldl_cons, b1, emplace_lookup h, lookup_cons']
      by_cases e : i = j
      · subst e
        rw [if_pos rfl, if_pos rfl]
        cases L.lookup i <;> simp
      · rw [if_neg e, if_neg e]
    · intro q hq
      rw [List.foldl_cons] at hq
      rcases c1 q hq with h | ⟨p, h1, h2⟩
      · rcases emplace_mem h with h | h
        · exact Or.inr ⟨(j, v), by simp, by rw [h], by rw [h]⟩
        · exact Or.inl h
      · exact Or.inr ⟨p, by simp [h1], h2⟩

theorem axpyLoop_spec (a : F) : ∀ (r : SetVec F) (s : List (Nat × F)), Inc r → Inc s →
    Inc (axpyLoop a r s) ∧ (∀ i, get (axpyLoop a r s) i = get r i + a * get s i) ∧
    (∀ q ∈ axpyLoop a r s, (∃ p ∈ r, p.1 = q.1) ∨ ∃ p ∈ s, p.1 = q.1) ∧
    (a ≠ 0 → (∀ p ∈ r, p.2 ≠ 0) → (∀ p ∈ s, p.2 ≠ 0) → ∀ q ∈ axpyLoop a r s, q.2 ≠ 0) := by
  intro r s
  induction r, s using axpyLoop.induct a with
  | case1 s =>
    intro _ hs
    obtain ⟨e1, e2, e3⟩ := emplaceAll_spec a s (L := []) List.Pairwise.nil
    rw [axpyLoop]
    refine ⟨e1, ?_, ?_, ?_⟩
    · intro i
      rw [get_eq, e2, get_eq, get_eq]
      cases s.lookup i <;> simp
    · intro q hq
      rcases e3 q hq with h | ⟨p, h1, h2, _⟩
      · cases h
      · exact Or.inr ⟨p, h1, h2⟩
    · intro ha _ h2 q hq
      rcases e3 q hq with h | ⟨p, h1, _, h3⟩
      · cases h
      · rw [h3]; exact mul_ne_zero ha (h2 p h1)
  | case2 r hr =>
    intro hr' _
    have : axpyLoop a r [] = r := by
      cases r with
      | nil => rw [axpyLoop]; rfl
      | cons p r => rw [axpyLoop]; intro h; cases h
    rw [this]
    refine ⟨hr', fun i => by simp [get], fun q hq => Or.inl ⟨q, hq, rfl⟩, fun _ h _ q hq => h q hq⟩
  | case3 u r i v s w hw ih =>
    intro hr hs
    have hr1 := inc_cons.1 hr
    have hs1 := inc_cons.1 hs
    obtain ⟨i1, i2, i3, i4⟩ := ih hr1.2 hs1.2
    rw [axpyLoop, if_pos rfl]
    simp only []
    rw [if_pos hw]
    refine ⟨i1, ?_, ?_, ?_⟩
    · intro k
      rw [i2, get_cons, get_cons]
      by_cases e : k = i
      · subst e
        rw [if_pos rfl, if_pos rfl, get_none hr1.1, get_none hs1.1]
        have hw' : a * v + u = 0 := hw
        rw [add_comm u, hw']; simp
      · rw [if_neg e, if_neg e]
    · intro q hq
      rcases i3 q hq with ⟨p, h1, h2⟩ | ⟨p, h1, h2⟩
      · exact Or.inl ⟨p, by simp [h1], h2⟩
      · exact Or.inr ⟨p, by simp [h1], h2⟩
    · intro ha h1 h2
      exact i4 ha (fun p hp => h1 p (by simp [hp])) (fun p hp => h2 p (by simp [hp]))
  | case4 u r i v s w hw ih =>
    intro hr hs
    have hr1 := inc_cons.1 hr
    have hs1 := inc_cons.1 hs
    obtain ⟨i1, i2, i3, i4⟩ := ih hr1.2 hs1.2
    rw [axpyLoop, if_pos rfl]
    simp only []
    rw [if_neg hw]
    refine ⟨inc_cons.2 ⟨?_, i1⟩, ?_, ?_, ?_⟩
    · intro q hq
      rcases i3 q hq with ⟨p, h1, h2⟩ | ⟨p, h1, h2⟩
      · rw [← h2]; exact hr1.1 p h1
      · rw [← h2]; exact hs1.1 p h1
    · intro k
      rw [get_cons, i2, get_cons, get_cons]
      by_cases e : k = i
      · subst e
        rw [if_pos rfl, if_pos rfl, if_pos rfl]
        exact add_comm _ _
      · rw [if_neg e, if_neg e, if_neg e]
    · intro q hq
      rcases List.mem_cons.1 hq with h | h
      · exact Or.inl ⟨(i, u), by simp, by rw [h]⟩
      · rcases i3 q h with ⟨p, h1, h2⟩ | ⟨p, h1, h2⟩
        · exact Or.inl ⟨p, by simp [h1], h2⟩
        · exact Or.inr ⟨p, by simp [h1], h2⟩
    · intro ha h1 h2 q hq
      rcases List.mem_cons.1 hq with h | h
      · rw [h]; exact hw
      · exact i4 ha (fun p hp => h1 p (by simp [hp])) (fun p hp => h2 p (by simp [hp])) q h
  | case5 i u r j v s hij hlt ih =>
    intro hr hs
    have hr1 := inc_cons.1 hr
    have hs1 := inc_cons.1 hs
    obtain ⟨i1, i2, i3, i4⟩ := ih hr1.2 hs
    rw [axpyLoop, if_neg hij, if_pos hlt]
    refine ⟨inc_cons.2 ⟨?_, i1⟩, ?_, ?_, ?_⟩
    · intro q hq
      rcases i3 q hq with ⟨p, h1, h2⟩ | ⟨p, h1, h2⟩
      · rw [← h2]; exact hr1.1 p h1
      · rw [← h2]
        rcases List.mem_cons.1 h1 with e | e
        · rw [e]; exact hlt
        · exact lt_trans hlt (hs1.1 p e)
    · intro k
      rw [get_cons, i2, get_cons k i]
      by_cases e : k = i
      · subst e
        rw [if_pos rfl, if_pos rfl]
        have : get ((j, v) :: s) k = 0 := get_none (by
          intro q hq
          rcases List.mem_cons.1 hq with e | e
          · rw [e]; exact hlt
          · exact lt_trans hlt (hs1.1 q e))
        rw [this]; simp
      · rw [if_neg e, if_neg e]
    · intro q hq
      rcases List.mem_cons.1 hq with h | h
      · exact Or.inl ⟨(i, u), by simp, by rw [h]⟩
      · rcases i3 q h with ⟨p, h1, h2⟩ | ⟨p, h1, h2⟩
        · exact Or.inl ⟨p, by simp [h1], h2⟩
        · exact Or.inr ⟨p, h1, h2⟩
    · intro ha h1 h2 q hq
      rcases List.mem_cons.1 hq with h | h
      · rw [h]; exact h1 (i, u) (by simp)
      · exact i4 ha (fun p hp => h1 p (by simp [hp])) h2 q h
  | case6 i u r j v s hij hlt ih =>
    intro hr hs
    have hr1 := inc_cons.1 hr
    have hs1 := inc_cons.1 hs
    have hji : j < i := by omega
    have hj : ∀ q ∈ ((i, u) :: r), j < q.1 := by
      intro q hq
      rcases List.mem_cons.1 hq with e | e
      · rw [e]; exact hji
      · exact lt_trans hji (hr1.1 q e)
    obtain ⟨i1, i2, i3, i4⟩ := ih (inc_cons.2 ⟨hj, hr⟩) hs1.2
    rw [axpyLoop, if_neg hij, if_neg hlt]
    refine ⟨i1, ?_, ?_, ?_⟩
    · intro k
      rw [i2, get_cons k j, get_cons k j]
      by_cases e : k = j
      · subst e
        rw [if_pos rfl, if_pos rfl, get_none hs1.1, get_none hj]
        simp
      · rw [if_neg e, if_neg e]
    · intro q hq
      rcases i3 q hq with ⟨p, h1, h2⟩ | ⟨p, h1, h2⟩
      · rcases List.mem_cons.1 h1 with e | e
        · exact Or.inr ⟨(j, v), by simp, by rw [← h2, e]⟩
        · exact Or.inl ⟨p, e, h2⟩
      · exact Or.inr ⟨p, by simp [h1], h2⟩
    · intro ha h1 h2
      refine i4 ha ?_ (fun p hp => h2 p (by simp [hp]))
      intro p hp
      rcases List.mem_cons.1 hp with e | e
      · rw [e]; exact mul_ne_zero ha (h2 (j, v) (by simp))
      · exact h1 p e

theorem eq_spec : ∀ L M : SetVec F, eq L M = true ↔ L = M := by
  intro L
  induction L with
  | nil => intro M; cases M <;> simp [eq]
  | cons p L ih =>
    intro M
    cases M with
    | nil => simp [eq]
    | cons q M =>
      rw [eq]
      by_cases h : p = q
      · simp [h, ih]
      · simp [h]

theorem ext_of_get : ∀ {L M : SetVec F}, Inc L → Inc M → (∀ q ∈ L, q.2 ≠ 0) → (∀ q ∈ M, q.2 ≠ 0) → (∀ i, get L i = get M i) → L = M := by
  intro L
  induction L with
  | nil =>
    intro M _ _ _ h2 h
    cases M with
    | nil => rfl
    | cons q M =>
      obtain ⟨j, v⟩ := q
      have := h j
      rw [get_cons, if_pos rfl] at this
      exact absurd this.symm (h2 (j, v) (by simp))
  | cons p L ih =>
    intro M hL hM h1 h2 h
    obtain ⟨i, u⟩ := p
    cases M with
    | nil =>
      have := h i
      rw [get_cons, if_pos rfl] at this
      exact absurd this (h1 (i, u) (by simp))
    | cons q M =>
      obtain ⟨j, v⟩ := q
      have hL1 := inc_cons.1 hL
      have hM1 := inc_cons.1 hM
      have hij : i = j := by
        rcases lt_trichotomy i j with c | c | c
        · have := h i
          rw [get_cons, if_pos rfl, get_none (L := (j, v) :: M)] at this
          · exact absurd this (h1 (i, u) (by simp))
          · intro q hq
            rcases List.mem_cons.1 hq with e | e
            · rw [e]; exact c
            · exact lt_trans c (hM1.1 q e)
        · exact c
        · have := h j
          rw [get_cons j j, if_pos rfl, get_none (L := (i, u) :: L)] at this
          · exact absurd this.symm (h2 (j, v) (by simp))
          · intro q hq
            rcases List.mem_cons.1 hq with e | e
            · rw [e]; exact c
            · exact lt_trans c (hL1.1 q e)
      subst hij
      have huv : u = v := by
        have := h i
        rwa [get_cons, if_pos rfl, get_cons, if_pos rfl] at this
      subst huv
      rw [ih hL1.2 hM1.2 (fun q hq => h1 q (by simp [hq])) (fun q hq => h2 q (by simp [hq]))]
      intro k
      by_cases e : k = i
      · subst e; rw [get_none hL1.1, get_none hM1.1]
      · have := h k
        rwa [get_cons, if_neg e, get_cons, if_neg e] at this

/-- the entry with index `i` after an `axpy` on a range which ends before `last`, for the entries `o`, `q` of the two vectors -/
def winVal (a : F) (last : Nat) (o q : Option F) (i : Nat) : F := if i < last then o.getD 0 + a * q.getD 0 else (o.or (q.map (a * ·))).getD 0

theorem takeWhile_all {last : Nat} {j : Nat} {v : F} {s : List (Nat × F)} (h : Inc ((j, v) :: s)) (hj : ¬ j < last) :
    ((j, v) :: s).takeWhile (fun q => decide (¬ q.1 < last)) = (j, v) :: s := by
  rw [List.takeWhile_eq_self_iff]
  intro q hq
  rw [decide_eq_true_iff]
  rcases List.mem_cons.1 hq with e | e
  · rw [e]; exact hj
  · have : j < q.1 := (inc_cons.1 h).1 q e
    omega

theorem lookup_lt_cons {i j : Nat} {v : F} {s : List (Nat × F)} (h : Inc ((j, v) :: s)) (hi : i < j) : ((j, v) :: s).lookup i = none :=
  lookup_none (by
    intro q hq
    rcases List.mem_cons.1 hq with e | e
    · rw [e]; exact hi
    · exact lt_trans hi ((inc_cons.1 h).1 q e))

theorem winLoop_spec (a : F) (last : Nat) : ∀ (r : SetVec F) (s : List (Nat × F)), Inc r → Inc s → (∃ p ∈ s, p.1 < last) → (∃ p ∈ s, last ≤ p.1) →
    (∃ p ∈ r, last ≤ p.1) → ∃ out, winLoop a last r s = .ok out ∧ Inc out ∧ (∀ q ∈ out, (∃ p ∈ r, p.1 = q.1) ∨ ∃ p ∈ s, p.1 = q.1) ∧
      ∀ i, get out i = winVal a last (r.lookup i) (s.lookup i) i := by
  intro r s
  induction r, s using winLoop.induct a last with
  | case1 s =>
    rintro _ _ _ _ ⟨p, hp, _⟩
    cases hp
  | case2 r hr =>
    rintro _ _ ⟨p, hp, _⟩
    cases hp
  | case3 u r j v =>
    rintro _ _ ⟨p, hp, h1⟩ ⟨q, hq, h2⟩
    rw [List.mem_singleton] at hp hq
    subst hp; subst hq
    exact absurd h1 (not_lt.2 h2)
  | case4 u r j v j' v' s' hl =>
    intro hr hs h1 _ _
    have hr1 := inc_cons.1 hr
    have hs1 := inc_cons.1 hs
    obtain ⟨e1, e2, e3⟩ := emplaceAll_spec a ((j', v') :: s') hr1.2
    have hjj : j < j' := hs1.1 (j', v') (by simp)
    have hj : j < last := by
      obtain ⟨p, hp, h⟩ := h1
      rcases List.mem_cons.1 hp with e | e
      · rw [e] at h; exact h
      · exact lt_trans (hs1.1 p e) h
    have hkeys : ∀ q ∈ emplaceAll a ((j', v') :: s') r, (∃ p ∈ ((j, u) :: r), p.1 = q.1) ∨ ∃ p ∈ ((j, v) :: (j', v') :: s'), p.1 = q.1 := by
      intro q hq
      rcases e3 q hq with h | ⟨p, h1, h2, _⟩
      · exact Or.inl ⟨q, by simp [h], rfl⟩
      · exact Or.inr ⟨p, List.mem_cons_of_mem _ h1, h2⟩
    have hgt : ∀ q ∈ emplaceAll a ((j', v') :: s') r, j < q.1 := by
      intro q hq
      rcases e3 q hq with h | ⟨p, h1, h2, _⟩
      · exact hr1.1 q h
      · rw [← h2]; exact hs1.1 p h1
    have hval : ∀ i, i ≠ j → get (emplaceAll a ((j', v') :: s') r) i = winVal a last (((j, u) :: r).lookup i) (((j, v) :: (j', v') :: s').lookup i) i := by
      intro i hi
      rw [get_eq, e2, lookup_cons' i j, if_neg hi, lookup_cons' i j, if_neg hi]
      unfold winVal
      split
      · rename_i hil
        rw [lookup_lt_cons hs1.2 (by omega)]
        simp
      · rfl
    rw [winLoop, if_pos rfl]
    simp only []
    rw [if_pos hl, takeWhile_all hs1.2 hl]
    refine ⟨_, rfl, ?_⟩
    split
    · rename_i hw
      refine ⟨e1, hkeys, ?_⟩
      intro i
      by_cases e : i = j
      · subst e
        rw [List.nil_append, get_none hgt, lookup_cons', if_pos rfl, lookup_cons', if_pos rfl]
        unfold winVal
        rw [if_pos hj]
        simp only [Option.getD_some]
        rw [add_comm u, hw]
      · exact hval i e
    · rename_i hw
      refine ⟨inc_cons.2 ⟨hgt, e1⟩, ?_, ?_⟩
      · intro q hq
        rcases List.mem_cons.1 hq with h | h
        · exact Or.inl ⟨(j, u), by simp, by rw [h]⟩
        · exact hkeys q h
      · intro i
        rw [List.singleton_append, get_cons]
        by_cases e : i = j
        · subst e
          rw [if_pos rfl, lookup_cons', if_pos rfl, lookup_cons', if_pos rfl]
          unfold winVal
          rw [if_pos hj]
          exact add_comm _ _
        · rw [if_neg e]; exact hval i e
  | case5 u r j v j' v' s' hl ih =>
    rintro hr hs _ ⟨p, hp, hp2⟩ ⟨q, hq, hq2⟩
    have hr1 := inc_cons.1 hr
    have hs1 := inc_cons.1 hs
    have hl' : j' < last := not_not.1 hl
    have hjj : j < j' := hs1.1 (j', v') (by simp)
    obtain ⟨o, o1, o2, o3, o4⟩ := ih hr1.2 hs1.2 ⟨(j', v'), by simp, hl'⟩
      ⟨p, by
        rcases List.mem_cons.1 hp with e | e
        · rw [e] at hp2; simp only at hp2; omega
        · exact e, hp2⟩
      ⟨q, by
        rcases List.mem_cons.1 hq with e | e
        · rw [e] at hq2; simp only at hq2; omega
        · exact e, hq2⟩
    have hgt : ∀ q ∈ o, j < q.1 := by
      intro q hq
      rcases o3 q hq with ⟨p, h1, h2⟩ | ⟨p, h1, h2⟩
      · rw [← h2]; exact hr1.1 p h1
      · rw [← h2]; exact hs1.1 p h1
    have hkeys : ∀ q ∈ o, (∃ p ∈ ((j, u) :: r), p.1 = q.1) ∨ ∃ p ∈ ((j, v) :: (j', v') :: s'), p.1 = q.1 := by
      intro q hq
      rcases o3 q hq with ⟨p, h1, h2⟩ | ⟨p, h1, h2⟩
      · exact Or.inl ⟨p, List.mem_cons_of_mem _ h1, h2⟩
      · exact Or.inr ⟨p, List.mem_cons_of_mem _ h1, h2⟩
    rw [winLoop, if_pos rfl]
    simp only []
    rw [if_neg hl, o1]
    refine ⟨_, rfl, ?_⟩
    split
    · rename_i hw
      refine ⟨o2, hkeys, ?_⟩
      intro i
      rw [List.nil_append]
      by_cases e : i = j
      · subst e
        rw [get_none hgt, lookup_cons', if_pos rfl, lookup_cons', if_pos rfl]
        unfold winVal
        rw [if_pos (by omega)]
        simp only [Option.getD_some]
        rw [add_comm u, hw]
      · rw [o4, lookup_cons' i j, if_neg e, lookup_cons' i j, if_neg e]
    · rename_i hw
      refine ⟨inc_cons.2 ⟨hgt, o2⟩, ?_, ?_⟩
      · intro q hq
        rcases List.mem_cons.1 hq with h | h
        · exact Or.inl ⟨(j, u), by simp, by rw [h]⟩
        · exact hkeys q h
      · intro i
        rw [List.singleton_append, get_cons]
        by_cases e : i = j
        · subst e
          rw [if_pos rfl, lookup_cons', if_pos rfl, lookup_cons', if_pos rfl]
          unfold winVal
          rw [if_pos (by omega)]
          exact add_comm _ _
        · rw [if_neg e, o4, lookup_cons' i j, if_neg e, lookup_cons' i j, if_neg e]
  | case6 i u r j v s hij hlt ih =>
    rintro hr hs h1 h2 ⟨q, hq, hq2⟩
    have hr1 := inc_cons.1 hr
    have hs1 := inc_cons.1 hs
    have hj : j < last := by
      obtain ⟨p, hp, h⟩ := h1
      rcases List.mem_cons.1 hp with e | e
      · rw [e] at h; exact h
      · exact lt_trans (hs1.1 p e) h
    obtain ⟨o, o1, o2, o3, o4⟩ := ih hr1.2 hs h1 h2
      ⟨q, by
        rcases List.mem_cons.1 hq with e | e
        · rw [e] at hq2; simp only at hq2; omega
        · exact e, hq2⟩
    rw [winLoop.eq_def]
    simp only []
    rw [if_neg hij, if_pos hlt, o1]
    refine ⟨_, rfl, inc_cons.2 ⟨?_, o2⟩, ?_, ?_⟩
    · intro q hq
      rcases o3 q hq with ⟨p, h1, h2⟩ | ⟨p, h1, h2⟩
      · rw [← h2]; exact hr1.1 p h1
      · rw [← h2]
        rcases List.mem_cons.1 h1 with e | e
        · rw [e]; exact hlt
        · exact lt_trans hlt (hs1.1 p e)
    · intro q hq
      rcases List.mem_cons.1 hq with h | h
      · exact Or.inl ⟨(i, u), by simp, by rw [h]⟩
      · rcases o3 q h with ⟨p, h1, h2⟩ | ⟨p, h1, h2⟩
        · exact Or.inl ⟨p, List.mem_cons_of_mem _ h1, h2⟩
        · exact Or.inr ⟨p, h1, h2⟩
    · intro k
      rw [get_cons, lookup_cons' k i]
      by_cases e : k = i
      · subst e
        rw [if_pos rfl, if_pos rfl, lookup_lt_cons hs hlt]
        unfold winVal
        rw [if_pos (by omega)]
        simp
      · rw [if_neg e, if_neg e, o4]
  | case7 i u r j v hij hlt =>
    rintro _ _ ⟨p, hp, h1⟩ ⟨q, hq, h2⟩
    rw [List.mem_singleton] at hp hq
    subst hp; subst hq
    exact absurd h1 (not_lt.2 h2)
  | case8 i u r j v hij hlt j' v' s' hl =>
    intro hr hs h1 _ _
    have hji : j < i := by omega
    have hs1 := inc_cons.1 hs
    have hj : j < last := by
      obtain ⟨p, hp, h⟩ := h1
      rcases List.mem_cons.1 hp with e | e
      · rw [e] at h; exact h
      · exact lt_trans (hs1.1 p e) h
    have hr2 : Inc ((j, a * v) :: (i, u) :: r) := inc_cons.2 ⟨by
      intro q hq
      rcases List.mem_cons.1 hq with e | e
      · rw [e]; exact hji
      · exact lt_trans hji ((inc_cons.1 hr).1 q e), hr⟩
    obtain ⟨e1, e2, e3⟩ := emplaceAll_spec a ((j', v') :: s') hr2
    rw [winLoop, if_neg hij, if_neg hlt]
    rw [if_pos hl, takeWhile_all hs1.2 hl]
    have hjj : j < j' := hs1.1 (j', v') (by simp)
    refine ⟨_, rfl, e1, ?_, ?_⟩
    · intro q hq
      rcases e3 q hq with h | ⟨p, h1, h2, _⟩
      · rcases List.mem_cons.1 h with e | e
        · exact Or.inr ⟨(j, v), by simp, by rw [e]⟩
        · exact Or.inl ⟨q, e, rfl⟩
      · exact Or.inr ⟨p, List.mem_cons_of_mem _ h1, h2⟩
    · intro k
      rw [get_eq, e2, lookup_cons' k j, lookup_cons' k j]
      by_cases e : k = j
      · subst e
        rw [if_pos rfl, if_pos rfl, lookup_lt_cons hr hji]
        unfold winVal
        rw [if_pos hj]
        simp
      · rw [if_neg e, if_neg e]
        unfold winVal
        split
        · rw [lookup_lt_cons hs1.2 (by omega)]
          simp
        · rfl
  | case9 i u r j v hij hlt j' v' s' hl ih =>
    rintro hr hs _ ⟨p, hp, hp2⟩ ⟨q, hq, hq2⟩
    have hji : j < i := by omega
    have hs1 := inc_cons.1 hs
    have hl' : j' < last := not_not.1 hl
    have hjj : j < j' := hs1.1 (j', v') (by simp)
    have hr2 : Inc ((j, a * v) :: (i, u) :: r) := inc_cons.2 ⟨by
      intro q hq
      rcases List.mem_cons.1 hq with e | e
      · rw [e]; exact hji
      · exact lt_trans hji ((inc_cons.1 hr).1 q e), hr⟩
    obtain ⟨o, o1, o2, o3, o4⟩ := ih hr2 hs1.2 ⟨(j', v'), by simp, hl'⟩
      ⟨p, by
        rcases List.mem_cons.1 hp with e | e
        · rw [e] at hp2; simp only at hp2; omega
        · exact e, hp2⟩
      ⟨q, List.mem_cons_of_mem _ hq, hq2⟩
    rw [winLoop, if_neg hij, if_neg hlt]
    rw [if_neg hl, o1]
    refine ⟨_, rfl, o2, ?_, ?_⟩
    · intro q hq
      rcases o3 q hq with ⟨p, h1, h2⟩ | ⟨p, h1, h2⟩
      · rcases List.mem_cons.1 h1 with e | e
        · exact Or.inr ⟨(j, v), by simp, by rw [← h2, e]⟩
        · exact Or.inl ⟨p, e, h2⟩
      · exact Or.inr ⟨p, List.mem_cons_of_mem _ h1, h2⟩
    · intro k
      rw [o4, lookup_cons' k j, lookup_cons' k j]
      by_cases e : k = j
      · subst e
        rw [if_pos rfl, if_pos rfl, lookup_lt_cons hr hji, lookup_lt_cons hs1.2 hjj]
        unfold winVal
        rw [if_pos (by omega), if_pos (by omega)]
        simp
      · rw [if_neg e, if_neg e]

end SetVec
end BATS
