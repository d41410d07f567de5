import Verif.Proofs.ZZPrepare
import Verif.Proofs.SimplicialChain
import Mathlib.Data.List.Lex

set_option linter.unusedSectionVars false
set_option linter.unusedSimpArgs false
set_option linter.unusedVariables false

/-! # The comparison functions of `prepare_ChainComplex` are strict weak orderings which order the events correctly -/

namespace BATS
namespace Zigzag
open Matrix Reduction

variable {F : Type} [Field F] [DecidableEq F] {T : Type} [LinearOrder T]

/-- `StrictWeakOn` for a predicate -/
structure SW {α : Type} (cmp : α → α → Bool) (P : α → Prop) : Prop where
  asymm : ∀ a b, P a → P b → cmp a b = true → cmp b a = false
  negtrans : ∀ a b c, P a → P b → P c → cmp a c = true → cmp a b = true ∨ cmp b c = true

theorem SW.on {α : Type} {cmp : α → α → Bool} {P : α → Prop} (h : SW cmp P) {l : List α} (hl : ∀ a ∈ l, P a) : StrictWeakOn cmp l :=
  ⟨fun a ha b hb => h.asymm a b (hl a ha) (hl b hb), fun a ha b hb c hc => h.negtrans a b c (hl a ha) (hl b hb) (hl c hc)⟩

theorem SW.congr {α : Type} {cmp cmp' : α → α → Bool} {P : α → Prop} (h : SW cmp P) (e : ∀ a b, P a → P b → cmp' a b = cmp a b) : SW cmp' P :=
  ⟨fun a b ha hb => by rw [e a b ha hb, e b a hb ha]; exact h.asymm a b ha hb,
   fun a b c ha hb hc => by rw [e a c ha hc, e a b ha hb, e b c hb hc]; exact h.negtrans a b c ha hb hc⟩

theorem SW.key {α β : Type} [LinearOrder β] (f : α → β) (P : α → Prop) {dec : ∀ a b, Decidable (f a < f b)} : SW (fun a b => @decide (f a < f b) (dec a b)) P := by
  refine ⟨fun a b _ _ h => ?_, fun a b c _ _ _ h => ?_⟩
  · simp only [decide_eq_true_eq, decide_eq_false_iff_not] at h ⊢
    exact not_lt.2 (le_of_lt h)
  · simp only [decide_eq_true_eq] at h ⊢
    rcases lt_or_ge (f a) (f b) with h' | h'
    · exact Or.inl h'
    · exact Or.inr (lt_of_le_of_lt h' h)

theorem SW.lex {α β : Type} [LinearOrder β] (f : α → β) {cmp : α → α → Bool} {P : α → Prop} (h : ∀ v, SW cmp (fun a => P a ∧ f a = v)) :
    SW (fun a b => if f a ≠ f b then decide (f a < f b) else cmp a b) P := by
  refine ⟨fun a b ha hb hab => ?_, fun a b c ha hb hc hac => ?_⟩
  · try dsimp only at hab
    try dsimp only
    by_cases e : f a = f b
    · rw [if_neg (not_not.2 e)] at hab
      rw [if_neg (not_not.2 e.symm)]
      exact (h (f a)).asymm a b ⟨ha, rfl⟩ ⟨hb, e.symm⟩ hab
    · rw [if_pos e] at hab
      rw [if_pos (Ne.symm e)]
      simp only [decide_eq_true_eq, decide_eq_false_iff_not] at hab ⊢
      exact not_lt.2 (le_of_lt hab)
  · try dsimp only at hac
    try dsimp only
    by_cases e : f a = f b
    · by_cases e' : f b = f c
      · rw [if_neg (not_not.2 (e.trans e'))] at hac
        rw [if_neg (not_not.2 e), if_neg (not_not.2 e')]
        exact (h (f a)).negtrans a b c ⟨ha, rfl⟩ ⟨hb, e.symm⟩ ⟨hc, (e.trans e').symm⟩ hac
      · rw [if_pos (by rw [e]; exact e'), e] at hac
        right
        rw [if_pos e']; exact hac
    · rw [if_pos e]
      by_cases hlt : f a < f b
      · left; simpa using hlt
      · right
        have hlt' : f b < f a := lt_of_le_of_ne (not_lt.1 hlt) (Ne.symm e)
        have hle : f a ≤ f c := by
          by_cases e' : f a = f c
          · exact le_of_eq e'
          · rw [if_pos e'] at hac
            exact le_of_lt (by simpa using hac)
        have := lt_of_lt_of_le hlt' hle
        rw [if_pos (ne_of_lt this)]
        simpa using this

theorem SW.split {α : Type} (g : α → Bool) {c1 c2 : α → α → Bool} {P : α → Prop} (h1 : SW c1 (fun a => P a ∧ g a = true)) (h2 : SW c2 (fun a => P a ∧ g a = false)) :
    SW (fun a b => if g a && g b then c1 a b else if g a ^^ g b then g a else c2 a b) P := by
  refine ⟨fun a b ha hb => ?_, fun a b c ha hb hc => ?_⟩
  · rcases ga : g a with _ | _ <;> rcases gb : g b with _ | _ <;> simp only [ga, gb, Bool.and_false, Bool.and_true, Bool.false_eq_true, if_false, if_true, Bool.xor_false, Bool.xor_true, Bool.not_true, Bool.not_false]
    · exact h2.asymm a b ⟨ha, ga⟩ ⟨hb, gb⟩
    · simp
    · simp
    · exact h1.asymm a b ⟨ha, ga⟩ ⟨hb, gb⟩
  · rcases ga : g a with _ | _ <;> rcases gb : g b with _ | _ <;> rcases gc : g c with _ | _ <;>
      simp only [ga, gb, gc, Bool.and_false, Bool.and_true, Bool.false_eq_true, if_false, if_true, Bool.xor_false, Bool.xor_true, Bool.not_true, Bool.not_false, false_imp_iff, imp_true_iff, true_or, or_true, forall_true_left, implies_true]
    · exact h2.negtrans a b c ⟨ha, ga⟩ ⟨hb, gb⟩ ⟨hc, gc⟩
    · exact h1.negtrans a b c ⟨ha, ga⟩ ⟨hb, gb⟩ ⟨hc, gc⟩

/-! ### a general complex -/

theorem cmpCellPlain_sw (k : Nat) (P : Copy T → Prop) : SW (cmpCellPlain k) P := by
  refine ⟨fun a b _ _ h => ?_, fun a b c _ _ _ h => ?_⟩
  · unfold cmpCellPlain at h ⊢
    simp only [decide_eq_true_eq, decide_eq_false_iff_not] at h ⊢
    exact not_lt.2 (le_of_lt h)
  · unfold cmpCellPlain at h ⊢
    simp only [decide_eq_true_eq] at h ⊢
    rcases lt_or_ge b.hi a.hi with h' | h'
    · exact Or.inl h'
    · exact Or.inr (lt_of_lt_of_le h h')

theorem cmpEventPlain_sw (cps : List (List (Copy T))) (P : Event T → Prop) : SW (cmpEventPlain cps) P := by
  apply SW.lex (fun e : Event T => e.val) (fun v => ?_)
  apply SW.split (fun e : Event T => e.entry)
  · exact SW.key (fun e : Event T => e.dim) _
  · refine ⟨fun a b _ _ h => ?_, fun a b c _ _ _ h => ?_⟩
    · try dsimp only at h
      try dsimp only
      split at h <;> split <;> simp only [decide_eq_true_eq, decide_eq_false_iff_not] at h ⊢ <;> omega
    · try dsimp only at h
      try dsimp only
      split at h <;> split <;> split <;> simp only [decide_eq_true_eq, decide_eq_false_iff_not] at h ⊢ <;> omega

theorem cmpEventPlain_ok {C : List (CMat F)} {cps : List (List (Copy T))} {es : List (Event T)} : CmpOK C es (cmpEventPlain cps) := by
  refine ⟨(cmpEventPlain_sw cps (fun _ => True)).on (fun _ _ => trivial), ?_, ?_, ?_, ?_, ?_⟩
  · intro a _ b _ h
    unfold cmpEventPlain
    rw [if_pos (ne_of_lt h)]; simpa using h
  · intro a _ b _ h h1 h2
    unfold cmpEventPlain
    rw [if_neg (not_not.2 h), h1, h2]; rfl
  · intro a _ b _ h h1 h2 hd _
    unfold cmpEventPlain
    rw [if_neg (not_not.2 h), h1, h2]
    simp; omega
  · intro a _ b _ h h1 h2 hd hi
    unfold cmpEventPlain
    rw [if_neg (not_not.2 h), h1, h2]
    simp [hd, hi]
  · intro a _ b _ h h1 h2 hd _
    unfold cmpEventPlain
    rw [if_neg (not_not.2 h), h1, h2]
    simp only [Bool.and_false, Bool.false_eq_true, if_false, Bool.xor_false]
    rw [if_neg (by omega)]
    simp; omega

/-! ### simplices -/

theorem lexLoop_eq : ∀ (l m : List Nat) (dimi dimj : Nat), dimi + m.length = dimj + l.length → lexLoop dimi dimj l m = decide (l < m)
  | [], [], di, dj, h => by
    simp only [lexLoop]; simp at h; simp [h]
  | [], y :: ys, di, dj, h => by
    simp only [lexLoop]; simp at h; simp; omega
  | x :: xs, [], di, dj, h => by
    simp only [lexLoop]; simp at h; simp; omega
  | x :: xs, y :: ys, di, dj, h => by
    rw [lexLoop]
    by_cases e : x = y
    · subst e
      rw [if_neg (not_not.2 rfl), lexLoop_eq xs ys di dj (by simp at h; omega)]
      simp
    · rw [if_pos e]
      simp [List.cons_lt_cons_iff, e]

theorem rlexLoop_eq : ∀ (l m : List Nat) (dimi dimj : Nat), dimi + m.length = dimj + l.length → rlexLoop dimi dimj l m = decide (m < l)
  | [], [], di, dj, h => by
    simp only [rlexLoop]; simp at h; simp [h]
  | [], y :: ys, di, dj, h => by
    simp only [rlexLoop]; simp at h; simp; omega
  | x :: xs, [], di, dj, h => by
    simp only [rlexLoop]; simp at h; simp; omega
  | x :: xs, y :: ys, di, dj, h => by
    rw [rlexLoop]
    by_cases e : x = y
    · subst e
      rw [if_neg (not_not.2 rfl), rlexLoop_eq xs ys di dj (by simp at h; omega)]
      simp
    · rw [if_pos e]
      simp [List.cons_lt_cons_iff, Ne.symm e]

/-- deleting an entry of a decreasing list makes it smaller -/
theorem eraseIdx_lt_of_desc : ∀ (l : List Nat) (k : Nat), l.Pairwise (fun a b => b < a) → k < l.length → l.eraseIdx k < l
  | [], k, _, h => by simp at h
  | [x], 0, _, _ => by simp
  | x :: y :: l, 0, h, _ => by
    rw [List.pairwise_cons] at h
    have := h.1 y (by simp)
    simp [List.cons_lt_cons_iff, this]
  | x :: l, k + 1, h, hk => by
    rw [List.pairwise_cons] at h
    have := eraseIdx_lt_of_desc l k h.2 (by simpa using hk)
    rw [List.eraseIdx_cons_succ]
    simpa using this

theorem reverse_eraseIdx {l : List Nat} {k : Nat} (hk : k < l.length) : (l.eraseIdx k).reverse = l.reverse.eraseIdx (l.length - 1 - k) := by
  rw [List.eraseIdx_eq_take_drop_succ, List.eraseIdx_eq_take_drop_succ, List.reverse_append, List.take_reverse, List.drop_reverse]
  congr 2
  · congr 1; omega
  · congr 1; omega

theorem revVerts_eq {X : SCpx} {cells : SCpx.Cells} (h : SCpx.Inv X cells) {k i : Nat} {s : List Nat} (hs : (cells k)[i]? = some s) : revVerts X.spx k i = s.reverse := by
  have hk : k < X.ncells.length := by
    by_contra hc
    rw [h.top k (by omega)] at hs; cases hs
  have hsp := (h.dim k hk).sp
  unfold revVerts
  rw [List.getD_eq_getElem?_getD, hsp, Option.getD_some]
  congr 1
  have hlen : ∀ t ∈ cells k, t.length = k + 1 := fun t ht => h.ok.len k t ht
  generalize cells k = L at hs hlen
  induction L generalizing i with
  | nil => cases hs
  | cons t L ih =>
    have ht : t.length = k + 1 := hlen t (by simp)
    cases i with
    | zero =>
      simp only [List.getElem?_cons_zero, Option.some.injEq] at hs
      subst hs
      simp [← ht]
    | succ i =>
      have := ih (i := i) (by simpa using hs) (fun t ht => hlen t (by simp [ht]))
      rw [List.flatten_cons, show (k + 1) * (i + 1) = t.length + (k + 1) * i by rw [ht]; ring, List.drop_append]
      rw [List.drop_eq_nil_of_le (by omega), List.nil_append, show t.length + (k + 1) * i - t.length = (k + 1) * i by omega]
      exact this

end Zigzag
end BATS
