import Verif.Model.Barcode
import Mathlib.Data.List.Perm.Basic

set_option linter.unusedSectionVars false
set_option linter.unusedVariables false
set_option linter.unusedSimpArgs false

/-! # C34: equality of barcodes -/

namespace BATS

variable {T : Type} [DecidableEq T]

/-- what a bar is up to its critical cells -/
def barKey (p : PPair T) : Nat × T × Option T := (p.dim, p.birth, p.death)

namespace Barcode

theorem beq_iff (p q : PPair T) : PPair.beq p q = true ↔ barKey p = barKey q := by
  unfold PPair.beq barKey
  simp only [Bool.and_eq_true, decide_eq_true_eq, Prod.mk.injEq]
  tauto

/-- the keys of the elements that are not marked -/
def unmatched : List (PPair T) → List Bool → List (Nat × T × Option T)
  | q :: qs, m :: ms => if m then unmatched qs ms else barKey q :: unmatched qs ms
  | _, _ => []

theorem findMatch_some (p : PPair T) : ∀ (qs : List (PPair T)) (ms ms' : List Bool), findMatch p qs ms = some ms' →
    (unmatched qs ms).Perm (barKey p :: unmatched qs ms')
  | [], ms, ms', h => by cases ms <;> simp [findMatch] at h
  | q :: qs, [], ms', h => by simp [findMatch] at h
  | q :: qs, m :: ms, ms', h => by
    unfold findMatch at h
    by_cases hc : PPair.beq p q && !m
    · rw [if_pos hc] at h
      cases h
      simp only [Bool.and_eq_true, Bool.not_eq_true'] at hc
      obtain ⟨h1, rfl⟩ := hc
      rw [beq_iff] at h1
      simp [unmatched, h1]
    · rw [if_neg hc, Option.map_eq_some_iff] at h
      obtain ⟨r, hr, rfl⟩ := h
      have ih := findMatch_some p qs ms r hr
      unfold unmatched
      cases m with
      | true => simpa using ih
      | false =>
        simp only [Bool.false_eq_true, if_false]
        exact (ih.cons _).trans (List.Perm.swap _ _ _)

theorem findMatch_none (p : PPair T) : ∀ (qs : List (PPair T)) (ms : List Bool), findMatch p qs ms = none →
    barKey p ∉ unmatched qs ms
  | [], ms, h => by cases ms <;> simp [unmatched]
  | q :: qs, [], h => by simp [unmatched]
  | q :: qs, m :: ms, h => by
    unfold findMatch at h
    by_cases hc : PPair.beq p q && !m
    · rw [if_pos hc] at h; cases h
    · rw [if_neg hc, Option.map_eq_none_iff] at h
      have ih := findMatch_none p qs ms h
      unfold unmatched
      cases m with
      | true => simpa using ih
      | false =>
        simp only [Bool.false_eq_true, if_false, List.mem_cons, not_or]
        refine ⟨fun e => hc ?_, ih⟩
        rw [(beq_iff p q).2 e]; rfl

theorem matchAll_iff : ∀ (ps qs : List (PPair T)) (ms : List Bool), ps.length = (unmatched qs ms).length →
    (matchAll ps qs ms = true ↔ (ps.map barKey).Perm (unmatched qs ms))
  | [], qs, ms, h => by
    have : unmatched qs ms = [] := List.length_eq_zero_iff.1 (by simpa using h.symm)
    simp [matchAll, this]
  | p :: ps, qs, ms, h => by
    unfold matchAll
    cases e : findMatch p qs ms with
    | none =>
      simp only [Bool.false_eq_true, false_iff]
      intro hp
      exact findMatch_none p qs ms e (hp.mem_iff.1 (by simp))
    | some ms' =>
      simp only
      have h1 := findMatch_some p qs ms ms' e
      have hl := h1.length_eq
      rw [matchAll_iff ps qs ms' (by simp at hl h; omega), List.map_cons]
      constructor
      · intro h2; exact (h2.cons _).trans h1.symm
      · intro h2; exact (h2.trans h1).cons_inv

theorem unmatched_replicate : ∀ (qs : List (PPair T)), unmatched qs (List.replicate qs.length false) = qs.map barKey
  | [] => rfl
  | q :: qs => by
    rw [List.length_cons, List.replicate_succ]
    unfold unmatched
    rw [unmatched_replicate qs]; rfl

end Barcode

/-- C34: `barcode_equality` returns `true` exactly when the two lists are the same multiset of (dimension, birth, death). -/
theorem C34_barcode_equality_iff (a b : List (PPair T)) :
    Barcode.barcodeEquality a b = true ↔ (a.map barKey).Perm (b.map barKey) := by
  unfold Barcode.barcodeEquality
  by_cases h : a.length = b.length
  · rw [if_neg (by omega), h, Barcode.matchAll_iff, Barcode.unmatched_replicate]
    rw [Barcode.unmatched_replicate, List.length_map, h]
  · rw [if_pos h]
    simp only [Bool.false_eq_true, false_iff]
    intro hp
    have := hp.length_eq
    simp at this; exact h this

/-- C34: multiplicities count: every bar occurs equally often in both lists. -/
theorem C34_multiplicities (a b : List (PPair T)) (h : Barcode.barcodeEquality a b = true) (d : Nat) (x : T) (y : Option T) :
    a.countP (fun p => decide (p.dim = d ∧ p.birth = x ∧ p.death = y)) = b.countP (fun p => decide (p.dim = d ∧ p.birth = x ∧ p.death = y)) := by
  have hp := (C34_barcode_equality_iff a b).1 h
  have e : ∀ l : List (PPair T), l.countP (fun p => decide (p.dim = d ∧ p.birth = x ∧ p.death = y)) = (l.map barKey).count (d, x, y) := by
    intro l
    unfold List.count
    rw [List.countP_map]
    apply List.countP_congr
    intro p _
    simp [barKey]
  rw [e, e, hp.count_eq]

example : Barcode.barcodeEquality (T := Nat) [⟨0, 0, none, 0, none⟩, ⟨0, 1, some 0, 1, some 2⟩] [⟨0, 7, some 3, 1, some 2⟩, ⟨0, 0, none, 0, none⟩] = true ∧
    Barcode.barcodeEquality (T := Nat) [⟨0, 0, none, 0, none⟩, ⟨0, 0, none, 0, none⟩] [⟨0, 0, none, 0, none⟩, ⟨0, 1, some 0, 1, some 2⟩] = false := by
  decide

end BATS
