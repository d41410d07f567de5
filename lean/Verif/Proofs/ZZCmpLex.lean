import Verif.Proofs.ZZCmp

set_option linter.unusedSectionVars false
set_option linter.unusedSimpArgs false
set_option linter.unusedVariables false

/-! # The lexicographic comparison functions for simplicial complexes -/

namespace BATS
namespace Zigzag
open Matrix Reduction

variable {F : Type} [Field F] [DecidableEq F] {T : Type} [LinearOrder T]

/-- the simplices of the complex with their boundary matrices -/
structure SimplexData (X : SCpx) (cells : SCpx.Cells) (B : List (CMat F)) : Prop where
  inv : SCpx.Inv X cells
  sorted : ∀ d s, s ∈ cells d → s.Pairwise (· < ·)
  cdim : ∀ k, cdim B k = (cells k).length
  ent : ∀ d i j, ent B (d + 1) i j ≠ 0 → ∃ s k, (cells (d + 1))[j]? = some s ∧ k < s.length ∧ (cells d)[i]? = some (s.eraseIdx k)

theorem simplexData {X : SCpx} {cells : SCpx.Cells} (h : SCpx.Inv X cells) (hs : ∀ d s, s ∈ cells d → s.Pairwise (· < ·)) :
    ∃ B : List (CMat F), X.chainComplex = .ok B ∧ IsChainComplex B ∧ ZeroBdry0 B ∧ B.length = X.maxdim + 1 ∧ SimplexData X cells B := by
  obtain ⟨B, b1, b2, b3, b4⟩ := SCpx.chainComplex_spec (F := F) h
  have hC := SCpx.isChainComplex_of h (fun d s hm => (hs d s hm).imp (fun h => ne_of_lt h)) b3 b2 b4
  have hc := SCpx.cdim_eq h b3 b2 b4
  have hne := h.sizes.ne
  refine ⟨B, b1, hC, ?_, by rw [b2]; unfold SCpx.maxdim; omega, h, hs, hc, ?_⟩
  · intro c hc
    rw [List.getD_eq_getElem?_getD, b3, Option.getD_some] at hc
    simp [CMat.zero] at hc; exact hc.2
  · intro d i j hne
    obtain ⟨hi, hj⟩ := ent_row_lt hC.shape hne
    rw [hc] at hj
    have hsj : (cells (d + 1))[j]? = some (cells (d + 1))[j] := List.getElem?_eq_getElem hj
    rw [SCpx.ent_eq h b4 hsj] at hne
    obtain ⟨k, hk, hk'⟩ := Finset.exists_ne_zero_of_sum_ne_zero hne
    have hl : ((cells (d + 1))[j]).length = d + 2 := h.ok.len (d + 1) _ (List.getElem_mem hj)
    have hkl : k < d + 2 := Finset.mem_range.1 hk
    refine ⟨_, k, hsj, by omega, ?_⟩
    have hid : (cells d).idxOf ((cells (d + 1))[j].eraseIdx k) = i := by
      by_contra hcon
      rw [if_neg hcon] at hk'; exact hk' rfl
    have hmem := h.ok.closed d _ (List.getElem_mem hj) k hkl
    have hlt := List.idxOf_lt_length_iff.2 hmem
    rw [← hid, List.getElem?_eq_getElem hlt, List.getElem_idxOf]

namespace SimplexData
variable {X : SCpx} {cells : SCpx.Cells} {B C : List (CMat F)} {vals : List (List (List (T × T)))} {lab : Nat → Nat → Copy T} {es : List (Event T)}

theorem rv (h : SimplexData X cells B) {k i : Nat} (hi : i < BATS.cdim B k) : ∃ s, (cells k)[i]? = some s ∧ revVerts X.spx k i = s.reverse ∧ (revVerts X.spx k i).length = k + 1 := by
  rw [h.cdim] at hi
  have hs : (cells k)[i]? = some (cells k)[i] := List.getElem?_eq_getElem hi
  have e := revVerts_eq h.inv hs
  exact ⟨_, hs, e, by rw [e, List.length_reverse]; exact h.inv.ok.len k _ (List.getElem_mem hi)⟩

theorem rv_face (h : SimplexData X cells B) {k i j : Nat} (he : BATS.ent B (k + 1) i j ≠ 0) : revVerts X.spx k i < revVerts X.spx (k + 1) j := by
  obtain ⟨s, m, h1, h2, h3⟩ := h.ent k i j he
  rw [revVerts_eq h.inv h1, revVerts_eq h.inv h3, reverse_eraseIdx h2]
  apply eraseIdx_lt_of_desc
  · rw [List.pairwise_reverse]
    exact h.sorted (k + 1) s (List.mem_of_getElem? h1)
  · rw [List.length_reverse]; omega

theorem cmpCell_eq (h : SimplexData X cells B) {k : Nat} {a b : Copy T} (ha : a.orig < BATS.cdim B k) (hb : b.orig < BATS.cdim B k) :
    cmpCellLex X.spx k a b = if a.hi = b.hi then decide (revVerts X.spx k a.orig < revVerts X.spx k b.orig) else decide (b.hi < a.hi) := by
  obtain ⟨_, _, _, la⟩ := h.rv ha
  obtain ⟨_, _, _, lb⟩ := h.rv hb
  unfold cmpCellLex
  rw [rlexLoop_eq _ _ k k (by omega)]

theorem cmpCell_sw (h : SimplexData X cells B) (k : Nat) : SW (cmpCellLex (T := T) X.spx k) (fun a => a.orig < BATS.cdim B k) := by
  refine SW.congr (SW.lex (fun a : Copy T => OrderDual.toDual a.hi) (cmp := fun a b => decide (revVerts X.spx k a.orig < revVerts X.spx k b.orig))
    (fun v => SW.key (fun a : Copy T => revVerts X.spx k a.orig) _)) ?_
  intro a b ha hb
  rw [h.cmpCell_eq ha hb]
  by_cases e : a.hi = b.hi
  · rw [if_pos e, if_neg (by simp [e])]
  · rw [if_neg e, if_pos (by simpa using e)]
    rfl

theorem cmpCell_desc (h : SimplexData X cells B) {k : Nat} {a b : Copy T} (ha : a.orig < BATS.cdim B k) (hb : b.orig < BATS.cdim B k) (hc : cmpCellLex X.spx k b a = false) :
    b.hi ≤ a.hi ∧ (b.hi = a.hi → revVerts X.spx k a.orig ≤ revVerts X.spx k b.orig) := by
  rw [h.cmpCell_eq hb ha] at hc
  by_cases e : b.hi = a.hi
  · rw [if_pos e] at hc
    exact ⟨le_of_eq e, fun _ => not_lt.1 (by simpa using hc)⟩
  · rw [if_neg e] at hc
    exact ⟨not_lt.1 (by simpa using hc), fun h => absurd h e⟩

/-- the vertices of the simplex of an event -/
def evRv (X : SCpx) (lab : Nat → Nat → Copy T) (e : Event T) : List Nat := revVerts X.spx e.dim (lab e.dim e.ind).orig

theorem cmpEvent_ok (h : SimplexData X cells B) (hl : Labelled B vals C lab) (hd : EventData C lab (vals.map cpOf) es)
    (hord : ∀ k j j', j < j' → j' < BATS.cdim C k → cmpCellLex X.spx k (lab k j') (lab k j) = false) : CmpOK C es (cmpEventLex X.spx (vals.map cpOf)) := by
  have hlt : ∀ e ∈ es, (lab e.dim e.ind).orig < BATS.cdim B e.dim := fun e he => (hl.mem e.dim e.ind (hd.events.mem e he).2.1).1
  have hlen : ∀ e ∈ es, (evRv X lab e).length = e.dim + 1 := fun e he => by
    obtain ⟨_, _, _, h3⟩ := h.rv (hlt e he); exact h3
  have eqv : ∀ a ∈ es, ∀ b ∈ es, cmpEventLex X.spx (vals.map cpOf) a b =
      if a.val ≠ b.val then decide (a.val < b.val) else if a.entry && b.entry then decide (evRv X lab a < evRv X lab b) else if a.entry ^^ b.entry then a.entry else
        if a.dim = b.dim then decide (b.ind < a.ind) else decide (evRv X lab b < evRv X lab a) := by
    intro a ha b hb
    unfold cmpEventLex
    rw [hd.orig a ha, hd.orig b hb]
    rw [lexLoop_eq _ _ a.dim b.dim (by have h1 := hlen a ha; have h2 := hlen b hb; unfold evRv at h1 h2; omega),
      rlexLoop_eq _ _ a.dim b.dim (by have h1 := hlen a ha; have h2 := hlen b hb; unfold evRv at h1 h2; omega)]
    rfl
  -- exits with the same value
  have exit_val : ∀ e ∈ es, e.entry = false → e.val = (lab e.dim e.ind).hi := by
    intro e he h'
    have := (hd.events.mem e he).2.2
    rw [h'] at this; simpa using this
  have mono : ∀ a ∈ es, ∀ b ∈ es, a.entry = false → b.entry = false → a.val = b.val → a.dim = b.dim → a.ind < b.ind → evRv X lab a ≤ evRv X lab b := by
    intro a ha b hb ea eb hv hdim hind
    have h1 := hord b.dim a.ind b.ind hind (hd.events.mem b hb).2.1
    have h2 := h.cmpCell_desc (a := lab b.dim a.ind) (b := lab b.dim b.ind) (by rw [← hdim]; exact hlt a ha) (hlt b hb) h1
    unfold evRv
    rw [hdim]
    apply h2.2
    rw [← exit_val b hb eb, ← hv, exit_val a ha ea, hdim]
  have hsw : SW (cmpEventLex X.spx (vals.map cpOf)) (fun e => e ∈ es) := by
    refine SW.congr (SW.lex (fun e : Event T => e.val) (cmp := fun a b => if a.entry && b.entry then decide (evRv X lab a < evRv X lab b) else if a.entry ^^ b.entry then a.entry else
        if a.dim = b.dim then decide (b.ind < a.ind) else decide (evRv X lab b < evRv X lab a)) (fun v => ?_)) (fun a b ha hb => eqv a ha b hb)
    apply SW.split (fun e : Event T => e.entry)
    · exact SW.key (fun e : Event T => evRv X lab e) _
    · refine SW.congr (SW.lex (fun e : Event T => OrderDual.toDual (evRv X lab e)) (cmp := fun a b => decide (OrderDual.toDual a.ind < OrderDual.toDual b.ind))
        (fun v => SW.key (fun e : Event T => OrderDual.toDual e.ind) _)) ?_
      rintro a b ⟨⟨ha, va⟩, ea⟩ ⟨⟨hb, vb⟩, eb⟩
      have hv : a.val = b.val := va.trans vb.symm
      by_cases e : evRv X lab a = evRv X lab b
      · have hdim : a.dim = b.dim := by
          have h1 := hlen a ha
          have h2 := hlen b hb
          rw [e] at h1; omega
        rw [if_pos hdim, if_neg (by simp [e])]
        rfl
      · rw [if_pos (show OrderDual.toDual (evRv X lab a) ≠ OrderDual.toDual (evRv X lab b) from e)]
        by_cases hdim : a.dim = b.dim
        · rw [if_pos hdim]
          rw [decide_eq_decide]
          show b.ind < a.ind ↔ evRv X lab b < evRv X lab a
          constructor
          · intro hlt'
            exact lt_of_le_of_ne (mono b hb a ha eb ea hv.symm hdim.symm hlt') (Ne.symm e)
          · intro hlt'
            rcases Nat.lt_trichotomy a.ind b.ind with h' | h' | h'
            · exact absurd (mono a ha b hb ea eb hv hdim h') (not_le.2 hlt')
            · exfalso; apply e; unfold evRv; rw [hdim, h']
            · exact h'
        · rw [if_neg hdim, decide_eq_decide]; rfl
  have hface : ∀ k i j, i < BATS.cdim C k → j < BATS.cdim C (k + 1) → BATS.ent C (k + 1) i j ≠ 0 → revVerts X.spx k (lab k i).orig < revVerts X.spx (k + 1) (lab (k + 1) j).orig := by
    intro k i j hi hj hne
    apply h.rv_face
    rw [hl.ent k i j hi hj] at hne
    split at hne
    · exact hne
    · exact absurd rfl hne
  refine ⟨hsw.on (fun _ h => h), ?_, ?_, ?_, ?_, ?_⟩
  · intro a ha b hb h'
    rw [eqv a ha b hb, if_pos (ne_of_lt h')]; simpa using h'
  · intro a ha b hb h' h1 h2
    rw [eqv a ha b hb, if_neg (not_not.2 h'), h1, h2]; rfl
  · intro a ha b hb h' h1 h2 hdim hne
    rw [eqv a ha b hb, if_neg (not_not.2 h'), h1, h2]
    simp only [Bool.and_true, if_true, decide_eq_true_eq]
    have ma := hd.events.mem a ha
    have mb := hd.events.mem b hb
    unfold evRv
    rw [← hdim] at hne mb ⊢
    exact hface a.dim a.ind b.ind ma.2.1 mb.2.1 hne
  · intro a ha b hb h' h1 h2 hdim hi
    rw [eqv a ha b hb, if_neg (not_not.2 h'), h1, h2]
    simp [hdim, hi]
  · intro a ha b hb h' h1 h2 hdim hne
    rw [eqv a ha b hb, if_neg (not_not.2 h'), h1, h2]
    simp only [Bool.and_false, Bool.false_eq_true, if_false, Bool.xor_false]
    rw [if_neg (by omega)]
    simp only [decide_eq_true_eq]
    have ma := hd.events.mem a ha
    have mb := hd.events.mem b hb
    unfold evRv
    rw [hdim] at hne ma ⊢
    exact hface b.dim b.ind a.ind mb.2.1 ma.2.1 hne

end SimplexData
end Zigzag
end BATS
