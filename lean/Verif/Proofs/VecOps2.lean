import Verif.Proofs.VecOps
import Verif.Spec.VecOps

set_option linter.unusedSectionVars false
set_option linter.unusedSimpArgs false
set_option linter.unusedVariables false

/-! # Mixing and inserting rows of sparse vectors -/

namespace BATS
open Reduction

variable {F : Type} [Field F] [DecidableEq F]

/-! ### mixing two rows -/

theorem mem_putVal {v : SVec F} {i : Nat} {a b : F} (h : (i, a) ∈ v) : (i, b) ∈ SVec.putVal v i b := by
  unfold SVec.putVal
  exact List.mem_map.2 ⟨(i, a), h, by simp⟩

theorem sorted_putVal {v : SVec F} (hv : Sorted v) (i : Nat) (a : F) : Sorted (SVec.putVal v i a) := by
  rw [sorted_iff_fst] at hv ⊢
  rw [putVal_fst]; exact hv

theorem noZero_iff_coef {v : SVec F} (hs : Sorted v) : NoZero v ↔ ∀ p ∈ v, coef v p.1 ≠ 0 := by
  constructor
  · intro h p hp
    rw [coef_of_mem (a := p.2) hs hp]; exact h p hp
  · intro h p hp
    have := h p hp
    rwa [coef_of_mem (a := p.2) hs hp] at this

/-- the last step of `mix_rows`: read the entry at row `i` and erase it if it is zero -/
theorem finish_mix {w : SVec F} (hs : Sorted w) {i : Nat} (hnz : ∀ p ∈ w, p.1 ≠ i → p.2 ≠ 0) {a : F} (hi : (i, a) ∈ w) :
    ∃ u, (do let p ← rd w (SVec.lowerBound w i); pure (if p.2 = 0 then w.eraseIdx (SVec.lowerBound w i) else w) : Res (SVec F)) = .ok u ∧
      VecOK u ∧ ∀ k, coef u k = coef w k := by
  obtain ⟨A, B, e, hl, hA, hB⟩ := split_at hs hi
  have hrd : rd w (SVec.lowerBound w i) = .ok (i, a) := by
    rw [← hl, e]
    unfold rd
    rw [List.getElem?_append_right (Nat.le_refl _), Nat.sub_self]; rfl
  rw [hrd, bind_ok]
  by_cases h : a = 0
  · refine ⟨w.filter (fun p => decide (p.1 ≠ i)), ?_, ⟨hs.filter _, ?_⟩, ?_⟩
    · show (Except.ok (if a = 0 then _ else _) : Res (SVec F)) = _
      rw [if_pos h, erase_lb hs hi]
    · intro p hp
      rw [List.mem_filter] at hp
      exact hnz p hp.1 (by simpa using hp.2)
    · intro k
      rw [coef_filter_ne]
      by_cases hk : k = i
      · rw [if_pos hk, hk, coef_of_mem hs hi, h]
      · rw [if_neg hk]
  · refine ⟨w, ?_, ⟨hs, ?_⟩, fun _ => rfl⟩
    · show (Except.ok (if a = 0 then _ else _) : Res (SVec F)) = _
      rw [if_neg h]
    · intro p hp
      by_cases hpi : p.1 = i
      · have h1 := coef_of_mem (a := p.2) hs hp
        rw [hpi, coef_of_mem hs hi] at h1
        rw [← h1]; exact h
      · exact hnz p hp hpi

theorem mixRows_spec {v : SVec F} (hv : VecOK v) {i j : Nat} (hij : i ≠ j) (a b c d : F)
    (h : i < j ∨ coef v i ≠ 0 ∨ coef v j = 0 ∨ d ≠ 0 ∨ b = 0) :
    ∃ w, SVec.mixRows i j a b c d v = .ok w ∧ VecOK w ∧ ∀ k, coef w k =
      if k = i then a * coef v i + b * coef v j else if k = j then c * coef v i + d * coef v j else coef v k := by
  unfold SVec.mixRows
  cases hi : SVec.find v i with
  | some vi =>
    have hi1 := (find_spec hv.1 i vi).1 hi
    have hci := coef_of_mem hv.1 hi1
    have e1 : ∀ x, v.set (SVec.lowerBound v i) (i, x) = SVec.putVal v i x := fun x => set_lb hv.1 hi1 x
    cases hj : SVec.find v j with
    | some vj =>
      have hj1 := (find_spec hv.1 j vj).1 hj
      have hcj := coef_of_mem hv.1 hj1
      dsimp only
      rw [e1]
      have hs1 := sorted_putVal hv.1 i (a * vi + b * vj)
      obtain ⟨x, hx⟩ := (mem_fst_of_eq (putVal_fst v i (a * vi + b * vj)) j).2 ⟨vj, hj1⟩
      rw [← lowerBound_fst (putVal_fst v i (a * vi + b * vj)) j, set_lb hs1 hx]
      set w := SVec.putVal (SVec.putVal v i (a * vi + b * vj)) j (c * vi + d * vj) with hw
      have hsw : Sorted w := sorted_putVal hs1 j _
      have hjw : (j, c * vi + d * vj) ∈ w := mem_putVal hx
      have hiw : (i, a * vi + b * vj) ∈ w := by
        rw [hw]
        unfold SVec.putVal
        refine List.mem_map.2 ⟨(i, a * vi + b * vj), mem_putVal hi1, ?_⟩
        rw [if_neg (show ¬ (i, a * vi + b * vj).1 = j from hij)]
      have hcw : ∀ k, coef w k = if k = i then a * vi + b * vj else if k = j then c * vi + d * vj else coef v k := by
        intro k
        rw [hw, coef_putVal hs1 hx, coef_putVal hv.1 hi1]
        by_cases h1 : k = i
        · rw [if_neg (show ¬ k = j by omega), if_pos h1, if_pos h1]
        · rw [if_neg h1, if_neg h1]
      have hnw : ∀ p ∈ w, p.1 ≠ i → p.1 ≠ j → p.2 ≠ 0 := by
        intro p hp h1 h2
        have h3 := coef_of_mem (a := p.2) hsw hp
        rw [hcw, if_neg h1, if_neg h2] at h3
        rw [← h3]
        rw [hw] at hp
        have : p.1 ∈ (SVec.putVal (SVec.putVal v i (a * vi + b * vj)) j (c * vi + d * vj)).map Prod.fst := List.mem_map.2 ⟨p, hp, rfl⟩
        rw [putVal_fst, putVal_fst] at this
        obtain ⟨q, hq, e⟩ := List.mem_map.1 this
        rw [← e, coef_of_mem (a := q.2) hv.1 hq]; exact hv.2 q hq
      have hlb : SVec.lowerBound (SVec.putVal v i (a * vi + b * vj)) j = SVec.lowerBound w j := lowerBound_fst (putVal_fst _ _ _).symm j
      rw [hlb]
      simp only [hci, hcj]
      clear_value w
      by_cases hz : c * vi + d * vj = 0
      · rw [if_pos hz, erase_lb hsw hjw]
        obtain ⟨u, h1, h2, h3⟩ := finish_mix (w := w.filter (fun p => decide (p.1 ≠ j))) (hsw.filter _) (i := i) (by
            intro p hp hne
            rw [List.mem_filter] at hp
            exact hnw p hp.1 hne (by simpa using hp.2)) (a := a * vi + b * vj)
            (List.mem_filter.2 ⟨hiw, by simpa using hij⟩)
        refine ⟨u, h1, h2, ?_⟩
        intro k
        rw [h3, coef_filter_ne, hcw]
        by_cases hk : k = j
        · rw [if_pos hk, if_neg (show ¬ k = i by omega), if_pos hk, hz]
        · rw [if_neg hk]
      · rw [if_neg hz]
        obtain ⟨u, h1, h2, h3⟩ := finish_mix hsw (i := i) (by
            intro p hp hne
            by_cases hp2 : p.1 = j
            · have h4 := coef_of_mem (a := p.2) hsw hp
              rw [hp2, coef_of_mem hsw hjw] at h4
              rw [← h4]; exact hz
            · exact hnw p hp hne hp2) hiw
        refine ⟨u, h1, h2, ?_⟩
        intro k
        rw [h3, hcw]
    | none =>
      have hj0 := (find_none hv.1 j).1 hj
      have hcj := coef_eq_zero_of_notMem hj0
      dsimp only
      rw [e1, hcj]
      simp only [hci, mul_zero, add_zero]
      set w := SVec.putVal v i (a * vi) with hw
      have hsw : Sorted w := sorted_putVal hv.1 i _
      have hiw : (i, a * vi) ∈ w := mem_putVal hi1
      have hjw : ∀ p ∈ w, p.1 ≠ j := by
        intro p hp e
        obtain ⟨x, hx⟩ := (mem_fst_of_eq (putVal_fst v i (a * vi)) j).1 ⟨p.2, by rw [← e]; exact hp⟩
        exact hj0 _ hx rfl
      have hcw : ∀ k, coef w k = if k = i then a * vi else coef v k := fun k => coef_putVal hv.1 hi1 (a * vi) k
      have hnw : ∀ p ∈ w, p.1 ≠ i → p.2 ≠ 0 := by
        intro p hp h1
        have h3 := coef_of_mem (a := p.2) hsw hp
        rw [hcw, if_neg h1] at h3
        rw [← h3]
        obtain ⟨x, hx⟩ := (mem_fst_of_eq (putVal_fst v i (a * vi)) p.1).1 ⟨p.2, hp⟩
        rw [coef_of_mem hv.1 hx]; exact hv.2 _ hx
      have hlb : SVec.lowerBound v j = SVec.lowerBound w j := lowerBound_fst (putVal_fst _ _ _).symm j
      rw [hlb]
      clear_value w
      by_cases hz : c * vi = 0
      · rw [if_neg (not_not.2 hz)]
        obtain ⟨u, h1, h2, h3⟩ := finish_mix hsw (i := i) hnw hiw
        refine ⟨u, h1, h2, ?_⟩
        intro k
        rw [h3, hcw]
        by_cases hk : k = i
        · rw [if_pos hk, if_pos hk]
        · rw [if_neg hk, if_neg hk]
          by_cases hk' : k = j
          · rw [if_pos hk', hz, hk', hcj]
          · rw [if_neg hk']
      · rw [if_pos hz]
        obtain ⟨g1, g2, g3, g4, g5⟩ := insert_lb hsw hjw (c * vi)
        have hmem : (i, a * vi) ∈ w.insertIdx (SVec.lowerBound w j) (j, c * vi) := by
          rw [insertIdx_split w g1]
          have := (List.take_append_drop (SVec.lowerBound w j) w)
          have h4 : (i, a * vi) ∈ w.take (SVec.lowerBound w j) ++ w.drop (SVec.lowerBound w j) := by rw [this]; exact hiw
          simp only [List.mem_append, List.mem_cons] at h4 ⊢
          tauto
        obtain ⟨u, h1, h2, h3⟩ := finish_mix g2 (i := i) (by
          intro p hp hne
          rcases g4 p hp with rfl | hp
          · exact hz
          · exact hnw p hp hne) hmem
        refine ⟨u, h1, h2, ?_⟩
        intro k
        rw [h3, g3, hcw]
        by_cases hk : k = i
        · rw [if_neg (show ¬ k = j by omega), if_pos hk, if_pos hk]
        · rw [if_neg hk, if_neg hk]
  | none =>
    have hi0 := (find_none hv.1 i).1 hi
    have hci := coef_eq_zero_of_notMem hi0
    cases hj : SVec.find v j with
    | none =>
      have hcj := coef_eq_zero_of_notMem ((find_none hv.1 j).1 hj)
      refine ⟨v, rfl, hv, ?_⟩
      intro k
      simp only [hci, hcj, mul_zero, add_zero]
      by_cases hk : k = i
      · rw [if_pos hk, hk, hci]
      · rw [if_neg hk]
        by_cases hk : k = j
        · rw [if_pos hk, hk, hcj]
        · rw [if_neg hk]
    | some vj =>
      have hj1 := (find_spec hv.1 j vj).1 hj
      have hcj := coef_of_mem hv.1 hj1
      have hvj : vj ≠ 0 := hv.2 _ hj1
      dsimp only
      simp only [hci, hcj, mul_zero, zero_add]
      rw [hci, hcj] at h
      -- the vector before the insertion
      have key : ∀ w : SVec F, VecOK w → (∀ p ∈ w, p.1 ≠ i) → (∀ k, coef w k = if k = j then d * vj else coef v k) →
          (b * vj ≠ 0 → SVec.lowerBound v i = SVec.lowerBound w i) →
          ∃ u, (if b * vj ≠ 0 then
            if SVec.lowerBound v i ≤ w.length then (Except.ok (w.insertIdx (SVec.lowerBound v i) (i, b * vj)) : Res (SVec F)) else .error .ub
            else .ok w) = .ok u ∧ VecOK u ∧
          ∀ k, coef u k = if k = i then b * vj else if k = j then d * vj else coef v k := by
        intro w hw hwi hcw hlb
        by_cases hb : b * vj = 0
        · rw [if_neg (not_not.2 hb)]
          refine ⟨w, rfl, hw, ?_⟩
          intro k
          rw [hcw, hb]
          by_cases hk : k = i
          · rw [if_pos hk, if_neg (show ¬ k = j by omega), hk, hci]
          · rw [if_neg hk]
        · rw [if_pos hb, hlb hb]
          obtain ⟨g1, g2, g3, g4, g5⟩ := insert_lb hw.1 hwi (b * vj)
          rw [if_pos g1]
          refine ⟨_, rfl, ⟨g2, ?_⟩, ?_⟩
          · intro p hp
            rcases g4 p hp with rfl | hp
            · exact hb
            · exact hw.2 p hp
          · intro k
            rw [g3, hcw]
      by_cases hd : d * vj = 0
      · rw [if_neg (not_not.2 hd), erase_lb hv.1 hj1]
        refine key _ (vecOK_filter hv _) ?_ ?_ ?_
        · intro p hp; exact hi0 p (List.mem_filter.1 hp).1
        · intro k
          rw [coef_filter_ne, hd]
        · intro hb
          have hd0 : d = 0 := by
            rcases mul_eq_zero.1 hd with h | h
            · exact h
            · exact absurd h hvj
          have hb0 : b ≠ 0 := by rintro rfl; simp at hb
          have hlt : i < j := by
            rcases h with h | h | h | h | h
            · exact h
            · exact absurd rfl h
            · exact absurd h hvj
            · exact absurd hd0 h
            · exact absurd h hb0
          obtain ⟨A, B, e, hl, hA, hB⟩ := split_at hv.1 hj1
          unfold SVec.lowerBound
          conv_lhs => rw [e]
          conv_rhs => rw [e]
          rw [List.filter_append, List.filter_cons_of_neg (by simp)]
          have f1 : A.filter (fun p => decide (p.1 ≠ j)) = A := by
            apply List.filter_eq_self.2; intro p hp; have := hA p hp; simp; omega
          have f2 : B.filter (fun p => decide (p.1 ≠ j)) = B := by
            apply List.filter_eq_self.2; intro p hp; have := hB p hp; simp; omega
          rw [f1, f2, List.takeWhile_append, List.takeWhile_append, List.takeWhile_cons_of_neg (by simp; omega),
            takeWhile_eq_nil_of (l := B) (by intro p hp; have := hB p hp; simp; omega)]
      · rw [if_pos hd, set_lb hv.1 hj1]
        refine key _ (vecOK_putVal hv j hd) ?_ ?_ ?_
        · intro p hp e
          obtain ⟨x, hx⟩ := (mem_fst_of_eq (putVal_fst v j (d * vj)) i).1 ⟨p.2, by rw [← e]; exact hp⟩
          exact hi0 _ hx rfl
        · intro k
          exact coef_putVal hv.1 hj1 (d * vj) k
        · intro _; exact lowerBound_fst (putVal_fst _ _ _).symm i

/-- the remaining case: the entry lands one position too far, so that the vector is out of order, or the insertion is past the end -/
theorem mixRows_bad {v : SVec F} (hv : VecOK v) {i j : Nat} (hij : j < i) (a b c : F) (hi : coef v i = 0) (hj : coef v j ≠ 0) (hb : b ≠ 0) :
    ((∃ p ∈ v, i < p.1) → ∃ w, SVec.mixRows i j a b c 0 v = .ok w ∧ ¬ Sorted w) ∧
    ((∀ p ∈ v, p.1 ≤ i) → SVec.mixRows i j a b c 0 v = .error .ub) := by
  have hi0 : ∀ p ∈ v, p.1 ≠ i := by
    intro p hp e
    have := coef_of_mem (a := p.2) hv.1 hp
    rw [e, hi] at this
    exact hv.2 p hp this.symm
  obtain ⟨vj, hj1⟩ : ∃ x, (j, x) ∈ v := by
    exact exists_mem_of_coef_ne hj
  have hcj := coef_of_mem hv.1 hj1
  have hvj : vj ≠ 0 := hv.2 _ hj1
  have hbv : b * vj ≠ 0 := mul_ne_zero hb hvj
  have e : SVec.mixRows i j a b c 0 v =
      if SVec.lowerBound v i ≤ (v.eraseIdx (SVec.lowerBound v j)).length then
        .ok ((v.eraseIdx (SVec.lowerBound v j)).insertIdx (SVec.lowerBound v i) (i, b * vj)) else .error .ub := by
    unfold SVec.mixRows
    rw [(find_none hv.1 i).2 hi0, (find_spec hv.1 j vj).2 hj1]
    simp only [zero_mul, ne_eq, not_true_eq_false, if_false, hbv, not_false_eq_true, if_true]
  obtain ⟨A, B, e2, hl, hA, hB⟩ := split_at hv.1 hj1
  have elb : SVec.lowerBound v i = A.length + 1 + SVec.lowerBound B i := by
    unfold SVec.lowerBound
    conv_lhs => rw [e2]
    rw [List.takeWhile_append_of_pos (by intro p hp; have := hA p hp; simp; omega), List.takeWhile_cons_of_pos (by simpa using hij)]
    simp; omega
  have eer : v.eraseIdx (SVec.lowerBound v j) = A ++ B := by
    rw [← hl]
    conv_lhs => rw [e2]
    rw [List.eraseIdx_append_of_length_le (Nat.le_refl _), Nat.sub_self, List.eraseIdx_cons_zero]
  have hBs : Sorted B := by
    have := hv.1; rw [e2] at this
    exact ((List.pairwise_append.1 this).2.1).tail
  obtain ⟨s1, s2, s3⟩ := lb_split hBs i
  have hleB : SVec.lowerBound B i ≤ B.length := by
    unfold SVec.lowerBound; exact (List.takeWhile_prefix _).length_le
  rw [e, eer, elb]
  constructor
  · rintro ⟨p, hp, hpi⟩
    have hpB : p ∈ B := by
      rw [e2] at hp
      rcases List.mem_append.1 hp with hp | hp
      · have := hA p hp; omega
      · rcases List.mem_cons.1 hp with rfl | hp
        · simp at hpi; omega
        · exact hp
    have hpd : p ∈ B.drop (SVec.lowerBound B i) := by
      have : p ∈ B.take (SVec.lowerBound B i) ++ B.drop (SVec.lowerBound B i) := by rw [← s1]; exact hpB
      rcases List.mem_append.1 this with h | h
      · rw [s2] at h; have := mem_takeWhile_lt p h; omega
      · exact h
    cases hdr : B.drop (SVec.lowerBound B i) with
    | nil => rw [hdr] at hpd; simp at hpd
    | cons q R =>
      have hqi : i < q.1 := by
        have hq : q ∈ B.dropWhile (fun p => decide (p.1 < i)) := by rw [← s3, hdr]; simp
        have h1 := mem_dropWhile_ge hBs q hq
        have h2 := hi0 q (by rw [e2]; simp [(List.dropWhile_sublist _).subset hq])
        omega
      have hlenB : SVec.lowerBound B i + 1 ≤ B.length := by
        have := congrArg List.length hdr
        rw [List.length_drop, List.length_cons] at this; omega
      have hle : A.length + 1 + SVec.lowerBound B i ≤ (A ++ B).length := by rw [List.length_append]; omega
      rw [if_pos hle]
      refine ⟨_, rfl, ?_⟩
      intro hs
      rw [insertIdx_split _ hle] at hs
      have hq : q ∈ (A ++ B).take (A.length + 1 + SVec.lowerBound B i) := by
        rw [List.take_append, show A.length + 1 + SVec.lowerBound B i - A.length = SVec.lowerBound B i + 1 by omega]
        apply List.mem_append_right
        rw [List.mem_take_iff_getElem]
        refine ⟨SVec.lowerBound B i, by omega, ?_⟩
        have := congrArg (fun l : SVec F => l[0]?) hdr
        simp only [List.getElem?_drop, List.getElem?_cons_zero, Nat.add_zero] at this
        obtain ⟨h1, h2⟩ := List.getElem?_eq_some_iff.1 this
        exact h2
      have := (List.pairwise_append.1 hs).2.2 q hq (i, b * vj) (by simp)
      simp at this; omega
  · intro hall
    have : SVec.lowerBound B i = B.length := by
      have hd : B.drop (SVec.lowerBound B i) = [] := by
        rw [s3]
        apply List.eq_nil_iff_forall_not_mem.2
        intro p hp
        have h1 := mem_dropWhile_ge hBs p hp
        have hpv : p ∈ v := by rw [e2]; simp [(List.dropWhile_sublist _).subset hp]
        have h2 := hall p hpv; have h3 := hi0 p hpv
        omega
      have := congrArg List.length hd
      rw [List.length_drop, List.length_nil] at this; omega
    rw [if_neg (by rw [List.length_append]; omega)]

end BATS
