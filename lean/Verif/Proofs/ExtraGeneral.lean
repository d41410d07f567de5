import Verif.Proofs.Extra

set_option linter.unusedSectionVars false
set_option linter.unusedSimpArgs false
set_option linter.unusedVariables false

/-! # The extra-reduction loop on arbitrary input: exact guarantee -/

namespace BATS
namespace Reduction

variable {F : Type _} [Field F] [DecidableEq F]

/-- like `RInv`, but only columns with at least two entries are known to be registered -/
structure RInvX (m : Nat) (j : Nat) (cols : List (SVec F)) (p2c : P2C) : Prop where
  ok : ColsOK m cols
  plen : p2c.length = m
  sound : ∀ i k, p2c[i]? = some (some k) → k < j ∧ low (cols.getD k []) = some i
  complete : ∀ k, k < j → 2 ≤ (cols.getD k []).length → ∀ i, low (cols.getD k []) = some i → p2c[i]? = some (some k)

/-- second phase: column `j` is registered, entries to the left of the last one are being eliminated -/
theorem extraColLoopX_found {m n : Nat} {j : Nat} (hj : j < n) (R0 : List (SVec F)) :
    ∀ (fuel off : Nat) (cols : List (SVec F)) (p2c : P2C) (V : Nat → Nat → F),
      cols.length = n → RInvX m (j + 1) cols p2c → 2 ≤ off → 0 < fuel →
      (∀ p, off < (cols.getD j []).length → (cols.getD j [])[(cols.getD j []).length - off]? = some p → p.1 + 1 < fuel) →
      UnitUpper V → Applied V n R0 cols →
      ∃ cols' p2c' V', extraColLoop j fuel true off cols p2c = .ok (cols', p2c') ∧
        cols'.length = n ∧ RInvX m (j + 1) cols' p2c' ∧ UnitUpper V' ∧ Applied V' n R0 cols' := by
  intro fuel
  induction fuel with
  | zero => intro off cols p2c V _ _ _ h; omega
  | succ fuel ih =>
    intro off cols p2c V hlen inv hoff _ hfuel hV hA
    unfold extraColLoop
    rw [rd_getD [] (by omega : j < cols.length)]
    simp only [bind_ok]
    have hok := inv.ok.getD j
    set c := cols.getD j [] with hcdef
    by_cases hle : c.length ≤ off
    · rw [if_pos hle]; exact ⟨cols, p2c, V, rfl, hlen, inv, hV, hA⟩
    rw [if_neg hle]
    have hq : c.length - off < c.length := by omega
    rw [rd_ok hq]
    simp only [bind_ok]
    have hf := hfuel _ (by omega) (List.getElem?_eq_getElem hq)
    have hpm : (c[c.length - off]).1 < m := hok.2 _ (List.getElem_mem hq)
    have hpl : (c[c.length - off]).1 < p2c.length := by rw [inv.plen]; exact hpm
    rw [rd_ok hpl]
    simp only [bind_ok]
    have hcne : c ≠ [] := by intro h; rw [h] at hq; simp at hq
    have hsort := hok.1.1
    cases he : p2c[(c[c.length - off]).1] with
    | none =>
      simp only [Bool.not_true, Bool.false_eq_true, if_false]
      apply ih (off + 1) cols p2c V hlen inv (by omega) (by omega) _ hV hA
      rw [← hcdef]
      intro p h hp
      obtain ⟨_, rfl⟩ := List.getElem?_eq_some_iff.1 hp
      have hlt : (c[c.length - (off + 1)]'(by omega)).1 < (c[c.length - off]).1 :=
        (List.pairwise_iff_getElem.1 hsort) _ _ _ _ (by omega)
      omega
    | some k =>
      simp only
      have hsome : p2c[(c[c.length - off]).1]? = some (some k) := by rw [List.getElem?_eq_getElem hpl, he]
      obtain ⟨hkj, hlowk⟩ := inv.sound _ _ hsome
      obtain ⟨hkne, hkl⟩ := low_eq_some.1 hlowk
      have hkj' : k ≠ j := by
        rintro rfl
        have h1 : (c.getLast hcne).1 = (c[c.length - off]).1 := by
          have := hkl; simp only [← hcdef] at this; exact this
        have h2 : (c[c.length - off]).1 < (c[c.length - 1]'(by omega)).1 :=
          (List.pairwise_iff_getElem.1 hsort) _ _ _ _ (by omega)
        rw [List.getLast_eq_getElem] at h1
        omega
      have hkn : k < n := by omega
      rw [rd_getD [] (by omega : k < cols.length)]
      simp only [bind_ok]
      rw [lastnz_ok hkne]
      simp only [bind_ok]
      have hokk := inv.ok.getD k
      have hpk : ((cols.getD k []).getLast hkne).2 ≠ 0 := hokk.1.2 _ (List.getLast_mem hkne)
      unfold CMat.fdiv
      rw [if_neg hpk]
      simp only [bind_ok]
      obtain ⟨pre, hpre, hprelt⟩ := eliminate_split hok.1 hokk.1 hq hkne hkl
      set c' := SVec.axpy (-((c[c.length - off]).2 / ((cols.getD k []).getLast hkne).2)) (cols.getD k []) c with hc'
      have hc'ok : VecOK c' ∧ Below m c' := ⟨vecOK_axpy _ hokk.1 hok.1, below_axpy _ hokk.2 hok.2⟩
      have hlow' : low c' = low c := by
        have hd : c.drop (c.length - off + 1) ≠ [] := by
          intro h; have := congrArg List.length h; simp at this; omega
        unfold low
        rw [hpre, List.getLast?_append_of_ne_nil _ hd]
        conv_rhs => rw [← List.take_append_drop (c.length - off + 1) c]
        rw [List.getLast?_append_of_ne_nil _ hd]
      have hinv' : RInvX m (j + 1) (cols.set j c') p2c := by
        refine ⟨inv.ok.set j hc'ok, inv.plen, ?_, ?_⟩
        · intro i l h
          have := inv.sound i l h
          refine ⟨this.1, ?_⟩
          rw [getD_set _ _ (by omega)]
          split
          · rename_i e; subst e; rw [hlow']; exact this.2
          · exact this.2
        · intro l hl hlen2 i hi
          rw [getD_set _ _ (by omega)] at hi hlen2
          split at hi
          · rename_i e; subst e; rw [hlow'] at hi; exact inv.complete _ hl (by rw [← hcdef]; omega) i hi
          · rename_i e; rw [if_neg e] at hlen2; exact inv.complete l hl hlen2 i hi
      apply ih off (cols.set j c') p2c (addCol V j k (-((c[c.length - off]).2 / ((cols.getD k []).getLast hkne).2)))
        (by simp [hlen]) hinv' hoff (by omega) _ (unitUpper_addCol hV (by omega) _)
        (applied_addCol hA hlen hj hkn _)
      rw [getD_set_self _ _ (by omega)]
      intro p h hp
      obtain ⟨_, rfl⟩ := List.getElem?_eq_some_iff.1 hp
      have hlen' : c'.length = pre.length + (off - 1) := by
        rw [hpre, List.length_append, List.length_drop]; omega
      have hidx : c'.length - off < pre.length := by omega
      have hmem : c'[c'.length - off] ∈ pre := by
        have : c'[c'.length - off] = pre[c'.length - off] := by
          have h2 : (pre ++ c.drop (c.length - off + 1))[c'.length - off]'(by
            rw [← hpre]; omega) = pre[c'.length - off] := List.getElem_append_left hidx
          rw [← h2]; congr 1
        rw [this]; exact List.getElem_mem _
      have := hprelt _ hmem
      omega

/-- first phase -/
theorem extraColLoopX_spec {m n : Nat} {j : Nat} (hj : j < n) (R0 : List (SVec F)) :
    ∀ (fuel : Nat) (cols : List (SVec F)) (p2c : P2C) (V : Nat → Nat → F),
      cols.length = n → RInvX m j cols p2c → 0 < fuel →
      (∀ i, low (cols.getD j []) = some i → i + 2 < fuel) →
      UnitUpper V → Applied V n R0 cols →
      ∃ cols' p2c' V', extraColLoop j fuel false 1 cols p2c = .ok (cols', p2c') ∧
        cols'.length = n ∧ RInvX m (j + 1) cols' p2c' ∧ UnitUpper V' ∧ Applied V' n R0 cols' := by
  intro fuel
  induction fuel with
  | zero => intro cols p2c V _ _ h; omega
  | succ fuel ih =>
    intro cols p2c V hlen inv _ hfuel hV hA
    unfold extraColLoop
    rw [rd_getD [] (by omega : j < cols.length)]
    simp only [bind_ok]
    have hok := inv.ok.getD j
    set c := cols.getD j [] with hcdef
    by_cases hle : c.length ≤ 1
    · rw [if_pos hle]
      refine ⟨cols, p2c, V, rfl, hlen, ⟨inv.ok, inv.plen, ?_, ?_⟩, hV, hA⟩
      · intro i k h; have := inv.sound i k h; exact ⟨by omega, this.2⟩
      · intro k hk hk2 i hi
        by_cases hkj : k = j
        · subst hkj; rw [← hcdef] at hk2; omega
        · exact inv.complete k (by omega) hk2 i hi
    rw [if_neg hle]
    have hq : c.length - 1 < c.length := by omega
    rw [rd_ok hq]
    simp only [bind_ok]
    have hcne : c ≠ [] := by intro h; rw [h] at hq; simp at hq
    have hlast : c[c.length - 1] = c.getLast hcne := (List.getLast_eq_getElem hcne).symm
    have hlow : low c = some (c[c.length - 1]).1 := low_eq_some.2 ⟨hcne, by rw [hlast]⟩
    have hf := hfuel _ hlow
    have hpm : (c[c.length - 1]).1 < m := hok.2 _ (List.getElem_mem hq)
    have hpl : (c[c.length - 1]).1 < p2c.length := by rw [inv.plen]; exact hpm
    rw [rd_ok hpl]
    simp only [bind_ok]
    cases he : p2c[(c[c.length - 1]).1] with
    | none =>
      simp only [Bool.not_false, if_true]
      apply extraColLoopX_found hj R0 fuel 2 cols _ V hlen _ (by omega) (by omega) _ hV hA
      · refine ⟨inv.ok, by simp [inv.plen], ?_, ?_⟩
        · intro i k h
          by_cases hi : (c[c.length - 1]).1 = i
          · subst hi
            rw [List.getElem?_set_self hpl] at h
            cases h
            exact ⟨by omega, hlow⟩
          · rw [List.getElem?_set_ne hi] at h
            have := inv.sound i k h; exact ⟨by omega, this.2⟩
        · intro k hk hk2 i hi
          by_cases hkj : k = j
          · subst hkj
            rw [← hcdef, hlow] at hi; cases hi
            rw [List.getElem?_set_self hpl]
          · have hc := inv.complete k (by omega) hk2 i hi
            have : (c[c.length - 1]).1 ≠ i := by
              rintro rfl
              rw [List.getElem?_eq_getElem hpl, he] at hc
              cases hc
            rw [List.getElem?_set_ne this]; exact hc
      · rw [← hcdef]
        intro p h hp
        obtain ⟨_, rfl⟩ := List.getElem?_eq_some_iff.1 hp
        have hlt : (c[c.length - 2]'(by omega)).1 < (c[c.length - 1]).1 :=
          (List.pairwise_iff_getElem.1 hok.1.1) _ _ _ _ (by omega)
        omega
    | some k =>
      simp only
      have hsome : p2c[(c[c.length - 1]).1]? = some (some k) := by rw [List.getElem?_eq_getElem hpl, he]
      obtain ⟨hkj, hlowk⟩ := inv.sound _ _ hsome
      obtain ⟨hkne, hkl⟩ := low_eq_some.1 hlowk
      have hkn : k < n := by omega
      rw [rd_getD [] (by omega : k < cols.length)]
      simp only [bind_ok]
      rw [lastnz_ok hkne]
      simp only [bind_ok]
      have hokk := inv.ok.getD k
      have hpk : ((cols.getD k []).getLast hkne).2 ≠ 0 := hokk.1.2 _ (List.getLast_mem hkne)
      unfold CMat.fdiv
      rw [if_neg hpk]
      simp only [bind_ok]
      obtain ⟨pre, hpre, hprelt⟩ := eliminate_split hok.1 hokk.1 hq hkne hkl
      rw [List.drop_eq_nil_of_le (by omega), List.append_nil] at hpre
      rw [hpre]
      have hc'ok : VecOK pre ∧ Below m pre := by
        rw [← hpre]; exact ⟨vecOK_axpy _ hokk.1 hok.1, below_axpy _ hokk.2 hok.2⟩
      have hA' := applied_addCol hA hlen hj hkn (-((c[c.length - 1]).2 / ((cols.getD k []).getLast hkne).2))
      rw [← hcdef, hpre] at hA'
      have hinv' : RInvX m j (cols.set j pre) p2c := by
        refine ⟨inv.ok.set j hc'ok, inv.plen, ?_, ?_⟩
        · intro i l h
          have := inv.sound i l h
          refine ⟨this.1, ?_⟩
          rw [getD_set_ne _ _ (by omega)]; exact this.2
        · intro l hl hl2 i hi
          rw [getD_set_ne _ _ (by omega)] at hi hl2
          exact inv.complete l hl hl2 i hi
      apply ih (cols.set j pre) p2c _ (by simp [hlen]) hinv' (by omega) _ (unitUpper_addCol hV hkj _) hA'
      rw [getD_set_self _ _ (by omega)]
      intro i hi
      obtain ⟨hne, rfl⟩ := low_eq_some.1 hi
      have := hprelt _ (List.getLast_mem hne)
      omega

theorem extraLoopX_spec {m n : Nat} (R0 : List (SVec F)) :
    ∀ (todo j : Nat) (cols : List (SVec F)) (p2c : P2C) (V : Nat → Nat → F),
      j + todo = n → cols.length = n → RInvX m j cols p2c → UnitUpper V → Applied V n R0 cols →
      ∃ cols' p2c' V', extraLoop m todo j cols p2c = .ok (cols', p2c') ∧
        cols'.length = n ∧ RInvX m n cols' p2c' ∧ UnitUpper V' ∧ Applied V' n R0 cols' := by
  intro todo
  induction todo with
  | zero =>
    intro j cols p2c V hj hlen inv hV hA
    have : j = n := by omega
    subst this
    exact ⟨cols, p2c, V, rfl, hlen, inv, hV, hA⟩
  | succ todo ih =>
    intro j cols p2c V hj hlen inv hV hA
    obtain ⟨c1, p1, V1, h1, h2, h3, h4, h5⟩ :=
      extraColLoopX_spec (m := m) (n := n) (j := j) (by omega) R0 ((m + 1) * (m + 2)) cols p2c V hlen inv
        (by positivity) (fun i hi => by
          have := low_lt (inv.ok.getD j).2 hi
          have : m + 2 ≤ (m + 1) * (m + 2) := Nat.le_mul_of_pos_left _ (by omega)
          have : (m + 1) * (m + 2) = (m + 1) * m + (m + 1) * 2 := by ring
          have : m ≤ (m + 1) * m := Nat.le_mul_of_pos_left _ (by omega)
          omega) hV hA
    unfold extraLoop
    rw [h1]
    simp only [bind_ok]
    exact ih (j + 1) c1 p1 V1 (by omega) h2 h3 h4 h5

theorem reduceExtraX_spec {m n : Nat} {M : CMat F} (hM : M.Shape m n) :
    ∃ (R : CMat F) (p2c : P2C) (V : Matrix (Fin n) (Fin n) F),
      reduceExtra M = .ok (R, p2c) ∧ R.Shape m n ∧ UnitUpperTri V ∧ R.mat m n = M.mat m n * V ∧ RInvX m n R.cols p2c := by
  obtain ⟨mr, mc⟩ := M
  obtain ⟨hok, rfl, rfl⟩ := hM
  have hi := rinv_init hok
  obtain ⟨c', p', V', h1, h2, h3, h4, h5⟩ := extraLoopX_spec (m := mr) mc mc.length 0 mc (List.replicate mr none) _
    (by simp) rfl ⟨hi.ok, hi.plen, hi.sound, fun k hk => by omega⟩ unitUpper_id (applied_id _ _)
  refine ⟨⟨mr, c'⟩, p', Matrix.of fun i j => V' i j, ?_, ⟨h3.ok, rfl, h2⟩, unitUpper_matOf h4 _, ?_, h3⟩
  · unfold reduceExtra
    simp only at h1 ⊢
    rw [h1]; rfl
  · exact applied_matOf h5 _

end Reduction
end BATS
