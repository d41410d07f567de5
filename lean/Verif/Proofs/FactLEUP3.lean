import Verif.Proofs.FactLEUP2
import Mathlib.Logic.Equiv.Fintype

set_option linter.unusedSectionVars false
set_option linter.unusedSimpArgs false
set_option linter.unusedVariables false

/-! # LEUP: swaps, the loop and the result -/

namespace BATS
namespace Fact
open Reduction CMat Matrix

variable {F : Type} [Field F] [DecidableEq F]

theorem swapList_spec {α : Type} (d : α) {l : List α} {j j2 : Nat} (hj : j < l.length) (hj2 : j2 < l.length) :
    ∃ l', swapList l j j2 = .ok l' ∧ l'.length = l.length ∧ ∀ c, l'.getD c d = l.getD (Equiv.swap j j2 c) d := by
  refine ⟨(l.set j (l.getD j2 d)).set j2 (l.getD j d), ?_, by simp, ?_⟩
  · unfold swapList
    rw [rd_getD d hj, bind_ok, rd_getD d hj2, bind_ok]; rfl
  · intro c
    by_cases h2 : c = j2
    · subst h2
      rw [getD_set_self _ _ (by rw [List.length_set]; exact hj2), Equiv.swap_apply_right]
    · rw [getD_set_ne _ _ (Ne.symm h2)]
      by_cases h1 : c = j
      · subst h1
        rw [getD_set_self _ _ hj, Equiv.swap_apply_left]
      · rw [getD_set_ne _ _ (Ne.symm h1), Equiv.swap_apply_of_ne_of_ne h1 h2]

theorem swap_lt {j j2 n c : Nat} (hj : j < n) (hj2 : j2 < n) (hc : c < n) : Equiv.swap j j2 c < n := by
  rw [Equiv.swap_apply_def]
  split
  · exact hj2
  · split
    · exact hj
    · exact hc

theorem LCore.swap {m n i j j2 : Nat} {A : List (SVec F)} {s : LeupState F} {σ : Equiv.Perm Nat} (h : LCore m n i j A s σ) (hj : j < n) (hj2 : j < j2)
    (hj2n : j2 < n) {E1 P1 : List (SVec F)} (hE1 : E1.length = s.E.length) (hE2 : ∀ c, E1.getD c [] = s.E.getD (Equiv.swap j j2 c) [])
    (hP1 : P1.length = s.P.length) (hP2 : ∀ c, P1.getD c [] = s.P.getD (Equiv.swap j j2 c) []) (p : PMap) :
    LCore m n i j A { s with E := E1, P := P1, p2c := p } ((Equiv.swap j j2).trans σ) := by
  have hsw : ∀ c, c < j → Equiv.swap j j2 c = c := fun c hc => Equiv.swap_apply_of_ne_of_ne (by omega) (by omega)
  have hge : ∀ c, j ≤ c → j ≤ Equiv.swap j j2 c := by
    intro c hc
    rw [Equiv.swap_apply_def]
    split
    · omega
    · split <;> omega
  refine { him := h.him, hjn := h.hjn, okL := h.okL, okE := ?_, okU := h.okU, lL := h.lL, lE := by show E1.length = n; rw [hE1]; exact h.lE, lU := h.lU,
           lP := by show P1.length = n; rw [hP1]; exact h.lP, Llow := h.Llow, Lid := h.Lid, Uup := h.Uup, Uid := h.Uid, lc := h.lc, lp := h.lp, inc := h.inc,
           ltp := h.ltp, proc := ?_, supp := ?_, app := ?_, perm := ?_, pcol := ?_ }
  · intro c hc
    obtain ⟨k, hk, rfl⟩ := List.mem_iff_getElem.1 hc
    have : E1[k] = E1.getD k [] := by simp [List.getD_eq_getElem?_getD, List.getElem?_eq_getElem hk]
    rw [this, hE2]
    exact h.okE.getD _
  · intro k hk
    show ∃ a : F, a ≠ 0 ∧ E1.getD k [] = _ ∧ _
    rw [hE2, hsw k hk]
    exact h.proc k hk
  · intro c hc hcn r hr hne
    have hne' : coef (E1.getD c []) r ≠ 0 := hne
    rw [hE2] at hne'
    exact h.supp _ (hge c hc) (swap_lt hj hj2n hcn) r hr hne'
  · intro c hc r hr
    rw [Equiv.trans_apply, h.app _ (swap_lt hj hj2n hc) r hr]
    refine Finset.sum_congr rfl (fun t _ => ?_)
    congr 1
    show tcol n j s.E s.U _ t = tcol n j E1 s.U c t
    unfold tcol
    by_cases hcj : c < j
    · rw [hsw c hcj, if_pos hcj, if_pos hcj]
      refine Finset.sum_congr rfl (fun k _ => ?_)
      by_cases hk : k < j
      · congr 1
        show coef _ t = coef (E1.getD k []) t
        rw [hE2, hsw k hk]
      · rw [h.Uup c hc k (by omega), if_neg (by omega), zero_mul, zero_mul]
    · rw [if_neg hcj, if_neg (by have := hge c (by omega); omega)]
      show _ = coef (E1.getD c []) t
      rw [hE2]
  · intro c hc
    rw [Equiv.trans_apply]
    exact h.perm _ (swap_lt hj hj2n hc)
  · intro c hc
    show P1.getD c [] = _
    rw [hP2, Equiv.trans_apply]
    exact h.pcol _ (swap_lt hj hj2n hc)

/-- the map of pivots after deleting the pivot of column `j` and giving it to column `j2` -/
theorem swap_pivots {n i j j2 : Nat} {E E1 : List (SVec F)} {p : PMap} {rest : List Nat} (hok : VecOK (E.getD j []))
    (hp : PM p i (pivRel n i j E)) (hpi : p i = some (j2 :: rest)) (hj : j < n) (hne : j2 ≠ j)
    (hE : ∀ c, E1.getD c [] = E.getD (Equiv.swap j j2 c) []) :
    (∃ rest', ((updatePivot (E1.getD j2 []) (deletePivot (E.getD j []) p j i) j2 i) i).getD [] = j2 :: rest' ∧ rest'.Nodup ∧
      ∀ c, c ∈ rest' ↔ j < c ∧ c < n ∧ en E1 c i ≠ 0) ∧
    PM (updatePivot (E1.getD j2 []) (deletePivot (E.getD j []) p j i) j2 i) (i + 1) (fun r c => j < c ∧ c < n ∧ PivAt i (E1.getD c []) r) := by
  obtain ⟨hi1, hi2, hi3⟩ := hp i (le_refl i)
  rw [hpi] at hi2 hi3
  simp only [Option.getD_some, List.nodup_cons] at hi2 hi3
  obtain ⟨h2a, h2b, h2c⟩ := (hi3 j2).1 (by simp)
  have h2j : E1.getD j2 [] = E.getD j [] := by rw [hE, Equiv.swap_apply_right]
  have hjj : E1.getD j [] = E.getD j2 [] := by rw [hE, Equiv.swap_apply_left]
  have hoth : ∀ c, c ≠ j → c ≠ j2 → E1.getD c [] = E.getD c [] := fun c h1 h2 => by rw [hE, Equiv.swap_apply_of_ne_of_ne h1 h2]
  have hr2 : ∀ r, i + 1 ≤ r → ¬ PivAt i (E.getD j2 []) r := fun r hr hh => by have := hh.unique h2c; omega
  rw [h2j]
  -- members of the list of row i, described with the new columns
  have hmem : ∀ c, c ≠ j → c ≠ j2 → (c ∈ rest ↔ j < c ∧ c < n ∧ en E1 c i ≠ 0) := by
    intro c h1 h2
    have := hi3 c
    rw [List.mem_cons, or_iff_right h2] at this
    rw [this]
    unfold pivRel
    rw [pivAt_self]
    show _ ↔ _ ∧ _ ∧ coef (E1.getD c []) i ≠ 0
    rw [hoth c h1 h2]
    constructor
    · rintro ⟨a, b, c'⟩; exact ⟨by omega, b, c'⟩
    · rintro ⟨a, b, c'⟩; exact ⟨by omega, b, c'⟩
  have hjm : j ∈ rest ↔ coef (E.getD j []) i ≠ 0 := by
    have := hi3 j
    rw [List.mem_cons, or_iff_right (Ne.symm hne)] at this
    rw [this]
    unfold pivRel
    rw [pivAt_self]
    exact ⟨fun hh => hh.2.2, fun hh => ⟨le_refl _, hj, hh⟩⟩
  rcases lowerBound_pivAt hok i with ⟨e, hn⟩ | ⟨r0, v, e, hpv⟩
  · have hupd : updatePivot (E.getD j []) (deletePivot (E.getD j []) p j i) j2 i = p := by
      unfold updatePivot deletePivot; rw [e]
    have hz : coef (E.getD j []) i = 0 := by
      by_contra hh; exact hn i (pivAt_self.2 hh)
    rw [hupd]
    refine ⟨⟨rest, by rw [hpi]; rfl, hi2.2, ?_⟩, ?_⟩
    · intro c
      by_cases h1 : c = j
      · subst h1
        rw [hjm]
        exact ⟨fun hh => absurd hz hh, fun hh => by omega⟩
      · by_cases h2 : c = j2
        · subst h2
          refine ⟨fun hh => absurd hh hi2.1, ?_⟩
          rintro ⟨_, _, hh⟩
          exfalso; apply hh
          show coef (E1.getD c []) i = 0
          rw [h2j]; exact hz
        · exact hmem c h1 h2
    · intro r hr
      obtain ⟨q1, q2, q3⟩ := hp r (by omega)
      refine ⟨q1, q2, fun c => ?_⟩
      rw [q3 c]
      show _ ↔ j < c ∧ c < n ∧ PivAt i (E1.getD c []) r
      by_cases h1 : c = j
      · subst h1
        exact ⟨fun hh => absurd hh.2.2 (hn r), fun hh => by omega⟩
      · by_cases h2 : c = j2
        · subst h2
          refine ⟨fun hh => absurd hh.2.2 (hr2 r hr), fun hh => ?_⟩
          rw [h2j] at hh
          exact absurd hh.2.2 (hn r)
        · unfold pivRel
          rw [hoth c h1 h2]
          exact ⟨fun hh => ⟨by omega, hh.2⟩, fun hh => ⟨by omega, hh.2⟩⟩
  · have hupd : updatePivot (E.getD j []) (deletePivot (E.getD j []) p j i) j2 i =
        Function.update p r0 (some (((p r0).getD []).erase j ++ [j2])) := by
      unfold updatePivot deletePivot; rw [e]
      simp only [Function.update_self, Option.getD_some, Function.update_idem]
    rw [hupd]
    have hjmem : ∀ r, i ≤ r → (j ∈ (p r).getD [] ↔ r = r0) := by
      intro r hr
      rw [(hp r hr).2.2 j]
      exact ⟨fun hh => hh.2.2.unique hpv, fun hh => ⟨le_refl _, hj, by rw [hh]; exact hpv⟩⟩
    constructor
    · by_cases hr0 : r0 = i
      · subst hr0
        refine ⟨rest.erase j ++ [j2], ?_, ?_, ?_⟩
        · rw [Function.update_self, hpi]
          simp only [Option.getD_some]
          rw [List.erase_cons_tail (by simpa using hne)]; rfl
        · rw [List.nodup_append]
          refine ⟨hi2.2.erase j, by simp, ?_⟩
          intro a ha b hb
          rw [List.mem_singleton] at hb
          rintro rfl
          rw [hb] at ha
          exact hi2.1 (List.mem_of_mem_erase ha)
        · intro c
          rw [List.mem_append, List.mem_singleton, hi2.2.mem_erase_iff]
          by_cases h1 : c = j
          · subst h1
            constructor
            · rintro (hh | hh)
              · exact absurd rfl hh.1
              · exact absurd hh (Ne.symm hne)
            · intro hh; omega
          · by_cases h2 : c = j2
            · subst h2
              refine ⟨fun _ => ⟨by omega, h2b, ?_⟩, fun _ => Or.inr rfl⟩
              show coef (E1.getD c []) r0 ≠ 0
              rw [h2j]; exact hpv.2.1
            · rw [or_iff_left h2, and_iff_right h1, hmem c h1 h2]
      · refine ⟨rest, ?_, hi2.2, ?_⟩
        · rw [Function.update_of_ne (Ne.symm hr0), hpi]; rfl
        · have hz : coef (E.getD j []) i = 0 := by
            by_contra hh; exact hr0 (hpv.unique (pivAt_self.2 hh))
          intro c
          by_cases h1 : c = j
          · subst h1
            rw [hjm]
            exact ⟨fun hh => absurd hz hh, fun hh => by omega⟩
          · by_cases h2 : c = j2
            · subst h2
              refine ⟨fun hh => absurd hh hi2.1, ?_⟩
              rintro ⟨_, _, hh⟩
              exfalso; apply hh
              show coef (E1.getD c []) i = 0
              rw [h2j]; exact hz
            · exact hmem c h1 h2
    · intro r hr
      obtain ⟨q1, q2, q3⟩ := hp r (by omega)
      have hj2m : j2 ∉ (p r).getD [] := by
        rw [q3 j2]; intro hh; exact hr2 r hr hh.2.2
      have hcore : ∀ c, c ≠ j → c ≠ j2 → (c ∈ (p r).getD [] ↔ j < c ∧ c < n ∧ PivAt i (E1.getD c []) r) := by
        intro c h1 h2
        rw [q3 c, hoth c h1 h2]
        unfold pivRel
        exact ⟨fun hh => ⟨by omega, hh.2⟩, fun hh => ⟨by omega, hh.2⟩⟩
      by_cases hrr : r = r0
      · subst hrr
        rw [Function.update_self]
        simp only [Option.getD_some]
        refine ⟨by simp, ?_, ?_⟩
        · rw [List.nodup_append]
          refine ⟨q2.erase j, by simp, ?_⟩
          intro a ha b hb
          rw [List.mem_singleton] at hb
          rintro rfl
          rw [hb] at ha
          exact hj2m (List.mem_of_mem_erase ha)
        · intro c
          rw [List.mem_append, List.mem_singleton, q2.mem_erase_iff]
          show _ ↔ j < c ∧ c < n ∧ PivAt i (E1.getD c []) r
          by_cases h1 : c = j
          · subst h1
            constructor
            · rintro (hh | hh)
              · exact absurd rfl hh.1
              · exact absurd hh (Ne.symm hne)
            · intro hh; omega
          · by_cases h2 : c = j2
            · subst h2
              refine ⟨fun _ => ⟨by omega, h2b, ?_⟩, fun _ => Or.inr rfl⟩
              rw [h2j]; exact hpv
            · rw [or_iff_left h2, and_iff_right h1, hcore c h1 h2]
      · rw [Function.update_of_ne hrr]
        refine ⟨q1, q2, fun c => ?_⟩
        show _ ↔ j < c ∧ c < n ∧ PivAt i (E1.getD c []) r
        by_cases h1 : c = j
        · subst h1
          rw [hjmem r (by omega)]
          exact ⟨fun hh => absurd hh hrr, fun hh => by omega⟩
        · by_cases h2 : c = j2
          · subst h2
            refine ⟨fun hh => absurd hh hj2m, fun hh => ?_⟩
            rw [h2j] at hh
            exact absurd (hh.2.2.unique hpv) hrr
          · exact hcore c h1 h2

/-- second half of the step: the column `j` has a nonzero entry in row `i` -/
theorem elim_step {m n i j : Nat} {A : List (SVec F)} {s : LeupState F} {σ : Equiv.Perm Nat} (h : LCore m n i j A s σ) (hi : i < m) (hj : j < n)
    (hai : en s.E j i ≠ 0) {rest : List Nat} {j2 : Nat} (hpi : (s.p2c i).getD [] = j2 :: rest) (hnd : rest.Nodup)
    (hrest : ∀ c, c ∈ rest ↔ j < c ∧ c < n ∧ en s.E c i ≠ 0)
    (hp : PM s.p2c (i + 1) (fun r c => j < c ∧ c < n ∧ PivAt i (s.E.getD c []) r)) :
    ∃ s', (do
      let cj ← rd s.E j
      let uj ← rd s.U j
      let uj' ← SVec.lazyAxpy cj s.coeff s.pivs uj
      let U1 := s.U.set j uj'
      let a11 := SVec.getval cj i
      let w ← fdiv 1 a11
      let r ← schurLoop m i a11 cj (((s.p2c i).getD []).drop 1) s.E s.p2c
      let li ← rd s.L i
      let L1 := s.L.set i (SVec.axpyRange w cj (i + 1) m li)
      pure ⟨L1, r.1.set j [(i, a11)], U1, s.P, s.coeff ++ [w], s.pivs ++ [i], Function.update r.2 i none⟩ : Res (LeupState F)) = .ok s' ∧
      LCore m n (i + 1) (j + 1) A s' σ ∧ PM s'.p2c (i + 1) (pivRel n (i + 1) (j + 1) s'.E) ∧ (MonoI m n j s → MonoI m n (j + 1) s') := by
  have hjE : j < s.E.length := by rw [h.lE]; exact hj
  have hjU : j < s.U.length := by rw [h.lU]; exact hj
  have hiL : i < s.L.length := by rw [h.lL]; exact hi
  have hcj := h.okE.getD j
  obtain ⟨u, u1, u2, u3, u4, u5, u6, u7⟩ := h.lazy (le_refl j) hj
  have ha11 : SVec.getval (s.E.getD j []) i = en s.E j i := getval_eq_coef hcj.1.1 i
  obtain ⟨E', p', e1, e2, e3, e4, e5, e6⟩ := schurLoop_spec hai hcj rest s.E s.p2c (fun r c => j < c ∧ c < n ∧ PivAt i (s.E.getD c []) r) h.okE hnd
    (fun jj hjj => by rw [h.lE]; exact ((hrest jj).1 hjj).2.1) hp (by
      rintro jj hjj r hr ⟨_, _, hh⟩
      have := hh.unique (pivAt_self.2 ((hrest jj).1 hjj).2.2)
      omega)
  have hgt : ∀ c, j < c → c < n → ∀ r, en E' c r = en s.E c r + if i + 1 ≤ r ∧ r < m then -(en s.E c i / en s.E j i) * en s.E j r else 0 := by
    intro c hc hcn r
    by_cases hcr : c ∈ rest
    · exact e5 c hcr r
    · show coef (E'.getD c []) r = _
      rw [e4 c hcr]
      have : en s.E c i = 0 := by
        by_contra hne
        exact hcr ((hrest c).2 ⟨hc, hcn, hne⟩)
      rw [this, zero_div, neg_zero, zero_mul, ite_self, add_zero]
  have hlt : ∀ c, c < j → E'.getD c [] = s.E.getD c [] := by
    intro c hc
    apply e4
    intro hcr
    have := ((hrest c).1 hcr).1
    omega
  have hcore := h.elim hi hj hai rfl ⟨u2, u3⟩ u4 u6 e3 (by rw [e2]; exact h.lE) hlt hgt (Function.update p' i none)
  refine ⟨_, ?_, hcore, ?_, ?_⟩
  · rw [rd_getD [] hjE, bind_ok, rd_getD [] hjU, bind_ok, h.Uid j (le_refl _) hj, u1, bind_ok]
    simp only [ha11]
    unfold fdiv
    rw [if_neg hai, bind_ok, hpi, List.drop_succ_cons, List.drop_zero, e1, bind_ok, rd_getD [] hiL, bind_ok]
    rfl
  · show PM (Function.update p' i none) (i + 1) (pivRel n (i + 1) (j + 1) (E'.set j [(i, en s.E j i)]))
    intro r hr
    rw [Function.update_of_ne (by omega)]
    obtain ⟨q1, q2, q3⟩ := e6 r hr
    refine ⟨q1, q2, fun c => ?_⟩
    rw [q3 c]
    unfold pivRel
    by_cases hcj : j < c
    swap
    · constructor
      · rintro (hh | hh)
        · omega
        · have := ((hrest c).1 hh.1).1; omega
      · intro hh; omega
    rw [getD_set_ne _ _ (by omega)]
    by_cases hcr : c ∈ rest
    · obtain ⟨w1, w2, w3⟩ := (hrest c).1 hcr
      constructor
      · rintro (hh | hh)
        · have := hh.2.2.unique (pivAt_self.2 w3); omega
        · exact ⟨by omega, w2, hh.2⟩
      · rintro ⟨_, _, hh⟩; exact Or.inr ⟨hcr, hh⟩
    · rw [e4 c hcr]
      have hz : coef (s.E.getD c []) i = 0 ∨ n ≤ c := by
        by_cases hcn : c < n
        · left
          by_contra hne
          exact hcr ((hrest c).2 ⟨hcj, hcn, hne⟩)
        · right; omega
      constructor
      · rintro (hh | hh)
        · exact ⟨by omega, hh.2.1, (pivAt_succ (hz.resolve_right (by omega))).1 hh.2.2⟩
        · exact absurd hh.1 hcr
      · rintro ⟨_, hcn, hh⟩
        exact Or.inl ⟨hcj, hcn, (pivAt_succ (hz.resolve_right (by omega))).2 hh⟩
  · intro hM
    have hz1 : ∀ r, r ≠ i → en s.E j r = 0 := by
      intro r hr
      by_contra hne
      exact hr (hM.col j (le_refl _) hj r i hne hai)
    have hz2 : ∀ c, j < c → c < n → en s.E c i = 0 := by
      intro c h1 h2
      by_contra hne
      have := hM.row c j (by omega) h2 (le_refl _) hj i hne hai
      omega
    have hE' : ∀ c, j < c → c < n → ∀ r, en (E'.set j [(i, en s.E j i)]) c r = en s.E c r := by
      intro c h1 h2 r
      show coef ((E'.set j _).getD c []) r = _
      rw [getD_set_ne _ _ (by omega)]
      show en E' c r = _
      rw [hgt c h1 h2 r, hz2 c h1 h2, zero_div, neg_zero, zero_mul, ite_self, add_zero]
    refine ⟨?_, ?_, ?_, ?_, ?_⟩
    · intro t ht r
      show coef ((s.L.set i _).getD t []) r = _
      by_cases hti : t = i
      · subst hti
        rw [getD_set_self _ _ hiL, coef_axpyRange _ hcj.1.1]
        rw [show coef (s.L.getD t []) r = if r = t then 1 else 0 from hM.L t ht r]
        by_cases hr : t + 1 ≤ r ∧ r < m
        · rw [if_pos hr, show coef (s.E.getD j []) r = 0 from hz1 r (by omega), mul_zero, add_zero]
        · rw [if_neg hr, add_zero]
      · rw [getD_set_ne _ _ (fun e => hti e.symm)]
        exact hM.L t ht r
    · intro c hc k
      show coef ((s.U.set j u).getD c []) k = _
      by_cases hcj' : c = j
      · subst hcj'
        rw [getD_set_self _ _ hjU]
        by_cases hk : c ≤ k
        · exact u4 k hk
        · rw [u7 k (by omega), if_neg (by omega)]
          have := hM.piv c (le_refl _) hj (s.pivs.getD k 0) (by rw [List.getD_eq_getElem?_getD, List.getElem?_eq_getElem (by rw [h.lp]; omega)]; exact List.getElem_mem _)
          rw [show coef (s.E.getD c []) (s.pivs.getD k 0) = 0 from this, mul_zero]
      · rw [getD_set_ne _ _ (fun e => hcj' e.symm)]
        exact hM.U c hc k
    · intro c c' h1 h2 h3 h4 r n1 n2
      rw [hE' c (by omega) h2] at n1
      rw [hE' c' (by omega) h4] at n2
      exact hM.row c c' (by omega) h2 (by omega) h4 r n1 n2
    · intro c h1 h2 r r' n1 n2
      rw [hE' c (by omega) h2] at n1 n2
      exact hM.col c (by omega) h2 r r' n1 n2
    · intro c h1 h2 r hr
      rw [hE' c (by omega) h2]
      have hr' : r ∈ s.pivs ++ [i] := hr
      rw [List.mem_append, List.mem_singleton] at hr'
      rcases hr' with hr' | hr'
      · exact hM.piv c (by omega) h2 r hr'
      · rw [hr']; exact hz2 c (by omega) h2

theorem MonoI.swap {m n j j2 : Nat} {s : LeupState F} (h : MonoI m n j s) (hj : j < n) (hj2 : j < j2)
    (hj2n : j2 < n) {E1 P1 : List (SVec F)} (hE2 : ∀ c, E1.getD c [] = s.E.getD (Equiv.swap j j2 c) []) (p : PMap) :
    MonoI m n j { s with E := E1, P := P1, p2c := p } := by
  have e : ∀ c r, en E1 c r = en s.E (Equiv.swap j j2 c) r := fun c r => by
    show coef (E1.getD c []) r = _
    rw [hE2]
  have hge : ∀ c, j ≤ c → j ≤ Equiv.swap j j2 c := by
    intro c hc
    rw [Equiv.swap_apply_def]
    split_ifs <;> omega
  refine ⟨h.L, h.U, ?_, ?_, ?_⟩
  · intro c c' h1 h2 h3 h4 r n1 n2
    have n1' : en E1 c r ≠ 0 := n1
    have n2' : en E1 c' r ≠ 0 := n2
    rw [e] at n1' n2'
    exact (Equiv.swap j j2).injective (h.row _ _ (hge c h1) (swap_lt hj hj2n h2) (hge c' h3) (swap_lt hj hj2n h4) r n1' n2')
  · intro c h1 h2 r r' n1 n2
    have n1' : en E1 c r ≠ 0 := n1
    have n2' : en E1 c r' ≠ 0 := n2
    rw [e] at n1' n2'
    exact h.col _ (hge c h1) (swap_lt hj hj2n h2) r r' n1' n2'
  · intro c h1 h2 r hr
    show en E1 c r = 0
    rw [e]
    exact h.piv _ (hge c h1) (swap_lt hj hj2n h2) r hr

theorem leupStep_spec {m n i j : Nat} {A : List (SVec F)} {s : LeupState F} {σ : Equiv.Perm Nat} (h : LCore m n i j A s σ) (hi : i < m) (hj : j < n)
    (hp : PM s.p2c i (pivRel n i j s.E)) {js : List Nat} (hjs : s.p2c i = some js) :
    ∃ s' σ', leupStep m i j js s = .ok s' ∧ LCore m n (i + 1) (j + 1) A s' σ' ∧ PM s'.p2c (i + 1) (pivRel n (i + 1) (j + 1) s'.E) ∧
      (MonoI m n j s → MonoI m n (j + 1) s') := by
  obtain ⟨hi1, hi2, hi3⟩ := hp i (le_refl i)
  rw [hjs] at hi1 hi2 hi3
  simp only [Option.getD_some] at hi2 hi3
  rcases js with _ | ⟨j2, rest⟩
  · exact absurd rfl hi1
  obtain ⟨h2a, h2b, h2c⟩ := (hi3 j2).1 (by simp)
  rw [List.nodup_cons] at hi2
  unfold leupStep
  simp only []
  by_cases hne : j2 = j
  · subst hne
    rw [if_neg (by simp)]
    show ∃ s' σ', (pure s >>= fun s => _ : Res (LeupState F)) = .ok s' ∧ _
    rw [pure_ok, bind_ok]
    obtain ⟨s', q1, q2, q3, q4⟩ := elim_step h hi hj h2c.2.1 (rest := rest) (j2 := j2) (by rw [hjs]; rfl) hi2.2 (by
      intro c
      have := hi3 c
      rw [List.mem_cons] at this
      constructor
      · intro hc
        obtain ⟨a1, a2, a3⟩ := this.1 (Or.inr hc)
        refine ⟨?_, a2, pivAt_self.1 a3⟩
        rcases Nat.lt_or_eq_of_le a1 with hh | hh
        · exact hh
        · subst hh; exact absurd hc hi2.1
      · rintro ⟨a1, a2, a3⟩
        exact (this.2 ⟨by omega, a2, pivAt_self.2 a3⟩).resolve_left (by omega)) (by
      intro r hr
      obtain ⟨w1, w2, w3⟩ := hp r (by omega)
      refine ⟨w1, w2, fun c => (w3 c).trans ?_⟩
      unfold pivRel
      constructor
      · rintro ⟨a1, a2, a3⟩
        refine ⟨?_, a2, a3⟩
        rcases Nat.lt_or_eq_of_le a1 with hh | hh
        · exact hh
        · subst hh
          have := a3.unique h2c; omega
      · rintro ⟨a1, a2, a3⟩; exact ⟨by omega, a2, a3⟩)
    exact ⟨s', σ, q1, q2, q3, q4⟩
  · rw [if_pos hne]
    have hjE : j < s.E.length := by rw [h.lE]; exact hj
    have hj2E : j2 < s.E.length := by rw [h.lE]; exact h2b
    have hjP : j < s.P.length := by rw [h.lP]; exact hj
    have hj2P : j2 < s.P.length := by rw [h.lP]; exact h2b
    obtain ⟨E1, t1, t2, t3⟩ := swapList_spec [] hjE hj2E
    obtain ⟨P1, v1, v2, v3⟩ := swapList_spec [] hjP hj2P
    simp only [rd_getD [] hjE, bind_ok, t1, rd_getD [] (by rw [t2]; exact hj2E : j2 < E1.length), v1, pure_ok]
    obtain ⟨⟨rest', r1, r2, r3⟩, r4⟩ := swap_pivots (h.okE.getD j).1 hp hjs hj hne t3
    have hcore := h.swap hj (by omega : j < j2) h2b t2 t3 v2 v3 (updatePivot (E1.getD j2 []) (deletePivot (s.E.getD j []) s.p2c j i) j2 i)
    have hai : en E1 j i ≠ 0 := by
      show coef (E1.getD j []) i ≠ 0
      rw [t3, Equiv.swap_apply_left]; exact h2c.2.1
    obtain ⟨s', q1, q2, q3, q4⟩ := elim_step hcore hi hj hai r1 r2 r3 r4
    exact ⟨s', _, q1, q2, q3, fun hM => q4 (hM.swap hj (by omega : j < j2) h2b t3 _)⟩

theorem leupLoop_spec {m n : Nat} {A : List (SVec F)} : ∀ (rem i j : Nat) (s : LeupState F) (σ : Equiv.Perm Nat), i + rem = m →
    LCore m n i j A s σ → PM s.p2c i (pivRel n i j s.E) →
    ∃ i' j' s' σ', leupLoop m n rem i j s = .ok (j', s') ∧ LCore m n i' j' A s' σ' ∧ (i' = m ∨ j' = n) ∧
      (MonoI m n j s → MonoI m n j' s')
  | 0, i, j, s, σ, hr, h, hp => ⟨i, j, s, σ, rfl, h, Or.inl (by omega), id⟩
  | rem + 1, i, j, s, σ, hr, h, hp => by
    rw [leupLoop]
    by_cases hj : j < n
    · rw [if_pos hj]
      rcases hjs : s.p2c i with _ | js
      · -- no pivot in row i
        have hz : ∀ c, j ≤ c → c < n → en s.E c i = 0 := by
          intro c h1 h2
          by_contra hne
          have := ((hp i (le_refl i)).2.2 c).2 ⟨h1, h2, pivAt_self.2 hne⟩
          rw [hjs] at this
          simp at this
        have hcore : LCore m n (i + 1) j A s σ := by
          refine { h with him := by omega, Lid := fun t h1 h2 => h.Lid t (by omega) h2, ltp := fun p hp => by have := h.ltp p hp; omega, supp := ?_ }
          intro c h1 h2 r hr' hne
          by_cases hri : r = i
          · rw [hri] at hne; exact absurd (hz c h1 h2) hne
          · exact h.supp c h1 h2 r (by omega) hne
        refine leupLoop_spec rem (i + 1) j s σ (by omega) hcore ?_
        intro r hr'
        obtain ⟨q1, q2, q3⟩ := hp r (by omega)
        refine ⟨q1, q2, fun c => (q3 c).trans ?_⟩
        unfold pivRel
        constructor
        · rintro ⟨a1, a2, a3⟩; exact ⟨a1, a2, (pivAt_succ (hz c a1 a2)).1 a3⟩
        · rintro ⟨a1, a2, a3⟩; exact ⟨a1, a2, (pivAt_succ (hz c a1 a2)).2 a3⟩
      · obtain ⟨s', σ', q1, q2, q3, q4⟩ := leupStep_spec h (by omega) hj hp hjs
        simp only [q1, bind_ok]
        obtain ⟨i'', j'', s'', σ'', z1, z2, z3, z4⟩ := leupLoop_spec rem (i + 1) (j + 1) s' σ' (by omega) q2 q3
        exact ⟨i'', j'', s'', σ'', z1, z2, z3, fun hM => z4 (q4 hM)⟩
    · rw [if_neg hj]
      exact ⟨i, j, s, σ, rfl, h, Or.inr (by have := h.hjn; omega), id⟩

end Fact
end BATS
