import Verif.Proofs.FactLEUP4
import Verif.Proofs.UnionFindHom

set_option linter.unusedSectionVars false
set_option linter.unusedSimpArgs false
set_option linter.unusedVariables false

/-! # Commuting triangular matrices with matrices of shape E; the shape checks -/

namespace BATS
namespace Fact
open Reduction CMat Matrix

variable {F : Type} [Field F] [DecidableEq F]

/-- stored form of the shape `E_L`: `ρ` columns with one entry, in increasing rows, then empty columns -/
structure EForm (m n : Nat) (cols : List (SVec F)) (ρ : Nat) (pv : Nat → Nat) (av : Nat → F) : Prop where
  len : cols.length = n
  le : ρ ≤ n
  col : ∀ k, k < ρ → cols.getD k [] = [(pv k, av k)]
  emp : ∀ k, ρ ≤ k → cols.getD k [] = []
  ne : ∀ k, k < ρ → av k ≠ 0
  lt : ∀ k, k < ρ → pv k < m
  mono : ∀ k l, k < l → l < ρ → pv k < pv l

theorem EForm.inj {m n : Nat} {cols : List (SVec F)} {ρ : Nat} {pv : Nat → Nat} {av : Nat → F} (h : EForm m n cols ρ pv av) {k l : Nat} (hk : k < ρ)
    (hl : l < ρ) (e : pv k = pv l) : k = l := by
  rcases lt_trichotomy k l with hh | hh | hh
  · have := h.mono k l hh hl; omega
  · exact hh
  · have := h.mono l k hh hk; omega

theorem EForm.en {m n : Nat} {cols : List (SVec F)} {ρ : Nat} {pv : Nat → Nat} {av : Nat → F} (h : EForm m n cols ρ pv av) (k r : Nat) :
    en cols k r = if k < ρ ∧ pv k = r then av k else 0 := by
  show coef (cols.getD k []) r = _
  by_cases hk : k < ρ
  · rw [h.col k hk, coef_single']
    by_cases e : pv k = r
    · rw [if_pos e, if_pos ⟨hk, e⟩]
    · rw [if_neg e, if_neg (fun hh => e hh.2)]
  · rw [h.emp k (by omega), if_neg (fun hh => hk hh.1)]; rfl

theorem EForm.shape {m n : Nat} {A : CMat F} {ρ : Nat} {pv : Nat → Nat} {av : Nat → F} (h : EForm m n A.cols ρ pv av) : ShapeEL (A.mat m n) := by
  have hne : ∀ (i : Fin m) (j : Fin n), A.mat m n i j ≠ 0 → j.val < ρ ∧ pv j = i := by
    intro i j hh
    have hh' : Fact.en A.cols j i ≠ 0 := hh
    rw [h.en] at hh'
    by_contra hc
    rw [if_neg hc] at hh'; exact hh' rfl
  refine ⟨⟨?_, ?_⟩, ?_⟩
  · intro i j j' h1 h2
    obtain ⟨a1, a2⟩ := hne i j h1
    obtain ⟨b1, b2⟩ := hne i j' h2
    exact Fin.ext (h.inj a1 b1 (by omega))
  · intro i i' j h1 h2
    obtain ⟨a1, a2⟩ := hne i j h1
    obtain ⟨b1, b2⟩ := hne i' j h2
    exact Fin.ext (by omega)
  · intro j j' i' hj h1
    obtain ⟨a1, a2⟩ := hne i' j' h1
    have hj' : j.val < j'.val := hj
    have := h.mono j j' hj' a1
    refine ⟨⟨pv j, h.lt j (by omega)⟩, by show pv j < i'.val; omega, ?_⟩
    show Fact.en A.cols j (pv j) ≠ 0
    rw [h.en, if_pos ⟨by omega, rfl⟩]
    exact h.ne j (by omega)

theorem single_of_unique {c : SVec F} (hc : VecOK c) (hne : c ≠ []) (h : ∀ i i', coef c i ≠ 0 → coef c i' ≠ 0 → i = i') : ∃ p, c = [p] := by
  rcases c with _ | ⟨p, _ | ⟨q, c⟩⟩
  · exact absurd rfl hne
  · exact ⟨p, rfl⟩
  · exfalso
    have h1 : coef (p :: q :: c) p.1 ≠ 0 := by rw [coef_of_mem hc.1 (by simp : p ∈ p :: q :: c)]; exact hc.2 p (by simp)
    have h2 : coef (p :: q :: c) q.1 ≠ 0 := by rw [coef_of_mem hc.1 (by simp : q ∈ p :: q :: c)]; exact hc.2 q (by simp)
    have := h _ _ h1 h2
    have h3 := (sorted_cons.1 hc.1).1 q (by simp)
    omega

theorem exists_bound (P : Nat → Prop) : ∀ n : Nat, (∀ j j', j < j' → j' < n → P j' → P j) → ∃ ρ, ρ ≤ n ∧ ∀ j, j < n → (P j ↔ j < ρ)
  | 0, _ => ⟨0, le_refl _, fun j hj => by omega⟩
  | n + 1, h => by
    obtain ⟨ρ, h1, h2⟩ := exists_bound P n (fun j j' a b => h j j' a (by omega))
    by_cases hn : P n
    · refine ⟨n + 1, le_refl _, fun j hj => ⟨fun _ => hj, fun _ => ?_⟩⟩
      by_cases e : j = n
      · rw [e]; exact hn
      · exact h j n (by omega) (by omega) hn
    · refine ⟨ρ, by omega, fun j hj => ?_⟩
      by_cases e : j = n
      · subst e; exact ⟨fun hh => absurd hh hn, fun hh => by omega⟩
      · exact h2 j (by omega)

theorem ShapeEL.form {m n : Nat} {A : CMat F} (hA : A.Shape m n) (h : ShapeEL (A.mat m n)) : ∃ ρ pv av, EForm m n A.cols ρ pv av := by
  have hlen : A.cols.length = n := hA.ncol
  -- an entry of a nonempty column
  have hex : ∀ j, j < n → A.cols.getD j [] ≠ [] → ∃ i, i < m ∧ en A.cols j i ≠ 0 := by
    intro j hj hne
    obtain ⟨h1, h2⟩ := hA.colsOK.getD j
    obtain ⟨p, hp⟩ := List.exists_mem_of_ne_nil _ hne
    refine ⟨p.1, h2 p hp, ?_⟩
    show coef _ _ ≠ 0
    rw [coef_of_mem h1.1 hp]; exact h1.2 p hp
  obtain ⟨ρ, hρ, hρ'⟩ := exists_bound (fun j => A.cols.getD j [] ≠ []) n (by
    intro j j' hj hj' hne
    obtain ⟨i', hi', hh⟩ := hex j' hj' hne
    obtain ⟨i, _, h2⟩ := h.2 ⟨j, by omega⟩ ⟨j', hj'⟩ ⟨i', hi'⟩ hj hh
    intro e
    apply h2
    show coef (A.cols.getD j []) i = 0
    rw [e]; rfl)
  have hone : ∀ k, k < ρ → ∃ p, A.cols.getD k [] = [p] := by
    intro k hk
    obtain ⟨h1, h2⟩ := hA.colsOK.getD k
    refine single_of_unique h1 ((hρ' k (by omega)).2 hk) ?_
    intro i i' a b
    have hi : i < m := by
      obtain ⟨v, hv⟩ := exists_mem_of_coef_ne a; exact h2 _ hv
    have hi' : i' < m := by
      obtain ⟨v, hv⟩ := exists_mem_of_coef_ne b; exact h2 _ hv
    have := h.1.2 ⟨i, hi⟩ ⟨i', hi'⟩ ⟨k, by omega⟩ a b
    simpa using this
  have hone' : ∀ k, ∃ p : Nat × F, k < ρ → A.cols.getD k [] = [p] := by
    intro k
    by_cases hk : k < ρ
    · obtain ⟨p, hp⟩ := hone k hk; exact ⟨p, fun _ => hp⟩
    · exact ⟨(0, 0), fun hh => absurd hh hk⟩
  choose p hp using hone'
  have hne : ∀ k, k < ρ → (p k).2 ≠ 0 := by
    intro k hk
    obtain ⟨h1, h2⟩ := hA.colsOK.getD k
    rw [hp k hk] at h1
    exact h1.2 (p k) (by simp)
  have hlt : ∀ k, k < ρ → (p k).1 < m := by
    intro k hk
    obtain ⟨h1, h2⟩ := hA.colsOK.getD k
    rw [hp k hk] at h2
    exact h2 (p k) (by simp)
  refine ⟨ρ, fun k => (p k).1, fun k => (p k).2, hlen, hρ, fun k hk => hp k hk, ?_, hne, hlt, ?_⟩
  · intro k hk
    by_cases hkn : k < n
    · by_contra hc
      have := (hρ' k hkn).1 hc; omega
    · rw [List.getD_eq_getElem?_getD, List.getElem?_eq_none (by omega)]; rfl
  · intro k l hkl hl
    have e : A.mat m n ⟨(p l).1, hlt l hl⟩ ⟨l, by omega⟩ ≠ 0 := by
      show coef (A.cols.getD l []) (p l).1 ≠ 0
      rw [hp l hl]
      show coef [((p l).1, (p l).2)] (p l).1 ≠ 0
      rw [coef_single', if_pos rfl]; exact hne l hl
    obtain ⟨i, h1, h2⟩ := h.2 ⟨k, by omega⟩ ⟨l, by omega⟩ _ hkl e
    have h2' : coef (A.cols.getD k []) i ≠ 0 := h2
    rw [hp k (by omega)] at h2'
    have h2'' : coef [((p k).1, (p k).2)] i ≠ 0 := h2'
    rw [coef_single'] at h2''
    have : (p k).1 = i := by
      by_contra hc
      rw [if_neg hc] at h2''; exact h2'' rfl
    have h1' : i.val < (p l).1 := h1
    omega

/-! ### EL_L_commute -/

theorem rowScale_spec {m n : Nat} {ρ : Nat} {pv : Nat → Nat} {av : Nat → F} : ∀ (cs : List (SVec F)) (l : Nat) (co : List F), l + cs.length = n →
    co.length = m → (∀ k, k < cs.length → cs.getD k [] = if l + k < ρ then [(pv (l + k), av (l + k))] else []) → (∀ k, k < ρ → pv k < m) →
    (∀ k k', k < k' → k' < ρ → pv k < pv k') → ρ ≤ n →
    ∃ co', rowScale cs co = .ok co' ∧ co'.length = m ∧ (∀ k, l ≤ k → k < ρ → co'.getD (pv k) 0 = av k) ∧
      ∀ i, (∀ k, l ≤ k → k < ρ → pv k ≠ i) → co'.getD i 0 = co.getD i 0
  | [], l, co, h1, h2, _, _, _, h6 => ⟨co, rfl, h2, fun k a b => by simp at h1; omega, fun i _ => rfl⟩
  | c :: cs, l, co, h1, h2, h3, h4, h5, h6 => by
    have h0 := h3 0 (by simp)
    rw [List.getD_cons_zero, Nat.add_zero] at h0
    have h3' : ∀ k, k < cs.length → cs.getD k [] = if l + 1 + k < ρ then [(pv (l + 1 + k), av (l + 1 + k))] else [] := by
      intro k hk
      have := h3 (k + 1) (by simpa using hk)
      rw [List.getD_cons_succ] at this
      rw [this, show l + (k + 1) = l + 1 + k by omega]
    rw [rowScale]
    simp only [List.length_cons] at h1
    by_cases hl : l < ρ
    · rw [if_pos hl] at h0
      rw [h0]
      simp only [List.head?_cons]
      rw [wr_ok _ (by rw [h2]; exact h4 l hl), bind_ok]
      obtain ⟨co', q1, q2, q3, q4⟩ := rowScale_spec cs (l + 1) (co.set (pv l) (av l)) (by omega) (by simpa using h2) h3' h4 h5 h6
      refine ⟨co', q1, q2, ?_, ?_⟩
      · intro k hk hkρ
        by_cases e : k = l
        · subst e
          rw [q4 (pv k) (fun k' a b e => by have := h5 k k' (by omega) b; omega)]
          exact getD_set_self _ _ (by rw [h2]; exact h4 k hl)
        · exact q3 k (by omega) hkρ
      · intro i hi
        rw [q4 i (fun k a b => hi k (by omega) b)]
        exact getD_set_ne _ _ (hi l (le_refl _) hl)
    · rw [if_neg hl] at h0
      rw [h0]
      simp only [List.head?_nil]
      obtain ⟨co', q1, q2, q3, q4⟩ := rowScale_spec cs (l + 1) co (by omega) h2 h3' h4 h5 h6
      exact ⟨co', q1, q2, fun k a b => by omega, fun i _ => q4 i (fun k a b => by omega)⟩

theorem commuteCol_spec {m n ρ : Nat} {pv : Nat → Nat} {idx : List (Option Nat)} (hl : idx.length = n)
    (hi : ∀ k, k < n → idx.getD k none = if k < ρ then some (pv k) else none) (hlt : ∀ k, k < ρ → pv k < m) (hm : ∀ k l, k < l → l < ρ → pv k < pv l) :
    ∀ c : SVec F, VecOK c → Below n c → ∃ t, commuteCol idx c = .ok t ∧ VecOK t ∧ Below m t ∧ (∀ p ∈ t, ∃ k, k < ρ ∧ (∃ v, (k, v) ∈ c) ∧ p.1 = pv k) ∧
      (∀ k, k < ρ → coef t (pv k) = coef c k) ∧ ∀ i, (∀ k, k < ρ → pv k ≠ i) → coef t i = 0
  | [], _, _ => ⟨[], rfl, vecOK_nil, below_nil m, by simp, fun k _ => rfl, fun i _ => rfl⟩
  | (k, v) :: c, hc, hb => by
    have hb' := below_cons.1 hb
    have hs := sorted_cons.1 hc.1
    have hkn : k < n := hb'.1
    rw [commuteCol, rd_getD none (by rw [hl]; exact hkn), bind_ok, hi k hkn]
    by_cases hk : k < ρ
    · rw [if_pos hk]
      obtain ⟨t, t1, t2, t3, t4, t5, t6⟩ := commuteCol_spec hl hi hlt hm c ⟨hs.2, fun p hp => hc.2 p (List.mem_cons_of_mem _ hp)⟩ hb'.2
      simp only [t1, bind_ok, pure_ok]
      refine ⟨_, rfl, ⟨sorted_cons.2 ⟨?_, t2.1⟩, ?_⟩, ?_, ?_, ?_, ?_⟩
      · intro p hp
        obtain ⟨l, hl1, ⟨w, hw⟩, e⟩ := t4 p hp
        have := hs.1 _ hw
        rw [e]
        exact hm k l this hl1
      · intro p hp
        rw [List.mem_cons] at hp
        rcases hp with rfl | hp
        · exact hc.2 (k, v) (by simp)
        · exact t2.2 p hp
      · intro p hp
        rw [List.mem_cons] at hp
        rcases hp with rfl | hp
        · exact hlt k hk
        · exact t3 p hp
      · intro p hp
        rw [List.mem_cons] at hp
        rcases hp with rfl | hp
        · exact ⟨k, hk, ⟨v, by simp⟩, rfl⟩
        · obtain ⟨l, hl1, ⟨w, hw⟩, e⟩ := t4 p hp
          exact ⟨l, hl1, ⟨w, List.mem_cons_of_mem _ hw⟩, e⟩
      · intro l hl'
        rw [coef_cons', coef_cons', t5 l hl']
        congr 1
        by_cases e : k = l
        · rw [if_pos e, if_pos (by rw [e])]
        · rw [if_neg e, if_neg]
          intro e'
          rcases lt_trichotomy k l with hh | hh | hh
          · have := hm k l hh hl'; omega
          · exact e hh
          · have := hm l k hh hk; omega
      · intro i hi'
        rw [coef_cons', if_neg (hi' k hk), zero_add, t6 i hi']
    · rw [if_neg hk]
      refine ⟨[], rfl, vecOK_nil, below_nil m, by simp, ?_, fun i _ => rfl⟩
      intro l hl'
      symm
      apply coef_eq_zero_of_notMem
      intro p hp
      rw [List.mem_cons] at hp
      rcases hp with rfl | hp
      · simp only; omega
      · have := hs.1 p hp; simp only at this; omega

theorem commuteLoop_spec {m n ρ : Nat} {pv : Nat → Nat} {idx : List (Option Nat)} {L : List (SVec F)} (hlL : L.length = n) (hL : ColsOK n L)
    (hl : idx.length = n) (hi : ∀ k, k < n → idx.getD k none = if k < ρ then some (pv k) else none) (hlt : ∀ k, k < ρ → pv k < m)
    (hm : ∀ k l, k < l → l < ρ → pv k < pv l) (hρ : ρ ≤ n) : ∀ (js : List (Option Nat)) (l : Nat) (T : List (SVec F)), js = idx.drop l → T.length = m → ColsOK m T →
    ∃ T', commuteLoop idx L l js T = .ok T' ∧ T'.length = m ∧ ColsOK m T' ∧
      (∀ c, (∀ k, l ≤ k → k < ρ → pv k ≠ c) → T'.getD c [] = T.getD c []) ∧
      ∀ k, l ≤ k → k < ρ → (∀ k', k' < ρ → en T' (pv k) (pv k') = en L k k') ∧ ∀ i, (∀ k', k' < ρ → pv k' ≠ i) → en T' (pv k) i = 0
  | [], l, T, hjs, hT, hT' => by
    refine ⟨T, rfl, hT, hT', fun c _ => rfl, fun k h1 h2 => ?_⟩
    have := (List.drop_eq_nil_iff).1 hjs.symm
    omega
  | o :: js, l, T, hjs, hT, hT' => by
    have hln : l < n := by
      by_contra hc
      rw [List.drop_eq_nil_iff.2 (by omega)] at hjs
      cases hjs
    rw [List.drop_eq_getElem_cons (by omega : l < idx.length)] at hjs
    simp only [List.cons.injEq] at hjs
    obtain ⟨ho, hjs'⟩ := hjs
    have hol : o = idx.getD l none := by rw [ho]; simp [List.getD_eq_getElem?_getD, List.getElem?_eq_getElem (by omega : l < idx.length)]
    rw [hi l hln] at hol
    by_cases hlρ : l < ρ
    · rw [if_pos hlρ] at hol
      rw [hol, commuteLoop, rd_getD [] (by omega : l < L.length), bind_ok]
      obtain ⟨hc1, hc2⟩ := hL.getD l
      obtain ⟨t, t1, t2, t3, t4, t5, t6⟩ := commuteCol_spec (m := m) hl hi hlt hm _ hc1 hc2
      have hpl : pv l < T.length := by rw [hT]; exact hlt l hlρ
      rw [t1, bind_ok, wr_ok _ hpl, bind_ok]
      obtain ⟨T', q1, q2, q3, q4, q5⟩ := commuteLoop_spec hlL hL hl hi hlt hm hρ js (l + 1) (T.set (pv l) t) hjs' (by simpa using hT) (hT'.set _ ⟨t2, t3⟩)
      refine ⟨T', q1, q2, q3, ?_, ?_⟩
      · intro c hc
        rw [q4 c (fun k a b => hc k (by omega) b), getD_set_ne _ _ (hc l (le_refl _) hlρ)]
      · intro k h1 h2
        by_cases e : k = l
        · subst e
          have hTk : T'.getD (pv k) [] = t := by
            rw [q4 (pv k) (fun k' a b e => by have := hm k k' (by omega) b; omega), getD_set_self _ _ hpl]
          refine ⟨fun k' hk' => ?_, fun i hi' => ?_⟩
          · show coef (T'.getD (pv k) []) (pv k') = _
            rw [hTk]; exact t5 k' hk'
          · show coef (T'.getD (pv k) []) i = _
            rw [hTk]; exact t6 i hi'
        · exact q5 k (by omega) h2
    · rw [if_neg hlρ] at hol
      rw [hol, commuteLoop]
      exact ⟨T, rfl, hT, hT', fun c _ => rfl, fun k h1 h2 => by omega⟩

theorem scaleVec_spec {m : Nat} {co : List F} (hl : co.length = m) (hne : ∀ i, i < m → co.getD i 0 ≠ 0) : ∀ c : SVec F, VecOK c → Below m c →
    ∃ t, scaleVec co c = .ok t ∧ VecOK t ∧ Below m t ∧ t.map Prod.fst = c.map Prod.fst ∧ ∀ i, coef t i = coef c i * co.getD i 0
  | [], _, _ => ⟨[], rfl, vecOK_nil, below_nil m, rfl, fun i => by simp [coef]⟩
  | (k, v) :: c, hc, hb => by
    have hb' := below_cons.1 hb
    have hs := sorted_cons.1 hc.1
    obtain ⟨t, t1, t2, t3, t4, t5⟩ := scaleVec_spec hl hne c ⟨hs.2, fun p hp => hc.2 p (List.mem_cons_of_mem _ hp)⟩ hb'.2
    have hk : k < m := hb'.1
    refine ⟨(k, v * co.getD k 0) :: t, ?_, ⟨sorted_cons.2 ⟨?_, t2.1⟩, ?_⟩, ?_, ?_, ?_⟩
    · rw [scaleVec, rd_getD 0 (by rw [hl]; exact hk), bind_ok, t1, bind_ok]; rfl
    · intro p hp
      have : p.1 ∈ t.map Prod.fst := List.mem_map.2 ⟨p, hp, rfl⟩
      rw [t4, List.mem_map] at this
      obtain ⟨q, hq, e⟩ := this
      have := hs.1 q hq
      simp only at this ⊢; omega
    · intro p hp
      rw [List.mem_cons] at hp
      rcases hp with rfl | hp
      · exact mul_ne_zero (hc.2 (k, v) (by simp)) (hne k hk)
      · exact t2.2 p hp
    · intro p hp
      rw [List.mem_cons] at hp
      rcases hp with rfl | hp
      · exact hk
      · exact t3 p hp
    · simp [t4]
    · intro i
      rw [coef_cons', coef_cons', t5 i, add_mul]
      congr 1
      split
      · rename_i e; simp only at e; rw [e]
      · rw [zero_mul]

theorem scaleCols_spec {m : Nat} {co : List F} (hl : co.length = m) (hne : ∀ i, i < m → co.getD i 0 ≠ 0) : ∀ (cs : List (SVec F)) (j : Nat), j + cs.length = m →
    ColsOK m cs → ∃ T, scaleCols co j cs = .ok T ∧ T.length = cs.length ∧ ColsOK m T ∧
      ∀ k, k < cs.length → ∀ i, en T k i = en cs k i * co.getD i 0 * (1 / co.getD (j + k) 0)
  | [], j, _, _ => ⟨[], rfl, rfl, (by intro c hc; cases hc), fun k hk => by simp at hk⟩
  | c :: cs, j, hj, hc => by
    simp only [List.length_cons] at hj
    obtain ⟨c1, c2⟩ := hc c (by simp)
    obtain ⟨t, t1, t2, t3, t4, t5⟩ := scaleVec_spec hl hne c c1 c2
    obtain ⟨T, q1, q2, q3, q4⟩ := scaleCols_spec hl hne cs (j + 1) (by omega) (fun d hd => hc d (List.mem_cons_of_mem _ hd))
    have hco : co.getD j 0 ≠ 0 := hne j (by omega)
    have hw : (1 : F) / co.getD j 0 ≠ 0 := one_div_ne_zero hco
    refine ⟨SVec.scale (1 / co.getD j 0) t :: T, ?_, by simp [q2], ?_, ?_⟩
    · rw [scaleCols, t1, bind_ok, rd_getD 0 (by omega), bind_ok]
      unfold fdiv
      rw [if_neg hco, bind_ok, q1, bind_ok]; rfl
    · intro d hd
      rw [List.mem_cons] at hd
      rcases hd with rfl | hd
      · exact ⟨vecOK_scale hw t2, below_scale t3⟩
      · exact q3 d hd
    · intro k hk i
      rcases k with _ | k
      · show coef (SVec.scale (1 / co.getD j 0) t) i = coef c i * _ * _
        rw [coef_scale, t5, Nat.add_zero]
      · have := q4 k (by simpa using hk) i
        rw [show j + 1 + k = j + (k + 1) by omega] at this
        exact this

/-- EL_L_commute -/
theorem elLCommute_spec {m n : Nat} {E L : CMat F} (hE : E.Shape m n) (hL : L.Shape n n) (hs : ShapeEL (E.mat m n)) (hlo : LowerInv (L.mat n n)) :
    ∃ T, elLCommute E L = .ok T ∧ T.Shape m m ∧ LowerInv (T.mat m m) ∧ T.mat m m * E.mat m n = E.mat m n * L.mat n n := by
  obtain ⟨ρ, pv, av, h⟩ := ShapeEL.form hE hs
  have hlenE : E.cols.length = n := hE.ncol
  obtain ⟨co, r1, r2, r3, r4⟩ := rowScale_spec (m := m) (n := n) (ρ := ρ) (pv := pv) (av := av) E.cols 0 (List.replicate m 1) (by omega) (by simp)
    (fun k hk => by
      rw [Nat.zero_add]
      split
      · rename_i hh; exact h.col k hh
      · rename_i hh; exact h.emp k (by omega)) h.lt h.mono h.le
  have hco1 : ∀ i, i < m → (∀ k, k < ρ → pv k ≠ i) → co.getD i 0 = 1 := by
    intro i hi hk
    rw [r4 i (fun k _ => hk k)]
    simp [List.getD_eq_getElem?_getD, List.getElem?_replicate, hi]
  have hcone : ∀ i, i < m → co.getD i 0 ≠ 0 := by
    intro i hi
    by_cases hk : ∃ k, k < ρ ∧ pv k = i
    · obtain ⟨k, hk, rfl⟩ := hk
      rw [r3 k (Nat.zero_le _) hk]; exact h.ne k hk
    · push Not at hk
      rw [hco1 i hi hk]; exact one_ne_zero
  have hidx : ∀ k, k < n → (E.cols.map pivotInd).getD k none = if k < ρ then some (pv k) else none := by
    intro k hk
    have : (E.cols.map pivotInd).getD k none = pivotInd (E.cols.getD k []) := by
      simp [List.getD_eq_getElem?_getD, List.getElem?_eq_getElem (by omega : k < E.cols.length)]
    rw [this]
    split
    · rename_i hh; rw [h.col k hh]; rfl
    · rename_i hh; rw [h.emp k (by omega)]; rfl
  have hidm := shape_identity (F := F) m
  obtain ⟨T, t1, t2, t3, t4, t5⟩ := commuteLoop_spec (m := m) hL.ncol hL.colsOK (by rw [List.length_map]; exact hlenE) hidx h.lt h.mono h.le
    (E.cols.map pivotInd) 0 (identity m : CMat F).cols rfl hidm.ncol hidm.colsOK
  obtain ⟨S, s1, s2, s3, s4⟩ := scaleCols_spec r2 hcone T 0 (by omega) t3
  rw [t2] at s2 s4
  -- entries of the result
  have hSpiv : ∀ k, k < ρ → ∀ k', k' < ρ → en S (pv k) (pv k') = en L.cols k k' * av k' * (1 / av k) := by
    intro k hk k' hk'
    rw [s4 _ (h.lt k hk), (t5 k (Nat.zero_le _) hk).1 k' hk', Nat.zero_add, r3 k (Nat.zero_le _) hk, r3 k' (Nat.zero_le _) hk']
  have hSpiv0 : ∀ k, k < ρ → ∀ i, (∀ k', k' < ρ → pv k' ≠ i) → en S (pv k) i = 0 := by
    intro k hk i hi
    rw [s4 _ (h.lt k hk), (t5 k (Nat.zero_le _) hk).2 i hi, zero_mul, zero_mul]
  have hSoth : ∀ c, c < m → (∀ k, k < ρ → pv k ≠ c) → ∀ i, i < m → en S c i = if c = i then 1 else 0 := by
    intro c hc hk i hi
    rw [s4 c hc]
    have : en T c i = if c = i then 1 else 0 := by
      show coef (T.getD c []) i = _
      rw [t4 c (fun k _ => hk k)]
      have : (identity m : CMat F).cols.getD c [] = [(c, 1)] := by unfold identity; simp [hc]
      rw [this, coef_single']
    rw [this]
    split
    · rename_i e; subst e; rw [Nat.zero_add, hco1 c hc hk]; simp
    · rw [zero_mul, zero_mul]
  refine ⟨⟨m, S⟩, ?_, ⟨s3, rfl, s2⟩, ⟨?_, ?_⟩, ?_⟩
  · unfold elLCommute
    rw [hE.nrow, r1, bind_ok]
    simp only [t1, s1, bind_ok]; rfl
  · intro i j hij
    show en S j i = 0
    have hij' : i.val < j.val := hij
    by_cases hk : ∃ k, k < ρ ∧ pv k = j
    · obtain ⟨k, hk, e⟩ := hk
      rw [← e]
      by_cases hk2 : ∃ k', k' < ρ ∧ pv k' = i
      · obtain ⟨k', hk', e'⟩ := hk2
        rw [← e', hSpiv k hk k' hk']
        have hlt : k' < k := by
          rcases lt_trichotomy k' k with hh | hh | hh
          · exact hh
          · subst hh; omega
          · have := h.mono k k' hh hk'; omega
        have hρn := h.le
        have : en L.cols k k' = 0 := hlo.1 ⟨k', by omega⟩ ⟨k, by omega⟩ hlt
        rw [this, zero_mul, zero_mul]
      · push Not at hk2
        exact hSpiv0 k hk i hk2
    · push Not at hk
      rw [hSoth j j.2 hk i i.2, if_neg (by omega)]
  · intro i
    show en S i i ≠ 0
    by_cases hk : ∃ k, k < ρ ∧ pv k = i
    · obtain ⟨k, hk, e⟩ := hk
      rw [← e, hSpiv k hk k hk]
      have hρn := h.le
      have : en L.cols k k ≠ 0 := hlo.2 ⟨k, by omega⟩
      exact mul_ne_zero (mul_ne_zero this (h.ne k hk)) (one_div_ne_zero (h.ne k hk))
    · push Not at hk
      rw [hSoth i i.2 hk i i.2, if_pos rfl]; exact one_ne_zero
  · ext i c
    rw [Matrix.mul_apply, Matrix.mul_apply]
    show (∑ s : Fin m, en S s i * en E.cols c s) = ∑ k : Fin n, en E.cols k i * en L.cols c k
    simp only [h.en]
    have hρn := h.le
    -- the left side
    have hL1 : (∑ s : Fin m, en S s i * (if c.val < ρ ∧ pv c = s.val then av c else 0)) = if c.val < ρ then en S (pv c) i * av c else 0 := by
      by_cases hc : c.val < ρ
      · rw [if_pos hc, Finset.sum_eq_single ⟨pv c, h.lt c hc⟩]
        · rw [if_pos ⟨hc, rfl⟩]
        · intro s _ hs
          rw [if_neg, mul_zero]
          rintro ⟨_, e⟩; exact hs (Fin.ext e.symm)
        · intro hh; exact absurd (Finset.mem_univ _) hh
      · rw [if_neg hc]
        apply Finset.sum_eq_zero
        intro s _
        rw [if_neg (fun hh => hc hh.1), mul_zero]
    rw [hL1]
    by_cases hk : ∃ k, k < ρ ∧ pv k = i
    · obtain ⟨k, hk, e⟩ := hk
      rw [Finset.sum_eq_single ⟨k, by omega⟩]
      · have e1 : (if (⟨k, by omega⟩ : Fin n).val < ρ ∧ pv (⟨k, by omega⟩ : Fin n).val = i.val then av (⟨k, by omega⟩ : Fin n).val else 0) = av k :=
          if_pos ⟨hk, e⟩
        rw [e1]
        by_cases hc : c.val < ρ
        · rw [if_pos hc, ← e, hSpiv c hc k hk]
          have := h.ne c hc
          field_simp
        · rw [if_neg hc]
          have : en L.cols c k = 0 := hlo.1 ⟨k, by omega⟩ c (by show k < c.val; omega)
          rw [this, mul_zero]
      · intro k' _ hne
        rw [if_neg, zero_mul]
        rintro ⟨a, b⟩
        exact hne (Fin.ext (h.inj a hk (b.trans e.symm)))
      · intro hh; exact absurd (Finset.mem_univ _) hh
    · push Not at hk
      rw [Finset.sum_eq_zero]
      · split
        · rename_i hc; rw [hSpiv0 c hc i hk, zero_mul]
        · rfl
      · intro k _
        rw [if_neg, zero_mul]
        rintro ⟨a, b⟩; exact hk k a b

theorem ShapeEU.transpose {m n : Nat} {E : Matrix (Fin m) (Fin n) F} (h : ShapeEU E) : ShapeEL Eᵀ :=
  ⟨Monomial.transpose h.1, fun i i' j' h1 h2 => h.2 i i' j' h1 h2⟩

theorem ShapeEUhat.rev {m n : Nat} {E : Matrix (Fin m) (Fin n) F} (h : ShapeEUhat E) : ShapeEL (E.submatrix Fin.rev Fin.rev) := by
  refine ⟨Monomial.rev h.1, fun j j' i h1 h2 => ?_⟩
  obtain ⟨a, ha, hb⟩ := h.2 _ _ _ (Fin.rev_lt_rev.2 h1) h2
  exact ⟨a.rev, by rw [← Fin.rev_lt_rev, Fin.rev_rev]; exact ha, by simpa using hb⟩

theorem ShapeELhat.rev {m n : Nat} {E : Matrix (Fin m) (Fin n) F} (h : ShapeELhat E) : ShapeEU (E.submatrix Fin.rev Fin.rev) := by
  refine ⟨Monomial.rev h.1, fun j j' i h1 h2 => ?_⟩
  obtain ⟨a, ha, hb⟩ := h.2 _ _ _ (Fin.rev_lt_rev.2 h1) h2
  exact ⟨a.rev, by rw [← Fin.rev_lt_rev, Fin.rev_rev]; exact ha, by simpa using hb⟩

theorem transpose_rev {m n : Nat} (A : Matrix (Fin m) (Fin n) F) : Aᵀ.submatrix Fin.rev Fin.rev = (A.submatrix Fin.rev Fin.rev)ᵀ := rfl

/-- U_EU_commute -/
theorem uEuCommute_spec {m n : Nat} {E U : CMat F} (hE : E.Shape m n) (hU : U.Shape m m) (hs : ShapeEU (E.mat m n)) (hup : UpperInv (U.mat m m)) :
    ∃ T, uEuCommute U E = .ok T ∧ T.Shape n n ∧ UpperInv (T.mat n n) ∧ E.mat m n * T.mat n n = U.mat m m * E.mat m n := by
  obtain ⟨Et, a1, a2, a3⟩ := transpose_spec hE
  obtain ⟨Ut, b1, b2, b3⟩ := transpose_spec hU
  obtain ⟨T, t1, t2, t3, t4⟩ := elLCommute_spec a2 b2 (by rw [a3]; exact ShapeEU.transpose hs) (by rw [b3]; exact LowerInv.of_transpose hup)
  obtain ⟨T', s1, s2, s3⟩ := transpose_spec t2
  refine ⟨T', ?_, s2, by rw [s3]; exact UpperInv.of_transpose t3, ?_⟩
  · unfold uEuCommute; simp only [a1, b1, t1, s1, bind_ok]
  · rw [a3, b3] at t4
    have := congrArg Matrix.transpose t4
    rw [Matrix.transpose_mul, Matrix.transpose_mul, Matrix.transpose_transpose, Matrix.transpose_transpose] at this
    rw [s3]; exact this

/-- EU_U_commute -/
theorem euUCommute_spec {m n : Nat} {E U : CMat F} (hE : E.Shape m n) (hU : U.Shape n n) (hs : ShapeEUhat (E.mat m n)) (hup : UpperInv (U.mat n n)) :
    ∃ T, euUCommute E U = .ok T ∧ T.Shape m m ∧ UpperInv (T.mat m m) ∧ T.mat m m * E.mat m n = E.mat m n * U.mat n n := by
  obtain ⟨a1, a2⟩ := jConj_spec hE
  obtain ⟨b1, b2⟩ := jConj_spec hU
  obtain ⟨T, t1, t2, t3, t4⟩ := elLCommute_spec a1 b1 (by rw [a2]; exact ShapeEUhat.rev hs) (by rw [b2]; exact UpperInv.rev hup)
  obtain ⟨s1, s2⟩ := jConj_spec t2
  refine ⟨jConj T, ?_, s1, by rw [s2]; exact LowerInv.rev t3, ?_⟩
  · unfold euUCommute; rw [t1]; rfl
  · rw [a2, b2] at t4
    have := congrArg (fun M => M.submatrix Fin.rev Fin.rev) t4
    simp only [rev_mul, rev_rev] at this
    rw [s2]; exact this

/-- L_EL_commute -/
theorem lElCommute_spec {m n : Nat} {E L : CMat F} (hE : E.Shape m n) (hL : L.Shape m m) (hs : ShapeELhat (E.mat m n)) (hlo : LowerInv (L.mat m m)) :
    ∃ T, lElCommute L E = .ok T ∧ T.Shape n n ∧ LowerInv (T.mat n n) ∧ E.mat m n * T.mat n n = L.mat m m * E.mat m n := by
  obtain ⟨Et, a1, a2, a3⟩ := transpose_spec hE
  obtain ⟨Lt, b1, b2, b3⟩ := transpose_spec hL
  obtain ⟨c1, c2⟩ := jConj_spec a2
  obtain ⟨d1, d2⟩ := jConj_spec b2
  have hL' : LowerInv ((L.mat m m)ᵀ.submatrix Fin.rev Fin.rev) := by rw [transpose_rev]; exact LowerInv.of_transpose (LowerInv.rev hlo)
  have hE' : ShapeEL ((E.mat m n)ᵀ.submatrix Fin.rev Fin.rev) := by rw [transpose_rev]; exact ShapeEU.transpose (ShapeELhat.rev hs)
  obtain ⟨T, t1, t2, t3, t4⟩ := elLCommute_spec c1 d1 (by rw [c2, a3]; exact hE') (by rw [d2, b3]; exact hL')
  obtain ⟨T', s1, s2, s3⟩ := transpose_spec t2
  obtain ⟨r1, r2⟩ := jConj_spec s2
  refine ⟨jConj T', ?_, r1, ?_, ?_⟩
  · unfold lElCommute; simp only [a1, b1, t1, s1, bind_ok]; rfl
  · rw [r2, s3]
    exact UpperInv.rev (UpperInv.of_transpose t3)
  · rw [c2, d2, a3, b3] at t4
    have := congrArg (fun M => (M.submatrix Fin.rev Fin.rev)ᵀ) t4
    simp only [rev_mul, rev_rev, Matrix.transpose_mul, Matrix.transpose_transpose] at this
    rw [r2, s3, transpose_rev]; exact this

/-! ### the checks -/

theorem isELLoop_spec {m : Nat} : ∀ (cs : List (SVec F)) (i : Nat), ColsOK m cs →
    (isELLoop i cs = true ↔ ∃ ρ pv av, EForm m cs.length cs ρ pv av ∧ ∀ k, k < ρ → i ≤ pv k)
  | [], i, _ => by
    refine ⟨fun _ => ⟨0, fun _ => 0, fun _ => 0, ⟨rfl, by simp, fun k hk => by omega, fun k _ => by simp, fun k hk => by omega, fun k hk => by omega,
      fun k l a b => by omega⟩, fun k hk => by omega⟩, fun _ => rfl⟩
  | [] :: cs, i, hc => by
    rw [isELLoop, List.all_eq_true]
    constructor
    · intro h
      refine ⟨0, fun _ => 0, fun _ => 0, ⟨rfl, by simp, fun k hk => by omega, ?_, fun k hk => by omega, fun k hk => by omega,
        fun k l a b => by omega⟩, fun k hk => by omega⟩
      intro k _
      rcases k with _ | k
      · rfl
      · rw [List.getD_cons_succ]
        by_cases hk : k < cs.length
        · have := h (cs.getD k []) (UF.getD_mem' hk)
          exact List.isEmpty_iff.1 this
        · rw [List.getD_eq_getElem?_getD, List.getElem?_eq_none (by omega)]; rfl
    · rintro ⟨ρ, pv, av, h, _⟩ c hcm
      have hρ : ρ = 0 := by
        by_contra hne
        have := h.col 0 (by omega)
        simp at this
      obtain ⟨k, hk, rfl⟩ := List.mem_iff_getElem.1 hcm
      have := h.emp (k + 1) (by omega)
      rw [List.getD_cons_succ, List.getD_eq_getElem?_getD, List.getElem?_eq_getElem hk] at this
      simp only [Option.getD_some] at this
      rw [this]; rfl
  | [(p, a)] :: cs, i, hc => by
    have hcs : ColsOK m cs := fun d hd => hc d (List.mem_cons_of_mem _ hd)
    obtain ⟨c1, c2⟩ := hc [(p, a)] (by simp)
    rw [isELLoop]
    by_cases hpi : p < i
    · rw [if_pos hpi]
      refine ⟨fun h => (by cases h), ?_⟩
      rintro ⟨ρ, pv, av, h, hge⟩
      exfalso
      have hρ : 0 < ρ := by
        by_contra hne
        have := h.emp 0 (by omega)
        simp at this
      have := h.col 0 hρ
      rw [List.getD_cons_zero] at this
      simp only [List.cons.injEq, Prod.mk.injEq, and_true] at this
      have := hge 0 hρ
      omega
    · rw [if_neg hpi, isELLoop_spec cs (p + 1) hcs]
      constructor
      · rintro ⟨ρ, pv, av, h, hge⟩
        refine ⟨ρ + 1, fun k => if k = 0 then p else pv (k - 1), fun k => if k = 0 then a else av (k - 1), ⟨rfl, by simpa using h.le, ?_, ?_, ?_, ?_, ?_⟩, ?_⟩
        · intro k hk
          rcases k with _ | k
          · rfl
          · rw [List.getD_cons_succ, h.col k (by omega)]; simp
        · intro k hk
          rcases k with _ | k
          · omega
          · rw [List.getD_cons_succ, h.emp k (by omega)]
        · intro k hk
          rcases k with _ | k
          · simp only [if_pos]; exact c1.2 (p, a) (by simp)
          · simpa using h.ne k (by omega)
        · intro k hk
          rcases k with _ | k
          · simp only [if_pos]; exact c2 (p, a) (by simp)
          · simpa using h.lt k (by omega)
        · intro k l hkl hl
          rcases l with _ | l
          · omega
          · rcases k with _ | k
            · have := hge l (by omega)
              simp only [if_pos, Nat.succ_ne_zero, if_false, Nat.add_sub_cancel]; omega
            · simpa using h.mono k l (by omega) (by omega)
        · intro k hk
          rcases k with _ | k
          · simp only [if_pos]; omega
          · have := hge k (by omega)
            simp only [Nat.succ_ne_zero, if_false, Nat.add_sub_cancel]; omega
      · rintro ⟨ρ, pv, av, h, hge⟩
        have hρ : 0 < ρ := by
          by_contra hne
          have := h.emp 0 (by omega)
          simp at this
        have h0 := h.col 0 hρ
        rw [List.getD_cons_zero] at h0
        simp only [List.cons.injEq, Prod.mk.injEq, and_true] at h0
        refine ⟨ρ - 1, fun k => pv (k + 1), fun k => av (k + 1), ⟨rfl, ?_, ?_, ?_, ?_, ?_, ?_⟩, ?_⟩
        · have := h.le; simp only [List.length_cons] at this; omega
        · intro k hk
          have := h.col (k + 1) (by omega)
          rwa [List.getD_cons_succ] at this
        · intro k hk
          have := h.emp (k + 1) (by omega)
          rwa [List.getD_cons_succ] at this
        · intro k hk; exact h.ne (k + 1) (by omega)
        · intro k hk; exact h.lt (k + 1) (by omega)
        · intro k l hkl hl; exact h.mono (k + 1) (l + 1) (by omega) (by omega)
        · intro k hk
          have := h.mono 0 (k + 1) (by omega) (by omega)
          simp only; omega
  | (p :: q :: c) :: cs, i, hc => by
    rw [isELLoop]
    refine ⟨fun h => (by cases h), ?_⟩
    rintro ⟨ρ, pv, av, h, hge⟩
    exfalso
    by_cases hρ : 0 < ρ
    · have := h.col 0 hρ
      simp at this
    · have := h.emp 0 (by omega)
      simp at this

theorem isEL_spec {m n : Nat} {A : CMat F} (hA : A.Shape m n) : CMat.isEL A = true ↔ ShapeEL (A.mat m n) := by
  unfold CMat.isEL
  rw [isELLoop_spec A.cols 0 hA.colsOK]
  have hlen : A.cols.length = n := hA.ncol
  rw [hlen]
  constructor
  · rintro ⟨ρ, pv, av, h, _⟩; exact h.shape
  · intro h
    obtain ⟨ρ, pv, av, h⟩ := ShapeEL.form hA h
    exact ⟨ρ, pv, av, h, fun k _ => Nat.zero_le _⟩

theorem length_le_one {c : SVec F} (hc : VecOK c) : c.length ≤ 1 ↔ ∀ i i', coef c i ≠ 0 → coef c i' ≠ 0 → i = i' := by
  constructor
  · intro h i i' h1 h2
    rcases c with _ | ⟨p, _ | ⟨q, c⟩⟩
    · exact absurd rfl h1
    · obtain ⟨k, a⟩ := p
      rw [coef_single'] at h1 h2
      have e1 : k = i := by by_contra hh; rw [if_neg hh] at h1; exact h1 rfl
      have e2 : k = i' := by by_contra hh; rw [if_neg hh] at h2; exact h2 rfl
      omega
    · simp at h
  · intro h
    by_cases hne : c = []
    · rw [hne]; simp
    · obtain ⟨p, rfl⟩ := single_of_unique hc hne h; simp

theorem all_length_le {m n : Nat} {A : CMat F} (hA : A.Shape m n) : A.cols.all (fun c => decide (c.length ≤ 1)) = true ↔
    ∀ (i i' : Fin m) (j : Fin n), A.mat m n i j ≠ 0 → A.mat m n i' j ≠ 0 → i = i' := by
  rw [List.all_eq_true]
  have hlen : A.cols.length = n := hA.ncol
  constructor
  · intro h i i' j h1 h2
    have hj : j.val < A.cols.length := by rw [hlen]; exact j.2
    have := h _ (UF.getD_mem' (d := []) hj)
    rw [decide_eq_true_eq, length_le_one (hA.colsOK.getD j).1] at this
    exact Fin.ext (this i i' h1 h2)
  · intro h c hc
    obtain ⟨k, hk, rfl⟩ := List.mem_iff_getElem.1 hc
    have e : A.cols[k] = A.cols.getD k [] := by simp [List.getD_eq_getElem?_getD, List.getElem?_eq_getElem hk]
    obtain ⟨h1, h2⟩ := hA.colsOK.getD k
    rw [e, decide_eq_true_eq, length_le_one h1]
    intro i i' a b
    have hi : i < m := by
      obtain ⟨v, hv⟩ := exists_mem_of_coef_ne a; exact h2 _ hv
    have hi' : i' < m := by
      obtain ⟨v, hv⟩ := exists_mem_of_coef_ne b; exact h2 _ hv
    have := h ⟨i, hi⟩ ⟨i', hi'⟩ ⟨k, by omega⟩ a b
    simpa using this

theorem isPivotMatrix_spec {m n : Nat} {A : CMat F} (hA : A.Shape m n) :
    ∃ b, CMat.isPivotMatrix A = .ok b ∧ (b = true ↔ Monomial (A.mat m n)) := by
  obtain ⟨R, r1, r2, r3⟩ := transpose_spec hA
  have h1 := all_length_le hA
  have h2 := all_length_le r2
  rw [r3] at h2
  unfold CMat.isPivotMatrix
  by_cases hc : A.cols.all (fun c => decide (c.length ≤ 1)) = true
  · rw [if_pos hc]
    simp only [r1, bind_ok]
    refine ⟨_, rfl, ?_⟩
    rw [h2]
    exact ⟨fun hh => ⟨fun i j j' a b => hh j j' i a b, h1.1 hc⟩, fun hh i i' j a b => hh.1 j i i' a b⟩
  · rw [if_neg hc]
    exact ⟨false, rfl, fun hh => (by cases hh), fun hh => absurd (h1.2 hh.2) hc⟩

end Fact
end BATS
