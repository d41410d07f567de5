import Verif.Proofs.FactLEUP3

set_option linter.unusedSectionVars false
set_option linter.unusedSimpArgs false
set_option linter.unusedVariables false

/-! # LEUP, PLEU, UELP, PUEL: the results -/

namespace BATS
namespace Fact
open Reduction CMat Matrix

variable {F : Type} [Field F] [DecidableEq F]

theorem leupRest_spec {m n i j : Nat} {A : List (SVec F)} {s : LeupState F} {σ : Equiv.Perm Nat} (h : LCore m n i j A s σ) :
    ∀ (rem t : Nat) (st : LeupState F), t + rem = n → j ≤ t → st.L = s.L → st.P = s.P → st.coeff = s.coeff → st.pivs = s.pivs →
      ColsOK m st.E → ColsOK n st.U → st.E.length = n → st.U.length = n → (∀ c, t ≤ c → st.E.getD c [] = s.E.getD c []) →
      (∀ c, t ≤ c → st.U.getD c [] = s.U.getD c []) →
      ∃ s', leupRest rem t st = .ok s' ∧ s'.L = s.L ∧ s'.P = s.P ∧ ColsOK m s'.E ∧ ColsOK n s'.U ∧ s'.E.length = n ∧ s'.U.length = n ∧
        (∀ c, c < t → s'.E.getD c [] = st.E.getD c [] ∧ s'.U.getD c [] = st.U.getD c []) ∧
        ∀ c, t ≤ c → c < n → s'.E.getD c [] = [] ∧ (∀ k, c ≤ k → en s'.U c k = if k = c then 1 else 0) ∧
          (∀ k, j ≤ k → k ≠ c → en s'.U c k = 0) ∧
          (∀ r, (∑ k ∈ Finset.range j, en s'.U c k * en s.E k r) = if r < i then en s.E c r else 0) ∧
          ∀ k, k < j → en s'.U c k = s.coeff.getD k 0 * coef (s.E.getD c []) (s.pivs.getD k 0)
  | 0, t, st, hr, _, e1, e2, _, _, h1, h2, h3, h4, _, _ => ⟨st, rfl, e1, e2, h1, h2, h3, h4, fun c _ => ⟨rfl, rfl⟩, fun c hc hcn => by omega⟩
  | rem + 1, t, st, hr, hjt, e1, e2, e3, e4, h1, h2, h3, h4, h5, h6 => by
    have htE : t < st.E.length := by omega
    have htU : t < st.U.length := by omega
    obtain ⟨u, u1, u2, u3, u4, u5, u6, u7⟩ := h.lazy hjt (by omega : t < n)
    obtain ⟨s', q0, q1, q2, q3, q4, q5, q6, q7, q8⟩ := leupRest_spec h rem (t + 1) { st with U := st.U.set t u, E := st.E.set t [] } (by omega) (by omega) e1 e2 e3 e4
      (h1.set t ⟨vecOK_nil, below_nil m⟩) (h2.set t ⟨u2, u3⟩) (by simpa using h3) (by simpa using h4)
      (fun c hc => by show (st.E.set t []).getD c [] = _; rw [getD_set_ne _ _ (by omega)]; exact h5 c (by omega))
      (fun c hc => by show (st.U.set t u).getD c [] = _; rw [getD_set_ne _ _ (by omega)]; exact h6 c (by omega))
    refine ⟨s', ?_, q1, q2, q3, q4, q5, q6, ?_, ?_⟩
    · rw [leupRest, rd_getD [] htE, bind_ok, rd_getD [] htU, bind_ok, h5 t (le_refl _), h6 t (le_refl _), h.Uid t hjt (by omega)]
      have u1' : SVec.lazyAxpy (s.E.getD t []) st.coeff st.pivs [(t, 1)] = .ok u := by rw [e3, e4]; exact u1
      rw [u1', bind_ok]
      exact q0
    · intro c hc
      obtain ⟨a, b⟩ := q7 c (by omega)
      refine ⟨?_, ?_⟩
      · rw [a]; show (st.E.set t []).getD c [] = _; rw [getD_set_ne _ _ (by omega)]
      · rw [b]; show (st.U.set t u).getD c [] = _; rw [getD_set_ne _ _ (by omega)]
    · intro c hc hcn
      by_cases hct : c = t
      · subst hct
        obtain ⟨a, b⟩ := q7 c (by omega)
        have a' : s'.E.getD c [] = [] := by rw [a]; exact getD_set_self _ _ htE
        have b' : s'.U.getD c [] = u := by rw [b]; exact getD_set_self _ _ htU
        have en' : ∀ k, en s'.U c k = coef u k := fun k => by show coef (s'.U.getD c []) k = _; rw [b']
        refine ⟨a', ?_, ?_, ?_, fun k hk => by rw [en']; exact u7 k hk⟩
        · intro k hk; rw [en']; exact u4 k hk
        · intro k hk hne; rw [en']; exact u5 k hk hne
        · intro r; simp only [en']; exact u6 r
      · exact q8 c (by omega) hcn

theorem leup_core' {m n : Nat} {A : CMat F} (hA : A.Shape m n) :
    ∃ f, leup A = .ok f ∧ f.L.Shape m m ∧ f.E.Shape m n ∧ f.U.Shape n n ∧ f.P.Shape n n ∧ UnitLowerTri (f.L.mat m m) ∧ ShapeEL (f.E.mat m n) ∧
      UnitUpperTri (f.U.mat n n) ∧ IsPermMatrix (f.P.mat n n) ∧ A.mat m n = f.L.mat m m * f.E.mat m n * f.U.mat n n * f.P.mat n n ∧
      (Monomial (A.mat m n) → f.L.mat m m = 1 ∧ f.U.mat n n = 1) := by
  have hidm := shape_identity (F := F) m
  have hidn := shape_identity (F := F) n
  have hget : ∀ {N c : Nat}, c < N → (identity N : CMat F).cols.getD c [] = [(c, 1)] := by
    intro N c hc; unfold identity; simp [hc]
  have hcore0 : LCore m n 0 0 A.cols ⟨(identity m : CMat F).cols, A.cols, (identity n : CMat F).cols, (identity n : CMat F).cols, [], [],
      getPivots 0 A.cols (fun _ => none)⟩ (Equiv.refl Nat) := by
    refine { him := by omega, hjn := by omega, okL := hidm.colsOK, okE := hA.colsOK, okU := hidn.colsOK, lL := hidm.ncol, lE := hA.ncol, lU := hidn.ncol,
             lP := hidn.ncol, Llow := ?_, Lid := fun t _ h => hget h, Uup := ?_, Uid := fun c _ h => hget h, lc := rfl, lp := rfl, inc := List.Pairwise.nil,
             ltp := by simp, proc := fun k hk => by omega, supp := fun c _ _ r hr => by omega, app := ?_, perm := fun c hc => hc, pcol := fun c hc => hget hc }
    · intro t ht r hr
      show coef ((identity m : CMat F).cols.getD t []) r = _
      rw [hget ht, coef_single']
      by_cases e : r = t
      · rw [if_pos e, if_pos e.symm]
      · rw [if_neg e, if_neg (Ne.symm e)]
    · intro c hc k hk
      show coef ((identity n : CMat F).cols.getD c []) k = _
      rw [hget hc, coef_single']
      by_cases e : k = c
      · rw [if_pos e, if_pos e.symm]
      · rw [if_neg e, if_neg (Ne.symm e)]
    · intro c hc r hr
      show en A.cols c r = _
      rw [← sum_pick hr (fun t => en A.cols c t)]
      refine Finset.sum_congr rfl (fun t ht => ?_)
      rw [Finset.mem_range] at ht
      show _ = coef ((identity m : CMat F).cols.getD t []) r * tcol n 0 A.cols _ c t
      rw [hget ht, coef_single']
      have e : ∀ U, tcol n 0 A.cols U c t = en A.cols c t := fun U => by unfold tcol; rw [if_neg (by omega)]
      rw [e]
      split
      · rw [one_mul]
      · rw [zero_mul]
  have hPM : PM (getPivots 0 A.cols (fun _ => none)) 0 (pivRel n 0 0 A.cols) := by
    have := getPivots_spec A.cols 0 (fun _ => none) (fun _ _ => False) hA.colsOK (fun r _ => ⟨by simp, by simp, by simp⟩) (fun r c h => h.elim)
    refine this.congr (fun r c _ => ?_)
    unfold pivRel
    rw [hA.ncol, Nat.sub_zero, Nat.zero_add, false_or]
  obtain ⟨i, j, s, σ, l1, h, hend, hmono⟩ := leupLoop_spec m 0 0 _ _ (by omega) hcore0 hPM
  have hjn := h.hjn
  obtain ⟨s', r0, r1, r2, r3, r4, r5, r6, r7, r8⟩ := leupRest_spec h (n - j) j s (by omega) (le_refl _) rfl rfl rfl rfl h.okE h.okU h.lE h.lU
    (fun c _ => rfl) (fun c _ => rfl)
  have hPok : ColsOK n s.P := by
    intro c hc
    obtain ⟨k, hk, rfl⟩ := List.mem_iff_getElem.1 hc
    have hkn : k < n := by rw [← h.lP]; exact hk
    have e : s.P[k] = s.P.getD k [] := by simp [List.getD_eq_getElem?_getD, List.getElem?_eq_getElem hk]
    rw [e, h.pcol k hkn]
    refine ⟨⟨by simp [Sorted], by intro p hp; rw [List.mem_singleton] at hp; rw [hp]; exact one_ne_zero⟩, ?_⟩
    intro p hp; rw [List.mem_singleton] at hp; rw [hp]; exact h.perm k hkn
  have hPs : (⟨n, s.P⟩ : CMat F).Shape n n := ⟨hPok, rfl, h.lP⟩
  obtain ⟨P, p1, p2, p3⟩ := transpose_spec hPs
  -- the permutation on `Fin n`
  have hinj : Function.Injective (fun c : Fin n => (⟨σ c, h.perm c c.2⟩ : Fin n)) := by
    intro c d e
    have : σ c = σ d := by simpa using e
    exact Fin.ext (σ.injective this)
  let τ : Equiv.Perm (Fin n) := Equiv.ofBijective _ (Finite.injective_iff_bijective.1 hinj)
  have hτ : ∀ c : Fin n, (τ c).val = σ c := fun c => rfl
  have hPij : ∀ c d : Fin n, P.mat n n c d = if τ c = d then 1 else 0 := by
    intro c d
    rw [p3, Matrix.transpose_apply]
    show coef (s.P.getD c []) d = _
    rw [h.pcol c c.2, coef_single', ← hτ]
    by_cases e : τ c = d
    · rw [if_pos e, if_pos (by rw [e])]
    · rw [if_neg e, if_neg (fun e' => e (Fin.ext e'))]
  -- the columns of the result
  have hElt : ∀ k, k < j → ∃ a : F, a ≠ 0 ∧ s'.E.getD k [] = [(s.pivs.getD k 0, a)] := by
    intro k hk
    obtain ⟨a, ha, e1, _⟩ := h.proc k hk
    exact ⟨a, ha, by rw [(r7 k hk).1, e1]⟩
  have hEge : ∀ k, j ≤ k → k < n → s'.E.getD k [] = [] := fun k h1 h2 => (r8 k h1 h2).1
  have hEne : ∀ k r, k < n → en s'.E k r ≠ 0 → k < j ∧ r = s.pivs.getD k 0 := by
    intro k r hk hne
    by_cases hkj : k < j
    · obtain ⟨a, ha, e⟩ := hElt k hkj
      refine ⟨hkj, ?_⟩
      by_contra hcon
      apply hne
      show coef (s'.E.getD k []) r = 0
      rw [e, coef_single', if_neg (fun e' => hcon e'.symm)]
    · exfalso; apply hne
      show coef (s'.E.getD k []) r = 0
      rw [hEge k (by omega) hk]; rfl
  have hpivlt : ∀ k l, k < l → l < j → s.pivs.getD k 0 < s.pivs.getD l 0 := by
    intro k l hkl hl
    have h1 : l < s.pivs.length := by rw [h.lp]; exact hl
    have := List.pairwise_iff_getElem.1 h.inc k l (by omega) h1 hkl
    simpa [List.getD_eq_getElem?_getD, List.getElem?_eq_getElem h1, List.getElem?_eq_getElem (by omega : k < s.pivs.length)] using this
  have hpivi : ∀ k, k < j → s.pivs.getD k 0 < i := by
    intro k hk
    apply h.ltp
    simp [List.getD_eq_getElem?_getD, List.getElem?_eq_getElem (by rw [h.lp]; exact hk : k < s.pivs.length)]
  have hUup : ∀ c, c < n → ∀ k, c ≤ k → en s'.U c k = if k = c then 1 else 0 := by
    intro c hc k hk
    by_cases hcj : c < j
    · show coef (s'.U.getD c []) k = _
      rw [(r7 c hcj).2]
      exact h.Uup c hc k hk
    · exact (r8 c (by omega) hc).2.1 k hk
  have hT : ∀ c, c < n → ∀ t, t < m → tcol n j s.E s.U c t = ∑ k ∈ Finset.range n, en s'.U c k * en s'.E k t := by
    intro c hc t ht
    unfold tcol
    by_cases hcj : c < j
    · rw [if_pos hcj]
      refine Finset.sum_congr rfl (fun k hk => ?_)
      rw [Finset.mem_range] at hk
      have e1 : en s'.U c k = en s.U c k := by show coef (s'.U.getD c []) k = _; rw [(r7 c hcj).2]
      by_cases hkj : k < j
      · have e2 : en s'.E k t = en s.E k t := by show coef (s'.E.getD k []) t = _; rw [(r7 k hkj).1]
        rw [e1, e2]
      · rw [e1, h.Uup c hc k (by omega), if_neg (by omega), zero_mul, zero_mul]
    · rw [if_neg hcj]
      obtain ⟨_, _, _, a4, _⟩ := r8 c (by omega) hc
      have him : t < i := by
        rcases hend with e | e
        · omega
        · omega
      have := a4 t
      rw [if_pos him] at this
      rw [← this]
      have hsub : (∑ k ∈ Finset.range n, en s'.U c k * en s'.E k t) = ∑ k ∈ Finset.range j, en s'.U c k * en s'.E k t := by
        symm
        apply Finset.sum_subset (by intro x hx; rw [Finset.mem_range] at *; omega)
        intro k hk hk'
        rw [Finset.mem_range] at hk hk'
        show _ * coef (s'.E.getD k []) t = 0
        rw [hEge k (by omega) hk]; simp [coef]
      rw [hsub]
      refine Finset.sum_congr rfl (fun k hk => ?_)
      rw [Finset.mem_range] at hk
      have e2 : en s'.E k t = en s.E k t := by show coef (s'.E.getD k []) t = _; rw [(r7 k hk).1]
      rw [e2]
  refine ⟨⟨⟨m, s'.L⟩, ⟨m, s'.E⟩, ⟨n, s'.U⟩, P⟩, ?_, ⟨by rw [r1]; exact h.okL, rfl, by rw [r1]; exact h.lL⟩, ⟨r3, rfl, r5⟩, ⟨r4, rfl, r6⟩, p2, ⟨?_, ?_⟩,
    ⟨⟨?_, ?_⟩, ?_⟩, ⟨?_, ?_⟩, ⟨τ, hPij⟩, ?_, ?_⟩
  · unfold leup
    simp only [hA.nrow, hA.ncol, l1, bind_ok, r0, r2, p1]
    rfl
  · intro a b hab
    show en s'.L b a = 0
    rw [r1, h.Llow b b.2 a (le_of_lt hab), if_neg (by have : a.val < b.val := hab; omega)]
  · intro a
    show en s'.L a a = 1
    rw [r1, h.Llow a a.2 a (le_refl _), if_pos rfl]
  · intro a b b' h1 h2
    obtain ⟨x1, x2⟩ := hEne b a b.2 h1
    obtain ⟨y1, y2⟩ := hEne b' a b'.2 h2
    rcases lt_trichotomy b.val b'.val with hh | hh | hh
    · have := hpivlt _ _ hh y1; omega
    · exact Fin.ext hh
    · have := hpivlt _ _ hh x1; omega
  · intro a a' b h1 h2
    obtain ⟨x1, x2⟩ := hEne b a b.2 h1
    obtain ⟨y1, y2⟩ := hEne b a' b.2 h2
    exact Fin.ext (by omega)
  · intro b b' a' hb h1
    obtain ⟨x1, x2⟩ := hEne b' a' b'.2 h1
    have hb' : b.val < b'.val := hb
    have hlt := hpivlt b b' hb' x1
    obtain ⟨a, ha, e⟩ := hElt b (by omega)
    refine ⟨⟨s.pivs.getD b 0, by have := a'.2; omega⟩, by show s.pivs.getD b 0 < a'.val; omega, ?_⟩
    show coef (s'.E.getD b []) (s.pivs.getD b 0) ≠ 0
    rw [e, coef_single', if_pos rfl]; exact ha
  · intro a b hab
    show en s'.U b a = 0
    rw [hUup b b.2 a (le_of_lt hab), if_neg (by have : b.val < a.val := hab; omega)]
  · intro a
    show en s'.U a a = 1
    rw [hUup a a.2 a (le_refl _), if_pos rfl]
  · ext r d
    show en A.cols d r = ((matOf m m s'.L * matOf m n s'.E * matOf n n s'.U) * P.mat n n) r d
    rw [Matrix.mul_apply]
    have hW : ∀ c : Fin n, (matOf m m s'.L * matOf m n s'.E * matOf n n s'.U) r c = en A.cols (σ c) r := by
      intro c
      rw [h.app c c.2 r r.2, Matrix.mul_assoc, Matrix.mul_apply, Finset.sum_range]
      refine Finset.sum_congr rfl (fun t _ => ?_)
      rw [hT c c.2 t t.2, Matrix.mul_apply, Finset.sum_range]
      show en s'.L t r * _ = _
      rw [r1]
      congr 1
      exact Finset.sum_congr rfl (fun k _ => mul_comm _ _)
    rw [Finset.sum_eq_single (τ.symm d)]
    · rw [hW, hPij, if_pos (by simp), mul_one]
      congr 1
      rw [← hτ]; simp
    · intro c _ hc
      rw [hPij, if_neg, mul_zero]
      intro e
      apply hc
      rw [← e]; simp
    · intro hh; exact absurd (Finset.mem_univ _) hh
  · intro hA1
    have hM := hmono (by
      have hcol : ∀ {N t : Nat}, t < N → ∀ r, en (identity N : CMat F).cols t r = if r = t then 1 else 0 := by
        intro N t ht r
        show coef ((identity N : CMat F).cols.getD t []) r = _
        rw [hget ht, coef_single']
        by_cases e : r = t
        · rw [if_pos e, if_pos e.symm]
        · rw [if_neg e, if_neg (Ne.symm e)]
      have hrow : ∀ c, c < n → ∀ r, en A.cols c r ≠ 0 → r < m := by
        intro c hc r hne
        by_contra hr
        apply hne
        apply coef_eq_zero_of_notMem
        intro p hp
        have := (hA.colsOK.getD c).2 p hp
        omega
      refine ⟨fun t ht r => hcol ht r, fun c hc k => hcol hc k, ?_, ?_, fun c _ _ r hr => by simp at hr⟩
      · intro c c' _ h2 _ h4 r n1 n2
        have hr := hrow c h2 r n1
        have := hA1.1 ⟨r, hr⟩ ⟨c, h2⟩ ⟨c', h4⟩ n1 n2
        exact congrArg Fin.val this
      · intro c _ h2 r r' n1 n2
        have := hA1.2 ⟨r, hrow c h2 r n1⟩ ⟨r', hrow c h2 r' n2⟩ ⟨c, h2⟩ n1 n2
        exact congrArg Fin.val this)
    constructor
    · ext a b
      show en s'.L b a = _
      rw [r1, hM.L b b.2 a, Matrix.one_apply]
      simp only [Fin.ext_iff]
    · ext a b
      show en s'.U b a = _
      rw [Matrix.one_apply]
      by_cases hbj : b.val < j
      · show coef (s'.U.getD b []) a = _
        rw [(r7 b hbj).2]
        have := hM.U b b.2 a
        rw [show coef (s.U.getD b []) a = _ from this]
        simp only [Fin.ext_iff]
      · obtain ⟨_, a2, a3, _, a5⟩ := r8 b (by omega) b.2
        by_cases hab : a = b
        · subst hab; rw [if_pos rfl, a2 a (le_refl _), if_pos rfl]
        · rw [if_neg hab]
          have hab' : a.val ≠ b.val := fun e => hab (Fin.ext e)
          by_cases haj : j ≤ a.val
          · exact a3 a haj hab'
          · rw [a5 a (by omega)]
            have := hM.piv b (by omega) b.2 (s.pivs.getD a 0) (by
              rw [List.getD_eq_getElem?_getD, List.getElem?_eq_getElem (by rw [h.lp]; omega)]; exact List.getElem_mem _)
            rw [show coef (s.E.getD b []) (s.pivs.getD a 0) = 0 from this, mul_zero]

theorem leup_core {m n : Nat} {A : CMat F} (hA : A.Shape m n) :
    ∃ f, leup A = .ok f ∧ f.L.Shape m m ∧ f.E.Shape m n ∧ f.U.Shape n n ∧ f.P.Shape n n ∧ UnitLowerTri (f.L.mat m m) ∧ ShapeEL (f.E.mat m n) ∧
      UnitUpperTri (f.U.mat n n) ∧ IsPermMatrix (f.P.mat n n) ∧ A.mat m n = f.L.mat m m * f.E.mat m n * f.U.mat n n * f.P.mat n n := by
  obtain ⟨f, f0, f1, f2, f3, f4, f5, f6, f7, f8, f9, _⟩ := leup_core' hA
  exact ⟨f, f0, f1, f2, f3, f4, f5, f6, f7, f8, f9⟩

/-- the factors `L`, `U` of a monomial matrix are identities -/
theorem leup_mono {m n : Nat} {A : CMat F} (hA : A.Shape m n) (hm : Monomial (A.mat m n)) {f : SparseFact F} (h : leup A = .ok f) :
    f.L.mat m m = 1 ∧ f.U.mat n n = 1 := by
  obtain ⟨g, g0, _, _, _, _, _, _, _, _, _, g10⟩ := leup_core' hA
  rw [h] at g0
  cases g0
  exact g10 hm

/-! ### relatives -/

theorem ShapeEL.transpose {m n : Nat} {E : Matrix (Fin m) (Fin n) F} (h : ShapeEL E) : ShapeEU Eᵀ :=
  ⟨Monomial.transpose h.1, fun i i' j' h1 h2 => h.2 i i' j' h1 h2⟩

theorem ShapeEL.rev {m n : Nat} {E : Matrix (Fin m) (Fin n) F} (h : ShapeEL E) : ShapeEUhat (E.submatrix Fin.rev Fin.rev) := by
  refine ⟨Monomial.rev h.1, fun j j' i h1 h2 => ?_⟩
  obtain ⟨a, ha, hb⟩ := h.2 _ _ _ (Fin.rev_lt_rev.2 h1) h2
  exact ⟨a.rev, by rw [← Fin.rev_lt_rev, Fin.rev_rev]; exact ha, by simpa using hb⟩

theorem ShapeEU.rev {m n : Nat} {E : Matrix (Fin m) (Fin n) F} (h : ShapeEU E) : ShapeELhat (E.submatrix Fin.rev Fin.rev) := by
  refine ⟨Monomial.rev h.1, fun j j' i h1 h2 => ?_⟩
  obtain ⟨a, ha, hb⟩ := h.2 _ _ _ (Fin.rev_lt_rev.2 h1) h2
  exact ⟨a.rev, by rw [← Fin.rev_lt_rev, Fin.rev_rev]; exact ha, by simpa using hb⟩

theorem UnitLowerTri.transpose {n : Nat} {L : Matrix (Fin n) (Fin n) F} (h : UnitLowerTri L) : UnitUpperTri Lᵀ :=
  ⟨fun i j hij => h.1 j i hij, fun i => h.2 i⟩

theorem UnitUpperTri.transpose {n : Nat} {L : Matrix (Fin n) (Fin n) F} (h : UnitUpperTri L) : UnitLowerTri Lᵀ :=
  ⟨fun i j hij => h.1 j i hij, fun i => h.2 i⟩

theorem UnitLowerTri.rev {n : Nat} {L : Matrix (Fin n) (Fin n) F} (h : UnitLowerTri L) : UnitUpperTri (L.submatrix Fin.rev Fin.rev) :=
  ⟨fun i j hij => h.1 _ _ (Fin.rev_lt_rev.2 hij), fun i => h.2 _⟩

theorem UnitUpperTri.rev {n : Nat} {L : Matrix (Fin n) (Fin n) F} (h : UnitUpperTri L) : UnitLowerTri (L.submatrix Fin.rev Fin.rev) :=
  ⟨fun i j hij => h.1 _ _ (Fin.rev_lt_rev.2 hij), fun i => h.2 _⟩

theorem IsPermMatrix.transpose {n : Nat} {P : Matrix (Fin n) (Fin n) F} (h : IsPermMatrix P) : IsPermMatrix Pᵀ := by
  obtain ⟨σ, hσ⟩ := h
  refine ⟨σ.symm, fun i j => ?_⟩
  rw [Matrix.transpose_apply, hσ]
  congr 1
  rw [eq_iff_iff, Equiv.symm_apply_eq]
  exact ⟨fun h => h.symm, fun h => h.symm⟩

theorem IsPermMatrix.rev {n : Nat} {P : Matrix (Fin n) (Fin n) F} (h : IsPermMatrix P) : IsPermMatrix (P.submatrix Fin.rev Fin.rev) := by
  obtain ⟨σ, hσ⟩ := h
  refine ⟨(Fin.revPerm.trans σ).trans Fin.revPerm, fun i j => ?_⟩
  rw [Matrix.submatrix_apply, hσ]
  congr 1
  rw [eq_iff_iff]
  show σ i.rev = j.rev ↔ (σ i.rev).rev = j
  exact ⟨fun h => by rw [h, Fin.rev_rev], fun h => by rw [← h, Fin.rev_rev]⟩

theorem pleu_core {m n : Nat} {A : CMat F} (hA : A.Shape m n) :
    ∃ f, pleu A = .ok f ∧ f.P.Shape m m ∧ f.L.Shape m m ∧ f.E.Shape m n ∧ f.U.Shape n n ∧ IsPermMatrix (f.P.mat m m) ∧ UnitLowerTri (f.L.mat m m) ∧
      ShapeEU (f.E.mat m n) ∧ UnitUpperTri (f.U.mat n n) ∧ A.mat m n = f.P.mat m m * f.L.mat m m * f.E.mat m n * f.U.mat n n := by
  obtain ⟨At, a1, a2, a3⟩ := transpose_spec hA
  obtain ⟨f, f0, f1, f2, f3, f4, f5, f6, f7, f8, f9⟩ := leup_core a2
  obtain ⟨E, e1, e2, e3⟩ := transpose_spec f2
  obtain ⟨P, p1, p2, p3⟩ := transpose_spec f4
  obtain ⟨U, u1, u2, u3⟩ := transpose_spec f1
  obtain ⟨L, l1, l2, l3⟩ := transpose_spec f3
  refine ⟨⟨L, E, U, P⟩, ?_, p2, l2, e2, u2, ?_, ?_, ?_, ?_, ?_⟩
  · unfold pleu
    simp only [a1, f0, e1, p1, u1, l1, bind_ok]; rfl
  · show IsPermMatrix (P.mat m m); rw [p3]; exact IsPermMatrix.transpose f8
  · show UnitLowerTri (L.mat m m); rw [l3]; exact UnitUpperTri.transpose f7
  · show ShapeEU (E.mat m n); rw [e3]; exact ShapeEL.transpose f6
  · show UnitUpperTri (U.mat n n); rw [u3]; exact UnitLowerTri.transpose f5
  · show A.mat m n = P.mat m m * L.mat m m * E.mat m n * U.mat n n
    have : A.mat m n = (At.mat n m)ᵀ := by rw [a3, Matrix.transpose_transpose]
    rw [this, f9, p3, l3, e3, u3]
    simp only [Matrix.transpose_mul, Matrix.mul_assoc]

theorem uelp_core {m n : Nat} {A : CMat F} (hA : A.Shape m n) :
    ∃ f, uelp A = .ok f ∧ f.U.Shape m m ∧ f.E.Shape m n ∧ f.L.Shape n n ∧ f.P.Shape n n ∧ UnitUpperTri (f.U.mat m m) ∧ ShapeEUhat (f.E.mat m n) ∧
      UnitLowerTri (f.L.mat n n) ∧ IsPermMatrix (f.P.mat n n) ∧ A.mat m n = f.U.mat m m * f.E.mat m n * f.L.mat n n * f.P.mat n n := by
  obtain ⟨a1, a2⟩ := jConj_spec hA
  obtain ⟨f, f0, f1, f2, f3, f4, f5, f6, f7, f8, f9⟩ := leup_core a1
  obtain ⟨l1, l2⟩ := jConj_spec f1
  obtain ⟨e1, e2⟩ := jConj_spec f2
  obtain ⟨u1, u2⟩ := jConj_spec f3
  obtain ⟨p1, p2⟩ := jConj_spec f4
  refine ⟨⟨jConj f.U, jConj f.E, jConj f.L, jConj f.P⟩, ?_, l1, e1, u1, p1, ?_, ?_, ?_, ?_, ?_⟩
  · unfold uelp; rw [f0]; rfl
  · show UnitUpperTri ((jConj f.L).mat m m); rw [l2]; exact UnitLowerTri.rev f5
  · show ShapeEUhat ((jConj f.E).mat m n); rw [e2]; exact ShapeEL.rev f6
  · show UnitLowerTri ((jConj f.U).mat n n); rw [u2]; exact UnitUpperTri.rev f7
  · show IsPermMatrix ((jConj f.P).mat n n); rw [p2]; exact IsPermMatrix.rev f8
  · show A.mat m n = (jConj f.L).mat m m * (jConj f.E).mat m n * (jConj f.U).mat n n * (jConj f.P).mat n n
    rw [l2, e2, u2, p2, ← rev_mul, ← rev_mul, ← rev_mul, ← f9, a2, rev_rev]

theorem puel_core {m n : Nat} {A : CMat F} (hA : A.Shape m n) :
    ∃ f, puel A = .ok f ∧ f.P.Shape m m ∧ f.U.Shape m m ∧ f.E.Shape m n ∧ f.L.Shape n n ∧ IsPermMatrix (f.P.mat m m) ∧ UnitUpperTri (f.U.mat m m) ∧
      ShapeELhat (f.E.mat m n) ∧ UnitLowerTri (f.L.mat n n) ∧ A.mat m n = f.P.mat m m * f.U.mat m m * f.E.mat m n * f.L.mat n n := by
  obtain ⟨b1, b2⟩ := jConj_spec hA
  obtain ⟨At, a1, a2, a3⟩ := transpose_spec b1
  obtain ⟨f, f0, f1, f2, f3, f4, f5, f6, f7, f8, f9⟩ := leup_core a2
  obtain ⟨E, e1, e2, e3⟩ := transpose_spec f2
  obtain ⟨P, p1, p2, p3⟩ := transpose_spec f4
  obtain ⟨L, l1, l2, l3⟩ := transpose_spec f1
  obtain ⟨U, u1, u2, u3⟩ := transpose_spec f3
  obtain ⟨je1, je2⟩ := jConj_spec e2
  obtain ⟨jp1, jp2⟩ := jConj_spec p2
  obtain ⟨jl1, jl2⟩ := jConj_spec l2
  obtain ⟨ju1, ju2⟩ := jConj_spec u2
  refine ⟨⟨jConj L, jConj E, jConj U, jConj P⟩, ?_, jp1, ju1, je1, jl1, ?_, ?_, ?_, ?_, ?_⟩
  · unfold puel
    simp only [a1, f0, e1, p1, u1, l1, bind_ok]; rfl
  · show IsPermMatrix ((jConj P).mat m m); rw [jp2, p3]; exact IsPermMatrix.rev (IsPermMatrix.transpose f8)
  · show UnitUpperTri ((jConj U).mat m m); rw [ju2, u3]; exact UnitLowerTri.rev (UnitUpperTri.transpose f7)
  · show ShapeELhat ((jConj E).mat m n); rw [je2, e3]; exact ShapeEU.rev (ShapeEL.transpose f6)
  · show UnitLowerTri ((jConj L).mat n n); rw [jl2, l3]; exact UnitUpperTri.rev (UnitLowerTri.transpose f5)
  · show A.mat m n = (jConj P).mat m m * (jConj U).mat m m * (jConj E).mat m n * (jConj L).mat n n
    rw [jp2, ju2, je2, jl2, ← rev_mul, ← rev_mul, ← rev_mul]
    have : A.mat m n = ((At.mat n m)ᵀ).submatrix Fin.rev Fin.rev := by rw [a3, Matrix.transpose_transpose, b2, rev_rev]
    rw [this, f9, p3, l3, e3, u3]
    congr 1
    simp only [Matrix.transpose_mul, Matrix.mul_assoc]

/-! ### factorisations of monomial matrices -/

theorem pleu_mono {m n : Nat} {A : CMat F} (hA : A.Shape m n) (hm : Monomial (A.mat m n)) {f : SparseFact F} (h : pleu A = .ok f) :
    f.L.mat m m = 1 ∧ f.U.mat n n = 1 := by
  obtain ⟨At, a1, a2, a3⟩ := transpose_spec hA
  obtain ⟨g, g0, g1, g2, g3, g4, _⟩ := leup_core a2
  obtain ⟨hL, hU⟩ := leup_mono a2 (by rw [a3]; exact Monomial.transpose hm) g0
  obtain ⟨E, e1, e2, e3⟩ := transpose_spec g2
  obtain ⟨P, p1, p2, p3⟩ := transpose_spec g4
  obtain ⟨U, u1, u2, u3⟩ := transpose_spec g1
  obtain ⟨L, l1, l2, l3⟩ := transpose_spec g3
  have : pleu A = .ok ⟨L, E, U, P⟩ := by unfold pleu; simp only [a1, g0, e1, p1, u1, l1, bind_ok]; rfl
  rw [h] at this
  cases this
  exact ⟨by rw [l3, hU, Matrix.transpose_one], by rw [u3, hL, Matrix.transpose_one]⟩

theorem rev_one {n : Nat} : (1 : Matrix (Fin n) (Fin n) F).submatrix Fin.rev Fin.rev = 1 :=
  Matrix.submatrix_one Fin.rev Fin.rev_injective

theorem uelp_mono {m n : Nat} {A : CMat F} (hA : A.Shape m n) (hm : Monomial (A.mat m n)) {f : SparseFact F} (h : uelp A = .ok f) :
    f.L.mat n n = 1 ∧ f.U.mat m m = 1 := by
  obtain ⟨a1, a2⟩ := jConj_spec hA
  obtain ⟨g, g0, g1, g2, g3, g4, _⟩ := leup_core a1
  obtain ⟨hL, hU⟩ := leup_mono a1 (by rw [a2]; exact Monomial.rev hm) g0
  obtain ⟨l1, l2⟩ := jConj_spec g1
  obtain ⟨u1, u2⟩ := jConj_spec g3
  have : uelp A = .ok ⟨jConj g.U, jConj g.E, jConj g.L, jConj g.P⟩ := by unfold uelp; simp only [g0, bind_ok]; rfl
  rw [h] at this
  cases this
  exact ⟨by show (jConj g.U).mat n n = 1; rw [u2, hU, rev_one], by show (jConj g.L).mat m m = 1; rw [l2, hL, rev_one]⟩

theorem puel_mono {m n : Nat} {A : CMat F} (hA : A.Shape m n) (hm : Monomial (A.mat m n)) {f : SparseFact F} (h : puel A = .ok f) :
    f.L.mat n n = 1 ∧ f.U.mat m m = 1 := by
  obtain ⟨b1, b2⟩ := jConj_spec hA
  obtain ⟨At, a1, a2, a3⟩ := transpose_spec b1
  obtain ⟨g, g0, g1, g2, g3, g4, _⟩ := leup_core a2
  obtain ⟨hL, hU⟩ := leup_mono a2 (by rw [a3, b2]; exact Monomial.transpose (Monomial.rev hm)) g0
  obtain ⟨E, e1, e2, e3⟩ := transpose_spec g2
  obtain ⟨P, p1, p2, p3⟩ := transpose_spec g4
  obtain ⟨L, l1, l2, l3⟩ := transpose_spec g1
  obtain ⟨U, u1, u2, u3⟩ := transpose_spec g3
  obtain ⟨_, x2⟩ := jConj_spec l2
  obtain ⟨_, y2⟩ := jConj_spec u2
  have : puel A = .ok ⟨jConj L, jConj E, jConj U, jConj P⟩ := by unfold puel; simp only [a1, g0, e1, p1, u1, l1, bind_ok]; rfl
  rw [h] at this
  cases this
  exact ⟨by show (jConj L).mat n n = 1; rw [x2, l3, hL, Matrix.transpose_one, rev_one], by show (jConj U).mat m m = 1; rw [y2, u3, hU, Matrix.transpose_one, rev_one]⟩

end Fact
end BATS
