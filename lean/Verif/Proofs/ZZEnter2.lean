import Verif.Proofs.ZZEnter

set_option linter.unusedSectionVars false
set_option linter.unusedSimpArgs false
set_option linter.unusedVariables false

/-! # Zigzag: entering cells -/

namespace BATS
namespace Zigzag
open Reduction Matrix BATS.Fact CMat
open BATS.Quiver (set_getD_self set_getD_ne)

variable {F : Type} [Field F] [DecidableEq F] {T : Type}

section
variable {B : List (CMat F)} {es : List (Event T)} {nb N : Nat} {s : State F T}

theorem lev0_nil (hz0 : ZeroBdry0 B) {R U : CMat F} {p : P2C} {S : Finset Nat} (h : Lev (rdim B 0) (cdim B 0) (Dk B 0) R U p S) {j : Nat} (hj : j ∈ S) : R.cols.getD j [] = [] := by
  apply eq_nil_of_coef (h.col.okR.getD j).1
  intro i
  rw [h.col.eq j hj i]
  apply Finset.sum_eq_zero
  intro c hc
  have : (Dk B 0).cols.getD c [] = [] := by
    rw [Dk_cols]
    apply hz0
    rw [Finset.mem_range] at hc
    rw [getD_eq_get [] hc]
    exact List.getElem_mem _
  rw [this]
  show _ * (0 : F) = 0
  rw [mul_zero]

theorem enter_spec (hB : IsChainComplex B) (hz0 : ZeroBdry0 B) (ho : IsZigzagOrder B es) (hnb : nb ≤ B.length) (hs : SInv B es nb N s) {e : Event T} (he : es[N]? = some e)
    (hent : e.entry = true) : ∃ s', enter nb s e = .ok s' ∧ SInv B es nb (N + 1) s' := by
  obtain ⟨hq, hx, h3⟩ := stepOK ho he
  rw [if_pos hent] at h3
  obtain ⟨hnew, hbd⟩ := h3
  have hxS : e.ind ∉ present (es.take N) e.dim := by
    intro hh
    obtain ⟨f, hf, h1⟩ := present_event _ _ _ hh
    exact hnew f hf h1
  have hpres : ∀ k, present (es.take (N + 1)) k = if k = e.dim then insert e.ind (present (es.take N) k) else present (es.take N) k := by
    intro k
    rw [present_succ he]
    by_cases h : e.dim = k
    · rw [if_pos h, if_pos h.symm, if_pos hent]
    · rw [if_neg h, if_neg (Ne.symm h)]
  obtain ⟨f1, f2⟩ := hs.fresh e.dim e.ind hx hnew
  obtain ⟨j, R', U', p', hred, hres, hlev'⟩ := reduceColumn_spec (hs.lev e.dim) hx hxS f1 f2
  -- the state after `reduce_column`
  obtain ⟨red1, hred1⟩ : ∃ red1 : RedCpx F, red1 = { s.red with R := s.red.R.set e.dim R', U := s.red.U.set e.dim U', p2c := s.red.p2c.set e.dim p' } := ⟨_, rfl⟩
  have hR1 : ∀ k, Rk B red1 k = if k = e.dim then R' else Rk B s.red k := by
    intro k; subst hred1; exact set_getD_if (by rw [hs.lenR]; exact hq)
  have hU1 : ∀ k, Uk B red1 k = if k = e.dim then U' else Uk B s.red k := by
    intro k; subst hred1; exact set_getD_if (by rw [hs.lenU]; exact hq)
  have hp1 : ∀ k, pk B red1 k = if k = e.dim then p' else pk B s.red k := by
    intro k; subst hred1; exact set_getD_if (by rw [hs.lenp]; exact hq)
  have hlev1 : Lvls B es (N + 1) (Rk B red1) (Uk B red1) (pk B red1) := by
    intro k
    rw [hR1, hU1, hp1, hpres]
    by_cases h : k = e.dim
    · subst h; simp only [if_true]; exact hlev'
    · simp only [if_neg h]; exact hs.lev k
  have hfresh1 : ∀ k c, c < cdim B k → (∀ f ∈ es.take (N + 1), ¬ (f.dim = k ∧ f.ind = c)) →
      (Rk B red1 k).cols.getD c [] = (Dk B k).cols.getD c [] ∧ (Uk B red1 k).cols.getD c [] = [(c, 1)] := by
    intro k c hc hf
    have hf0 : ∀ f ∈ es.take N, ¬ (f.dim = k ∧ f.ind = c) := fun f h => hf f (by rw [List.take_add_one]; simp [h])
    have hfe : ¬ (e.dim = k ∧ e.ind = c) := hf e (by rw [List.take_add_one, he]; simp)
    obtain ⟨g1, g2⟩ := hs.fresh k c hc hf0
    rw [hR1, hU1]
    by_cases h : k = e.dim
    · subst h
      simp only [if_true]
      have hcS : c ∉ insert e.ind (present (es.take N) e.dim) := by
        intro hh
        rcases Finset.mem_insert.1 hh with hh | hh
        · exact hfe ⟨rfl, hh.symm⟩
        · obtain ⟨f, hf1, hf2⟩ := present_event _ _ _ hh
          exact hf0 f hf1 hf2
      rw [(hres.out c hcS).1, (hres.out c hcS).2]
      exact ⟨g1, g2⟩
    · simp only [if_neg h]; exact ⟨g1, g2⟩
  have hsub : ∀ k, present (es.take N) k ⊆ present (es.take (N + 1)) k := by
    intro k; rw [hpres]; split
    · exact Finset.subset_insert _ _
    · exact Finset.Subset.refl _
  -- dimensions which are not concerned
  have hother : ∀ k, k < nb → (k = e.dim → R'.cols.getD j [] ≠ []) → (k + 1 = e.dim → R'.cols.getD j [] = []) →
      KOK B es (N + 1) k (Rk B red1 k) (Uk B red1 k) (pk B red1 (k + 1)) (s.red.I.getD k []) (s.L.getD k ⟨0, []⟩) (s.P.getD k ⟨0, []⟩) (s.dir.getD k false)
        (s.bars.getD k []) (s.p2i.getD k []) := by
    intro k hk h1 h2
    have hK := hs.kok k hk
    refine hK.skip hB ho hs.lev hlev1 ?_ ?_ (Or.inl ⟨hsub k, hsub (k + 1)⟩) ?_
    · intro c
      rw [hR1, hp1, hpres]
      by_cases hkq : k = e.dim
      · have hne := h1 hkq
        rw [if_pos hkq, if_pos hkq, if_neg (by omega : ¬ k + 1 = e.dim)]
        constructor
        · rintro ⟨a, b, c'⟩
          have hcj : c ≠ j := by rintro rfl; exact hne b
          have hcc : ¬ (c = e.ind ∨ (Rk B s.red e.dim).cols.getD c [] ≠ []) := by
            intro hh; subst hkq; exact hres.nonzero c a hh hcj b
          push Not at hcc
          rw [hkq] at a ⊢
          refine ⟨?_, hcc.2, ?_⟩
          · rcases Finset.mem_insert.1 a with a | a
            · exact absurd a hcc.1
            · exact a
          · rw [← hkq]; exact c'
        · rintro ⟨a, b, c'⟩
          rw [hkq] at a b
          have hci : c ≠ e.ind := by rintro rfl; exact hxS a
          refine ⟨?_, (hres.zero c (Finset.mem_insert_of_mem a) hci b).2.1, c'⟩
          rw [hkq]; exact Finset.mem_insert_of_mem a
      · rw [if_neg hkq, if_neg hkq]
        by_cases hkq2 : k + 1 = e.dim
        · rw [if_pos hkq2]
          have h0 := h2 hkq2
          have : p'.getD c none = none ↔ (pk B s.red (k + 1)).getD c none = none := by
            rw [hres.piv c, h0, hkq2]
            constructor
            · exact fun h => h.1
            · intro h; exact ⟨h, by simp [low]⟩
          rw [this]
        · rw [if_neg hkq2]
    · intro c hc
      obtain ⟨a, b, _⟩ := (hK.gens.mem c).1 hc
      rw [hU1]
      by_cases hkq : k = e.dim
      · subst hkq
        rw [if_pos rfl]
        have hci : c ≠ e.ind := by rintro rfl; exact hxS a
        exact (hres.zero c (Finset.mem_insert_of_mem a) hci b).2.2
      · rw [if_neg hkq]
    · by_cases hkq : k = e.dim
      · right; rw [hpres, if_neg (by omega)]
      · left; rw [hpres, if_neg hkq]
  have hjlt : j < R'.cols.length := by rw [hlev'.col.lenR]; exact hlev'.col.sub j hres.mem
  -- unfolding `enter`
  have hunf : enter nb s e = (do
      let c ← rd R'.cols j
      if e.dim < nb + 1 ∧ 0 < c.length then do
        let piv ← SVec.lastnz c
        if e.dim = 0 then .error .ub else do
          let I ← rd red1.I (e.dim - 1)
          let pos := (I.takeWhile (fun x => x < piv.1)).length
          let x ← rd I pos
          if piv.1 ≠ x then .error .thrown else do
            let red := { red1 with I := red1.I.set (e.dim - 1) (I.eraseIdx pos) }
            let A ← boundaryMap red (e.dim - 1) piv.1
            arrow { s with red := red } e (e.dim - 1) A
      else if e.dim < nb then do
        let I ← rd red1.I e.dim
        let I' := I.insertIdx (I.takeWhile (fun x => x ≤ j)).length j
        let red := { red1 with I := red1.I.set e.dim I' }
        let A ← cycleInsertionMap I' j
        arrow { s with red := red } e e.dim A
      else pure { s with red := red1 }) := by
    unfold enter
    have e1 : rd s.red.R e.dim = .ok (Rk B s.red e.dim) := rd_getD _ (by rw [hs.lenR]; exact hq)
    have e2 : rd s.red.U e.dim = .ok (Uk B s.red e.dim) := rd_getD _ (by rw [hs.lenU]; exact hq)
    have e3 : rd s.red.p2c e.dim = .ok (pk B s.red e.dim) := rd_getD _ (by rw [hs.lenp]; exact hq)
    rw [e1, bind_ok, e2, bind_ok, e3, bind_ok, hred, bind_ok]
    subst hred1
    rfl
  rw [hunf, rd_getD [] hjlt, bind_ok]
  clear hunf
  have hI1 : red1.I = s.red.I := by subst hred1; rfl
  have hredR : red1.R = s.red.R.set e.dim R' := by subst hred1; rfl
  have hredU : red1.U = s.red.U.set e.dim U' := by subst hred1; rfl
  have hredp : red1.p2c = s.red.p2c.set e.dim p' := by subst hred1; rfl
  by_cases hnz : R'.cols.getD j [] = []
  · -- a cycle
    rw [if_neg (by rw [hnz]; simp)]
    by_cases hqn : e.dim < nb
    · rw [if_pos hqn]
      have hK := hs.kok e.dim hqn
      rw [hI1, rd_getD [] (by rw [hs.lenI]; exact hq), bind_ok]
      obtain ⟨I, hIdef⟩ : ∃ I, I = s.red.I.getD e.dim [] := ⟨_, rfl⟩
      rw [← hIdef] at hK ⊢
      have hlev2 := hs.lev (e.dim + 1)
      have hcl := closed_all ho e.dim N
      have hjp : (pk B s.red (e.dim + 1)).getD j none = none := by
        by_contra hh
        obtain ⟨j2, hj2, hl2, hjS⟩ := pivot_present hlev2 hcl hh
        obtain ⟨_, hRj⟩ := pivot_cycle (hs.lev e.dim) hlev2 (sq_all hB e.dim) hcl hj2 hl2
        have hji : j ≠ e.ind := by rintro rfl; exact hxS hjS
        exact (hres.zero j (Finset.mem_insert_of_mem hjS) hji hRj).1 rfl
      have hjI : j ∉ I := by
        intro hh
        obtain ⟨a, b, _⟩ := (hK.gens.mem j).1 hh
        have hji : j ≠ e.ind := by rintro rfl; exact hxS a
        exact (hres.zero j (Finset.mem_insert_of_mem a) hji b).1 rfl
      have hIns := ins_new hK.gens.sorted hjI
      obtain ⟨I', hI'⟩ : ∃ I', I' = I.insertIdx (I.takeWhile (fun x => x ≤ j)).length j := ⟨_, rfl⟩
      rw [← hI'] at hIns
      simp only [← hI']
      obtain ⟨A, a1, a2⟩ := cycleInsertion_spec (boundariesOn B es e.dim (N + 1)) (genOf (cdim B e.dim) U') hIns
      rw [a1, bind_ok]
      have hG' : IsGens R' (pk B s.red (e.dim + 1)) (present (es.take (N + 1)) e.dim) I' := by
        refine ⟨hIns.sorted, ?_⟩
        intro c
        rw [hIns.mem, hpres, if_pos rfl]
        constructor
        · rintro (rfl | hc)
          · exact ⟨hres.mem, hnz, hjp⟩
          · obtain ⟨a, b, c'⟩ := (hK.gens.mem c).1 hc
            have hci : c ≠ e.ind := by rintro rfl; exact hxS a
            exact ⟨Finset.mem_insert_of_mem a, (hres.zero c (Finset.mem_insert_of_mem a) hci b).2.1, c'⟩
        · rintro ⟨a, b, c'⟩
          by_cases hcj : c = j
          · exact Or.inl hcj
          · right
            have hcc : ¬ (c = e.ind ∨ (Rk B s.red e.dim).cols.getD c [] ≠ []) := fun hh => hres.nonzero c a hh hcj b
            push Not at hcc
            refine (hK.gens.mem c).2 ⟨?_, hcc.2, c'⟩
            rcases Finset.mem_insert.1 a with a | a
            · exact absurd a hcc.1
            · exact a
      have hRq : Rk B red1 e.dim = R' := by rw [hR1, if_pos rfl]
      have hUq : Uk B red1 e.dim = U' := by rw [hU1, if_pos rfl]
      have hpq : pk B red1 (e.dim + 1) = pk B s.red (e.dim + 1) := by rw [hp1, if_neg (by omega)]
      have hbasis := hlev1.gens hB ho (k := e.dim) (I := I') (by rw [hRq, hpq]; exact hG')
      rw [hUq] at hbasis
      have hbar : BarInv es e.dim (cyclesOn B es e.dim) (boundariesOn B es e.dim) N I (genOf (cdim B e.dim) U') (s.L.getD e.dim ⟨0, []⟩) (s.P.getD e.dim ⟨0, []⟩)
          (s.dir.getD e.dim false) (s.bars.getD e.dim []) (s.p2i.getD e.dim []) := by
        refine hK.bar.congr ?_
        intro c hc
        obtain ⟨a, b, _⟩ := (hK.gens.mem c).1 hc
        have hci : c ≠ e.ind := by rintro rfl; exact hxS a
        unfold genOf; rw [(hres.zero c (Finset.mem_insert_of_mem a) hci b).2.2]
      obtain ⟨L', P', d', bars', m', r1, r2⟩ := arrow_entry (s := { s with red := { red1 with I := s.red.I.set e.dim I' } }) (e := e) (A := A)
        (rd_getD ⟨0, []⟩ (by show e.dim < s.L.length; rw [hs.lenL]; exact hqn)) (rd_getD ⟨0, []⟩ (by show e.dim < s.P.length; rw [hs.lenP]; exact hqn))
        (rd_getD false (by show e.dim < s.dir.length; rw [hs.lend]; exact hqn)) (rd_getD [] (by show e.dim < s.bars.length; rw [hs.lenb]; exact hqn))
        (rd_getD [] (by show e.dim < s.p2i.length; rw [hs.lenm]; exact hqn)) hbar he hent hbasis a2
      refine ⟨_, r1, ?_⟩
      refine hs.assemble hnb hq (red := { red1 with I := s.red.I.set e.dim I' }) hredR hredU hredp rfl hlev1 hfresh1 hqn ?_ ?_
      · show KOK B es (N + 1) e.dim (Rk B red1 e.dim) (Uk B red1 e.dim) (pk B red1 (e.dim + 1)) I' L' P' d' bars' m'
        rw [hRq, hUq, hpq]
        exact ⟨hG', r2⟩
      · intro k hk hkq
        exact hother k hk (fun h => absurd h hkq) (fun _ => hnz)
    · rw [if_neg hqn]
      refine ⟨_, rfl, hs.assemble' hq hredR hredU hredp hI1 hlev1 hfresh1 ?_⟩
      intro k hk
      exact hother k hk (fun h => by omega) (fun _ => hnz)
  · have hlen : 0 < (R'.cols.getD j []).length := List.length_pos_of_ne_nil hnz
    by_cases hqn : e.dim < nb + 1
    · rw [if_pos ⟨hqn, hlen⟩]
      obtain ⟨q0, hq0⟩ : ∃ q0, e.dim = q0 + 1 := by
        rcases hd : e.dim with _ | q0
        · exfalso
          apply hnz
          have := hlev'
          have hm := hres.mem
          rw [hd] at this hm
          exact lev0_nil hz0 this hm
        · exact ⟨q0, rfl⟩
      have hq0n : q0 < nb := by omega
      obtain ⟨piv, hpiv, hlow⟩ : ∃ piv, SVec.lastnz (R'.cols.getD j []) = .ok piv ∧ low (R'.cols.getD j []) = some piv.1 := by
        obtain ⟨pv, hpv⟩ : ∃ pv, low (R'.cols.getD j []) = some pv := by
          rcases hl : low (R'.cols.getD j []) with _ | pv
          · exact absurd (low_eq_none.1 hl) hnz
          · exact ⟨pv, rfl⟩
        obtain ⟨hne, hlast⟩ := low_eq_some.1 hpv
        exact ⟨_, lastnz_ok hne, by rw [hpv, hlast]⟩
      rw [hpiv, bind_ok, if_neg (by omega)]
      have hd1 : e.dim - 1 = q0 := by omega
      rw [hd1, hI1, rd_getD [] (by rw [hs.lenI]; omega), bind_ok]
      have hK := hs.kok q0 hq0n
      obtain ⟨I, hIdef⟩ : ∃ I, I = s.red.I.getD q0 [] := ⟨_, rfl⟩
      rw [← hIdef] at hK ⊢
      have hRq : Rk B red1 q0 = Rk B s.red q0 := by rw [hR1, if_neg (by omega)]
      have hUq : Uk B red1 q0 = Uk B s.red q0 := by rw [hU1, if_neg (by omega)]
      have hpq : pk B red1 (q0 + 1) = p' := by rw [hp1, if_pos hq0.symm]
      have hRq' : Rk B red1 (q0 + 1) = R' := by rw [hR1, if_pos hq0.symm]
      have hpres0 : present (es.take (N + 1)) q0 = present (es.take N) q0 := by rw [hpres, if_neg (by omega)]
      have hmem1 : j ∈ present (es.take (N + 1)) (q0 + 1) := by rw [hpres, if_pos hq0.symm, ← hq0]; exact hres.mem
      obtain ⟨hpS, hpR⟩ := pivot_cycle (hlev1 q0) (hlev1 (q0 + 1)) (sq_all hB q0) (closed_all ho q0 (N + 1)) hmem1 (by rw [hRq']; exact hlow)
      have hpI : piv.1 ∈ I := by
        rw [hK.gens.mem]
        refine ⟨by rw [← hpres0]; exact hpS, by rw [← hRq]; exact hpR, ?_⟩
        rw [← hq0]; exact hres.fresh _ hlow
      obtain ⟨i1, hIns⟩ := ins_old hK.gens.sorted hpI
      obtain ⟨I', hI'⟩ : ∃ I', I' = I.eraseIdx (I.takeWhile (fun x => x < piv.1)).length := ⟨_, rfl⟩
      have hrdI : rd I (I.takeWhile (fun x => x < piv.1)).length = .ok piv.1 := by unfold rd; rw [i1]
      simp only [hrdI, bind_ok, ne_eq, not_true_eq_false, if_false]
      rw [← hI'] at hIns ⊢
      have hG' : IsGens (Rk B s.red q0) p' (present (es.take (N + 1)) q0) I' := by
        refine ⟨hIns.sorted_small, ?_⟩
        intro c
        have hm : c ∈ I' ↔ c ∈ I ∧ c ≠ piv.1 := by
          rw [hIns.mem c]
          constructor
          · intro hc; exact ⟨Or.inr hc, fun h => hIns.notMem (h ▸ hc)⟩
          · rintro ⟨h | h, h2⟩
            · exact absurd h h2
            · exact h
        rw [hm, hK.gens.mem, hpres0, hres.piv c, hlow, ← hq0]
        constructor
        · rintro ⟨⟨a, b, c'⟩, d⟩
          exact ⟨a, b, c', fun h => d (by injection h with h; exact h.symm)⟩
        · rintro ⟨a, b, c', d⟩
          exact ⟨⟨a, b, c'⟩, fun h => d (by rw [h])⟩
      have hG1 : IsGens (Rk B red1 q0) (pk B red1 (q0 + 1)) (present (es.take (N + 1)) q0) I' := by rw [hRq, hpq]; exact hG'
      have hbasis := hlev1.gens hB ho hG1
      rw [hUq] at hbasis
      -- the map
      obtain ⟨v, v1, v2, v3, v4, v5⟩ := pref_spec (hlev1 q0) (hlev1 (q0 + 1)) (sq_all hB q0) (closed_all ho q0 (N + 1)) (C := { red1 with I := s.red.I.set q0 I' }) (k := q0)
        (rd_getD _ (by show q0 < red1.U.length; rw [hredU, List.length_set, hs.lenU]; omega)) (rd_getD _ (by show q0 + 1 < red1.R.length; rw [hredR, List.length_set, hs.lenR]; omega))
        (rd_getD _ (by show q0 + 1 < red1.p2c.length; rw [hredp, List.length_set, hs.lenp]; omega)) hpS hpR
      have hbm : boundaryMap { red1 with I := s.red.I.set q0 I' } q0 piv.1 = .ok (boundaryInsertionMap I' piv.1 (SVec.select v I')) := by
        unfold boundaryMap
        rw [v1, bind_ok]
        show (rd (s.red.I.set q0 I') q0 >>= _) = _
        rw [rd_getD [] (by rw [List.length_set, hs.lenI]; omega), bind_ok, set_getD_self (by rw [hs.lenI]; omega)]
        rfl
      rw [hbm, bind_ok]
      have hArr : ArrowOK (boundariesOn B es q0 (N + 1)) (genOf (cdim B q0) (Uk B s.red q0)) I I' (boundaryInsertionMap I' piv.1 (SVec.select v I')) := by
        refine boundaryInsertion_spec hIns (n := cdim B q0) ?_ v2 ?_ ?_
        · intro c hc; exact present_lt ho q0 (N + 1) c ((hG'.mem c).1 hc).1
        · intro c hc; exact (hG1.mem c).2 (v4 c hc)
        · rw [boundariesOn_eq]; rw [hUq] at v5; exact v5
      obtain ⟨L', P', d', bars', m', r1, r2⟩ := arrow_entry (s := { s with red := { red1 with I := s.red.I.set q0 I' } }) (e := e)
        (A := boundaryInsertionMap I' piv.1 (SVec.select v I'))
        (rd_getD ⟨0, []⟩ (by show q0 < s.L.length; rw [hs.lenL]; exact hq0n)) (rd_getD ⟨0, []⟩ (by show q0 < s.P.length; rw [hs.lenP]; exact hq0n))
        (rd_getD false (by show q0 < s.dir.length; rw [hs.lend]; exact hq0n)) (rd_getD [] (by show q0 < s.bars.length; rw [hs.lenb]; exact hq0n))
        (rd_getD [] (by show q0 < s.p2i.length; rw [hs.lenm]; exact hq0n)) hK.bar he hent hbasis hArr
      refine ⟨_, r1, ?_⟩
      refine hs.assemble hnb hq (red := { red1 with I := s.red.I.set q0 I' }) hredR hredU hredp rfl hlev1 hfresh1 hq0n ?_ ?_
      · show KOK B es (N + 1) q0 (Rk B red1 q0) (Uk B red1 q0) (pk B red1 (q0 + 1)) I' L' P' d' bars' m'
        refine ⟨hG1, ?_⟩
        rw [hUq]; exact r2
      · intro k hk hkq
        exact hother k hk (fun _ => hnz) (fun h => by omega)
    · rw [if_neg (fun h => hqn h.1), if_neg (by omega)]
      refine ⟨_, rfl, hs.assemble' hq hredR hredU hredp hI1 hlev1 hfresh1 ?_⟩
      intro k hk
      exact hother k hk (fun h => by omega) (fun h => by omega)

end

end Zigzag
end BATS
