import Verif.Proofs.ZZEnter2

set_option linter.unusedSectionVars false
set_option linter.unusedSimpArgs false
set_option linter.unusedVariables false

/-! # Zigzag: leaving cells -/

namespace BATS
namespace Zigzag
open Reduction Matrix BATS.Fact CMat
open BATS.Quiver (set_getD_self set_getD_ne)

variable {F : Type} [Field F] [DecidableEq F] {T : Type}

section level
variable {m n : Nat} {D R U : CMat F} {p : P2C} {S : Finset Nat}

theorem Lev.erase (h : Lev m n D R U p S) {x : Nat} (hx : x ∈ S) (hmax : ∀ j ∈ S, j ≤ x) {p' : P2C}
    (hp : (R.cols.getD x [] = [] ∧ p' = p) ∨ ∃ i, low (R.cols.getD x []) = some i ∧ p' = p.set i none) :
    Lev m n D ⟨R.nrow, R.cols.set x []⟩ ⟨U.nrow, U.cols.set x []⟩ p' (S.erase x) := by
  have hc := h.col
  have hxn := hc.sub x hx
  have gR : ∀ c, c ≠ x → (R.cols.set x []).getD c [] = R.cols.getD c [] := fun c hcx => set_getD_ne (Ne.symm hcx)
  have gU : ∀ c, c ≠ x → (U.cols.set x []).getD c [] = U.cols.getD c [] := fun c hcx => set_getD_ne (Ne.symm hcx)
  refine ⟨h.shapeD, h.nrowR, h.nrowU, ⟨by rw [List.length_set]; exact hc.lenR, by rw [List.length_set]; exact hc.lenU, fun j hj => hc.sub j (Finset.mem_of_mem_erase hj),
    hc.okR.set x ⟨vecOK_nil, below_nil _⟩, hc.okU.set x ⟨vecOK_nil, below_nil _⟩, ?_, ?_, ?_, ?_⟩, ⟨?_, ?_⟩⟩
  · intro j hj i
    obtain ⟨h1, h2⟩ := Finset.mem_erase.1 hj
    rw [gR j h1, gU j h1]; exact hc.eq j h2 i
  · intro j hj
    obtain ⟨h1, h2⟩ := Finset.mem_erase.1 hj
    rw [gU j h1]; exact hc.diag j h2
  · intro j hj c hjc
    obtain ⟨h1, h2⟩ := Finset.mem_erase.1 hj
    rw [gU j h1]; exact hc.upper j h2 c hjc
  · intro j hj c hcc
    obtain ⟨h1, h2⟩ := Finset.mem_erase.1 hj
    rw [gU j h1] at hcc
    refine Finset.mem_erase.2 ⟨?_, hc.supp j h2 c hcc⟩
    rintro rfl
    have := hmax j h2
    exact hcc (hc.upper j h2 c (by omega))
  · rcases hp with ⟨_, rfl⟩ | ⟨i, _, rfl⟩
    · exact h.tab.len
    · rw [List.length_set]; exact h.tab.len
  · intro i c
    rcases hp with ⟨h0, rfl⟩ | ⟨i0, h0, rfl⟩
    · rw [h.tab.iff]
      constructor
      · rintro ⟨a, b⟩
        have hcx : c ≠ x := by rintro rfl; rw [h0] at b; cases b
        exact ⟨Finset.mem_erase.2 ⟨hcx, a⟩, by show low ((R.cols.set x []).getD c []) = _; rw [gR c hcx]; exact b⟩
      · rintro ⟨a, b⟩
        obtain ⟨h1, h2⟩ := Finset.mem_erase.1 a
        exact ⟨h2, by rw [← gR c h1]; exact b⟩
    · have hx0 := (h.tab.iff i0 x).2 ⟨hx, h0⟩
      by_cases hi : i = i0
      · subst hi
        rw [List.getElem?_set_self (List.getElem?_eq_some_iff.1 hx0).1]
        constructor
        · intro hh; injection hh with hh; cases hh
        · rintro ⟨a, b⟩
          exfalso
          obtain ⟨h1, h2⟩ := Finset.mem_erase.1 a
          have b' : low (R.cols.getD c []) = some i := by rw [← gR c h1]; exact b
          have := (h.tab.iff i c).2 ⟨h2, b'⟩
          rw [hx0] at this
          injection this with this; injection this with this
          exact h1 this.symm
      · rw [List.getElem?_set_ne (Ne.symm hi), h.tab.iff]
        constructor
        · rintro ⟨a, b⟩
          have hcx : c ≠ x := by rintro rfl; rw [h0] at b; injection b with b; exact hi b.symm
          exact ⟨Finset.mem_erase.2 ⟨hcx, a⟩, by show low ((R.cols.set x []).getD c []) = _; rw [gR c hcx]; exact b⟩
        · rintro ⟨a, b⟩
          obtain ⟨h1, h2⟩ := Finset.mem_erase.1 a
          exact ⟨h2, by rw [← gR c h1]; exact b⟩

end level

section
variable {B : List (CMat F)} {es : List (Event T)} {nb N : Nat} {s : State F T}

theorem leave_spec (hB : IsChainComplex B) (hz0 : ZeroBdry0 B) (ho : IsZigzagOrder B es) (hnb : nb ≤ B.length) (hs : SInv B es nb N s) {e : Event T} (he : es[N]? = some e)
    (hent : e.entry = false) (hdim : e.dim ≤ nb) : ∃ s', leave nb s e = .ok s' ∧ SInv B es nb (N + 1) s' := by
  obtain ⟨hq, hx, h3⟩ := stepOK ho he
  rw [if_neg (by simp [hent])] at h3
  obtain ⟨hxS, hmax, hfree⟩ := h3
  have hpres : ∀ k, present (es.take (N + 1)) k = if k = e.dim then (present (es.take N) k).erase e.ind else present (es.take N) k := by
    intro k
    rw [present_succ he]
    by_cases h : e.dim = k
    · rw [if_pos h, if_pos h.symm, if_neg (by simp [hent])]
    · rw [if_neg h, if_neg (Ne.symm h)]
  have hLq := hs.lev e.dim
  have hsub : ∀ k, present (es.take (N + 1)) k ⊆ present (es.take N) k := by
    intro k; rw [hpres]; split
    · exact Finset.erase_subset _ _
    · exact Finset.Subset.refl _
  -- a general statement for both kinds of columns
  have main : ∀ p' : P2C, (((Rk B s.red e.dim).cols.getD e.ind [] = [] ∧ p' = pk B s.red e.dim) ∨
        ∃ i, low ((Rk B s.red e.dim).cols.getD e.ind []) = some i ∧ p' = (pk B s.red e.dim).set i none) →
      ∀ red1 : RedCpx F, red1.R = s.red.R.set e.dim ⟨(Rk B s.red e.dim).nrow, (Rk B s.red e.dim).cols.set e.ind []⟩ →
        red1.U = s.red.U.set e.dim ⟨(Uk B s.red e.dim).nrow, (Uk B s.red e.dim).cols.set e.ind []⟩ → red1.p2c = s.red.p2c.set e.dim p' →
      (∀ k, Rk B red1 k = if k = e.dim then ⟨(Rk B s.red e.dim).nrow, (Rk B s.red e.dim).cols.set e.ind []⟩ else Rk B s.red k) ∧
      (∀ k, Uk B red1 k = if k = e.dim then ⟨(Uk B s.red e.dim).nrow, (Uk B s.red e.dim).cols.set e.ind []⟩ else Uk B s.red k) ∧
      (∀ k, pk B red1 k = if k = e.dim then p' else pk B s.red k) ∧
      Lvls B es (N + 1) (Rk B red1) (Uk B red1) (pk B red1) ∧
      (∀ k c, c < cdim B k → (∀ f ∈ es.take (N + 1), ¬ (f.dim = k ∧ f.ind = c)) →
        (Rk B red1 k).cols.getD c [] = (Dk B k).cols.getD c [] ∧ (Uk B red1 k).cols.getD c [] = [(c, 1)]) ∧
      ∀ k, k < nb → (k = e.dim → (Rk B s.red e.dim).cols.getD e.ind [] ≠ []) → (k + 1 = e.dim → (Rk B s.red e.dim).cols.getD e.ind [] = []) →
        KOK B es (N + 1) k (Rk B red1 k) (Uk B red1 k) (pk B red1 (k + 1)) (s.red.I.getD k []) (s.L.getD k ⟨0, []⟩) (s.P.getD k ⟨0, []⟩) (s.dir.getD k false)
          (s.bars.getD k []) (s.p2i.getD k []) := by
    intro p' hp' red1 hredR hredU hredp
    have hR1 : ∀ k, Rk B red1 k = if k = e.dim then ⟨(Rk B s.red e.dim).nrow, (Rk B s.red e.dim).cols.set e.ind []⟩ else Rk B s.red k := by
      intro k; conv_lhs => unfold Rk
      rw [hredR]; exact set_getD_if (by rw [hs.lenR]; exact hq)
    have hU1 : ∀ k, Uk B red1 k = if k = e.dim then ⟨(Uk B s.red e.dim).nrow, (Uk B s.red e.dim).cols.set e.ind []⟩ else Uk B s.red k := by
      intro k; conv_lhs => unfold Uk
      rw [hredU]; exact set_getD_if (by rw [hs.lenU]; exact hq)
    have hp1 : ∀ k, pk B red1 k = if k = e.dim then p' else pk B s.red k := by
      intro k; conv_lhs => unfold pk
      rw [hredp]; exact set_getD_if (by rw [hs.lenp]; exact hq)
    have hlev1 : Lvls B es (N + 1) (Rk B red1) (Uk B red1) (pk B red1) := by
      intro k
      rw [hR1, hU1, hp1, hpres]
      by_cases h : k = e.dim
      · subst h; simp only [if_true]; exact hLq.erase hxS hmax hp'
      · simp only [if_neg h]; exact hs.lev k
    refine ⟨hR1, hU1, hp1, hlev1, ?_, ?_⟩
    · intro k c hc hf
      have hf0 : ∀ f ∈ es.take N, ¬ (f.dim = k ∧ f.ind = c) := fun f h => hf f (by rw [List.take_add_one]; simp [h])
      have hfe : ¬ (e.dim = k ∧ e.ind = c) := hf e (by rw [List.take_add_one, he]; simp)
      obtain ⟨g1, g2⟩ := hs.fresh k c hc hf0
      rw [hR1, hU1]
      by_cases h : k = e.dim
      · subst h
        simp only [if_true]
        have hce : e.ind ≠ c := fun h => hfe ⟨rfl, h⟩
        rw [set_getD_ne hce, set_getD_ne hce]
        exact ⟨g1, g2⟩
      · simp only [if_neg h]; exact ⟨g1, g2⟩
    · intro k hk h1 h2
      have hK := hs.kok k hk
      refine hK.skip hB ho hs.lev hlev1 ?_ ?_ (Or.inr ⟨hsub k, hsub (k + 1)⟩) ?_
      · intro c
        rw [hR1, hp1, hpres]
        by_cases hkq : k = e.dim
        · have hne := h1 hkq
          rw [if_pos hkq, if_pos hkq, if_neg (by omega : ¬ k + 1 = e.dim)]
          subst hkq
          constructor
          · rintro ⟨a, b, c'⟩
            obtain ⟨a1, a2⟩ := Finset.mem_erase.1 a
            rw [set_getD_ne (Ne.symm a1)] at b
            exact ⟨a2, b, c'⟩
          · rintro ⟨a, b, c'⟩
            have hce : c ≠ e.ind := by rintro rfl; exact hne b
            rw [set_getD_ne (Ne.symm hce)]
            exact ⟨Finset.mem_erase.2 ⟨hce, a⟩, b, c'⟩
        · rw [if_neg hkq, if_neg hkq]
          by_cases hkq2 : k + 1 = e.dim
          · rw [if_pos hkq2]
            have h0 := h2 hkq2
            have : p' = pk B s.red (k + 1) := by
              rcases hp' with ⟨_, h⟩ | ⟨i, h, _⟩
              · rw [h, hkq2]
              · rw [h0] at h; cases h
            rw [this]
          · rw [if_neg hkq2]
      · intro c hc
        obtain ⟨a, b, _⟩ := (hK.gens.mem c).1 hc
        rw [hU1]
        by_cases hkq : k = e.dim
        · subst hkq
          rw [if_pos rfl]
          have hci : c ≠ e.ind := by rintro rfl; exact h1 rfl b
          exact set_getD_ne (Ne.symm hci)
        · rw [if_neg hkq]
      · by_cases hkq : k = e.dim
        · right; rw [hpres, if_neg (by omega)]
        · left; rw [hpres, if_neg hkq]
  have e1 : rd s.red.R e.dim = .ok (Rk B s.red e.dim) := rd_getD _ (by rw [hs.lenR]; exact hq)
  have e2 : rd s.red.U e.dim = .ok (Uk B s.red e.dim) := rd_getD _ (by rw [hs.lenU]; exact hq)
  have e3 : rd s.red.p2c e.dim = .ok (pk B s.red e.dim) := rd_getD _ (by rw [hs.lenp]; exact hq)
  have e4 : rd (Rk B s.red e.dim).cols e.ind = .ok ((Rk B s.red e.dim).cols.getD e.ind []) := rd_getD _ (by rw [hLq.col.lenR]; exact hx)
  have e5 : rd (Uk B s.red e.dim).cols e.ind = .ok ((Uk B s.red e.dim).cols.getD e.ind []) := rd_getD _ (by rw [hLq.col.lenU]; exact hx)
  unfold leave
  simp only [e1, e2, e3, e4, e5, bind_ok]
  by_cases hnz : (Rk B s.red e.dim).cols.getD e.ind [] = []
  · rw [if_neg (by rw [hnz]; simp)]
    have hset : s.red.p2c = s.red.p2c.set e.dim (pk B s.red e.dim) := by
      apply List.ext_getElem?
      intro i
      by_cases hi : e.dim = i
      · subst hi
        rw [List.getElem?_set_self (by rw [hs.lenp]; exact hq), List.getElem?_eq_getElem (by rw [hs.lenp]; exact hq)]
        unfold pk
        rw [getD_eq_get _ (by rw [hs.lenp]; exact hq)]
      · rw [List.getElem?_set_ne hi]
    by_cases hqn : e.dim < nb
    · rw [if_pos hqn]
      have hK := hs.kok e.dim hqn
      rw [rd_getD [] (by rw [hs.lenI]; exact hq), bind_ok]
      obtain ⟨I, hIdef⟩ : ∃ I, I = s.red.I.getD e.dim [] := ⟨_, rfl⟩
      rw [← hIdef] at hK ⊢
      have hlev2 := hs.lev (e.dim + 1)
      have hcl := closed_all ho e.dim N
      have hjp : (pk B s.red (e.dim + 1)).getD e.ind none = none := by
        by_contra hh
        obtain ⟨j2, hj2, hl2, _⟩ := pivot_present hlev2 hcl hh
        have hcl' : Closed (Dk B (e.dim + 1)) ((present (es.take N) e.dim).erase e.ind) (present (es.take N) (e.dim + 1)) := by
          intro j hj i hi
          refine Finset.mem_erase.2 ⟨?_, hcl j hj i hi⟩
          rintro rfl
          rw [Dk_cols] at hi
          exact hi (hfree j hj)
        obtain ⟨_, _, _, hmem⟩ := pivot_present hlev2 hcl' hh
        exact (Finset.mem_erase.1 hmem).1 rfl
      have hxI : e.ind ∈ I := (hK.gens.mem _).2 ⟨hxS, hnz, hjp⟩
      have hIns := ins_last hK.gens.sorted hxI (fun y hy => hmax y ((hK.gens.mem y).1 hy).1)
      obtain ⟨I', hI'⟩ : ∃ I', I' = I.dropLast := ⟨_, rfl⟩
      rw [← hI'] at hIns ⊢
      obtain ⟨A, a1, a2⟩ := cycleInsertion_spec (boundariesOn B es e.dim N) (genOf (cdim B e.dim) (Uk B s.red e.dim)) hIns
      rw [a1, bind_ok]
      obtain ⟨red1, hred1⟩ : ∃ red1 : RedCpx F, red1 = { s.red with
          I := s.red.I.set e.dim I',
          R := s.red.R.set e.dim ⟨(Rk B s.red e.dim).nrow, (Rk B s.red e.dim).cols.set e.ind []⟩,
          U := s.red.U.set e.dim ⟨(Uk B s.red e.dim).nrow, (Uk B s.red e.dim).cols.set e.ind []⟩ } := ⟨_, rfl⟩
      have hrR : red1.R = s.red.R.set e.dim ⟨(Rk B s.red e.dim).nrow, (Rk B s.red e.dim).cols.set e.ind []⟩ := by subst hred1; rfl
      have hrU : red1.U = s.red.U.set e.dim ⟨(Uk B s.red e.dim).nrow, (Uk B s.red e.dim).cols.set e.ind []⟩ := by subst hred1; rfl
      have hrp : red1.p2c = s.red.p2c.set e.dim (pk B s.red e.dim) := by subst hred1; exact hset
      have hrI : red1.I = s.red.I.set e.dim I' := by subst hred1; rfl
      obtain ⟨hR1, hU1, hp1, hlev1, hfresh1, hother⟩ := main _ (Or.inl ⟨hnz, rfl⟩) red1 hrR hrU hrp
      have hm : ∀ c, c ∈ I' ↔ c ∈ I ∧ c ≠ e.ind := by
        intro c
        rw [hIns.mem c]
        constructor
        · intro hc; exact ⟨Or.inr hc, fun h => hIns.notMem (h ▸ hc)⟩
        · rintro ⟨h | h, h2⟩
          · exact absurd h h2
          · exact h
      have hG1 : IsGens (Rk B red1 e.dim) (pk B red1 (e.dim + 1)) (present (es.take (N + 1)) e.dim) I' := by
        refine ⟨hIns.sorted_small, ?_⟩
        intro c
        rw [hm, hK.gens.mem, hR1, if_pos rfl, hp1, if_neg (by omega), hpres, if_pos rfl]
        constructor
        · rintro ⟨⟨a, b, c'⟩, d⟩
          exact ⟨Finset.mem_erase.2 ⟨d, a⟩, by rw [set_getD_ne (Ne.symm d)]; exact b, c'⟩
        · rintro ⟨a, b, c'⟩
          obtain ⟨a1, a2⟩ := Finset.mem_erase.1 a
          rw [set_getD_ne (Ne.symm a1)] at b
          exact ⟨⟨a2, b, c'⟩, a1⟩
      have hgen : ∀ c ∈ I', genOf (cdim B e.dim) (Uk B red1 e.dim) c = genOf (cdim B e.dim) (Uk B s.red e.dim) c := by
        intro c hc
        unfold genOf
        rw [hU1, if_pos rfl]
        rw [set_getD_ne (Ne.symm ((hm c).1 hc).2)]
      have hbasis := hlev1.gens hB ho hG1
      have hfun : (fun g : Fin I'.length => genOf (cdim B e.dim) (Uk B red1 e.dim) (I'.get g)) = fun g : Fin I'.length => genOf (cdim B e.dim) (Uk B s.red e.dim) (I'.get g) :=
        funext fun g => hgen _ (List.getElem_mem g.2)
      rw [hfun] at hbasis
      obtain ⟨L', P', d', bars', m', r1, r2⟩ := arrow_exit (s := { s with red := { s.red with I := s.red.I.set e.dim I' } }) (e := e) (A := A)
        (rd_getD ⟨0, []⟩ (by show e.dim < s.L.length; rw [hs.lenL]; exact hqn)) (rd_getD ⟨0, []⟩ (by show e.dim < s.P.length; rw [hs.lenP]; exact hqn))
        (rd_getD false (by show e.dim < s.dir.length; rw [hs.lend]; exact hqn)) (rd_getD [] (by show e.dim < s.bars.length; rw [hs.lenb]; exact hqn))
        (rd_getD [] (by show e.dim < s.p2i.length; rw [hs.lenm]; exact hqn)) hK.bar he hent hbasis a2
      rw [r1, bind_ok]
      refine ⟨_, rfl, ?_⟩
      have := hs.assemble hnb hq (red := red1) hrR hrU hrp hrI hlev1 hfresh1 hqn (bars' := bars') (m' := m') (L' := L') (P' := P') (d' := d')
        ⟨hG1, r2.congr hgen⟩ (fun k hk hkq => hother k hk (fun h => absurd h hkq) (fun _ => hnz))
      subst hred1
      exact this
    · rw [if_neg hqn]
      refine ⟨_, rfl, ?_⟩
      obtain ⟨red1, hred1⟩ : ∃ red1 : RedCpx F, red1 = { s.red with
          R := s.red.R.set e.dim ⟨(Rk B s.red e.dim).nrow, (Rk B s.red e.dim).cols.set e.ind []⟩,
          U := s.red.U.set e.dim ⟨(Uk B s.red e.dim).nrow, (Uk B s.red e.dim).cols.set e.ind []⟩ } := ⟨_, rfl⟩
      have hrR : red1.R = s.red.R.set e.dim ⟨(Rk B s.red e.dim).nrow, (Rk B s.red e.dim).cols.set e.ind []⟩ := by subst hred1; rfl
      have hrU : red1.U = s.red.U.set e.dim ⟨(Uk B s.red e.dim).nrow, (Uk B s.red e.dim).cols.set e.ind []⟩ := by subst hred1; rfl
      have hrp : red1.p2c = s.red.p2c.set e.dim (pk B s.red e.dim) := by subst hred1; exact hset
      obtain ⟨hR1, hU1, hp1, hlev1, hfresh1, hother⟩ := main _ (Or.inl ⟨hnz, rfl⟩) red1 hrR hrU hrp
      have := hs.assemble' hq (red := red1) hrR hrU hrp (by subst hred1; rfl) hlev1 hfresh1 (fun k hk => hother k hk (fun h => by omega) (fun _ => hnz))
      subst hred1
      exact this
  · have hlen : 0 < ((Rk B s.red e.dim).cols.getD e.ind []).length := List.length_pos_of_ne_nil hnz
    rw [if_pos ⟨by omega, hlen⟩]
    obtain ⟨q0, hq0⟩ : ∃ q0, e.dim = q0 + 1 := by
      rcases hd : e.dim with _ | q0
      · exfalso
        apply hnz
        have := hLq
        have hm := hxS
        rw [hd] at this hm ⊢
        exact lev0_nil hz0 this hm
      · exact ⟨q0, rfl⟩
    have hq0n : q0 < nb := by omega
    obtain ⟨piv, hpiv, hlow⟩ : ∃ piv, SVec.lastnz ((Rk B s.red e.dim).cols.getD e.ind []) = .ok piv ∧ low ((Rk B s.red e.dim).cols.getD e.ind []) = some piv.1 := by
      obtain ⟨pv, hpv⟩ : ∃ pv, low ((Rk B s.red e.dim).cols.getD e.ind []) = some pv := by
        rcases hl : low ((Rk B s.red e.dim).cols.getD e.ind []) with _ | pv
        · exact absurd (low_eq_none.1 hl) hnz
        · exact ⟨pv, rfl⟩
      obtain ⟨hne, hlast⟩ := low_eq_some.1 hpv
      exact ⟨_, lastnz_ok hne, by rw [hpv, hlast]⟩
    rw [hpiv, bind_ok, if_neg (by omega)]
    have hd1 : e.dim - 1 = q0 := by omega
    rw [hd1]
    have hK := hs.kok q0 hq0n
    have hlow' : low ((Rk B s.red (q0 + 1)).cols.getD e.ind []) = some piv.1 := by rw [← hq0]; exact hlow
    have hxS' : e.ind ∈ present (es.take N) (q0 + 1) := by rw [← hq0]; exact hxS
    obtain ⟨hpS, hpR⟩ := pivot_cycle (hs.lev q0) (hs.lev (q0 + 1)) (sq_all hB q0) (closed_all ho q0 N) hxS' hlow'
    have htab : (pk B s.red e.dim)[piv.1]? = some (some e.ind) := (hLq.tab.iff _ _).2 ⟨hxS, hlow⟩
    have hpsome : (pk B s.red (q0 + 1)).getD piv.1 none ≠ none := by
      rw [← hq0, List.getD_eq_getElem?_getD, htab]; simp
    obtain ⟨v, v1, v2, v3, v4, v5⟩ := pref_spec (hs.lev q0) (hs.lev (q0 + 1)) (sq_all hB q0) (closed_all ho q0 N) (C := s.red) (k := q0)
      (rd_getD _ (by rw [hs.lenU]; omega)) (rd_getD _ (by rw [hs.lenR]; omega)) (rd_getD _ (by rw [hs.lenp]; omega)) hpS hpR
    obtain ⟨I, hIdef⟩ : ∃ I, I = s.red.I.getD q0 [] := ⟨_, rfl⟩
    have hrdI : rd s.red.I q0 = .ok I := by rw [hIdef]; exact rd_getD [] (by rw [hs.lenI]; omega)
    rw [← hIdef] at hK
    have hbm : boundaryMap s.red q0 piv.1 = .ok (boundaryInsertionMap I piv.1 (SVec.select v I)) := by
      unfold boundaryMap
      rw [v1, bind_ok, hrdI, bind_ok]; rfl
    rw [hbm, bind_ok, hrdI, bind_ok]
    have hpI : piv.1 ∉ I := fun hh => hpsome ((hK.gens.mem _).1 hh).2.2
    have hIns := ins_new hK.gens.sorted hpI
    obtain ⟨I', hI'⟩ : ∃ I', I' = I.insertIdx (I.takeWhile (fun x => x ≤ piv.1)).length piv.1 := ⟨_, rfl⟩
    rw [← hI'] at hIns ⊢
    have hArr : ArrowOK (boundariesOn B es q0 N) (genOf (cdim B q0) (Uk B s.red q0)) I' I (boundaryInsertionMap I piv.1 (SVec.select v I)) := by
      refine boundaryInsertion_spec hIns (n := cdim B q0) ?_ v2 ?_ ?_
      · intro c hc; exact present_lt ho q0 N c ((hK.gens.mem c).1 hc).1
      · intro c hc; exact (hK.gens.mem c).2 (v4 c hc)
      · rw [boundariesOn_eq]; exact v5
    obtain ⟨red1, hred1⟩ : ∃ red1 : RedCpx F, red1 = { s.red with
        I := s.red.I.set q0 I',
        R := s.red.R.set e.dim ⟨(Rk B s.red e.dim).nrow, (Rk B s.red e.dim).cols.set e.ind []⟩,
        U := s.red.U.set e.dim ⟨(Uk B s.red e.dim).nrow, (Uk B s.red e.dim).cols.set e.ind []⟩,
        p2c := s.red.p2c.set e.dim ((pk B s.red e.dim).set piv.1 none) } := ⟨_, rfl⟩
    have hrR : red1.R = s.red.R.set e.dim ⟨(Rk B s.red e.dim).nrow, (Rk B s.red e.dim).cols.set e.ind []⟩ := by subst hred1; rfl
    have hrU : red1.U = s.red.U.set e.dim ⟨(Uk B s.red e.dim).nrow, (Uk B s.red e.dim).cols.set e.ind []⟩ := by subst hred1; rfl
    have hrp : red1.p2c = s.red.p2c.set e.dim ((pk B s.red e.dim).set piv.1 none) := by subst hred1; rfl
    have hrI : red1.I = s.red.I.set q0 I' := by subst hred1; rfl
    obtain ⟨hR1, hU1, hp1, hlev1, hfresh1, hother⟩ := main _ (Or.inr ⟨piv.1, hlow, rfl⟩) red1 hrR hrU hrp
    have hRq : Rk B red1 q0 = Rk B s.red q0 := by rw [hR1, if_neg (by omega)]
    have hUq : Uk B red1 q0 = Uk B s.red q0 := by rw [hU1, if_neg (by omega)]
    have hpres0 : present (es.take (N + 1)) q0 = present (es.take N) q0 := by rw [hpres, if_neg (by omega)]
    have hpl : piv.1 < (pk B s.red e.dim).length := (List.getElem?_eq_some_iff.1 htab).1
    have hpn : ∀ c, ((pk B s.red e.dim).set piv.1 none).getD c none = none ↔ c = piv.1 ∨ (pk B s.red (q0 + 1)).getD c none = none := by
      intro c
      rw [set_getD_if hpl, ← hq0]
      by_cases hc : c = piv.1
      · simp [hc]
      · simp [hc]
    have hG1 : IsGens (Rk B red1 q0) (pk B red1 (q0 + 1)) (present (es.take (N + 1)) q0) I' := by
      refine ⟨hIns.sorted, ?_⟩
      intro c
      rw [hIns.mem c, hK.gens.mem, hRq, hpres0, hp1, if_pos hq0.symm, hpn]
      constructor
      · rintro (rfl | ⟨a, b, c'⟩)
        · exact ⟨hpS, hpR, Or.inl rfl⟩
        · exact ⟨a, b, Or.inr c'⟩
      · rintro ⟨a, b, c' | c'⟩
        · exact Or.inl c'
        · exact Or.inr ⟨a, b, c'⟩
    have hbasis := hlev1.gens hB ho hG1
    rw [hUq] at hbasis
    obtain ⟨L', P', d', bars', m', r1, r2⟩ := arrow_exit (s := { s with red := { s.red with I := s.red.I.set q0 I' } }) (e := e)
      (A := boundaryInsertionMap I piv.1 (SVec.select v I))
      (rd_getD ⟨0, []⟩ (by show q0 < s.L.length; rw [hs.lenL]; exact hq0n)) (rd_getD ⟨0, []⟩ (by show q0 < s.P.length; rw [hs.lenP]; exact hq0n))
      (rd_getD false (by show q0 < s.dir.length; rw [hs.lend]; exact hq0n)) (rd_getD [] (by show q0 < s.bars.length; rw [hs.lenb]; exact hq0n))
      (rd_getD [] (by show q0 < s.p2i.length; rw [hs.lenm]; exact hq0n)) hK.bar he hent hbasis hArr
    rw [r1, bind_ok, wr_ok none hpl, bind_ok]
    refine ⟨_, rfl, ?_⟩
    have := hs.assemble hnb hq (red := red1) hrR hrU hrp hrI hlev1 hfresh1 hq0n (bars' := bars') (m' := m') (L' := L') (P' := P') (d' := d')
      ⟨hG1, by rw [hUq]; exact r2⟩ (fun k hk hkq => hother k hk (fun _ => hnz) (fun h => by omega))
    subst hred1
    exact this

end

end Zigzag
end BATS
