import Verif.Proofs.DG6

set_option linter.unusedSectionVars false
set_option linter.unusedVariables false
set_option linter.unusedSimpArgs false

/-! # Updating filtered DG vector spaces: the whole object -/

namespace BATS
namespace DG
open Reduction Matrix

variable {F : Type} [Field F] [DecidableEq F] {T : Type} [LinearOrder T]

theorem perm_equiv {n : Nat} {p : List Nat} (hp : IsPermOf n p) : ∃ g : Fin n ≃ Fin n, ∀ i : Fin n, (g i).val = p.getD i 0 := by
  have hsig : ∀ i, i < n → p.getD i 0 < n := sigma_getD _ _ hp
  have hbij : Function.Bijective (fun i : Fin n => (⟨p.getD i 0, hsig i i.2⟩ : Fin n)) := by
    rw [← Finite.injective_iff_bijective]
    intro i j hij
    have := congrArg Fin.val hij
    exact Fin.ext (getD_inj _ _ hp i j i.2 j.2 this)
  exact ⟨Equiv.ofBijective _ hbij, fun i => rfl⟩

/-- start of the update loop -/
def st (co : Bool) : Nat := if deg co = -1 then 0 else 1

theorem redPermuteBasis_dg (co : Bool) {e N : Nat} {d : Nat → Nat} (hN : 1 ≤ N) (hdN : ∀ k, N ≤ k → d k = 0) {D D' : List (CMat F)} (hD : DShapes co e N d D) (hD' : DShapes co e N d D')
    {X : RedDG F} (h : DGBasis co e N d D X) {rs : List (List Nat)} (hl : rs.length = N) (hp : ∀ k, k < N → IsPermOf (d k) (rs.getD k []))
    (h0 : ∀ a b, a < e → b < d 0 → dent co D' 0 a b = dent co D 0 a b)
    (hs : ∀ k a b, k + 1 < N → a < d k → b < d (k + 1) → dent co D' (k + 1) a b = dent co D (k + 1) ((rs.getD k []).getD a 0) ((rs.getD (k + 1) []).getD b 0)) :
    ∃ X', X.permuteBasis rs = .ok X' ∧ DGBasis co e N d D' X' := by
  have hRsh : DShapes co e N d X.R := ⟨h.tab.lenR, fun l hl => (h.tab.lev l (by omega)).shapeR⟩
  have hUsh : ShapesBy (N + 1) (dc co e d) (dc co e d) X.U := ⟨h.lenU, fun l hl => (h.fac l (by omega)).shape⟩
  obtain ⟨U1, R1, a1, a2, a3, a4, a5⟩ := permuteMatricesFrom_dg co hN (hdN N (le_refl _)) rs 0 X.U X.R (by omega) hUsh hRsh
    (fun a ha => by rw [Nat.zero_add]; exact hp a (by omega))
  simp only [Nat.zero_le, and_true, Nat.sub_zero] at a4 a5
  -- the entries of the new differentials
  have hent : ∀ l, st co ≤ l → l < st co + N → ∀ i j, i < dr co e d l → j < dc co e d l →
      ent D' l i j = ent D l (if rc co N l then (rs.getD (rk co l) []).getD i 0 else i) (if uc co N l then (rs.getD (uk co l) []).getD j 0 else j) := by
    intro l h1 h2 i j hi hj
    cases co with
    | false =>
      simp only [st, deg, Bool.false_eq_true, if_false, if_true, rc, uc, rk, uk] at h1 h2 ⊢
      cases l with
      | zero =>
        rw [if_neg (by omega), if_neg (by omega)]
        exact h0 i j hi hj
      | succ k =>
        rw [if_pos (by omega), if_pos (by omega)]
        exact hs k i j (by omega) hi hj
    | true =>
      simp only [st, deg, if_true, rc, uc, rk, uk] at h1 h2 ⊢
      rw [if_neg (by decide)] at h1 h2
      have hd : d l ≠ 0 := by
        have : dr true e d l = d l := rfl
        omega
      have hlN : l < N := by
        by_contra hc
        exact hd (hdN l (by omega))
      obtain ⟨k, rfl⟩ : ∃ k, l = k + 1 := ⟨l - 1, by omega⟩
      rw [if_pos (by omega), if_pos (by omega)]
      exact hs k j i (by omega) hj hi
  have hlev : ∀ l, st co ≤ l → l < st co + N → ∃ r, RedCpx.updateReduction2 (U1.getD l ⟨0, []⟩) (R1.getD l ⟨0, []⟩) = .ok r ∧
      LevelUOK (dr co e d l) (dc co e d l) (D'.getD l ⟨0, []⟩) r := by
    intro l h1 h2
    have hst : st co ≤ 1 := by cases co <;> simp [st, deg]
    have hlN : l ≤ N := by
      cases co with
      | false => simp [st, deg] at h2; omega
      | true => omega
    have hrow : ∀ i, i < dr co e d l → (if rc co N l then (rs.getD (rk co l) []).getD i 0 else i) < dr co e d l := by
      intro i hi
      by_cases hc : rc co N l
      · rw [if_pos hc]
        rw [rc_dim hc] at hi ⊢
        exact sigma_getD _ _ (hp _ (rk_lt hN (by omega) hc)) i hi
      · rw [if_neg hc]; exact hi
    obtain ⟨g, hg⟩ : ∃ g : Fin (dc co e d l) ≃ Fin (dc co e d l), ∀ i : Fin (dc co e d l), (g i).val = if uc co N l then (rs.getD (uk co l) []).getD i 0 else i := by
      by_cases hc : uc co N l
      · simp only [if_pos hc]
        apply perm_equiv
        rw [uc_dim hc]
        exact hp _ (uk_lt hN (by omega) hc)
      · simp only [if_neg hc]
        exact ⟨Equiv.refl _, fun i => rfl⟩
    refine upd_level (h.fac l hlN) (hD'.shape l (by omega)) (a2.shape l (by omega)) (a3.shape l (by omega)) (fun i => ⟨_, hrow i i.2⟩) g ?_ ?_ ?_
    · ext i j
      have := hent l h1 h2 i j i.2 j.2
      rw [← hg j] at this
      exact this
    · ext i j
      have := a4 l i j (by omega) i.2 j.2
      rw [← hg i] at this
      exact this
    · ext i j
      exact a5 l i j (by omega) i.2 j.2
  have hstN : st co + N ≤ N + 1 := by cases co <;> simp [st, deg]; omega
  obtain ⟨U2, R2, p2, b1, b2, b3, b4, b5⟩ := updateFrom_gen (fun l R U p => LevelUOK (dr co e d l) (dc co e d l) (D'.getD l ⟨0, []⟩) (R, U, p)) (N + 1) N (st co) U1 R1 X.p2c
    (by omega) a2.len a3.len h.tab.lenP hlev
  -- the level that is not touched
  have hkeep : ∀ l, l ≤ N → ¬ (st co ≤ l ∧ l < st co + N) → LevelUOK (dr co e d l) (dc co e d l) (D'.getD l ⟨0, []⟩) (R2.getD l ⟨0, []⟩, U2.getD l ⟨0, []⟩, p2.getD l []) := by
    intro l hlN hn
    obtain ⟨c1, c2, c3⟩ := (b5 l).2 hn
    rw [c1, c2, c3]
    have hM : (D'.getD l ⟨0, []⟩).mat (dr co e d l) (dc co e d l) = (D.getD l ⟨0, []⟩).mat (dr co e d l) (dc co e d l) := by
      ext i j
      cases co with
      | false =>
        simp only [st, deg, Bool.false_eq_true, if_false, if_true] at hn
        have : l = N := by omega
        subst this
        have := hdN l (le_refl _)
        have hj : j.val < d l := j.2
        omega
      | true =>
        simp only [st, deg, if_true] at hn
        rw [if_neg (by decide)] at hn
        have : l = 0 := by omega
        subst this
        exact h0 j i j.2 i.2
    have hRe : (R1.getD l ⟨0, []⟩).mat (dr co e d l) (dc co e d l) = (X.R.getD l ⟨0, []⟩).mat (dr co e d l) (dc co e d l) := by
      ext i j
      cases co with
      | false =>
        simp only [st, deg, Bool.false_eq_true, if_false, if_true] at hn
        have : l = N := by omega
        subst this
        have := hdN l (le_refl _)
        have hj : j.val < d l := j.2
        omega
      | true =>
        simp only [st, deg, if_true] at hn
        rw [if_neg (by decide)] at hn
        have : l = 0 := by omega
        subst this
        have := a5 0 i j (by omega) i.2 j.2
        simp only [rc, if_true] at this
        rw [if_neg (by omega)] at this
        exact this
    have hUe : (U1.getD l ⟨0, []⟩).mat (dc co e d l) (dc co e d l) = (X.U.getD l ⟨0, []⟩).mat (dc co e d l) (dc co e d l) := by
      ext i j
      cases co with
      | false =>
        simp only [st, deg, Bool.false_eq_true, if_false, if_true] at hn
        have : l = N := by omega
        subst this
        have := hdN l (le_refl _)
        have hj : j.val < d l := j.2
        omega
      | true =>
        simp only [st, deg, if_true] at hn
        rw [if_neg (by decide)] at hn
        have : l = 0 := by omega
        subst this
        have := a4 0 i j (by omega) i.2 j.2
        simp only [uc, if_true] at this
        rw [if_neg (by omega)] at this
        exact this
    exact ⟨LevelOK.congr (h.tab.lev l hlN) (hD'.shape l (by omega)) (a3.shape l (by omega)) hM hRe,
      FactorOK.congr (h.fac l hlN) (a2.shape l (by omega)) hM hRe hUe⟩
  have hall : ∀ l, l ≤ N → LevelUOK (dr co e d l) (dc co e d l) (D'.getD l ⟨0, []⟩) (R2.getD l ⟨0, []⟩, U2.getD l ⟨0, []⟩, p2.getD l []) := by
    intro l hlN
    by_cases hc : st co ≤ l ∧ l < st co + N
    · exact (b5 l).1 hc
    · exact hkeep l hlN hc
  obtain ⟨I, i1, i2⟩ := setIndices_ok co hN (e := e) (d := d) (D := D') b3 b4 (fun l hlN => (hall l hlN).1) U2
  refine ⟨⟨deg co, U2, R2, I, p2⟩, ?_, i2, b2, fun l hlN => (hall l hlN).2⟩
  unfold RedDG.permuteBasis
  rw [h.tab.deg, a1, bind_ok, hl]
  have hb : RedCpx.updateFrom N (if deg co = -1 then 0 else 1) U1 R1 X.p2c = .ok (U2, R2, p2) := b1
  simp only
  rw [hb, bind_ok]
  simp only
  rw [i1]; rfl

/-- the state of a reduced filtered DG vector space that keeps its basis -/
structure DGFull (co b : Bool) (B : List (CMat F)) (val : List (List T)) (D : List (CMat F)) (X : RedFiltDG T F) : Prop where
  state : DGState co (aug b) B val D X
  basis : DGBasis co (aug b) B.length (cdim B) D X.RC
  scratch : FiltDG.ofFiltration (deg co) b val B = .ok ⟨val, ⟨deg co, D⟩, FiltDG.sortPerms (deg co) val⟩

/-- the permutations handed to `permute_basis` -/
theorem dg_update_perms (co : Bool) {B : List (CMat F)} {val newval : List (List T)} (hv : ValuesFor B val) (hv' : ValuesFor B newval) :
    ∃ qs rs, FiltCpx.filtrationIperm (FiltDG.sortPerms (deg co) val) = .ok qs ∧ FiltCpx.updatePerms qs (FiltDG.sortPerms (deg co) newval) = .ok rs ∧
      rs.length = B.length ∧ (∀ k, k < B.length → IsPermOf (cdim B k) (rs.getD k [])) ∧
      ∀ k i, k < B.length → i < cdim B k → ((FiltDG.sortPerms (deg co) val).getD k []).getD ((rs.getD k []).getD i 0) 0 = ((FiltDG.sortPerms (deg co) newval).getD k []).getD i 0 := by
  have hol : (FiltDG.sortPerms (deg co) val).length = B.length := by rw [sortPerms_length, hv.len]
  have hnl : (FiltDG.sortPerms (deg co) newval).length = B.length := by rw [sortPerms_length, hv'.len]
  have hop := fun k (hk : k < B.length) => sortPerms_perm co hv hk
  have hnp := fun k (hk : k < B.length) => sortPerms_perm co hv' hk
  obtain ⟨qs, q1, q2, q3⟩ := filtrationIperm_spec (FiltDG.sortPerms (deg co) val) (cdim B) (fun k hk => hop k (by omega))
  obtain ⟨rs, r1, r2, r3⟩ := updatePerms_spec qs (FiltDG.sortPerms (deg co) newval) (cdim B) (by omega)
    (fun k hk => ⟨(q3 k (by omega)).1, hnp k (by omega)⟩)
  have hup : ∀ k i, k < B.length → i < cdim B k → (rs.getD k []).getD i 0 < cdim B k ∧
      ((FiltDG.sortPerms (deg co) val).getD k []).getD ((rs.getD k []).getD i 0) 0 = ((FiltDG.sortPerms (deg co) newval).getD k []).getD i 0 := by
    intro k i hk hi
    have hni := sigma_getD _ _ (hnp k hk) i hi
    simp only at hni
    have hq := (q3 k (by omega)).1
    have hql := Perm.isPerm_length hq
    rw [(r3 k (by omega)).2 i hi]
    refine ⟨sigma_getD _ _ hq _ hni, ?_⟩
    have e := getD_getElem? (l := qs.getD k []) 0 (i := ((FiltDG.sortPerms (deg co) newval).getD k []).getD i 0) (by omega)
    have e2 := ((q3 k (by omega)).2 _ _).2 e
    rw [List.getD_eq_getElem?_getD, e2]; rfl
  have hinj : ∀ k i i', k < B.length → i < cdim B k → i' < cdim B k → (rs.getD k []).getD i 0 = (rs.getD k []).getD i' 0 → i = i' := by
    intro k i i' hk hi hi' e
    have e1 := (hup k i hk hi).2
    have e2 := (hup k i' hk hi').2
    rw [e, e2] at e1
    exact (getD_inj _ _ (hnp k hk) i' i hi' hi e1).symm
  refine ⟨qs, rs, q1, r1, by omega, ?_, fun k i hk hi => (hup k i hk hi).2⟩
  intro k hk
  have hl := (r3 k (by omega)).1
  apply Perm.isPerm_of_nodup _ _ hl
  · rw [List.nodup_iff_injective_getElem]
    intro a b hab
    have ha : a.val < cdim B k := by have := a.2; omega
    have hb : b.val < cdim B k := by have := b.2; omega
    apply Fin.ext
    apply hinj k a b hk ha hb
    have e1 := getD_eq_get (l := rs.getD k []) 0 a.2
    have e2 := getD_eq_get (l := rs.getD k []) 0 b.2
    exact e1.trans (Eq.trans hab e2.symm)
  · intro x hx
    obtain ⟨i, hi, rfl⟩ := List.mem_iff_getElem.1 hx
    have := (hup k i hk (by omega)).1
    rw [List.getD_eq_getElem?_getD, List.getElem?_eq_getElem hi] at this
    exact this

theorem DGFull.update {co b : Bool} {B : List (CMat F)} (hB : IsChainComplex B) {val newval : List (List T)} (hv : ValuesFor B val) (hv' : ValuesFor B newval)
    {D : List (CMat F)} {X : RedFiltDG T F} (h : DGFull co b B val D X) :
    ∃ D' X', X.updateFiltration newval = .ok X' ∧ DGFull co b B newval D' X' := by
  obtain ⟨qs, rs, q1, r1, hl, hp, hup⟩ := dg_update_perms co hv hv'
  obtain ⟨D', hD0, hD'⟩ := filtDG_spec co b hB hv'
  have hlt : ∀ k i, k < B.length → i < cdim B k → (rs.getD k []).getD i 0 < cdim B k := fun k i hk hi => sigma_getD _ _ (hp k hk) i hi
  obtain ⟨RC', c1, c2⟩ := redPermuteBasis_dg co (one_le_length hB) (fun k hk => cdim_of_ge hk) h.state.sorted.sh hD'.sh h.basis hl hp
    (fun a b' ha hb => by rw [h.state.sorted.zero a b' ha hb, hD'.zero a b' ha hb])
    (fun k a b' hk ha hb => by
      rw [hD'.succ k a b' hk ha hb, h.state.sorted.succ k _ _ hk (hlt k a (by omega) ha) (hlt (k + 1) b' hk hb)]
      rw [hup k a (by omega) ha, hup (k + 1) b' hk hb])
  refine ⟨D', ⟨RC', newval, FiltDG.sortPerms (deg co) newval⟩, ?_, ⟨hD', c2.tab, rfl, rfl⟩, c2, hD0⟩
  unfold RedFiltDG.updateFiltration
  rw [h.state.tab.deg, h.state.perm, q1, bind_ok, r1, bind_ok, c1]; rfl

theorem DGFull.updateAll {co b : Bool} {B : List (CMat F)} (hB : IsChainComplex B) : ∀ (hist : List (List (List T))) {val : List (List T)} (hv : ValuesFor B val)
    (hh : ∀ v ∈ hist, ValuesFor B v) {D : List (CMat F)} {X : RedFiltDG T F} (h : DGFull co b B val D X),
    ∃ D' X', X.updateAll hist = .ok X' ∧ ValuesFor B (hist.getLastD val) ∧ DGFull co b B (hist.getLastD val) D' X'
  | [], val, hv, _, D, X, h => ⟨D, X, rfl, hv, h⟩
  | v :: hist, val, hv, hh, D, X, h => by
    have hv1 := hh v (by simp)
    obtain ⟨D1, X1, h1, h2⟩ := h.update hB hv hv1
    obtain ⟨D', X', h3, h4, h5⟩ := DGFull.updateAll hB hist hv1 (fun w hw => hh w (by simp [hw])) h2
    refine ⟨D', X', by unfold RedFiltDG.updateAll; rw [h1, bind_ok]; exact h3, ?_, ?_⟩ <;> cases hist <;> assumption

end DG
end BATS
