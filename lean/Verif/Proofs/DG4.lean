import Verif.Proofs.DG3
import Verif.Proofs.Preferred

set_option linter.unusedSectionVars false
set_option linter.unusedVariables false
set_option linter.unusedSimpArgs false

/-! # Persistence pairs of filtered DG vector spaces -/

namespace BATS
namespace DG
open Reduction Matrix

variable {F : Type} [Field F] [DecidableEq F] {T : Type} [LinearOrder T]

/-- the state of a reduced filtered DG vector space -/
structure DGState (co : Bool) (e : Nat) (B : List (CMat F)) (val : List (List T)) (D : List (CMat F)) (X : RedFiltDG T F) : Prop where
  sorted : DGSorted co e B (fun k i => ((FiltDG.sortPerms (deg co) val).getD k []).getD i 0) D
  tab : DGTab co e B.length (cdim B) D X.RC
  valEq : X.val = val
  perm : X.perm = FiltDG.sortPerms (deg co) val

/-- position in the order of homology -/
def pos (co : Bool) (n i : Nat) : Nat := if co then n - 1 - i else i

theorem sortPerms_length (co : Bool) (val : List (List T)) : (FiltDG.sortPerms (deg co) val).length = val.length := by
  cases co <;> simp [FiltDG.sortPerms, deg, FiltCpx.filtrationSortperm]

theorem sortPerms_getD (co : Bool) (val : List (List T)) (k : Nat) :
    (FiltDG.sortPerms (deg co) val).getD k [] = if co then (Perm.stableSortperm (val.getD k [])).reverse else Perm.stableSortperm (val.getD k []) := by
  rw [← filtrationSortperm_getD]
  cases co with
  | false => simp [FiltDG.sortPerms, deg]
  | true =>
    simp only [FiltDG.sortPerms, deg, if_true]
    rw [List.getD_eq_getElem?_getD, List.getD_eq_getElem?_getD, List.getElem?_map]
    cases (FiltCpx.filtrationSortperm val)[k]? <;> simp

theorem sortPerms_perm (co : Bool) {B : List (CMat F)} {val : List (List T)} (hv : ValuesFor B val) {k : Nat} (hk : k < B.length) :
    IsPermOf (cdim B k) ((FiltDG.sortPerms (deg co) val).getD k []) := by
  rw [sortPerms_getD]
  have := Perm.stableSortperm_perm (val.getD k [])
  rw [hv.lens k hk] at this
  cases co with
  | false => exact this
  | true =>
    simp only [if_true]
    exact (List.reverse_perm _).trans this

theorem sortPerms_pos (co : Bool) {B : List (CMat F)} {val : List (List T)} (hv : ValuesFor B val) {k i : Nat} (hk : k < B.length) (hi : i < cdim B k) :
    ((FiltDG.sortPerms (deg co) val).getD k []).getD i 0 = (Perm.stableSortperm (val.getD k [])).getD (pos co (cdim B k) i) 0 := by
  rw [sortPerms_getD]
  cases co with
  | false => rfl
  | true =>
    have hl := Perm.isPerm_length (Perm.stableSortperm_perm (val.getD k []))
    rw [hv.lens k hk] at hl
    simp only [if_true, pos]
    rw [getD_reverse _ _ _ (by omega), hl]

theorem sigOK_sortPerms (co : Bool) {B : List (CMat F)} {val : List (List T)} (hv : ValuesFor B val) :
    SigOK (cdim B) (fun k i => ((FiltDG.sortPerms (deg co) val).getD k []).getD i 0) :=
  sigOK_of_perm (N := B.length) (fun k hk => cdim_of_ge hk) (fun k hk => sortPerms_perm co hv hk)

theorem aug_ok {b : Bool} {B : List (CMat F)} (ha : b = true → Augmentable B) : AugOK (aug b) B := by
  cases b with
  | false => exact Or.inl rfl
  | true => exact Or.inr (ha rfl)

theorem one_le_length {B : List (CMat F)} (hB : IsChainComplex B) : 1 ≤ B.length := by
  have := hB.ne
  cases B with
  | nil => exact absurd rfl this
  | cons _ _ => simp

/-- the filtered DG vector space of a filtration -/
theorem filtDG_spec (co b : Bool) {B : List (CMat F)} (hB : IsChainComplex B) {val : List (List T)} (hv : ValuesFor B val) :
    ∃ D, FiltDG.ofFiltration (deg co) b val B = .ok ⟨val, ⟨deg co, D⟩, FiltDG.sortPerms (deg co) val⟩ ∧
      DGSorted co (aug b) B (fun k i => ((FiltDG.sortPerms (deg co) val).getD k []).getD i 0) D := by
  obtain ⟨D, h1, h2⟩ := ofComplex_spec co b hB
  obtain ⟨D', d1, d2⟩ := ipermuteBasis_spec co h2 (ps := FiltDG.sortPerms (deg co) val) (by rw [sortPerms_length, hv.len]) (fun k hk => sortPerms_perm co hv hk)
  refine ⟨D', ?_, d2⟩
  unfold FiltDG.ofFiltration
  rw [h1, bind_ok]
  unfold FiltDG.setPerms
  simp only [d1, bind_ok]; rfl

theorem dg_state (v : DGVariant) (co b : Bool) {B : List (CMat F)} (hB : IsChainComplex B) (ha : b = true → Augmentable B) {val : List (List T)} (hv : ValuesFor B val) :
    ∃ D X, RedFiltDG.ofFiltration v.reduce (deg co) b val B = .ok X ∧ DGState co (aug b) B val D X ∧ (v.withBasis → DGBasis co (aug b) B.length (cdim B) D X.RC) ∧
      FiltDG.ofFiltration (deg co) b val B = .ok ⟨val, ⟨deg co, D⟩, FiltDG.sortPerms (deg co) val⟩ := by
  obtain ⟨D, h1, h2⟩ := filtDG_spec co b hB hv
  have hsq := fun l (_ : l < B.length) => h2.sq hB (aug_ok ha) (sigOK_sortPerms co hv) l
  have hc := chain_chainList co h2.sh hsq
  obtain ⟨X, x1, x2⟩ := v.spec co (one_le_length hB) h2.sh hc
  refine ⟨D, ⟨X, val, FiltDG.sortPerms (deg co) val⟩, ?_, ⟨h2, x2, rfl, rfl⟩, fun hb => ?_, h1⟩
  · unfold RedFiltDG.ofFiltration
    rw [h1, bind_ok]
    unfold RedFiltDG.mk'
    rw [x1]; rfl
  · obtain ⟨X', y1, y2⟩ := v.basis hb co (one_le_length hB) h2.sh hc
    rw [x1] at y1
    cases y1
    exact y2

/-! ### the differentials in terms of the sorted complex -/

/-- the boundary maps of the sorted complex, with the augmentation in dimension 0 -/
def M0 (e : Nat) (C : List (CMat F)) : (k : Nat) → Matrix (Fin (rr e (cdim C) k)) (Fin (cdim C k)) F
  | 0 => Matrix.of fun _ _ => 1
  | k + 1 => bdryUp C k

/-- entries of the `l`-th map -/
theorem DGState.entry {co : Bool} {e : Nat} {B : List (CMat F)} {val : List (List T)} (hv : ValuesFor B val) {D : List (CMat F)} {X : RedFiltDG T F}
    (h : DGState co e B val D X) {C : List (CMat F)} {R : RedFiltCpx T F} (hp : PipeOK B val C R) (k a b : Nat)
    (ha : a < cdim C k) (hb : b < cdim C (k + 1)) :
    dent co D (k + 1) a b = ent C (k + 1) (pos co (cdim C k) a) (pos co (cdim C (k + 1)) b) := by
  have hcd := hp.reidx.same.cdim
  have hk : k + 1 < B.length := by
    by_contra hc
    have := cdim_of_ge (B := B) (k := k + 1) (by omega)
    rw [hcd] at hb; omega
  rw [hcd] at ha hb
  rw [h.sorted.succ k a b hk ha hb, sortPerms_pos co hv (by omega) ha, sortPerms_pos co hv hk hb, hcd, hcd]
  have hpa : pos co (cdim B k) a < cdim B k := by unfold pos; split <;> omega
  have hpb : pos co (cdim B (k + 1)) b < cdim B (k + 1) := by unfold pos; split <;> omega
  rw [hp.reidx.succ k _ _ hk hpa hpb]
  unfold orig
  rw [hp.perm, filtrationSortperm_getD, filtrationSortperm_getD]

/-- degree `-1`: the differentials are the sorted boundary maps -/
theorem DGState.fac_hom {e : Nat} {B : List (CMat F)} {val : List (List T)} (hv : ValuesFor B val) {D : List (CMat F)} {X : RedFiltDG T F}
    (h : DGState false e B val D X) {C : List (CMat F)} {R : RedFiltCpx T F} (hp : PipeOK B val C R) (l : Nat) :
    dmat false e (cdim C) D l = M0 e C l := by
  cases l with
  | zero =>
    ext i j
    exact h.sorted.zero i j i.2 (by have := hp.reidx.same.cdim 0; rw [← this]; exact j.2)
  | succ k =>
    ext i j
    exact h.entry hv hp k i j i.2 j.2

/-- degree `+1`: the differentials are their antitransposes -/
theorem DGState.fac_coh {e : Nat} {B : List (CMat F)} {val : List (List T)} (hv : ValuesFor B val) {D : List (CMat F)} {X : RedFiltDG T F}
    (h : DGState true e B val D X) {C : List (CMat F)} {R : RedFiltCpx T F} (hp : PipeOK B val C R) (l : Nat) :
    IsAnti (M0 e C l) (dmat true e (cdim C) D l) := by
  cases l with
  | zero =>
    intro i j
    exact h.sorted.zero j i j.2 (by have := hp.reidx.same.cdim 0; rw [← this]; exact i.2)
  | succ k =>
    intro i j
    have := h.entry hv hp k j i j.2 i.2
    have e1 : pos true (cdim C k) j = (Fin.rev (n := cdim C k) j).val := by simp [pos, Fin.rev]; omega
    have e2 : pos true (cdim C (k + 1)) i = (Fin.rev (n := cdim C (k + 1)) i).val := by simp [pos, Fin.rev]; omega
    rw [e1, e2] at this
    exact this

theorem M0_hasRed {e : Nat} {C : List (CMat F)} (hC : IsChainComplex C) (l : Nat) : HasRed (M0 e C l) := by
  cases l with
  | zero =>
    have hs : e = 0 ∨ e ≠ 0 := by omega
    have : HasRed ((DGVS.fill e (cdim C 0) (1 : F)).mat e (cdim C 0)) := hasRed_of_shape (fill_shape _ _ one_ne_zero)
    have e1 : (DGVS.fill e (cdim C 0) (1 : F)).mat e (cdim C 0) = M0 e C 0 := by
      ext i j
      exact fill_ent e (cdim C 0) (1 : F) i.2 j.2
    rw [e1] at this
    exact this
  | succ k => exact hC.hasRedUp k

/-! ### reading positions -/

section read
variable {co : Bool} {e : Nat} {B : List (CMat F)} {val : List (List T)} {D : List (CMat F)} {X : RedFiltDG T F}

theorem DGState.origAt_ok (hv : ValuesFor B val) (h : DGState co e B val D X) {C : List (CMat F)} {R : RedFiltCpx T F} (hp : PipeOK B val C R) {k i : Nat} (hi : i < cdim C k) :
    X.origAt k i = .ok (orig R k (pos co (cdim C k) i)) := by
  have hcd := hp.reidx.same.cdim k
  have hk : k < B.length := by
    by_contra hc
    have := cdim_of_ge (B := B) (k := k) (by omega)
    rw [hcd] at hi; omega
  have hl := Perm.isPerm_length (sortPerms_perm co hv hk)
  unfold RedFiltDG.origAt
  rw [h.perm, rd_getD [] (by rw [sortPerms_length, hv.len]; exact hk), bind_ok, rd_getD 0 (by omega), sortPerms_pos co hv hk (by omega), hcd]
  unfold orig
  rw [hp.perm, filtrationSortperm_getD]

theorem DGState.valAt_ok (hv : ValuesFor B val) (h : DGState co e B val D X) {C : List (CMat F)} {R : RedFiltCpx T F} (hp : PipeOK B val C R) {k i : Nat} (hi : i < cdim C k)
    {v : T} (hx : (R.val.getD k [])[orig R k (pos co (cdim C k) i)]? = some v) : X.valAt k i = .ok v := by
  have hcd := hp.reidx.same.cdim k
  have hk : k < B.length := by
    by_contra hc
    have := cdim_of_ge (B := B) (k := k) (by omega)
    rw [hcd] at hi; omega
  unfold RedFiltDG.valAt
  rw [h.origAt_ok hv hp hi, bind_ok, h.valEq, rd_getD [] (by rw [hv.len]; exact hk), bind_ok]
  rw [hp.valEq] at hx
  exact rd_some hx

theorem pos_lt {n i : Nat} (h : i < n) : pos co n i < n := by unfold pos; split <;> omega

theorem DGState.infBar_ok (hv : ValuesFor B val) (h : DGState co e B val D X) {C : List (CMat F)} {R : RedFiltCpx T F} (hp : PipeOK B val C R) {k i : Nat} (hi : i < cdim C k)
    (hn : ∀ j, ¬ IsPivot (bdryUp C k) ⟨pos co (cdim C k) i, pos_lt hi⟩ j) :
    ∃ q, X.infBar k i = .ok (some q) ∧ IsBar C R false k ⟨pos co (cdim C k) i, pos_lt hi⟩ q := by
  obtain ⟨v, hx⟩ := hp.filt.val_ex (pos_lt (co := co) hi)
  refine ⟨_, by unfold RedFiltDG.infBar; rw [h.origAt_ok hv hp hi, bind_ok, h.valAt_ok hv hp hi hx]; rfl, rfl, rfl, hx, Or.inl ⟨hn, rfl, rfl⟩⟩

theorem DGState.finBar_ok (hv : ValuesFor B val) (h : DGState co e B val D X) {C : List (CMat F)} {R : RedFiltCpx T F} (hp : PipeOK B val C R) {k i j : Nat} (hi : i < cdim C k)
    (hj : j < cdim C (k + 1)) (hn : IsPivot (bdryUp C k) ⟨pos co (cdim C k) i, pos_lt hi⟩ ⟨pos co (cdim C (k + 1)) j, pos_lt hj⟩) :
    ∃ q, X.finBar k i j = .ok (some q) ∧ IsBar C R false k ⟨pos co (cdim C k) i, pos_lt hi⟩ q := by
  obtain ⟨v, hx⟩ := hp.filt.val_ex (pos_lt (co := co) hi)
  obtain ⟨w, hy⟩ := hp.filt.val_ex (pos_lt (co := co) hj)
  refine ⟨_, by
    unfold RedFiltDG.finBar
    rw [h.origAt_ok hv hp hi, bind_ok, h.origAt_ok hv hp hj, bind_ok, h.valAt_ok hv hp hi hx, bind_ok, h.valAt_ok hv hp hj hy]; rfl,
    rfl, rfl, hx, Or.inr ⟨_, w, hn, rfl, hy, rfl⟩⟩

end read

/-! ### the loop over the columns -/

theorem dgPairsLoop_spec (g : Nat → SVec F → Res (Option (PPair T))) (f : Nat → Option (PPair T)) :
    ∀ (cs : List (SVec F)) (i0 : Nat), (∀ a, a < cs.length → g (i0 + a) (cs.getD a []) = .ok (f (i0 + a))) →
      RedFiltDG.pairsLoop g i0 cs = .ok ((List.range' i0 cs.length).filterMap f)
  | [], i0, _ => rfl
  | c :: cs, i0, h => by
    unfold RedFiltDG.pairsLoop
    have h0 := h 0 (by simp)
    simp only [Nat.add_zero, List.getD_cons_zero] at h0
    rw [h0, bind_ok, dgPairsLoop_spec g f cs (i0 + 1) (fun a ha => by
      have := h (a + 1) (by simpa using ha)
      simpa [Nat.add_assoc, Nat.add_comm 1 a] using this), bind_ok, List.length_cons, List.range'_succ]
    cases hf : f i0 <;> simp [hf, pure_ok]

/-- what one step of the loop returns -/
def Step (e : Nat) (C : List (CMat F)) (R : RedFiltCpx T F) (k : Nat) (i : Fin (cdim C k)) (p : Option (PPair T)) : Prop :=
  (p = none ∧ ∃ i', IsPivot (M0 e C k) i' i) ∨ ((∀ i', ¬ IsPivot (M0 e C k) i' i) ∧ ∃ q, p = some q ∧ IsBar C R false k i q)

theorem DGTab.cast {co : Bool} {e N : Nat} {d d' : Nat → Nat} {D : List (CMat F)} {X : RedDG F} (h : DGTab co e N d D X) (hd : d = d') : DGTab co e N d' D X := by
  subst hd; exact h

theorem DGState.step_hom {e : Nat} {B : List (CMat F)} {val : List (List T)} (hv : ValuesFor B val) {D : List (CMat F)} {X : RedFiltDG T F}
    (h : DGState false e B val D X) {C : List (CMat F)} {R : RedFiltCpx T F} (hp : PipeOK B val C R) {k : Nat} (hk : k < B.length) (i : Fin (cdim C k)) :
    ∃ p, X.pairAtHom k i ((X.RC.R.getD k ⟨0, []⟩).cols.getD i []) = .ok p ∧ Step e C R k i p := by
  have ht := h.tab.cast (d' := cdim C) (funext fun k => (hp.reidx.same.cdim k).symm)
  have l0 := ht.lev k (by omega)
  have l1 := ht.lev (k + 1) (by omega)
  have e0 : (D.getD k ⟨0, []⟩).mat (rr e (cdim C) k) (cdim C k) = M0 e C k := h.fac_hom hv hp k
  have e1 : (D.getD (k + 1) ⟨0, []⟩).mat (cdim C k) (cdim C (k + 1)) = bdryUp C k := h.fac_hom hv hp (k + 1)
  have hnil := l0.col_nil_iff (M := D.getD k ⟨0, []⟩) i
  change _ ↔ ∀ i', ¬ IsPivot ((D.getD k ⟨0, []⟩).mat (rr e (cdim C) k) (cdim C k)) i' i at hnil
  rw [e0] at hnil
  unfold RedFiltDG.pairAtHom
  by_cases hc : (X.RC.R.getD k ⟨0, []⟩).cols.getD i [] = []
  · rw [if_neg (by rw [hc]; simp)]
    have hpos := hnil.1 hc
    have hmax : X.RC.maxdim = B.length - 1 := by unfold RedDG.maxdim; rw [ht.lenR]; omega
    by_cases hm : k = X.RC.maxdim
    · rw [if_pos hm]
      obtain ⟨q, q1, q2⟩ := h.infBar_ok hv hp i.2 (by
        intro j
        have := cdim_of_ge (B := B) (k := k + 1) (by omega)
        rw [← hp.reidx.same.cdim] at this
        exact absurd j.2 (by omega))
      exact ⟨_, q1, Or.inr ⟨hpos, q, rfl, q2⟩⟩
    · have hlen : (X.RC.p2c.getD (k + 1) []).length = cdim C k := l1.table.len
      rw [if_neg hm, rd_getD [] (by rw [ht.lenP]; omega), bind_ok, rd_getD none (by rw [hlen]; exact i.2), bind_ok]
      have hnone := l1.p2c_none_iff (M := D.getD (k + 1) ⟨0, []⟩) i
      change _ ↔ ∀ j, ¬ IsPivot ((D.getD (k + 1) ⟨0, []⟩).mat (cdim C k) (cdim C (k + 1))) i j at hnone
      rw [e1] at hnone
      cases hx : (X.RC.p2c.getD (k + 1) []).getD i none with
      | none =>
        obtain ⟨q, q1, q2⟩ := h.infBar_ok hv hp i.2 (hnone.1 hx)
        exact ⟨_, q1, Or.inr ⟨hpos, q, rfl, q2⟩⟩
      | some j =>
        have hj : j < cdim C (k + 1) := by
          apply l1.table.bound i j
          rw [getD_getElem? none (by rw [hlen]; exact i.2), hx]
        have hsome := l1.p2c_some_iff (M := D.getD (k + 1) ⟨0, []⟩) i ⟨j, hj⟩
        change _ ↔ IsPivot ((D.getD (k + 1) ⟨0, []⟩).mat (cdim C k) (cdim C (k + 1))) i ⟨j, hj⟩ at hsome
        rw [e1] at hsome
        obtain ⟨q, q1, q2⟩ := h.finBar_ok hv hp i.2 hj (hsome.1 hx)
        exact ⟨_, q1, Or.inr ⟨hpos, q, rfl, q2⟩⟩
  · have hl : ((X.RC.R.getD k ⟨0, []⟩).cols.getD i []).length ≠ 0 := by
      intro he; exact hc (List.length_eq_zero_iff.1 he)
    rw [if_pos hl]
    refine ⟨none, rfl, Or.inl ⟨rfl, ?_⟩⟩
    by_contra hn
    push Not at hn
    exact hc (hnil.2 hn)

theorem M0_sq {e : Nat} {B : List (CMat F)} (hB : IsChainComplex B) (ha : AugOK e B) {val : List (List T)} (hv : ValuesFor B val) {D : List (CMat F)} {X : RedFiltDG T F} {co : Bool}
    (h : DGState co e B val D X) {C : List (CMat F)} {R : RedFiltCpx T F} (hp : PipeOK B val C R) (l : Nat) : M0 e C l * bdryUp C l = 0 := by
  cases l with
  | zero =>
    rcases ha with rfl | ha
    · ext i j; exact absurd i.2 (Nat.not_lt_zero _)
    · ext i j
      show ∑ m, M0 e C 0 i m * bdryUp C 0 m j = 0
      simp only [M0, Matrix.of_apply, one_mul]
      rw [hp.reidx.bdryUp_eq 0]
      simp only [submatrix_apply]
      rw [Equiv.sum_comp (hp.reidx.eqv 0) (fun m => bdryUp B 0 m ((hp.reidx.eqv (0 + 1)) j))]
      exact ha _
  | succ k => exact (hp.reidx.complex hB).sq' (k + 1)

theorem DGState.step_coh {e : Nat} {B : List (CMat F)} (hB : IsChainComplex B) (ha : AugOK e B) {val : List (List T)} (hv : ValuesFor B val) {D : List (CMat F)} {X : RedFiltDG T F}
    (h : DGState true e B val D X) {C : List (CMat F)} {R : RedFiltCpx T F} (hp : PipeOK B val C R) {k : Nat} (hk : k < B.length) (i : Fin (cdim C k)) :
    ∃ p, X.pairAtCoh k i ((X.RC.R.getD (k + 1) ⟨0, []⟩).cols.getD i []) = .ok p ∧ Step e C R k i.rev p := by
  have hC := hp.reidx.complex hB
  have ht := h.tab.cast (d' := cdim C) (funext fun k => (hp.reidx.same.cdim k).symm)
  have l0 : LevelOK (cdim C k) (rr e (cdim C) k) _ _ _ := ht.lev k (by omega)
  have l1 : LevelOK (cdim C (k + 1)) (cdim C k) _ _ _ := ht.lev (k + 1) (by omega)
  have a0 : IsAnti (M0 e C k) ((D.getD k ⟨0, []⟩).mat (cdim C k) (rr e (cdim C) k)) := h.fac_coh hv hp k
  have a1 : IsAnti (bdryUp C k) ((D.getD (k + 1) ⟨0, []⟩).mat (cdim C (k + 1)) (cdim C k)) := h.fac_coh hv hp (k + 1)
  have p0 : ∀ (m : Fin (rr e (cdim C) k)), IsPivot ((D.getD k ⟨0, []⟩).mat (cdim C k) (rr e (cdim C) k)) i m ↔ IsPivot (M0 e C k) m.rev i.rev := by
    intro m
    have := isPivot_anti a0 (M0_hasRed hC k) (hasRed_of_shape l0.shapeM) m.rev i.rev
    rwa [Fin.rev_rev, Fin.rev_rev] at this
  have p1 : ∀ (j : Fin (cdim C (k + 1))), IsPivot ((D.getD (k + 1) ⟨0, []⟩).mat (cdim C (k + 1)) (cdim C k)) j i ↔ IsPivot (bdryUp C k) i.rev j.rev := by
    intro j
    have := isPivot_anti a1 (hC.hasRedUp k) (hasRed_of_shape l1.shapeM) i.rev j.rev
    rwa [Fin.rev_rev, Fin.rev_rev] at this
  have hposi : (⟨pos true (cdim C k) i, pos_lt i.2⟩ : Fin (cdim C k)) = i.rev := by
    apply Fin.ext; simp [pos, Fin.rev]; omega
  have hR1 : ColsOK (cdim C (k + 1)) (X.RC.R.getD (k + 1) ⟨0, []⟩).cols := by
    have := l1.shapeR.ok
    rw [CMat.OK, l1.shapeR.nrow] at this
    exact this
  have hnil := l1.col_nil_iff i
  unfold RedFiltDG.pairAtCoh
  by_cases hc : (X.RC.R.getD (k + 1) ⟨0, []⟩).cols.getD i [] = []
  · rw [if_neg (by rw [hc]; simp)]
    have hn : ∀ j, ¬ IsPivot (bdryUp C k) i.rev j := by
      intro j hj
      have := (p1 j.rev).2 (by rw [Fin.rev_rev]; exact hj)
      exact hnil.1 hc _ this
    have hlen : (X.RC.p2c.getD k []).length = cdim C k := l0.table.len
    rw [rd_getD [] (by rw [ht.lenP]; omega), bind_ok, rd_getD none (by rw [hlen]; exact i.2), bind_ok]
    cases hx : (X.RC.p2c.getD k []).getD i none with
    | none =>
      have hpos : ∀ i', ¬ IsPivot (M0 e C k) i' i.rev := by
        intro m hm
        have := (p0 m.rev).2 (by rw [Fin.rev_rev]; exact hm)
        exact (l0.p2c_none_iff i).1 hx _ this
      obtain ⟨q, q1, q2⟩ := h.infBar_ok hv hp i.2 (by rw [hposi]; exact hn)
      rw [hposi] at q2
      exact ⟨_, q1, Or.inr ⟨hpos, q, rfl, q2⟩⟩
    | some j =>
      have hj : j < rr e (cdim C) k := by
        apply l0.table.bound i j
        rw [getD_getElem? none (by rw [hlen]; exact i.2), hx]
      have := (p0 ⟨j, hj⟩).1 ((l0.p2c_some_iff i ⟨j, hj⟩).1 hx)
      exact ⟨none, rfl, Or.inl ⟨rfl, _, this⟩⟩
  · have hl : ((X.RC.R.getD (k + 1) ⟨0, []⟩).cols.getD i []).length > 0 := List.length_pos_iff.2 hc
    rw [if_pos hl]
    have hex : ∃ j, IsPivot ((D.getD (k + 1) ⟨0, []⟩).mat (cdim C (k + 1)) (cdim C k)) j i := by
      by_contra hn
      push Not at hn
      exact hc (hnil.2 hn)
    obtain ⟨j, hj⟩ := hex
    have hlow : VLow (vecOf (cdim C (k + 1)) ((X.RC.R.getD (k + 1) ⟨0, []⟩).cols.getD i [])) j := (l1.piv j i).2 hj
    rw [vecOf_lastnz (hR1.getD i).1 (hR1.getD i).2 hlow, bind_ok]
    have hj' := (p1 j).1 hj
    have hposj : (⟨pos true (cdim C (k + 1)) j, pos_lt j.2⟩ : Fin (cdim C (k + 1))) = j.rev := by
      apply Fin.ext; simp [pos, Fin.rev]; omega
    obtain ⟨q, q1, q2⟩ := h.finBar_ok hv hp i.2 j.2 (by rw [hposi, hposj]; exact hj')
    rw [hposi] at q2
    exact ⟨_, q1, Or.inr ⟨pivotRow_positive (M0_hasRed hC k) (M0_sq hB ha hv h hp k) hj', q, rfl, q2⟩⟩

end DG
end BATS
