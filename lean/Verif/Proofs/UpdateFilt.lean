import Verif.Proofs.Update

set_option linter.unusedSectionVars false
set_option linter.unusedVariables false
set_option linter.unusedSimpArgs false

/-! # Updating a reduced filtered complex -/

namespace BATS
open Reduction Matrix

variable {F : Type} [Field F] [DecidableEq F] {T : Type} [LinearOrder T]

theorem getD_eq_get {α} {l : List α} {i : Nat} (d : α) (h : i < l.length) : l.getD i d = l[i] := by
  rw [List.getD_eq_getElem?_getD, List.getElem?_eq_getElem h]; rfl

theorem filtrationIperm_spec : ∀ (ps : List (List Nat)) (d : Nat → Nat), (∀ k, k < ps.length → IsPermOf (d k) (ps.getD k [])) →
    ∃ qs, FiltCpx.filtrationIperm ps = .ok qs ∧ qs.length = ps.length ∧ ∀ k, k < ps.length → IsPermOf (d k) (qs.getD k []) ∧
      ∀ i x : Nat, (ps.getD k [])[i]? = some x ↔ (qs.getD k [])[x]? = some i
  | [], d, _ => ⟨[], rfl, rfl, by intro k hk; simp at hk⟩
  | p :: ps, d, h => by
    obtain ⟨q, q1, q2, q3⟩ := Perm.invPerm_spec (show IsPermOf (d 0) p by simpa using h 0 (by simp))
    obtain ⟨qs, r1, r2, r3⟩ := filtrationIperm_spec ps (fun k => d (k + 1)) (fun k hk => by simpa using h (k + 1) (by simpa using hk))
    refine ⟨q :: qs, by unfold FiltCpx.filtrationIperm; rw [q1, bind_ok, r1]; rfl, by simp [r2], ?_⟩
    intro k hk
    cases k with
    | zero => exact ⟨q2, q3⟩
    | succ k => simpa using r3 k (by simpa using hk)

theorem updatePerms_spec : ∀ (qs ps : List (List Nat)) (d : Nat → Nat), qs.length = ps.length →
    (∀ k, k < qs.length → IsPermOf (d k) (qs.getD k []) ∧ IsPermOf (d k) (ps.getD k [])) →
    ∃ rs, FiltCpx.updatePerms qs ps = .ok rs ∧ rs.length = qs.length ∧ ∀ k, k < qs.length → (rs.getD k []).length = d k ∧
      ∀ i, i < d k → (rs.getD k []).getD i 0 = (qs.getD k []).getD ((ps.getD k []).getD i 0) 0
  | [], ps, d, _, _ => ⟨[], by unfold FiltCpx.updatePerms; rfl, rfl, by intro k hk; simp at hk⟩
  | q :: qs, [], d, hl, _ => by simp at hl
  | q :: qs, p :: ps, d, hl, h => by
    obtain ⟨hq, hp⟩ := h 0 (by simp)
    simp only [List.getD_cons_zero] at hq hp
    have hql := Perm.isPerm_length hq
    have hpl := Perm.isPerm_length hp
    obtain ⟨r, r1, r2, r3⟩ := Perm.applyPermPtr_spec q p (fun x hx => by rw [hql]; exact (Perm.isPerm_mem hp).1 hx) (by omega)
    obtain ⟨rs, s1, s2, s3⟩ := updatePerms_spec qs ps (fun k => d (k + 1)) (by simpa using hl) (fun k hk => by simpa using h (k + 1) (by simpa using hk))
    refine ⟨r :: rs, by unfold FiltCpx.updatePerms; rw [r1, bind_ok, s1]; rfl, by simp [s2], ?_⟩
    intro k hk
    cases k with
    | zero =>
      simp only [List.getD_cons_zero]
      refine ⟨by omega, fun i hi => ?_⟩
      have hpi := getD_getElem? (l := p) 0 (i := i) (by omega)
      have := r3 i (p.getD i 0) hpi
      rw [List.getD_eq_getElem?_getD, this, ← List.getD_eq_getElem?_getD]
    | succ k => simpa using s3 k (by simpa using hk)

theorem ReindexedBy.zeroBdry {B B' : List (CMat F)} {τ : Nat → Nat → Nat} (h : ReindexedBy B B' τ) (h0 : ZeroBdry0 B) : ZeroBdry0 B' := by
  intro c hc
  have hB' := h.same.ok h.ok 0 (by rw [h.same.len]; exact h.ne)
  obtain ⟨j, hj, rfl⟩ := List.mem_iff_getElem.1 hc
  have hok := hB'.ok _ hc
  rw [hok.1.eq_nil_iff]
  intro i
  have hj' : j < cdim B 0 := by
    have := hB'.ncol; rw [h.same.cdim] at this; omega
  by_cases hi : i < rdim B 0
  · have := h.zero i j hi hj'
    rw [ent_zero_bdry h0] at this
    unfold ent at this
    rw [List.getD_eq_getElem?_getD, List.getElem?_eq_getElem hj] at this
    exact this
  · apply hok.2.coef_eq_zero
    rw [hB'.nrow, h.same.rdim h.ne]; omega

/-- two reduced filtered complexes of the same filtered complex report the same bars -/
theorem PipeOK.pairs_agree {B : List (CMat F)} {val : List (List T)} {C : List (CMat F)} {R R' : RedFiltCpx T F}
    (hp : PipeOK B val C R) (hp' : PipeOK B val C R') (permuted : Bool) {k : Nat} (hk : k < B.length) :
    ∃ ps, R.persistencePairs k permuted = .ok ps ∧ R'.persistencePairs k permuted = .ok ps := by
  obtain ⟨f, hf, hge, hs⟩ := hp.filt.pairs permuted (k := k) (by rw [hp.reidx.same.len]; exact hk)
  obtain ⟨f', hf', hge', hs'⟩ := hp'.filt.pairs permuted (k := k) (by rw [hp.reidx.same.len]; exact hk)
  refine ⟨_, hf, ?_⟩
  rw [hf']
  congr 1
  apply List.filterMap_congr
  intro a ha
  have ha := List.mem_range.1 ha
  have e : orig R = orig R' := by unfold orig; rw [hp.perm, hp'.perm]
  rcases hs ⟨a, ha⟩ with ⟨h1, i1, h2⟩ | ⟨h1, q, h2, h3⟩ <;> rcases hs' ⟨a, ha⟩ with ⟨h1', i1', h2'⟩ | ⟨h1', q', h2', h3'⟩
  · exact h1'.trans h1.symm
  · exact absurd h2 (h1' i1)
  · exact absurd h2' (h1 i1')
  · have : IsBar C R permuted k ⟨a, ha⟩ q' := by
      unfold IsBar repInd at h3' ⊢
      rw [e, hp.valEq]
      rw [hp'.valEq] at h3'
      exact h3'
    rw [h2', h2, h3.unique this]

/-- the state of a reduced filtered complex with basis -/
structure StateOK (B : List (CMat F)) (val : List (List T)) (C : List (CMat F)) (X : RedFiltCpx T F) : Prop where
  pipe : PipeOK B val C X
  basis : BasisOK C X.RC
  scratch : FiltCpx.ofFiltration val B = .ok ⟨val, C, FiltCpx.filtrationSortperm val⟩

theorem pipeOK_mk {B : List (CMat F)} {val : List (List T)} (hv : ValuesFor B val) {C : List (CMat F)} {RC : RedCpx F}
    (hr : ReindexedBy B C (fun k i => ((FiltCpx.filtrationSortperm val).getD k []).getD i 0)) (ht : TabOK C RC) :
    PipeOK B val C ⟨RC, val, FiltCpx.filtrationSortperm val⟩ := by
  have hvl := hv.len
  have hlen := hr.same.len
  refine ⟨⟨ht, ?_, ?_, ?_, ?_⟩, rfl, rfl, hr, ?_⟩
  · show (FiltCpx.filtrationSortperm val).length = _
    unfold FiltCpx.filtrationSortperm; rw [List.length_map]; omega
  · intro k hk
    show IsPermOf _ ((FiltCpx.filtrationSortperm val).getD k [])
    rw [filtrationSortperm_getD, hr.same.cdim, ← hv.lens k (by omega)]
    exact Perm.stableSortperm_perm _
  · show val.length = _; omega
  · intro k hk
    show (val.getD k []).length = _
    rw [hr.same.cdim, hv.lens k (by omega)]
  · intro k i i' a b hi hi' e e'
    have hk : k < C.length := by
      by_contra hc; have := cdim_of_ge (B := C) (k := k) (by omega); omega
    unfold orig at e e'
    simp only at e e'
    rw [filtrationSortperm_getD] at e e'
    exact sortperm_mono _ hi (by rw [hv.lens k (by omega), ← hr.same.cdim]; exact hi') e e'

/-- the permutations handed to `permute_basis` -/
theorem update_perms {B : List (CMat F)} (hB : IsChainComplex B) (h2 : 2 ≤ B.length) (h0 : ZeroBdry0 B)
    {val newval : List (List T)} (hv' : ValuesFor B newval) {C C' : List (CMat F)} {X : RedFiltCpx T F}
    (hp : PipeOK B val C X) (hr' : ReindexedBy B C' (fun k i => ((FiltCpx.filtrationSortperm newval).getD k []).getD i 0)) :
    ∃ qs rs, FiltCpx.filtrationIperm X.perm = .ok qs ∧ FiltCpx.updatePerms qs (FiltCpx.filtrationSortperm newval) = .ok rs ∧
      rs.length = B.length ∧ (∀ k, k < B.length → IsPermOf (cdim C k) (rs.getD k [])) ∧
      ReindexedBy C C' (fun k i => (rs.getD k []).getD i 0) := by
  have hr := hp.reidx
  have hlen := hr.same.len
  have hcd := hr.same.cdim
  have hC := hr.complex hB
  obtain ⟨qs, q1, q2, q3⟩ := filtrationIperm_spec X.perm (cdim C) (fun k hk => hp.filt.perm k (by rw [← hp.filt.permL]; exact hk))
  have hnl : (FiltCpx.filtrationSortperm newval).length = B.length := by
    unfold FiltCpx.filtrationSortperm; rw [List.length_map, hv'.len]
  have hnp : ∀ k, k < B.length → IsPermOf (cdim C k) ((FiltCpx.filtrationSortperm newval).getD k []) := by
    intro k hk
    rw [filtrationSortperm_getD, hcd, ← hv'.lens k hk]
    exact Perm.stableSortperm_perm _
  have hXl := hp.filt.permL
  obtain ⟨rs, r1, r2, r3⟩ := updatePerms_spec qs (FiltCpx.filtrationSortperm newval) (cdim C) (by omega)
    (fun k hk => ⟨(q3 k (by omega)).1, hnp k (by omega)⟩)
  -- `up` undoes the old order and applies the new one
  have hup : ∀ k i, k < B.length → i < cdim C k → (rs.getD k []).getD i 0 < cdim C k ∧
      orig X k ((rs.getD k []).getD i 0) = ((FiltCpx.filtrationSortperm newval).getD k []).getD i 0 := by
    intro k i hk hi
    have hni := sigma_getD _ _ (hnp k hk) i hi
    simp only at hni
    have hq := (q3 k (by omega)).1
    have hql := Perm.isPerm_length hq
    rw [(r3 k (by omega)).2 i hi]
    refine ⟨sigma_getD _ _ hq _ hni, ?_⟩
    have e := getD_getElem? (l := qs.getD k []) 0 (i := ((FiltCpx.filtrationSortperm newval).getD k []).getD i 0) (by omega)
    have e2 := ((q3 k (by omega)).2 _ _).2 e
    unfold orig
    rw [List.getD_eq_getElem?_getD, e2]; rfl
  have hinj : ∀ k i i', k < B.length → i < cdim C k → i' < cdim C k → (rs.getD k []).getD i 0 = (rs.getD k []).getD i' 0 → i = i' := by
    intro k i i' hk hi hi' e
    have e1 := (hup k i hk hi).2
    have e2 := (hup k i' hk hi').2
    rw [e, e2] at e1
    exact (getD_inj _ _ (hnp k hk) i' i hi' hi e1).symm
  have hrp : ∀ k, k < B.length → IsPermOf (cdim C k) (rs.getD k []) := by
    intro k hk
    have hl := (r3 k (by omega)).1
    apply Perm.isPerm_of_nodup _ _ hl
    · rw [List.nodup_iff_injective_getElem]
      intro a b hab
      have ha := a.2; have hb := b.2
      apply Fin.ext
      apply hinj k a b hk (by omega) (by omega)
      exact (getD_eq_get 0 ha).trans (hab.trans (getD_eq_get 0 hb).symm)
    · intro x hx
      obtain ⟨a, ha, rfl⟩ := List.mem_iff_getElem.1 hx
      have := (hup k a hk (by omega)).1
      rw [getD_eq_get 0 ha] at this
      exact this
  have hk0 : ∀ k, ¬ k < B.length → cdim C k = 0 := fun k hk => cdim_of_ge (by omega)
  have hR : ReindexedBy C C' (fun k i => (rs.getD k []).getD i 0) := by
    refine ⟨hr.same.ok hr.ok, by omega, ⟨by rw [hr'.same.len, hlen], ?_⟩, ?_, ?_, ?_, ?_⟩
    · intro l hl
      have := hr'.same.shape l (by omega)
      rw [← hr.same.nrow (by omega), ← hr.same.ncol (by omega)] at this
      exact this
    · intro k i hi
      by_cases hk : k < B.length
      · exact (hup k i hk hi).1
      · rw [hk0 k hk] at hi; omega
    · intro k i i' hi hi' e
      by_cases hk : k < B.length
      · exact hinj k i i' hk hi hi' e
      · rw [hk0 k hk] at hi; omega
    · intro i j _ _
      rw [ent_zero_bdry (hr'.zeroBdry h0), ent_zero_bdry (hr.zeroBdry h0)]
    · intro k i j hk hi hj
      have hk' : k + 1 < B.length := by omega
      rw [hr'.succ k i j hk' (by rw [← hcd]; exact hi) (by rw [← hcd]; exact hj)]
      obtain ⟨u1, u2⟩ := hup k i (by omega) hi
      obtain ⟨w1, w2⟩ := hup (k + 1) j hk' hj
      rw [hr.succ k _ _ hk' (by rw [← hcd]; exact u1) (by rw [← hcd]; exact w1), u2, w2]
  exact ⟨qs, rs, q1, r1, by omega, hrp, hR⟩

theorem updateFiltration_spec {B : List (CMat F)} (hB : IsChainComplex B) (h2 : 2 ≤ B.length) (h0 : ZeroBdry0 B)
    {val newval : List (List T)} (hv' : ValuesFor B newval) {C C' : List (CMat F)} {X : RedFiltCpx T F}
    (hX : StateOK B val C X) (hs : FiltCpx.ofFiltration newval B = .ok ⟨newval, C', FiltCpx.filtrationSortperm newval⟩)
    (hr' : ReindexedBy B C' (fun k i => ((FiltCpx.filtrationSortperm newval).getD k []).getD i 0)) :
    ∃ X', X.updateFiltration newval = .ok X' ∧ StateOK B newval C' X' := by
  have hp := hX.pipe
  have hr := hp.reidx
  have hlen := hr.same.len
  have hC := hr.complex hB
  obtain ⟨qs, rs, q1, r1, hl, hrp, hR⟩ := update_perms hB h2 h0 hv' hp hr'
  obtain ⟨RC', hRC, hb⟩ := redPermuteBasis_spec hC (by omega) (hr.zeroBdry h0) (hr'.zeroBdry h0) hX.basis (by omega) (fun k hk => hrp k (by omega)) hR
  refine ⟨⟨RC', newval, FiltCpx.filtrationSortperm newval⟩, ?_, pipeOK_mk hv' hr' hb.tab, hb, hs⟩
  unfold RedFiltCpx.updateFiltration
  simp only [q1, bind_ok, r1, hRC]
  rfl

theorem updateAll_spec {B : List (CMat F)} (hB : IsChainComplex B) (h2 : 2 ≤ B.length) (h0 : ZeroBdry0 B) :
    ∀ (hist : List (List (List T))) (val : List (List T)) (C : List (CMat F)) (X : RedFiltCpx T F), StateOK B val C X →
      (∀ v ∈ hist, ValuesFor B v) → ∃ X' C', X.updateAll hist = .ok X' ∧ StateOK B (hist.getLastD val) C' X'
  | [], val, C, X, hX, _ => ⟨X, C, rfl, hX⟩
  | v :: hist, val, C, X, hX, hh => by
    have hv := hh v (by simp)
    obtain ⟨⟨y1, y2, y3⟩, hY, e1, e2, hr'⟩ := ofFiltration_spec hB h2 h0 hv
    simp only at e1 e2 hr'
    subst e1 e2
    obtain ⟨X1, h1, hX1⟩ := updateFiltration_spec hB h2 h0 hv hX hY hr'
    obtain ⟨X', C', h3, h4⟩ := updateAll_spec hB h2 h0 hist _ _ X1 hX1 (fun w hw => hh w (by simp [hw]))
    refine ⟨X', C', by unfold RedFiltCpx.updateAll; rw [h1, bind_ok]; exact h3, ?_⟩
    cases hist <;> exact h4

end BATS
