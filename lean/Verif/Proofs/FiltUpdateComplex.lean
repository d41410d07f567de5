import Verif.Proofs.UpdateFilt

set_option linter.unusedSectionVars false
set_option linter.unusedSimpArgs false
set_option linter.unusedVariables false

/-! # `permute_basis` and `FilteredChainComplex::update_filtration` -/

namespace BATS
open Reduction Matrix

variable {F : Type} [Field F] [DecidableEq F] {T : Type} [LinearOrder T]

theorem idxOf_of_getElem? {p : List Nat} (hnd : p.Nodup) {i x : Nat} (h : p[i]? = some x) : p.idxOf x = i := by
  obtain ⟨hi, rfl⟩ := List.getElem?_eq_some_iff.1 h
  exact hnd.idxOf_getElem i hi

/-- what `update_filtration` does: position `i` holds the cell `old[y]`, where `y` is the place of the cell `old[i]` in the new order -/
theorem filtUpdate_spec {B : List (CMat F)} (hB : IsChainComplex B) (h2 : 2 ≤ B.length) (h0 : ZeroBdry0 B) {val newval : List (List T)}
    (hv : ValuesFor B val) (hv' : ValuesFor B newval) :
    ∃ X X' Y, FiltCpx.ofFiltration val B = .ok X ∧ X.updateFiltration newval = .ok X' ∧ FiltCpx.ofFiltration newval B = .ok Y ∧
      X'.val = newval ∧ X'.perm = Y.perm ∧ X.perm = FiltCpx.filtrationSortperm val ∧ Y.perm = FiltCpx.filtrationSortperm newval ∧
      ReindexedBy B X.C (fun k i => (X.perm.getD k []).getD i 0) ∧ ReindexedBy B Y.C (fun k i => (Y.perm.getD k []).getD i 0) ∧
      ∃ τ : Nat → Nat → Nat, ReindexedBy X.C X'.C τ ∧
        ∀ k i, k < B.length → i < cdim B k → τ k i < cdim B k ∧ (Y.perm.getD k []).getD (τ k i) 0 = (X.perm.getD k []).getD i 0 := by
  obtain ⟨C, R, hR, hp, -, hs⟩ := pipeline Variant.standard hB h2 h0 hv
  obtain ⟨Y, hY, hY1, hY2, hr'⟩ := ofFiltration_spec hB h2 h0 hv'
  obtain ⟨qs, rs, q1, r1, hl, hrp, hRR⟩ := update_perms hB h2 h0 hv' hp hr'
  have hr := hp.reidx
  have hlen := hr.same.len
  have hC := hr.complex hB
  obtain ⟨C'', hC'', hrC⟩ := permuteBasis_spec (by rw [hlen]; exact h2) hC.shape (hr.zeroBdry h0) (ps := rs) (by rw [hlen, hl])
    (fun k hk => hrp k (by rw [← hlen]; exact hk))
  have hperm := hp.perm
  refine ⟨⟨val, C, FiltCpx.filtrationSortperm val⟩, ⟨newval, C'', FiltCpx.filtrationSortperm newval⟩, Y, hs, ?_, hY, rfl, hY2.symm, rfl, hY2, ?_, ?_,
    fun k i => (rs.getD k []).idxOf i, hrC, ?_⟩
  · unfold FiltCpx.updateFiltration
    rw [hperm] at q1
    simp only [q1, bind_ok, r1, hC'']
    rfl
  · have : orig R = fun k i => ((FiltCpx.filtrationSortperm val).getD k []).getD i 0 := by
      funext k i; unfold orig; rw [hperm]
    rw [this] at hr
    exact hr
  · rw [hY2]; exact hr'
  · intro k i hk hi
    have hcd := hr.same.cdim k
    have hpk := hrp k hk
    have hl' := Perm.isPerm_length hpk
    have hmem : i ∈ rs.getD k [] := (Perm.isPerm_mem hpk).2 (by rw [hcd]; exact hi)
    have hlt : (rs.getD k []).idxOf i < cdim B k := by
      rw [← hcd, ← hl']; exact List.idxOf_lt_length_iff.2 hmem
    refine ⟨hlt, ?_⟩
    have hval : (rs.getD k []).getD ((rs.getD k []).idxOf i) 0 = i := by
      rw [getD_eq_get 0 (List.idxOf_lt_length_iff.2 hmem)]; simp
    obtain ⟨qs', q1', hq1, hq2⟩ := filtrationIperm_spec R.perm (fun k => cdim B k) (by
      intro k hk
      rw [hperm] at hk ⊢
      have hk' : k < B.length := by
        unfold FiltCpx.filtrationSortperm at hk; rw [List.length_map, hv.len] at hk; exact hk
      rw [filtrationSortperm_getD, ← hv.lens k hk']
      exact Perm.stableSortperm_perm _)
    rw [q1] at q1'
    cases q1'
    have hRl : R.perm.length = B.length := by
      rw [hperm]; unfold FiltCpx.filtrationSortperm; rw [List.length_map, hv.len]
    have hnl : (FiltCpx.filtrationSortperm newval).length = B.length := by
      unfold FiltCpx.filtrationSortperm; rw [List.length_map, hv'.len]
    have hnp : ∀ k, k < B.length → IsPermOf (cdim B k) ((FiltCpx.filtrationSortperm newval).getD k []) := by
      intro k hk
      rw [filtrationSortperm_getD, ← hv'.lens k hk]
      exact Perm.stableSortperm_perm _
    obtain ⟨rs', r1', hr1, hr2⟩ := updatePerms_spec qs (FiltCpx.filtrationSortperm newval) (fun k => cdim B k) (by omega)
      (fun k hk => ⟨(hq2 k (by omega)).1, hnp k (by omega)⟩)
    rw [r1] at r1'
    cases r1'
    have e := (hr2 k (by omega)).2 _ hlt
    rw [hval] at e
    have hql := Perm.isPerm_length (hq2 k (by omega)).1
    have hnlt := sigma_getD _ _ (hnp k hk) _ hlt
    simp only at hnlt
    have e2 := getD_getElem? (l := qs.getD k []) 0 (i := ((FiltCpx.filtrationSortperm newval).getD k []).getD ((rs.getD k []).idxOf i) 0) (by omega)
    rw [← e] at e2
    have e3 := ((hq2 k (by omega)).2 _ _).2 e2
    rw [hY2]
    show _ = ((FiltCpx.filtrationSortperm val).getD k []).getD i 0
    rw [← hperm, List.getD_eq_getElem?_getD (l := R.perm.getD k []), e3]; rfl

end BATS
