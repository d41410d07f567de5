import Verif.Proofs.UpdateFilt
import Verif.Props.Persistence

set_option linter.unusedSectionVars false
set_option linter.unusedVariables false
set_option linter.unusedSimpArgs false

/-!
# C33: updating a filtration

`RedFiltCpx.updateAll X hist` applies `update_filtration` with each element of `hist` in turn.
-/

namespace BATS
open Reduction Matrix

variable {F : Type} [Field F] [DecidableEq F] {T : Type} [LinearOrder T]

/-- the flag combinations that keep a basis with `B U = R` -/
def Variant.KeepsBasis (v : Variant) : Prop := v = .standard ∨ v = .clearingBasis

theorem state_init {v : Variant} (hvb : v.KeepsBasis) {B : List (CMat F)} (hB : IsChainComplex B) (h2 : 2 ≤ B.length) (h0 : ZeroBdry0 B)
    {val : List (List T)} (hv : ValuesFor B val) :
    ∃ C X, RedFiltCpx.ofFiltration v.reduce val B = .ok X ∧ StateOK B val C X := by
  obtain ⟨C, R, hR, hp, hRC, hX⟩ := pipeline v hB h2 h0 hv
  refine ⟨C, R, hR, hp, ?_, hX⟩
  have hC := hp.reidx.complex hB
  rcases hvb with rfl | rfl
  · obtain ⟨D, hD, hb⟩ := mkStd_spec hC
    have : RedCpx.mkStd C = .ok R.RC := hRC
    rw [hD] at this; cases this; exact hb
  · obtain ⟨D, hD, hb⟩ := mkClearingU_spec hC
    have : RedCpx.mkClearingU C = .ok R.RC := hRC
    rw [hD] at this; cases this; exact hb

/-- C33: start from any filtration, with the standard or the clearing reduction with basis, and apply any sequence of
`update_filtration` calls. The result has the values, permutations, Betti numbers and persistence pairs (in the same
order, in both index conventions) of the complex reduced from scratch, with any flags, on the last filtration. -/
theorem C33_update_equals_recompute {v : Variant} (hvb : v.KeepsBasis) (w : Variant) {B : List (CMat F)} (hB : IsChainComplex B)
    (h2 : 2 ≤ B.length) (h0 : ZeroBdry0 B) {val : List (List T)} (hv : ValuesFor B val)
    (hist : List (List (List T))) (hh : ∀ u ∈ hist, ValuesFor B u) :
    ∃ X X' Y, RedFiltCpx.ofFiltration v.reduce val B = .ok X ∧ X.updateAll hist = .ok X' ∧
      RedFiltCpx.ofFiltration w.reduce (hist.getLastD val) B = .ok Y ∧ X'.val = Y.val ∧ X'.perm = Y.perm ∧
      ∀ k, k < B.length → X'.RC.hdim k = Y.RC.hdim k ∧
        ∀ permuted, ∃ ps, X'.persistencePairs k permuted = .ok ps ∧ Y.persistencePairs k permuted = .ok ps := by
  obtain ⟨C, X, hX, hS⟩ := state_init hvb hB h2 h0 hv
  obtain ⟨X', C', hX', hS'⟩ := updateAll_spec hB h2 h0 hist val C X hS hh
  have hlast : ValuesFor B (hist.getLastD val) := by
    rcases List.eq_nil_or_concat hist with rfl | ⟨l, a, rfl⟩
    · exact hv
    · rw [List.concat_eq_append, List.getLastD_concat]
      exact hh a (by simp)
  obtain ⟨D, Y, hY, hp, hRC, hsc⟩ := pipeline w hB h2 h0 hlast
  have hCC : C' = D := by
    have := hS'.scratch.symm.trans hsc
    injection this with e; injection e
  subst hCC
  refine ⟨X, X', Y, hX, hX', hY, by rw [hS'.pipe.valEq, hp.valEq], by rw [hS'.pipe.perm, hp.perm], fun k hk => ⟨?_, fun permuted => ?_⟩⟩
  · have h := hS'.basis.tab.unique hp.filt.tab
    unfold RedCpx.hdim
    rw [h.2]
  · exact hS'.pipe.pairs_agree hp permuted hk

/-- C33: after any sequence of updates the stored factors are a reduction of the boundary matrices of the complex sorted by
the current filtration: `D_k U_k = R_k` with `U_k` upper triangular and invertible and `R_k` reduced. -/
theorem C33_valid_factorisation {v : Variant} (hvb : v.KeepsBasis) {B : List (CMat F)} (hB : IsChainComplex B)
    (h2 : 2 ≤ B.length) (h0 : ZeroBdry0 B) {val : List (List T)} (hv : ValuesFor B val)
    (hist : List (List (List T))) (hh : ∀ u ∈ hist, ValuesFor B u) :
    ∃ X X' Z, RedFiltCpx.ofFiltration v.reduce val B = .ok X ∧ X.updateAll hist = .ok X' ∧
      FiltCpx.ofFiltration (hist.getLastD val) B = .ok Z ∧
      ∀ k, k < B.length → ∃ D U R, Z.C[k]? = some D ∧ X'.RC.U[k]? = some U ∧ X'.RC.R[k]? = some R ∧
        UpperInv (U.mat (cdim B k) (cdim B k)) ∧ Reduced (R.mat (rdim B k) (cdim B k)) ∧
        D.mat (rdim B k) (cdim B k) * U.mat (cdim B k) (cdim B k) = R.mat (rdim B k) (cdim B k) := by
  obtain ⟨C, X, hX, hS⟩ := state_init hvb hB h2 h0 hv
  obtain ⟨X', C', hX', hS'⟩ := updateAll_spec hB h2 h0 hist val C X hS hh
  refine ⟨X, X', ⟨hist.getLastD val, C', FiltCpx.filtrationSortperm (hist.getLastD val)⟩, hX, hX', hS'.scratch, fun k hk => ?_⟩
  have hlen := hS'.pipe.reidx.same.len
  have hk' : k < C'.length := by omega
  have hf := hS'.basis.fac k hk'
  have hl := hS'.basis.tab.lev k hk'
  rw [hS'.pipe.reidx.same.cdim, hS'.pipe.reidx.same.rdim hS'.pipe.reidx.ne] at hf hl
  have e1 := getD_getElem? (l := C') (⟨0, []⟩ : CMat F) hk'
  have e2 := getD_getElem? (l := X'.RC.U) (⟨0, []⟩ : CMat F) (i := k) (by rw [hS'.basis.lenU]; exact hk')
  have e3 := getD_getElem? (l := X'.RC.R) (⟨0, []⟩ : CMat F) (i := k) (by rw [hS'.basis.tab.lenR]; exact hk')
  exact ⟨_, _, _, e1, e2, e3, hf.upper, hl.table.reduced, hf.eq⟩

/-- C33: a complex reduced without a basis cannot be updated: `U[1]` does not exist. -/
theorem C33_no_basis_ub {v : Variant} (hvb : v = .noBasis ∨ v = .clearing ∨ v = .compression) {B : List (CMat F)}
    (hB : IsChainComplex B) (h2 : 2 ≤ B.length) (h0 : ZeroBdry0 B) {val newval : List (List T)} (hv : ValuesFor B val)
    (hv' : ValuesFor B newval) :
    ∃ X, RedFiltCpx.ofFiltration v.reduce val B = .ok X ∧ X.updateFiltration newval = .error .ub := by
  obtain ⟨C, X, hX, hp, hRC, hs⟩ := pipeline v hB h2 h0 hv
  obtain ⟨Y, hY, _, _, hr'⟩ := ofFiltration_spec hB h2 h0 hv'
  obtain ⟨qs, rs, q1, r1, hl, hrp, hR⟩ := update_perms hB h2 h0 hv' hp hr'
  have asm : ∀ (rs : List (CMat F × P2C)) Z, RedCpx.assemble rs = .ok Z → Z.U = [] := by
    intro rs Z h
    unfold RedCpx.assemble at h
    cases e : RedCpx.setIndices (rs.map (·.1)) (rs.map (·.2)) with
    | error _ => rw [e] at h; cases h
    | ok I => rw [e] at h; cases h; rfl
  have hU : X.RC.U = [] := by
    rcases hvb with rfl | rfl | rfl
    · have h : RedCpx.mkNoBasis C = .ok X.RC := hRC
      unfold RedCpx.mkNoBasis at h
      cases e : RedCpx.reduceAll C with
      | error _ => rw [e] at h; cases h
      | ok a => rw [e] at h; exact asm _ _ h
    · have h : RedCpx.mkClearing C = .ok X.RC := hRC
      unfold RedCpx.mkClearing at h
      cases e : RedCpx.clearAll C with
      | error _ => rw [e] at h; cases h
      | ok a => rw [e] at h; exact asm _ _ h
    · have h : RedCpx.mkCompression C = .ok X.RC := hRC
      unfold RedCpx.mkCompression at h
      cases C with
      | nil => cases h
      | cons D Ds =>
        simp only at h
        cases e : reduceStd D with
        | error _ => rw [e] at h; cases h
        | ok a =>
          rw [e, bind_ok] at h
          cases e2 : RedCpx.compLoop (getCompressionInds a.1) Ds with
          | error _ => rw [e2] at h; cases h
          | ok b => rw [e2] at h; exact asm _ _ h
  refine ⟨X, hX, ?_⟩
  unfold RedFiltCpx.updateFiltration
  simp only [q1, bind_ok, r1]
  have hlen := hp.reidx.same.len
  have hfail : X.RC.permuteBasis rs = .error .ub := by
    unfold RedCpx.permuteBasis
    rw [hU]
    match rs, hl, hrp with
    | [], hl, _ => simp at hl; omega
    | [_], hl, _ => simp at hl; omega
    | p :: p1 :: ps, hl, hrp =>
      have hp0 : IsPermOf (cdim C 0) p := by simpa using hrp 0 (by omega)
      have hp1 : IsPermOf (cdim C 1) p1 := by simpa using hrp 1 (by omega)
      obtain ⟨q, a1, a2, a3⟩ := Perm.invPerm_spec hp0
      obtain ⟨q', b1, b2, b3⟩ := Perm.invPerm_spec hp1
      have hRs : ShapesBy C.length (rdim C) (cdim C) X.RC.R := ⟨hp.filt.tab.lenR, fun l hl => (hp.filt.tab.lev l hl).shapeR⟩
      obtain ⟨R', c1, c2, c3⟩ := modifyBy_spec hRs (k := 1) (by omega) (permuteRows_inv_reindexes (m := rdim C 1) (n := cdim C 1) hp0 a2 a3)
      have e : RedCpx.permuteMatricesFrom 0 (p :: p1 :: ps) [] X.RC.R = .error .ub := by
        unfold RedCpx.permuteMatricesFrom RedCpx.permuteMatrices
        rw [a1, bind_ok, if_pos rfl, c1]
        simp only [bind_ok, pure_ok]
        unfold RedCpx.permuteMatricesFrom RedCpx.permuteMatrices
        rw [b1, bind_ok, if_neg (by omega)]
        split <;> rfl
      rw [e]; rfl
  rw [hfail]; rfl

/-- filtration values for the triangle in which the edge `0` comes last -/
def triangleVals2 : List (List Nat) := [[2, 0, 1], [6, 3, 4], [7]]

/-- C33: with compression (and basis) an update can give wrong bars. The filled triangle, updated so that another edge comes
last: the updated complex reports an infinite bar in dimension 1, from scratch there is none. -/
theorem C33_compression_wrong :
    ((RedFiltCpx.ofFiltration Variant.compressionBasis.reduce triangleVals triangleQ).bind
      (fun X => (X.updateFiltration triangleVals2).bind (fun X' => X'.persistencePairs 1 false))) = .ok [⟨1, 0, none, 6, none⟩] ∧
    ((RedFiltCpx.ofFiltration Variant.compressionBasis.reduce triangleVals2 triangleQ).bind (fun Y => Y.persistencePairs 1 false)) =
      .ok [⟨1, 0, some 0, 6, some 7⟩] := by
  constructor <;> decide +kernel

example : Variant.clearingBasis.KeepsBasis ∧ ValuesFor triangleQ triangleVals ∧ ValuesFor triangleQ triangleVals2 ∧
    ((RedFiltCpx.ofFiltration Variant.clearingBasis.reduce triangleVals triangleQ).bind
      (fun X => (X.updateAll [triangleVals2, triangleVals, triangleVals2]).bind (fun X' => X'.persistencePairs 1 false))) =
      .ok [⟨1, 0, some 0, 6, some 7⟩] := by
  refine ⟨Or.inr rfl, triangleVals_ok, ⟨by decide +kernel, ?_⟩, by decide +kernel⟩
  intro k hk
  have : k < 3 := hk
  match k, this with
  | 0, _ => decide +kernel
  | 1, _ => decide +kernel
  | 2, _ => decide +kernel

end BATS
