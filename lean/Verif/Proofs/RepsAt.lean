import Verif.Proofs.HomBasis
import Verif.Proofs.UpdateFilt

set_option linter.unusedSectionVars false
set_option linter.unusedVariables false
set_option linter.unusedSimpArgs false

/-! # Representatives of bars -/

namespace BATS
open Matrix

section
variable {F : Type _} [Field F] {l m n ι : Type _} [LinearOrder l] [LinearOrder m] [LinearOrder n] [Fintype l] [Fintype m] [Fintype n] [Fintype ι]

theorem supported_of_vlow {Q : Set n} (hQ : IsLowerSet Q) {x : n → F} {j : n} (h : VLow x j) (hj : j ∈ Q) : x ∈ supported (F := F) Q := by
  intro i hi
  by_contra hc
  apply hi
  rcases le_or_gt i j with h1 | h1
  · exact hQ h1 hj
  · exact absurd (h.2 i h1) hc

theorem exists_combination_at {D1 : Matrix l m F} {D2 : Matrix m n F} (h1 : HasRed D1) (hDD : D1 * D2 = 0)
    {S : Set m} (hS : IsLowerSet S) {Q : Set n} (hQ : IsLowerSet Q)
    {e : ι → m} {u : ι → m → F} (hlow : ∀ g, VLow (u g) (e g)) (hcyc : ∀ g, D1 *ᵥ u g = 0)
    (hess : ∀ p ∈ S, (∀ i', ¬ IsPivot D1 i' p) → (∀ j ∈ Q, ¬ IsPivot D2 p j) → ∃ g, e g = p) (z : m → F) (hz : D1 *ᵥ z = 0) (hzS : z ∈ supported (F := F) S) :
    ∃ (c : ι → F) (x : n → F), x ∈ supported (F := F) Q ∧ z = ∑ g, c g • u g + D2 *ᵥ x := by
  classical
  have key : ∀ (p : m) (z : m → F), p ∈ S → D1 *ᵥ z = 0 → VLow z p → ∃ (c : ι → F) (x : n → F), x ∈ supported (F := F) Q ∧ z = ∑ g, c g • u g + D2 *ᵥ x := by
    intro p
    induction p using WellFoundedLT.induction with
    | ind p ih =>
      intro z hpS hz hp
      have hpos := cycle_low_positive h1 hz hp
      have finish : ∀ w : m → F, VLow w p → D1 *ᵥ w = 0 → (∃ (c : ι → F) (x : n → F), x ∈ supported (F := F) Q ∧ w = ∑ g, c g • u g + D2 *ᵥ x) →
          ∃ (c : ι → F) (x : n → F), x ∈ supported (F := F) Q ∧ z = ∑ g, c g • u g + D2 *ᵥ x := by
        rintro w hw hwz ⟨c0, x0, hx0, hw0⟩
        have hz' : D1 *ᵥ (z - (z p / w p) • w) = 0 := by rw [mulVec_sub, mulVec_smul, hz, hwz]; simp
        have hr : ∃ (c : ι → F) (x : n → F), x ∈ supported (F := F) Q ∧ z - (z p / w p) • w = ∑ g, c g • u g + D2 *ᵥ x := by
          by_cases h0 : z - (z p / w p) • w = 0
          · exact ⟨0, 0, Submodule.zero_mem _, by rw [h0]; simp⟩
          · obtain ⟨q, hq⟩ := exists_vlow h0
            have hlt := lower_after_sub hp hw q hq
            exact ih q hlt _ (hS hlt.le hpS) hz' hq
        obtain ⟨c, x, hx, hcx⟩ := hr
        generalize z p / w p = a at hcx
        refine ⟨fun g => c g + a * c0 g, x + a • x0, Submodule.add_mem _ hx (Submodule.smul_mem _ _ hx0), ?_⟩
        have : z = (z - a • w) + a • w := by simp
        rw [this, hcx]
        conv_lhs => rw [hw0]
        rw [mulVec_add, mulVec_smul, smul_add, Finset.smul_sum]
        simp only [add_smul, mul_smul, Finset.sum_add_distrib]
        abel
      by_cases hpiv : ∃ j ∈ Q, IsPivot D2 p j
      · obtain ⟨j, hj, ⟨x, hxj, hx⟩, _⟩ := hpiv
        exact finish _ hx (by rw [mulVec_mulVec, hDD, zero_mulVec]) ⟨0, x, supported_of_vlow hQ hxj hj, by simp⟩
      · push Not at hpiv
        obtain ⟨g, rfl⟩ := hess p hpS hpos hpiv
        refine finish _ (hlow g) (hcyc g) ⟨Pi.single g 1, 0, Submodule.zero_mem _, ?_⟩
        simp [Pi.single_apply, ite_smul]
  by_cases h0 : z = 0
  · exact ⟨0, 0, Submodule.zero_mem _, by rw [h0]; simp⟩
  · obtain ⟨p, hp⟩ := exists_vlow h0
    refine key p z ?_ hz hp
    by_contra hc
    exact hp.1 (hzS p hc)

/-- the low of a boundary of a chain supported on an initial segment is killed by that segment -/
theorem boundary_low_pivot_at {D2 : Matrix m n F} (h2 : HasRed D2) {Q : Set n} (hQ : IsLowerSet Q) {x : n → F} (hx : x ∈ supported (F := F) Q)
    {i : m} (hi : VLow (D2 *ᵥ x) i) : ∃ j ∈ Q, IsPivot D2 i j := by
  obtain ⟨V, hV, hR⟩ := h2
  obtain ⟨z, hz⟩ := hV.surjective x
  simp only at hz
  have hzQ : ∀ k, z k ≠ 0 → k ∈ Q := by
    intro k hk
    have hz0 : z ≠ 0 := by intro h; rw [h] at hk; exact hk rfl
    obtain ⟨p, hp⟩ := exists_vlow hz0
    have hVp := hV.vlow hp
    rw [hz] at hVp
    have hpQ : p ∈ Q := by
      by_contra hc
      exact hVp.1 (hx p hc)
    rcases le_or_gt k p with h | h
    · exact hQ h hpQ
    · exact absurd (hp.2 k h) hk
  rw [← hz, mulVec_mulVec] at hi
  rcases hR.mulVec_cases z with ⟨h0, _⟩ | ⟨i', k, hl, hzk, hlow⟩
  · exact absurd h0 hi.ne_zero
  · have := hi.unique hlow
    subst this
    exact ⟨k, hzQ k hzk, (low_iff_isPivot hV hR rfl i k).1 hl⟩

theorem unique_combination_at {D1 : Matrix l m F} {D2 : Matrix m n F} (h1 : HasRed D1) (h2 : HasRed D2) (hDD : D1 * D2 = 0)
    {S : Set m} (hS : IsLowerSet S) {Q : Set n} (hQ : IsLowerSet Q)
    {e : ι → m} (he : Function.Injective e) {u : ι → m → F} (hlow : ∀ g, VLow (u g) (e g)) (hcyc : ∀ g, D1 *ᵥ u g = 0)
    (halive : ∀ g, ∀ j ∈ Q, ¬ IsPivot D2 (e g) j)
    (hess : ∀ p ∈ S, (∀ i', ¬ IsPivot D1 i' p) → (∀ j ∈ Q, ¬ IsPivot D2 p j) → ∃ g, e g = p) (z : m → F) (hz : D1 *ᵥ z = 0) (hzS : z ∈ supported (F := F) S) :
    ∃! c : ι → F, z - ∑ g, c g • u g ∈ (supported (F := F) Q).map D2.mulVecLin := by
  obtain ⟨c, x, hx, hcx⟩ := exists_combination_at h1 hDD hS hQ hlow hcyc hess z hz hzS
  refine ⟨c, ⟨x, hx, by rw [hcx]; simp⟩, ?_⟩
  rintro c' ⟨x', hxs', hx'⟩
  by_contra hne
  have hd : c' - c ≠ 0 := sub_ne_zero.2 hne
  obtain ⟨g, hg⟩ := combination_low he hlow hd
  have : ∑ g, (c' - c) g • u g = D2 *ᵥ (x - x') := by
    simp only [Pi.sub_apply, sub_smul, Finset.sum_sub_distrib, mulVec_sub]
    rw [mulVecLin_apply] at hx'
    rw [hx', hcx]; abel
  rw [this] at hg
  obtain ⟨j, hjQ, hj⟩ := boundary_low_pivot_at h2 hQ (Submodule.sub_mem _ hx hxs') hg
  exact halive g j hjQ hj

end

open Reduction
variable {F : Type} [Field F] [DecidableEq F] {T : Type} [LinearOrder T]

namespace ReindexedBy
variable {B C : List (CMat F)} {τ : Nat → Nat → Nat}

theorem mem_cycles (h : ReindexedBy B C τ) (k : Nat) (z : Fin (cdim B k) → F) : bdry C k *ᵥ (z ∘ h.eqv k) = 0 ↔ bdry B k *ᵥ z = 0 := by
  have e : bdry C k *ᵥ (z ∘ h.eqv k) = (bdry B k *ᵥ z) ∘ h.reqv k := by
    rw [h.bdry_eq, submatrix_mulVec_equiv]
    simp [Function.comp_assoc]
  rw [e]
  constructor
  · intro h0
    funext i
    have := congrFun h0 ((h.reqv k).symm i)
    simpa using this
  · intro h0; rw [h0]; rfl

theorem mem_supported (h : ReindexedBy B C τ) (k : Nat) (S : Set (Fin (cdim B k))) (z : Fin (cdim B k) → F) :
    z ∘ h.eqv k ∈ supported (F := F) (h.eqv k ⁻¹' S) ↔ z ∈ supported (F := F) S := by
  constructor
  · intro hz i hi
    have := hz ((h.eqv k).symm i) (by simpa using hi)
    simpa using this
  · intro hz i hi
    exact hz _ hi

theorem mem_boundaries (h : ReindexedBy B C τ) (k : Nat) (Q : Set (Fin (cdim B (k + 1)))) (z : Fin (cdim B k) → F) :
    z ∘ h.eqv k ∈ (supported (F := F) (h.eqv (k + 1) ⁻¹' Q)).map (bdryUp C k).mulVecLin ↔ z ∈ (supported (F := F) Q).map (bdryUp B k).mulVecLin := by
  have e : ∀ x : Fin (cdim B (k + 1)) → F, bdryUp C k *ᵥ (x ∘ h.eqv (k + 1)) = (bdryUp B k *ᵥ x) ∘ h.eqv k := by
    intro x
    rw [h.bdryUp_eq, submatrix_mulVec_equiv]
    simp [Function.comp_assoc]
  constructor
  · rintro ⟨x, hx, hxz⟩
    refine ⟨x ∘ (h.eqv (k + 1)).symm, ?_, ?_⟩
    · have := (h.mem_supported (k + 1) Q (x ∘ (h.eqv (k + 1)).symm)).1
      apply this
      simpa [Function.comp_assoc] using hx
    · rw [mulVecLin_apply] at hxz ⊢
      have := e (x ∘ (h.eqv (k + 1)).symm)
      rw [Function.comp_assoc, Equiv.symm_comp_self, Function.comp_id, hxz] at this
      funext i
      have := congrFun this ((h.eqv k).symm i)
      simpa using this.symm
  · rintro ⟨x, hx, hxz⟩
    refine ⟨x ∘ h.eqv (k + 1), (h.mem_supported (k + 1) Q x).2 hx, ?_⟩
    rw [mulVecLin_apply] at hxz ⊢
    rw [e, hxz]

end ReindexedBy

/-- what `representative` returns for the bar at position `i` -/
theorem representative_spec {B : List (CMat F)} {val : List (List T)} {C : List (CMat F)} {X : RedFiltCpx T F}
    (hp : PipeOK B val C X) (hb : CompBasisOK C X.RC) {k : Nat} (hk : k < B.length) (i : Fin (cdim C k)) (hpos : ∀ i', ¬ IsPivot (bdry C k) i' i)
    {q : PPair T} (hq : IsBar C X false k i q) :
    ∃ x, X.representative q false = .ok x ∧ VecOK x ∧ Below (cdim B k) x ∧
      VLow (vecOf (cdim B k) x ∘ hp.reidx.eqv k) i ∧ bdry B k *ᵥ vecOf (cdim B k) x = 0 := by
  have hlen := hp.reidx.same.len
  have hcd := hp.reidx.same.cdim
  have hk' : k < C.length := by omega
  have hf := hb.fac k hk'
  have hl := hb.tab.lev k hk'
  have hU := hf.shape
  obtain ⟨hd, hbi, _, _⟩ := hq
  have hperm := hp.filt.perm k hk'
  have hpl := Perm.isPerm_length hperm
  have hi := i.2
  have hbi' : q.birthInd = orig X k i := hbi
  have hidx : (X.perm.getD k []).idxOf (orig X k i) = i.val := by
    unfold orig
    have e : (X.perm.getD k []).getD i 0 = (X.perm.getD k [])[i.val]'(by omega) := getD_eq_get 0 (by omega)
    rw [e, List.Nodup.idxOf_getElem (Perm.isPerm_nodup hperm)]
  have hcol := hU.colsOK.getD i.val
  obtain ⟨x, x1, x2, x3, x4, x5⟩ := permute_spec (Perm.isPerm_nodup hperm) hcol.1 (by rw [hpl]; exact hcol.2)
  have hx : vecOf (cdim B k) x ∘ hp.reidx.eqv k = ((X.RC.U.getD k ⟨0, []⟩).mat (cdim C k) (cdim C k)).col i := by
    funext a
    have ha := a.2
    have := x3 a.val (by omega)
    show coef x (hp.reidx.eqv k a).val = coef ((X.RC.U.getD k ⟨0, []⟩).cols.getD i []) a
    rw [← this, hp.reidx.eqv_val]
    unfold orig
    rw [getD_eq_get 0 (by omega)]
  refine ⟨x, ?_, x2, ?_, ?_, ?_⟩
  · unfold RedFiltCpx.representative
    rw [hd, hbi', rd_getD ⟨0, []⟩ (by rw [hb.lenU]; exact hk'), bind_ok, rd_getD [] (by rw [hU.ncol]; exact hp.filt.orig_lt i.2), bind_ok]
    simp only [Bool.false_eq_true, if_false]
    rw [rd_getD [] (by rw [hp.filt.permL]; exact hk'), bind_ok, hidx, rd_getD [] (by rw [hU.ncol]; exact i.2), bind_ok, x1]
  · apply x5
    intro a ha
    rw [← hcd]; exact (Perm.isPerm_mem hperm).1 ha
  · rw [hx]
    exact ⟨hf.upper.2 _, fun a ha => hf.upper.1 a _ ha⟩
  · rw [← hp.reidx.mem_cycles, hx]
    apply (hf.zero_iff i).1
    rw [col_eq_zero_iff]
    intro a ha
    exact hpos a ((hl.piv a i).1 ha)

end BATS
