import Verif.Proofs.Homology
import Verif.Proofs.Variants

set_option linter.unusedSectionVars false
set_option linter.unusedSimpArgs false
set_option linter.unusedVariables false

/-! # Cycles ending at the essential indices form a basis of homology -/

namespace BATS
open Matrix

section
variable {F : Type _} [Field F] {l m n ι : Type _} [LinearOrder l] [LinearOrder m] [LinearOrder n]
  [Fintype l] [Fintype m] [Fintype n] [Fintype ι]

theorem lower_after_sub {z w : m → F} {p : m} (hz : VLow z p) (hw : VLow w p) :
    ∀ q, VLow (z - (z p / w p) • w) q → q < p := by
  intro q hq
  by_contra hc
  apply hq.1
  rcases eq_or_lt_of_le (not_lt.1 hc) with e | e
  · subst e
    simp [div_mul_cancel₀ _ hw.1]
  · simp [hz.2 q e, hw.2 q e]

theorem exists_combination {D1 : Matrix l m F} {D2 : Matrix m n F} (h1 : HasRed D1) (h2 : HasRed D2) (hDD : D1 * D2 = 0)
    {e : ι → m} {u : ι → m → F} (hlow : ∀ g, VLow (u g) (e g)) (hcyc : ∀ g, D1 *ᵥ u g = 0)
    (hess : ∀ p, Essential D1 D2 p → ∃ g, e g = p) (z : m → F) (hz : D1 *ᵥ z = 0) :
    ∃ (c : ι → F) (x : n → F), z = ∑ g, c g • u g + D2 *ᵥ x := by
  classical
  have key : ∀ (p : m) (z : m → F), D1 *ᵥ z = 0 → VLow z p → ∃ (c : ι → F) (x : n → F), z = ∑ g, c g • u g + D2 *ᵥ x := by
    intro p
    induction p using WellFoundedLT.induction with
    | ind p ih =>
      intro z hz hp
      have hpos := cycle_low_positive h1 hz hp
      have finish : ∀ w : m → F, VLow w p → D1 *ᵥ w = 0 → (∃ (c : ι → F) (x : n → F), w = ∑ g, c g • u g + D2 *ᵥ x) →
          ∃ (c : ι → F) (x : n → F), z = ∑ g, c g • u g + D2 *ᵥ x := by
        rintro w hw hwz ⟨c0, x0, hw0⟩
        have hz' : D1 *ᵥ (z - (z p / w p) • w) = 0 := by rw [mulVec_sub, mulVec_smul, hz, hwz]; simp
        have hr : ∃ (c : ι → F) (x : n → F), z - (z p / w p) • w = ∑ g, c g • u g + D2 *ᵥ x := by
          by_cases h0 : z - (z p / w p) • w = 0
          · exact ⟨0, 0, by rw [h0]; simp⟩
          · obtain ⟨q, hq⟩ := exists_vlow h0
            exact ih q (lower_after_sub hp hw q hq) _ hz' hq
        obtain ⟨c, x, hcx⟩ := hr
        generalize z p / w p = a at hcx
        refine ⟨fun g => c g + a * c0 g, x + a • x0, ?_⟩
        have : z = (z - a • w) + a • w := by simp
        rw [this, hcx]
        conv_lhs => rw [hw0]
        rw [mulVec_add, mulVec_smul, smul_add, Finset.smul_sum]
        simp only [add_smul, mul_smul, Finset.sum_add_distrib]
        abel
      by_cases hpiv : ∃ j, IsPivot D2 p j
      · obtain ⟨j, ⟨x, _, hx⟩, _⟩ := hpiv
        exact finish _ hx (by rw [mulVec_mulVec, hDD, zero_mulVec]) ⟨0, x, by simp⟩
      · push Not at hpiv
        obtain ⟨g, rfl⟩ := hess p ⟨hpos, hpiv⟩
        refine finish _ (hlow g) (hcyc g) ⟨Pi.single g 1, 0, ?_⟩
        simp [Pi.single_apply, ite_smul]
  by_cases h0 : z = 0
  · exact ⟨0, 0, by rw [h0]; simp⟩
  · obtain ⟨p, hp⟩ := exists_vlow h0
    exact key p z hz hp

theorem combination_low {e : ι → m} (he : Function.Injective e) {u : ι → m → F} (hlow : ∀ g, VLow (u g) (e g))
    {c : ι → F} (hc : c ≠ 0) : ∃ g, VLow (∑ g, c g • u g) (e g) := by
  classical
  have hS : (Finset.univ.filter (fun g => c g ≠ 0)).Nonempty := by
    by_contra h
    rw [Finset.not_nonempty_iff_eq_empty] at h
    apply hc
    funext g
    by_contra hg
    have : g ∈ Finset.univ.filter (fun g => c g ≠ 0) := by simpa using hg
    rw [h] at this; simp at this
  obtain ⟨g, hg, hmax⟩ := Finset.exists_max_image _ e hS
  simp only [Finset.mem_filter, Finset.mem_univ, true_and] at hg hmax
  have hsmall : ∀ g', g' ≠ g → c g' ≠ 0 → e g' < e g := fun g' h1 h2 =>
    lt_of_le_of_ne (hmax g' h2) (fun h => h1 (he h))
  refine ⟨g, ?_, ?_⟩
  · rw [Finset.sum_apply, Finset.sum_eq_single g]
    · exact mul_ne_zero hg (hlow g).1
    · intro g' _ hne
      by_cases h : c g' = 0
      · simp [h]
      · simp [(hlow g').2 _ (hsmall g' hne h)]
    · simp
  · intro i hi
    rw [Finset.sum_apply]
    apply Finset.sum_eq_zero
    intro g' _
    by_cases h : c g' = 0
    · simp [h]
    · have : e g' ≤ e g := hmax g' h
      simp [(hlow g').2 i (lt_of_le_of_lt this hi)]

theorem unique_combination {D1 : Matrix l m F} {D2 : Matrix m n F} (h1 : HasRed D1) (h2 : HasRed D2) (hDD : D1 * D2 = 0)
    {e : ι → m} (he : Function.Injective e) {u : ι → m → F} (hlow : ∀ g, VLow (u g) (e g)) (hcyc : ∀ g, D1 *ᵥ u g = 0)
    (hess : ∀ p, Essential D1 D2 p ↔ ∃ g, e g = p) (z : m → F) (hz : D1 *ᵥ z = 0) :
    ∃! c : ι → F, z - ∑ g, c g • u g ∈ LinearMap.range D2.mulVecLin := by
  obtain ⟨c, x, hcx⟩ := exists_combination h1 h2 hDD hlow hcyc (fun p hp => (hess p).1 hp) z hz
  refine ⟨c, ⟨x, by rw [hcx]; simp⟩, ?_⟩
  rintro c' ⟨x', hx'⟩
  by_contra hne
  have hd : c' - c ≠ 0 := sub_ne_zero.2 hne
  obtain ⟨g, hg⟩ := combination_low he hlow hd
  have : ∑ g, (c' - c) g • u g = D2 *ᵥ (x - x') := by
    simp only [Pi.sub_apply, sub_smul, Finset.sum_sub_distrib, mulVec_sub]
    rw [mulVecLin_apply] at hx'
    rw [hx', hcx]; abel
  rw [this] at hg
  obtain ⟨j, hj⟩ := boundary_low_pivot h2 hg
  exact ((hess (e g)).2 ⟨g, rfl⟩).2 j hj

end

variable {F : Type} [Field F] [DecidableEq F]

theorem CompBasisOK.representatives {B : List (CMat F)} (hB : IsChainComplex B) {C : RedCpx F} (h : CompBasisOK B C)
    {k : Nat} (hk : k < B.length) :
    ∃ rep : Fin (bettiNumber B k) → SVec F,
      (∀ g, C.getPreferredRepresentative g.val k = .ok (rep g)) ∧
      (∀ g, VecOK (rep g) ∧ Below (cdim B k) (rep g) ∧ vecOf (cdim B k) (rep g) ∈ cycles B k) ∧
      ∀ z ∈ cycles B k, ∃! c : Fin (bettiNumber B k) → F,
        z - ∑ g, c g • vecOf (cdim B k) (rep g) ∈ boundaries B k := by
  have hb := h.tab.betti hB hk
  have hf := h.fac k hk
  have hl := h.tab.lev k hk
  have hU := hf.shape
  have hUc : Reduction.ColsOK (cdim B k) (C.U.getD k ⟨0, []⟩).cols := by
    have := hU.ok; rw [CMat.OK, hU.nrow] at this; exact this
  -- generator indices
  have hlt : ∀ g : Fin (bettiNumber B k), g.val < (C.I.getD k []).length := fun g => by rw [hb]; exact g.2
  let idx : Fin (bettiNumber B k) → Nat := fun g => (C.I.getD k [])[g.val]'(hlt g)
  have hidx : ∀ g, ∃ h : idx g < cdim B k, Essential (bdry B k) (bdryUp B k) ⟨idx g, h⟩ := fun g =>
    (h.tab.inds k hk _).1 (List.getElem_mem (hlt g))
  let e : Fin (bettiNumber B k) → Fin (cdim B k) := fun g => ⟨idx g, (hidx g).1⟩
  have he : Function.Injective e := by
    intro g g' hgg
    have h1 : idx g = idx g' := congrArg Fin.val hgg
    have hnd : (C.I.getD k []).Nodup := (h.tab.sorted k hk).imp (fun h => ne_of_lt h)
    exact Fin.ext ((hnd.getElem_inj_iff).1 h1)
  have hess : ∀ p, Essential (bdry B k) (bdryUp B k) p ↔ ∃ g, e g = p := by
    intro p
    constructor
    · intro hp
      have : p.val ∈ C.I.getD k [] := (h.tab.inds k hk _).2 ⟨p.2, hp⟩
      obtain ⟨g, hg, hgp⟩ := List.mem_iff_getElem.1 this
      exact ⟨⟨g, by rw [← hb]; exact hg⟩, Fin.ext hgp⟩
    · rintro ⟨g, rfl⟩; exact (hidx g).2
  let rep : Fin (bettiNumber B k) → SVec F := fun g => (C.U.getD k ⟨0, []⟩).cols.getD (idx g) []
  have hvec : ∀ g, vecOf (cdim B k) (rep g) = ((C.U.getD k ⟨0, []⟩).mat (cdim B k) (cdim B k)).col (e g) := fun g => rfl
  have hcyc : ∀ g, bdry B k *ᵥ vecOf (cdim B k) (rep g) = 0 := by
    intro g
    rw [hvec]
    apply (hf.zero_iff (e g)).1
    rw [col_eq_zero_iff]
    intro i hi
    exact (hidx g).2.1 i ((hl.piv i (e g)).1 hi)
  have hlow : ∀ g, VLow (vecOf (cdim B k) (rep g)) (e g) := by
    intro g
    rw [hvec]
    exact ⟨hf.upper.2 _, fun i hi => hf.upper.1 i _ hi⟩
  refine ⟨rep, ?_, ?_, ?_⟩
  · intro g
    unfold RedCpx.getPreferredRepresentative
    rw [rd_getD [] (by rw [h.tab.lenI]; exact hk)]
    simp only [bind_ok]
    rw [rd_ok (hlt g)]
    simp only [bind_ok]
    rw [rd_getD ⟨0, []⟩ (by rw [h.lenU]; exact hk)]
    simp only [bind_ok]
    exact rd_getD [] (by rw [hU.ncol]; exact (hidx g).1)
  · intro g
    exact ⟨(hUc.getD _).1, (hUc.getD _).2, by unfold cycles; rw [LinearMap.mem_ker, mulVecLin_apply]; exact hcyc g⟩
  · intro z hz
    unfold cycles at hz
    rw [LinearMap.mem_ker, mulVecLin_apply] at hz
    exact unique_combination (hB.hasRed k) (hB.hasRedUp k) (hB.sq' k) he hlow hcyc hess z hz

end BATS
