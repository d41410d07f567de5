import Verif.Spec.SimplicialPersistence
import Verif.Spec.Persistence
import Verif.Proofs.SimplicialHomology
import Verif.Proofs.Filtration

set_option linter.unusedSectionVars false
set_option linter.unusedVariables false
set_option linter.unusedSimpArgs false

/-! # Sublevel homology of the stored chain complex is the homology of the abstract sublevel complexes -/

namespace BATS

/-- ranks of induced maps on quotients agree when the pairs of subspaces correspond under injective maps into a common space -/
theorem finrank_mapQ_eq {F V1 V2 W : Type} [Field F] [AddCommGroup V1] [Module F V1] [AddCommGroup V2] [Module F V2] [AddCommGroup W] [Module F W]
    (i1 : V1 →ₗ[F] W) (i2 : V2 →ₗ[F] W) (j : V1 →ₗ[F] V2) (h1 : Function.Injective i1) (h2 : Function.Injective i2) (hij : ∀ x, i2 (j x) = i1 x)
    (Z1 B1 : Submodule F V1) (Z2 B2 : Submodule F V2) (Z1' B1' Z2' B2' : Submodule F W)
    (hZ1 : Z1.map i1 = Z1') (hB1 : B1.map i1 = B1') (hZ2 : Z2.map i2 = Z2') (hB2 : B2.map i2 = B2')
    (hr : ∀ x ∈ Z1, j x ∈ Z2) (hle : Z1' ≤ Z2')
    (hq : B1.submoduleOf Z1 ≤ (B2.submoduleOf Z2).comap (j.restrict hr))
    (hq' : B1'.submoduleOf Z1' ≤ (B2'.submoduleOf Z2').comap (Submodule.inclusion hle)) :
    Module.finrank F (LinearMap.range (Submodule.mapQ _ _ (j.restrict hr) hq)) =
      Module.finrank F (LinearMap.range (Submodule.mapQ _ _ (Submodule.inclusion hle) hq')) := by
  subst hZ1 hB1 hZ2 hB2
  have e1 : (B1.submoduleOf Z1).map (Submodule.equivMapOfInjective i1 h1 Z1).toLinearMap = (B1.map i1).submoduleOf (Z1.map i1) := by
    ext ⟨y, hy⟩
    constructor
    · rintro ⟨⟨x, hx⟩, hxB, e⟩
      refine ⟨x, hxB, ?_⟩
      have := congrArg Subtype.val e
      simpa using this
    · rintro ⟨x, hxB, e⟩
      obtain ⟨z, hz, e'⟩ := hy
      have : x = z := h1 (by rw [e', e]; rfl)
      subst this
      exact ⟨⟨x, hz⟩, hxB, Subtype.ext e⟩
  have e2 : (B2.submoduleOf Z2).map (Submodule.equivMapOfInjective i2 h2 Z2).toLinearMap = (B2.map i2).submoduleOf (Z2.map i2) := by
    ext ⟨y, hy⟩
    constructor
    · rintro ⟨⟨x, hx⟩, hxB, e⟩
      refine ⟨x, hxB, ?_⟩
      have := congrArg Subtype.val e
      simpa using this
    · rintro ⟨x, hxB, e⟩
      obtain ⟨z, hz, e'⟩ := hy
      have : x = z := h2 (by rw [e', e]; rfl)
      subst this
      exact ⟨⟨x, hz⟩, hxB, Subtype.ext e⟩
  let q1 := Submodule.Quotient.equiv _ _ (Submodule.equivMapOfInjective i1 h1 Z1) e1
  let q2 := Submodule.Quotient.equiv _ _ (Submodule.equivMapOfInjective i2 h2 Z2) e2
  have hcomm : q2.toLinearMap ∘ₗ (Submodule.mapQ _ _ (j.restrict hr) hq) = (Submodule.mapQ _ _ (Submodule.inclusion hle) hq') ∘ₗ q1.toLinearMap := by
    apply Submodule.linearMap_qext
    ext ⟨x, hx⟩
    show Submodule.Quotient.mk _ = Submodule.Quotient.mk _
    congr 1
    exact Subtype.ext (hij x)
  have hr1 : LinearMap.range (q2.toLinearMap ∘ₗ (Submodule.mapQ _ _ (j.restrict hr) hq)) =
      (LinearMap.range (Submodule.mapQ _ _ (j.restrict hr) hq)).map q2.toLinearMap := LinearMap.range_comp _ _
  have hr2 : LinearMap.range ((Submodule.mapQ _ _ (Submodule.inclusion hle) hq') ∘ₗ q1.toLinearMap) =
      LinearMap.range (Submodule.mapQ _ _ (Submodule.inclusion hle) hq') := LinearMap.range_comp_of_range_eq_top _ q1.range
  rw [← hr2, ← hcomm, hr1]
  exact (LinearEquiv.finrank_map_eq q2 _).symm

namespace SCpx
open Reduction Matrix
variable {F : Type} [Field F] [DecidableEq F] {X : SCpx} {cells : Cells} {B : List (CMat F)} {K0 : Finset (Finset Nat)}

/-- chains of the abstract complex as vectors indexed by positions -/
noncomputable def toB (h : Inv X cells) (hv : VertexSets cells K0) (hc : ∀ k, cdim B k = (cells k).length) (k : Nat) :
    (Simps K0 (k + 1) → F) ≃ₗ[F] (Fin (cdim B k) → F) := LinearEquiv.funCongrLeft F F (eqv h hv hc k)

theorem toB_apply (h : Inv X cells) (hv : VertexSets cells K0) (hc : ∀ k, cdim B k = (cells k).length) (k : Nat) (x : Simps K0 (k + 1) → F)
    (j : Fin (cdim B k)) : toB (F := F) h hv hc k x j = x (eqv h hv hc k j) := rfl

theorem toB_boundary (h : Inv X cells) (hv : VertexSets cells K0) (hc : ∀ k, cdim B k = (cells k).length)
    (hb : ∀ d, d + 1 < X.ncells.length → ∃ M, B[d + 1]? = some M ∧ BdMat cells d M) (k : Nat) (x : Simps K0 (k + 1 + 1) → F) :
    toB h hv hc k ((simplicialBoundary F K0 (k + 1)).mulVecLin x) = (-1 : F) ^ k • (bdryUp B k).mulVecLin (toB h hv hc (k + 1) x) := by
  have hs := boundary_spec_eq h hv hc hb k
  funext i
  rw [toB_apply, mulVecLin_apply, mulVecLin_apply, ← smul_mulVec, ← hs]
  unfold mulVec dotProduct
  rw [← Equiv.sum_comp (eqv h hv hc (k + 1))]
  rfl

section sub
variable {T : Type} [Zero T] [LinearOrder T] {Φ : Filt T} {w : List Nat → Option T}

theorem mem_sublevel_iff (hF : Filt.FInv Φ cells w) (hv : VertexSets cells K0) (hc : ∀ k, cdim B k = (cells k).length)
    {K : T → Finset (Finset Nat)} (hK : ∀ a σ, σ ∈ K a ↔ ∃ x, w (σ.sort (· ≤ ·)) = some x ∧ x ≤ a) (a : T) (k : Nat) (j : Fin (cdim B k)) :
    (eqv hF.inv hv hc k j).1 ∈ K a ↔ j ∈ sublevel B Φ.val k a := by
  have hj : j.1 < (cells k).length := by rw [← hc]; exact j.2
  have hm : (cells k)[j.1] ∈ cells k := List.getElem_mem _
  rw [eqv_val, hK, sort_toFinset_of_sorted (hv.sorted k _ hm)]
  have hrow := congrArg (fun l => l[j.1]?) (hF.row k)
  simp only [List.getElem?_map] at hrow
  rw [List.getElem?_eq_getElem hj, Option.map_some] at hrow
  unfold sublevel
  rw [Set.mem_ofPred_eq]
  constructor
  · rintro ⟨x, h1, h2⟩
    rw [h1] at hrow
    refine ⟨x, ?_, h2⟩
    cases hx : (Φ.val.getD k [])[j.1]? with
    | none => rw [hx] at hrow; cases hrow
    | some y => rw [hx] at hrow; simp at hrow; rw [hrow]
  · rintro ⟨x, h1, h2⟩
    rw [h1] at hrow
    simp at hrow
    exact ⟨x, hrow.symm, h2⟩

variable (hF : Filt.FInv Φ cells w) (hv : VertexSets cells K0) (hc : ∀ k, cdim B k = (cells k).length)
  (hb : ∀ d, d + 1 < X.ncells.length → ∃ M, B[d + 1]? = some M ∧ BdMat cells d M)

/-- chains of a subcomplex as vectors indexed by positions -/
noncomputable def subE (h : Inv X cells) (hv : VertexSets cells K0) (hc : ∀ k, cdim B k = (cells k).length) {L : Finset (Finset Nat)} (hL : L ⊆ K0) (k : Nat) :
    (Simps L (k + 1) → F) →ₗ[F] (Fin (cdim B k) → F) := (toB h hv hc k).toLinearMap ∘ₗ extendChain F hL (k + 1)

theorem subE_inj (h : Inv X cells) (hv : VertexSets cells K0) (hc : ∀ k, cdim B k = (cells k).length) {L : Finset (Finset Nat)} (hL : L ⊆ K0) (k : Nat) :
    Function.Injective (subE (F := F) h hv hc hL k) := by
  intro x y e
  have e' : extendChain F hL (k + 1) x = extendChain F hL (k + 1) y := (toB h hv hc k).injective e
  funext s
  rw [← extendChain_mem F hL (k + 1) x s, e', extendChain_mem]

theorem subE_range (h : Inv X cells) (hv : VertexSets cells K0) (hc : ∀ k, cdim B k = (cells k).length) {L : Finset (Finset Nat)} (hL : L ⊆ K0) (k : Nat)
    (S : Set (Fin (cdim B k))) (hS : ∀ j, (eqv h hv hc k j).1 ∈ L ↔ j ∈ S) :
    LinearMap.range (subE (F := F) h hv hc hL k) = supported S := by
  ext y
  constructor
  · rintro ⟨x, rfl⟩ j hj
    show extendChain F hL (k + 1) x (eqv h hv hc k j) = 0
    exact extendChain_not_mem F hL _ x _ (fun hm => hj ((hS j).1 hm))
  · intro hy
    refine ⟨fun s => y ((eqv h hv hc k).symm ⟨s.1, hL s.2.1, s.2.2⟩), ?_⟩
    funext j
    show extendChain F hL (k + 1) (fun s => y ((eqv h hv hc k).symm ⟨s.1, hL s.2.1, s.2.2⟩)) (eqv h hv hc k j) = y j
    by_cases hj : (eqv h hv hc k j).1 ∈ L
    · have := extendChain_mem F hL (k + 1) (fun s => y ((eqv h hv hc k).symm ⟨s.1, hL s.2.1, s.2.2⟩)) ⟨(eqv h hv hc k j).1, hj, (eqv h hv hc k j).2.2⟩
      refine this.trans ?_
      show y ((eqv h hv hc k).symm (eqv h hv hc k j)) = y j
      rw [Equiv.symm_apply_apply]
    · rw [extendChain_not_mem F hL _ _ _ hj]
      exact (hy j (fun hm => hj ((hS j).2 hm))).symm

theorem subE_boundary (h : Inv X cells) (hv : VertexSets cells K0) (hc : ∀ k, cdim B k = (cells k).length)
    (hb : ∀ d, d + 1 < X.ncells.length → ∃ M, B[d + 1]? = some M ∧ BdMat cells d M) {L : Finset (Finset Nat)} (hL : L ⊆ K0)
    (hLc : IsASC L) (hKc : IsASC K0) (k : Nat) (x : Simps L (k + 1 + 1) → F) :
    subE h hv hc hL k ((simplicialBoundary F L (k + 1)).mulVecLin x) = (-1 : F) ^ k • (bdryUp B k).mulVecLin (subE h hv hc hL (k + 1) x) := by
  unfold subE
  rw [LinearMap.comp_apply, LinearMap.comp_apply, ← extendChain_boundary F hLc hKc hL]
  exact toB_boundary h hv hc hb k _

theorem subE_cycles (h : Inv X cells) (hv : VertexSets cells K0) (hc : ∀ k, cdim B k = (cells k).length)
    (h0 : bdry B 0 = 0) (hb : ∀ d, d + 1 < X.ncells.length → ∃ M, B[d + 1]? = some M ∧ BdMat cells d M) {L : Finset (Finset Nat)} (hL : L ⊆ K0)
    (hLc : IsASC L) (hKc : IsASC K0) (k : Nat) (S : Set (Fin (cdim B k))) (hS : ∀ j, (eqv h hv hc k j).1 ∈ L ↔ j ∈ S) :
    (simpCycles F L k).map (subE h hv hc hL k) = cycles B k ⊓ supported S := by
  have hcyc : ∀ x, x ∈ simpCycles F L k ↔ subE h hv hc hL k x ∈ cycles B k := by
    intro x
    unfold simpCycles cycles
    rw [LinearMap.mem_ker, LinearMap.mem_ker]
    cases k with
    | zero =>
      rw [h0]
      have hemp : IsEmpty (Simps L 0) := by
        constructor
        rintro ⟨σ, h1, h2⟩
        have := hLc.nonempty σ h1
        rw [Finset.card_eq_zero] at h2
        subst h2
        simp at this
      constructor
      · intro _; simp
      · intro _; funext s; exact (hemp.false s).elim
    | succ k =>
      have hse := subE_boundary (F := F) h hv hc hb hL hLc hKc k x
      have hne : (-1 : F) ^ k ≠ 0 := pow_ne_zero _ (neg_ne_zero.2 one_ne_zero)
      show _ ↔ (bdryUp B k).mulVecLin (subE h hv hc hL (k + 1) x) = 0
      constructor
      · intro e
        rw [e, map_zero] at hse
        exact (smul_eq_zero.1 hse.symm).resolve_left hne
      · intro e
        rw [e, smul_zero] at hse
        exact subE_inj h hv hc hL k (by rw [hse, map_zero])
  ext y
  rw [Submodule.mem_map, Submodule.mem_inf]
  constructor
  · rintro ⟨x, hx, rfl⟩
    refine ⟨(hcyc x).1 hx, ?_⟩
    rw [← subE_range h hv hc hL k S hS]
    exact ⟨x, rfl⟩
  · rintro ⟨h1, h2⟩
    rw [← subE_range h hv hc hL k S hS] at h2
    obtain ⟨x, rfl⟩ := h2
    exact ⟨x, (hcyc x).2 h1, rfl⟩

theorem subE_boundaries (h : Inv X cells) (hv : VertexSets cells K0) (hc : ∀ k, cdim B k = (cells k).length)
    (hb : ∀ d, d + 1 < X.ncells.length → ∃ M, B[d + 1]? = some M ∧ BdMat cells d M) {L : Finset (Finset Nat)} (hL : L ⊆ K0)
    (hLc : IsASC L) (hKc : IsASC K0) (k : Nat) (S : Set (Fin (cdim B (k + 1)))) (hS : ∀ j, (eqv h hv hc (k + 1) j).1 ∈ L ↔ j ∈ S) :
    (simpBoundaries F L k).map (subE h hv hc hL k) = (supported S).map (bdryUp B k).mulVecLin := by
  have hne : (-1 : F) ^ k ≠ 0 := pow_ne_zero _ (neg_ne_zero.2 one_ne_zero)
  ext y
  rw [Submodule.mem_map, Submodule.mem_map]
  constructor
  · rintro ⟨_, ⟨x, rfl⟩, rfl⟩
    refine ⟨(-1 : F) ^ k • subE h hv hc hL (k + 1) x, ?_, ?_⟩
    · apply Submodule.smul_mem
      rw [← subE_range h hv hc hL (k + 1) S hS]
      exact ⟨x, rfl⟩
    · rw [map_smul, subE_boundary h hv hc hb hL hLc hKc]
  · rintro ⟨z, hz, rfl⟩
    rw [← subE_range h hv hc hL (k + 1) S hS] at hz
    obtain ⟨x, rfl⟩ := hz
    refine ⟨(simplicialBoundary F L (k + 1)).mulVecLin ((-1 : F) ^ k • x), ⟨_, rfl⟩, ?_⟩
    rw [subE_boundary h hv hc hb hL hLc hKc, map_smul, map_smul, smul_smul, ← mul_pow]
    simp

/-- persistent Betti numbers of the stored filtered chain complex are ranks of maps between simplicial homology groups -/
theorem persistent_simplicial (hF : Filt.FInv Φ cells w) (hv : VertexSets cells K0) (hc : ∀ k, cdim B k = (cells k).length)
    (h0 : bdry B 0 = 0) (hb : ∀ d, d + 1 < Φ.X.ncells.length → ∃ M, B[d + 1]? = some M ∧ BdMat cells d M)
    {K : T → Finset (Finset Nat)} (hK : ∀ a σ, σ ∈ K a ↔ ∃ x, w (σ.sort (· ≤ ·)) = some x ∧ x ≤ a)
    (hsub : ∀ a, K a ⊆ K0) (hKc : ∀ a, IsASC (K a)) (hK0 : IsASC K0) (k : Nat) {s t : T} (hst : s ≤ t) (hs : K s ⊆ K t) :
    Module.finrank F (LinearMap.range (persistenceMap B Φ.val k hst)) =
      Module.finrank F (LinearMap.range (simpInclusion F (hKc s) (hKc t) hs k)) := by
  symm
  refine finrank_mapQ_eq (subE hF.inv hv hc (hsub s) k) (subE hF.inv hv hc (hsub t) k) (extendChain F hs (k + 1))
    (subE_inj _ _ _ _ _) (subE_inj _ _ _ _ _) ?_ _ _ _ _ _ _ _ _ ?_ ?_ ?_ ?_ _ _ _ _
  · intro x
    unfold subE
    rw [LinearMap.comp_apply, LinearMap.comp_apply]
    congr 1
    funext σ
    by_cases h1 : σ.1 ∈ K t
    · have e := extendChain_mem F (hsub t) (k + 1) (extendChain F hs (k + 1) x) ⟨σ.1, h1, σ.2.2⟩
      refine e.trans ?_
      rfl
    · rw [extendChain_not_mem F (hsub t) _ _ _ h1, extendChain_not_mem F (hsub s) _ _ _ (fun h => h1 (hs h))]
  · exact subE_cycles hF.inv hv hc h0 hb (hsub s) (hKc s) hK0 k _ (mem_sublevel_iff hF hv hc hK s k)
  · exact subE_boundaries hF.inv hv hc hb (hsub s) (hKc s) hK0 k _ (mem_sublevel_iff hF hv hc hK s (k + 1))
  · exact subE_cycles hF.inv hv hc h0 hb (hsub t) (hKc t) hK0 k _ (mem_sublevel_iff hF hv hc hK t k)
  · exact subE_boundaries hF.inv hv hc hb (hsub t) (hKc t) hK0 k _ (mem_sublevel_iff hF hv hc hK t (k + 1))

end sub
end SCpx
end BATS
