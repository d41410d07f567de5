import Verif.Spec.CubicalPersistence
import Verif.Spec.Persistence
import Verif.Proofs.CubicalChain
import Verif.Proofs.SimplicialPersistence

set_option linter.unusedSectionVars false
set_option linter.unusedVariables false
set_option linter.unusedSimpArgs false

/-! # Sublevel homology of the chain complex of a cubical complex is the homology of the cubical sublevel sets -/

namespace BATS
namespace Cub
open Reduction Matrix
open SCpx (Cells)
variable {F : Type} [Field F] [DecidableEq F] {X : Cub} {D : Nat} {cells : Cells} {B : List (CMat F)} {K0 : Finset (List Nat)}

/-- chains of the cubical set as vectors indexed by positions -/
noncomputable def toB (hok : CellsOK D cells) (hK : ∀ s, s ∈ K0 ↔ s ∈ setOf cells) (hc : ∀ k, cdim B k = (cells k).length) (k : Nat) :
    (Cubes D K0 k → F) ≃ₗ[F] (Fin (cdim B k) → F) := LinearEquiv.funCongrLeft F F (eqv hok hK hc k)

theorem toB_apply (hok : CellsOK D cells) (hK : ∀ s, s ∈ K0 ↔ s ∈ setOf cells) (hc : ∀ k, cdim B k = (cells k).length) (k : Nat)
    (x : Cubes D K0 k → F) (j : Fin (cdim B k)) : toB (F := F) hok hK hc k x j = x (eqv hok hK hc k j) := rfl

theorem toB_boundary (hok : CellsOK D cells) (hB : IsCpx D cells B) (hK : ∀ s, s ∈ K0 ↔ s ∈ setOf cells) (hc : ∀ k, cdim B k = (cells k).length)
    (k : Nat) (x : Cubes D K0 (k + 1) → F) :
    toB hok hK hc k ((cubicalBoundary F D K0 k).mulVecLin x) = (bdryUp B k).mulVecLin (toB hok hK hc (k + 1) x) := by
  have hs := boundary_eq hok hB hK hc k
  funext i
  rw [toB_apply, mulVecLin_apply, mulVecLin_apply, ← hs]
  unfold mulVec dotProduct
  rw [← Equiv.sum_comp (eqv hok hK hc (k + 1))]
  rfl

/-- chains of a cubical subset as vectors indexed by positions -/
noncomputable def subE (hok : CellsOK D cells) (hK : ∀ s, s ∈ K0 ↔ s ∈ setOf cells) (hc : ∀ k, cdim B k = (cells k).length)
    {L : Finset (List Nat)} (hL : L ⊆ K0) (k : Nat) : (Cubes D L k → F) →ₗ[F] (Fin (cdim B k) → F) :=
  (toB hok hK hc k).toLinearMap ∘ₗ extendCubes F D hL k

variable (hok : CellsOK D cells) (hK : ∀ s, s ∈ K0 ↔ s ∈ setOf cells) (hc : ∀ k, cdim B k = (cells k).length)
  {L : Finset (List Nat)} (hL : L ⊆ K0)

theorem subE_inj (k : Nat) : Function.Injective (subE (F := F) hok hK hc hL k) := by
  intro x y e
  have e' : extendCubes F D hL k x = extendCubes F D hL k y := (toB hok hK hc k).injective e
  funext s
  rw [← extendCubes_mem F D hL k x s, e', extendCubes_mem]

theorem subE_range (k : Nat) (S : Set (Fin (cdim B k))) (hS : ∀ j, (eqv hok hK hc k j).1 ∈ L ↔ j ∈ S) :
    LinearMap.range (subE (F := F) hok hK hc hL k) = supported S := by
  ext y
  constructor
  · rintro ⟨x, rfl⟩ j hj
    show extendCubes F D hL k x (eqv hok hK hc k j) = 0
    exact extendCubes_not_mem F D hL _ x _ (fun hm => hj ((hS j).1 hm))
  · intro hy
    refine ⟨fun s => y ((eqv hok hK hc k).symm ⟨s.1, hL s.2.1, s.2.2⟩), ?_⟩
    funext j
    show extendCubes F D hL k (fun s => y ((eqv hok hK hc k).symm ⟨s.1, hL s.2.1, s.2.2⟩)) (eqv hok hK hc k j) = y j
    by_cases hj : (eqv hok hK hc k j).1 ∈ L
    · have := extendCubes_mem F D hL k (fun s => y ((eqv hok hK hc k).symm ⟨s.1, hL s.2.1, s.2.2⟩)) ⟨(eqv hok hK hc k j).1, hj, (eqv hok hK hc k j).2.2⟩
      refine this.trans ?_
      show y ((eqv hok hK hc k).symm (eqv hok hK hc k j)) = y j
      rw [Equiv.symm_apply_apply]
    · rw [extendCubes_not_mem F D hL _ _ _ hj]
      exact (hy j (fun hm => hj ((hS j).2 hm))).symm

theorem subE_boundary (hB : IsCpx D cells B) (hLc : IsCubicalSet D L) (k : Nat) (x : Cubes D L (k + 1) → F) :
    subE hok hK hc hL k ((cubicalBoundary F D L k).mulVecLin x) = (bdryUp B k).mulVecLin (subE hok hK hc hL (k + 1) x) := by
  unfold subE
  rw [LinearMap.comp_apply, LinearMap.comp_apply, ← extendCubes_boundary F D hLc hL]
  exact toB_boundary hok hB hK hc k _

theorem subE_cycles (hB : IsCpx D cells B) (h0 : bdry B 0 = 0) (hLc : IsCubicalSet D L) (k : Nat) (S : Set (Fin (cdim B k)))
    (hS : ∀ j, (eqv hok hK hc k j).1 ∈ L ↔ j ∈ S) :
    (cubCycles F D L k).map (subE hok hK hc hL k) = cycles B k ⊓ supported S := by
  have hcyc : ∀ x, x ∈ cubCycles F D L k ↔ subE hok hK hc hL k x ∈ cycles B k := by
    intro x
    cases k with
    | zero =>
      unfold cubCycles cycles
      rw [LinearMap.mem_ker, h0]
      simp
    | succ k =>
      unfold cubCycles cycles
      rw [LinearMap.mem_ker, LinearMap.mem_ker]
      have hse := subE_boundary (F := F) hok hK hc hL hB hLc k x
      show _ ↔ (bdryUp B k).mulVecLin (subE hok hK hc hL (k + 1) x) = 0
      rw [← hse]
      constructor
      · intro e; rw [e, map_zero]
      · intro e; exact subE_inj hok hK hc hL k (by rw [e, map_zero])
  ext y
  rw [Submodule.mem_map, Submodule.mem_inf]
  constructor
  · rintro ⟨x, hx, rfl⟩
    refine ⟨(hcyc x).1 hx, ?_⟩
    rw [← subE_range hok hK hc hL k S hS]
    exact ⟨x, rfl⟩
  · rintro ⟨h1, h2⟩
    rw [← subE_range hok hK hc hL k S hS] at h2
    obtain ⟨x, rfl⟩ := h2
    exact ⟨x, (hcyc x).2 h1, rfl⟩

theorem subE_boundaries (hB : IsCpx D cells B) (hLc : IsCubicalSet D L) (k : Nat) (S : Set (Fin (cdim B (k + 1))))
    (hS : ∀ j, (eqv hok hK hc (k + 1) j).1 ∈ L ↔ j ∈ S) :
    (cubBoundaries F D L k).map (subE hok hK hc hL k) = (supported S).map (bdryUp B k).mulVecLin := by
  ext y
  rw [Submodule.mem_map, Submodule.mem_map]
  constructor
  · rintro ⟨_, ⟨x, rfl⟩, rfl⟩
    refine ⟨subE hok hK hc hL (k + 1) x, ?_, ?_⟩
    · rw [← subE_range hok hK hc hL (k + 1) S hS]
      exact ⟨x, rfl⟩
    · rw [subE_boundary hok hK hc hL hB hLc]
  · rintro ⟨z, hz, rfl⟩
    rw [← subE_range hok hK hc hL (k + 1) S hS] at hz
    obtain ⟨x, rfl⟩ := hz
    exact ⟨(cubicalBoundary F D L k).mulVecLin x, ⟨_, rfl⟩, subE_boundary hok hK hc hL hB hLc k x⟩

section sub
variable {T : Type} [LinearOrder T] {val : List (List T)} {w : List Nat → T}

theorem mem_sublevel_iff (hw : ∀ k, val.getD k [] = (cells k).map w) {K : T → Finset (List Nat)}
    (hKa : ∀ a s, s ∈ K a ↔ s ∈ K0 ∧ w s ≤ a) (a : T) (k : Nat) (j : Fin (cdim B k)) :
    (eqv hok hK hc k j).1 ∈ K a ↔ j ∈ sublevel B val k a := by
  have hj : j.1 < (cells k).length := by rw [← hc]; exact j.2
  have he : (eqv hok hK hc k j).1 = (cells k)[j.1] := rfl
  rw [hKa]
  unfold sublevel
  rw [Set.mem_ofPred_eq, hw, List.getElem?_map, List.getElem?_eq_getElem hj, Option.map_some, he]
  constructor
  · rintro ⟨_, h⟩; exact ⟨_, rfl, h⟩
  · rintro ⟨x, h1, h2⟩
    cases h1
    exact ⟨(eqv hok hK hc k j).2.1, h2⟩

include hok hK hc in
/-- persistent Betti numbers of the filtered chain complex are ranks of maps between cubical homology groups -/
theorem persistent_cubical (hB : IsCpx D cells B) (h0 : bdry B 0 = 0) (hw : ∀ k, val.getD k [] = (cells k).map w) {K : T → Finset (List Nat)}
    (hKa : ∀ a s, s ∈ K a ↔ s ∈ K0 ∧ w s ≤ a) (hKc : ∀ a, IsCubicalSet D (K a)) (k : Nat) {s t : T} (hst : s ≤ t) (hs : K s ⊆ K t) :
    Module.finrank F (LinearMap.range (persistenceMap B val k hst)) =
      Module.finrank F (LinearMap.range (cubInclusion F D (hKc s) hs k)) := by
  have hsub : ∀ a, K a ⊆ K0 := fun a s h => ((hKa a s).1 h).1
  symm
  refine finrank_mapQ_eq (subE hok hK hc (hsub s) k) (subE hok hK hc (hsub t) k) (extendCubes F D hs k)
    (subE_inj _ _ _ _ _) (subE_inj _ _ _ _ _) ?_ _ _ _ _ _ _ _ _ ?_ ?_ ?_ ?_ _ _ _ _
  · intro x
    unfold subE
    rw [LinearMap.comp_apply, LinearMap.comp_apply]
    congr 1
    funext σ
    by_cases h1 : σ.1 ∈ K t
    · have e := extendCubes_mem F D (hsub t) k (extendCubes F D hs k x) ⟨σ.1, h1, σ.2.2⟩
      refine e.trans ?_
      rfl
    · rw [extendCubes_not_mem F D (hsub t) _ _ _ h1, extendCubes_not_mem F D (hsub s) _ _ _ (fun h => h1 (hs h))]
  · exact subE_cycles hok hK hc (hsub s) hB h0 (hKc s) k _ (mem_sublevel_iff hok hK hc hw hKa s k)
  · exact subE_boundaries hok hK hc (hsub s) hB (hKc s) k _ (mem_sublevel_iff hok hK hc hw hKa s (k + 1))
  · exact subE_cycles hok hK hc (hsub t) hB h0 (hKc t) k _ (mem_sublevel_iff hok hK hc hw hKa t k)
  · exact subE_boundaries hok hK hc (hsub t) hB (hKc t) k _ (mem_sublevel_iff hok hK hc hw hKa t (k + 1))

end sub
end Cub
end BATS
