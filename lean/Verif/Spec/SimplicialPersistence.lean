import Verif.Spec.Simplicial

set_option linter.unusedSectionVars false
set_option linter.unusedVariables false

/-!
# Specification: homology of abstract simplicial complexes and the maps induced by inclusions
-/

namespace BATS

/-- an abstract simplicial complex: nonempty vertex sets, closed under nonempty subsets -/
structure IsASC (K : Finset (Finset Nat)) : Prop where
  nonempty : ∀ s ∈ K, s.Nonempty
  down : ∀ s ∈ K, ∀ t, t ⊆ s → t.Nonempty → t ∈ K

section
variable (F : Type) [Field F] {K L : Finset (Finset Nat)}

/-- simplicial cycles -/
def simpCycles (K : Finset (Finset Nat)) (k : Nat) : Submodule F (Simps K (k + 1) → F) := LinearMap.ker (simplicialBoundary F K k).mulVecLin

/-- simplicial boundaries -/
def simpBoundaries (K : Finset (Finset Nat)) (k : Nat) : Submodule F (Simps K (k + 1) → F) :=
  LinearMap.range (simplicialBoundary F K (k + 1)).mulVecLin

/-- simplicial homology `H_k(K; F)` -/
abbrev SimpHomology (K : Finset (Finset Nat)) (k : Nat) : Type := simpCycles F K k ⧸ (simpBoundaries F K k).submoduleOf (simpCycles F K k)

/-- inclusion of chains: the coefficients of simplices outside `K` are zero -/
def extendChain (h : K ⊆ L) (n : Nat) : (Simps K n → F) →ₗ[F] (Simps L n → F) where
  toFun x s := if hs : s.1 ∈ K then x ⟨s.1, hs, s.2.2⟩ else 0
  map_add' x y := by
    funext s
    show (if hs : s.1 ∈ K then (x + y) ⟨s.1, hs, s.2.2⟩ else 0) = (if hs : s.1 ∈ K then x ⟨s.1, hs, s.2.2⟩ else 0) + (if hs : s.1 ∈ K then y ⟨s.1, hs, s.2.2⟩ else 0)
    split <;> simp
  map_smul' c x := by
    funext s
    show (if hs : s.1 ∈ K then (c • x) ⟨s.1, hs, s.2.2⟩ else 0) = c * (if hs : s.1 ∈ K then x ⟨s.1, hs, s.2.2⟩ else 0)
    split <;> simp

theorem extendChain_mem (h : K ⊆ L) (n : Nat) (x : Simps K n → F) (s : Simps K n) : extendChain F h n x ⟨s.1, h s.2.1, s.2.2⟩ = x s := by
  show (if hs : s.1 ∈ K then _ else _) = _
  rw [dif_pos s.2.1]

theorem extendChain_not_mem (h : K ⊆ L) (n : Nat) (x : Simps K n → F) (s : Simps L n) (hs : s.1 ∉ K) : extendChain F h n x s = 0 := by
  show (if hs : s.1 ∈ K then _ else _) = _
  rw [dif_neg hs]

/-- inclusion is a chain map -/
theorem extendChain_boundary (hK : IsASC K) (hL : IsASC L) (h : K ⊆ L) (n : Nat) (x : Simps K (n + 1) → F) :
    (simplicialBoundary F L n).mulVecLin (extendChain F h (n + 1) x) = extendChain F h n ((simplicialBoundary F K n).mulVecLin x) := by
  funext t
  rw [Matrix.mulVecLin_apply]
  have key : (Matrix.mulVec (simplicialBoundary F L n) (extendChain F h (n + 1) x)) t =
      ∑ s : Simps K (n + 1), simplicialBoundary F L n t ⟨s.1, h s.2.1, s.2.2⟩ * x s := by
    unfold Matrix.mulVec dotProduct
    symm
    apply Fintype.sum_of_injective (fun s : Simps K (n + 1) => (⟨s.1, h s.2.1, s.2.2⟩ : Simps L (n + 1)))
    · intro a b e
      exact Subtype.ext (congrArg (fun s : Simps L (n + 1) => s.1) e)
    · intro s hs
      rw [extendChain_not_mem, mul_zero]
      intro hm
      exact hs ⟨⟨s.1, hm, s.2.2⟩, rfl⟩
    · intro s
      rw [extendChain_mem]
  rw [key]
  by_cases ht : t.1 ∈ K
  · have := extendChain_mem F h n ((simplicialBoundary F K n).mulVecLin x) ⟨t.1, ht, t.2.2⟩
    rw [this, Matrix.mulVecLin_apply]
    rfl
  · rw [extendChain_not_mem _ _ _ _ _ ht]
    apply Finset.sum_eq_zero
    intro s _
    have : simplicialBoundary F L n t ⟨s.1, h s.2.1, s.2.2⟩ = 0 := by
      unfold simplicialBoundary
      apply Finset.sum_eq_zero
      intro v hv
      rw [if_neg]
      intro e
      apply ht
      have e' : s.1.erase v = t.1 := e
      rw [← e']
      exact hK.down _ s.2.1 _ (Finset.erase_subset _ _) (by rw [e']; exact hL.nonempty _ t.2.1)
    rw [this, zero_mul]

/-- the map `H_k(K) → H_k(L)` induced by the inclusion `K ⊆ L` -/
def simpInclusion (hK : IsASC K) (hL : IsASC L) (h : K ⊆ L) (k : Nat) : SimpHomology F K k →ₗ[F] SimpHomology F L k :=
  Submodule.mapQ _ _
    ((extendChain F h (k + 1)).restrict (p := simpCycles F K k) (q := simpCycles F L k) (by
      intro x hx
      unfold simpCycles at hx ⊢
      rw [LinearMap.mem_ker] at hx ⊢
      rw [extendChain_boundary F hK hL h, hx, map_zero]))
    (by
      rintro ⟨x, hx⟩ ⟨y, hy⟩
      refine ⟨extendChain F h (k + 1 + 1) y, ?_⟩
      rw [extendChain_boundary F hK hL h (k + 1), hy]
      rfl)

end
end BATS
