import Verif.Proofs.RelativeLin
import Verif.Spec.Simplicial

set_option linter.unusedSectionVars false
set_option linter.unusedSimpArgs false
set_option linter.unusedVariables false

/-! # Simplicial homology in degree `k` depends on the simplices with at most `k + 2` vertices only -/

namespace BATS
open Matrix Module

variable {F : Type} [Field F]

/-- the simplices with `n` vertices of two complexes which agree there -/
def simpsEquiv {K K' : Finset (Finset Nat)} {n : Nat} (h : ∀ σ : Finset Nat, σ.card = n → (σ ∈ K ↔ σ ∈ K')) : Simps K n ≃ Simps K' n where
  toFun s := ⟨s.1, (h s.1 s.2.2).1 s.2.1, s.2.2⟩
  invFun s := ⟨s.1, (h s.1 s.2.2).2 s.2.1, s.2.2⟩
  left_inv _ := rfl
  right_inv _ := rfl

theorem boundary_equiv {K K' : Finset (Finset Nat)} {n : Nat} (h : ∀ σ : Finset Nat, σ.card = n → (σ ∈ K ↔ σ ∈ K'))
    (h' : ∀ σ : Finset Nat, σ.card = n + 1 → (σ ∈ K ↔ σ ∈ K')) :
    simplicialBoundary F K' n = (simplicialBoundary F K n).submatrix (simpsEquiv h).symm (simpsEquiv h').symm := by
  ext t s; rfl

theorem simplicialBetti_congr {K K' : Finset (Finset Nat)} {k : Nat} (h : ∀ σ : Finset Nat, σ.card ≤ k + 2 → (σ ∈ K ↔ σ ∈ K')) :
    simplicialBetti F K k = simplicialBetti F K' k := by
  have h0 : ∀ σ : Finset Nat, σ.card = k → (σ ∈ K ↔ σ ∈ K') := fun σ e => h σ (by omega)
  have h1 : ∀ σ : Finset Nat, σ.card = k + 1 → (σ ∈ K ↔ σ ∈ K') := fun σ e => h σ (by omega)
  have h2 : ∀ σ : Finset Nat, σ.card = k + 1 + 1 → (σ ∈ K ↔ σ ∈ K') := fun σ e => h σ (by omega)
  have hmv : ∀ x, (simplicialBoundary F K' k).mulVecLin (LinearEquiv.funCongrLeft F F (simpsEquiv h1).symm x) =
      LinearEquiv.funCongrLeft F F (simpsEquiv h0).symm ((simplicialBoundary F K k).mulVecLin x) := by
    intro x
    rw [boundary_equiv h0 h1]
    show ((simplicialBoundary F K k).submatrix _ _) *ᵥ (x ∘ (simpsEquiv h1).symm) = ((simplicialBoundary F K k) *ᵥ x) ∘ (simpsEquiv h0).symm
    rw [Matrix.submatrix_mulVec_equiv]
    congr 1
  have hmv' : ∀ x, (simplicialBoundary F K' (k + 1)).mulVecLin (LinearEquiv.funCongrLeft F F (simpsEquiv h2).symm x) =
      LinearEquiv.funCongrLeft F F (simpsEquiv h1).symm ((simplicialBoundary F K (k + 1)).mulVecLin x) := by
    intro x
    rw [boundary_equiv h1 h2]
    show ((simplicialBoundary F K (k + 1)).submatrix _ _) *ᵥ (x ∘ (simpsEquiv h2).symm) = ((simplicialBoundary F K (k + 1)) *ᵥ x) ∘ (simpsEquiv h1).symm
    rw [Matrix.submatrix_mulVec_equiv]
    congr 1
  have hker : LinearMap.ker (simplicialBoundary F K' k).mulVecLin =
      (LinearMap.ker (simplicialBoundary F K k).mulVecLin).map (LinearEquiv.funCongrLeft F F (simpsEquiv h1).symm).toLinearMap := by
    ext y
    obtain ⟨x, rfl⟩ := (LinearEquiv.funCongrLeft F F (simpsEquiv h1).symm).surjective y
    rw [LinearMap.mem_ker, hmv, Submodule.mem_map]
    constructor
    · intro e
      refine ⟨x, ?_, rfl⟩
      rw [LinearMap.mem_ker]
      exact (LinearEquiv.map_eq_zero_iff _).1 e
    · rintro ⟨x', hx', e⟩
      have : x' = x := (LinearEquiv.funCongrLeft F F (simpsEquiv h1).symm).injective e
      subst this
      rw [LinearMap.mem_ker] at hx'
      rw [hx', map_zero]
  have hrange : LinearMap.range (simplicialBoundary F K' (k + 1)).mulVecLin =
      (LinearMap.range (simplicialBoundary F K (k + 1)).mulVecLin).map (LinearEquiv.funCongrLeft F F (simpsEquiv h1).symm).toLinearMap := by
    ext y
    rw [LinearMap.mem_range, Submodule.mem_map]
    constructor
    · rintro ⟨z, rfl⟩
      obtain ⟨x, rfl⟩ := (LinearEquiv.funCongrLeft F F (simpsEquiv h2).symm).surjective z
      exact ⟨_, ⟨x, rfl⟩, (hmv' x).symm⟩
    · rintro ⟨_, ⟨x, rfl⟩, e⟩
      exact ⟨_, (hmv' x).trans e⟩
  have hq : ∀ {V : Type} [AddCommGroup V] [Module F V] [FiniteDimensional F V] (Z B : Submodule F V),
      finrank F (Z ⧸ B.submoduleOf Z) + finrank F (B ⊓ Z : Submodule F V) = finrank F Z := by
    intro V _ _ _ Z B
    have := Submodule.finrank_quotient_add_finrank (B.submoduleOf Z)
    rw [finrank_submoduleOf] at this
    first | exact this | (rw [inf_comm]; exact this)
  unfold simplicialBetti
  have e1 := hq (LinearMap.ker (simplicialBoundary F K k).mulVecLin) (LinearMap.range (simplicialBoundary F K (k + 1)).mulVecLin)
  have e2 := hq (LinearMap.ker (simplicialBoundary F K' k).mulVecLin) (LinearMap.range (simplicialBoundary F K' (k + 1)).mulVecLin)
  have hinf : (LinearMap.range (simplicialBoundary F K' (k + 1)).mulVecLin ⊓ LinearMap.ker (simplicialBoundary F K' k).mulVecLin) =
      (LinearMap.range (simplicialBoundary F K (k + 1)).mulVecLin ⊓ LinearMap.ker (simplicialBoundary F K k).mulVecLin).map
        (LinearEquiv.funCongrLeft F F (simpsEquiv h1).symm).toLinearMap := by
    rw [hker, hrange, Submodule.map_inf _ (LinearEquiv.injective _)]
  have f1 : finrank F (LinearMap.ker (simplicialBoundary F K' k).mulVecLin) = finrank F (LinearMap.ker (simplicialBoundary F K k).mulVecLin) := by
    rw [hker]; exact LinearEquiv.finrank_map_eq _ _
  have f2 : finrank F (LinearMap.range (simplicialBoundary F K' (k + 1)).mulVecLin ⊓ LinearMap.ker (simplicialBoundary F K' k).mulVecLin : Submodule F _) =
      finrank F (LinearMap.range (simplicialBoundary F K (k + 1)).mulVecLin ⊓ LinearMap.ker (simplicialBoundary F K k).mulVecLin : Submodule F _) := by
    rw [hinf]; exact LinearEquiv.finrank_map_eq _ _
  omega

end BATS
