import Verif.Spec.Homology

/-!
# Specification: cohomology, reduced homology and cohomology

For a chain complex with boundary maps `d_k : C_k → C_{k-1}`, the cochain maps are the transposes.
-/

namespace BATS
open Matrix

variable {F : Type _} [Field F]

/-- cocycles of dimension `k`: the kernel of the transpose of `d_{k+1}` -/
def cocycles (B : List (CMat F)) (k : Nat) : Submodule F (Fin (cdim B k) → F) := LinearMap.ker (bdryUp B k)ᵀ.mulVecLin

/-- coboundaries of dimension `k`: the image of the transpose of `d_k` -/
def coboundaries (B : List (CMat F)) (k : Nat) : Submodule F (Fin (cdim B k) → F) := LinearMap.range (bdry B k)ᵀ.mulVecLin

/-- cohomology `H^k` -/
abbrev Cohomology (B : List (CMat F)) (k : Nat) : Type _ := cocycles B k ⧸ (coboundaries B k).submoduleOf (cocycles B k)

/-- the augmentation `C_0 → F`, the sum of the coefficients -/
def augMat (B : List (CMat F)) : Matrix (Fin 1) (Fin (cdim B 0)) F := Matrix.of fun _ _ => 1

/-- the augmentation vanishes on boundaries: the entries of every column of the first boundary matrix sum to zero (true of
simplicial, cubical and regular cell complexes) -/
def Augmentable (B : List (CMat F)) : Prop := ∀ j : Fin (cdim B 1), ∑ i : Fin (cdim B 0), bdryUp B 0 i j = 0

/-- cycles of the augmented complex -/
def augCycles (B : List (CMat F)) : (k : Nat) → Submodule F (Fin (cdim B k) → F)
  | 0 => LinearMap.ker (augMat B).mulVecLin
  | k + 1 => cycles B (k + 1)

/-- coboundaries of the augmented complex -/
def augCoboundaries (B : List (CMat F)) : (k : Nat) → Submodule F (Fin (cdim B k) → F)
  | 0 => LinearMap.range (augMat B)ᵀ.mulVecLin
  | k + 1 => coboundaries B (k + 1)

/-- reduced homology -/
abbrev ReducedHomology (B : List (CMat F)) (k : Nat) : Type _ := augCycles B k ⧸ (boundaries B k).submoduleOf (augCycles B k)

/-- reduced cohomology -/
abbrev ReducedCohomology (B : List (CMat F)) (k : Nat) : Type _ := cocycles B k ⧸ (augCoboundaries B k).submoduleOf (cocycles B k)

end BATS
