import Verif.Spec.Homology

/-!
# Specification: chain maps
-/

namespace BATS
open Matrix

variable {F : Type _} [Field F]

/-- the `k`-th component of a chain map as a matrix `C_k → C'_k` -/
def cmap (f : List (CMat F)) (B B' : List (CMat F)) (k : Nat) : Matrix (Fin (cdim B' k)) (Fin (cdim B k)) F :=
  matOf (cdim B' k) (cdim B k) (f.getD k ⟨0, []⟩).cols

/-- `f` is a chain map from `B` to `B'`: well-formed matrices of the right shapes commuting with the boundary maps; in
dimension 0, cycles go to cycles (automatic unless the 0-th boundary of `B'` is an augmentation) -/
structure IsChainMap (f : List (CMat F)) (B B' : List (CMat F)) : Prop where
  shape : ∀ k, k < B.length → k < B'.length → k < f.length ∧ (f.getD k ⟨0, []⟩).Shape (cdim B' k) (cdim B k)
  comm : ∀ k, bdryUp B' k * cmap f B B' (k + 1) = cmap f B B' k * bdryUp B k
  zero : ∀ z ∈ cycles B 0, cmap f B B' 0 *ᵥ z ∈ cycles B' 0

end BATS
