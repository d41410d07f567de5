import Verif.Spec.DG
import Verif.Spec.Induced
import Verif.Spec.Diagram
import Verif.Model.DGMap

/-! # Specification: augmented complexes, maps of DG vector spaces -/

namespace BATS
open Matrix

variable {F : Type _} [Field F]

/-- the boundary in dimension 0 is zero (`b = false`), or the augmentation, the row of ones (`b = true`; the homology of the complex is then reduced homology) -/
def Degree0 (b : Bool) (A : List (CMat F)) : Prop :=
  if b then rdim A 0 = 1 ∧ ∀ j, j < cdim A 0 → ent A 0 0 j = 1 else ZeroBdry0 A

/-- replace the boundary in dimension 0 by the augmentation -/
def augmentedComplex (B : List (CMat F)) : List (CMat F) := ⟨1, (List.range (cdim B 0)).map (fun _ => [(0, 1)])⟩ :: B.tail

/-- `D` is a diagram of DG vector spaces of degree `-1` over the diagram `A` of chain complexes and chain maps: the node of `D` is the DG vector space made
from the complex at the node (with an augmentation if `b = true`), and the edges are the same -/
structure IsDGDiagram {F : Type} [Field F] [DecidableEq F] (b : Bool) (A : Diagram (List (CMat F)) (List (CMat F))) (D : Diagram (DGVS F) (List (CMat F))) : Prop where
  chain : IsChainDiagram A
  zero : ∀ B ∈ A.node, Degree0 b B
  node : List.Forall₂ (fun B V => DGVS.ofComplex (-1) b B = .ok V) A.node D.node
  edata : D.edata = A.edata
  elist : D.elist = A.elist

/-- `M` is the matrix of the map on `H_k` induced by `f : B → B'` in the bases of the preferred representatives of the reduced DG vector spaces -/
def RepresentsOnDGHomology {F : Type} [Field F] [DecidableEq F] (M : CMat F) (f : List (CMat F)) (B B' : List (CMat F)) (X X' : RedDG F) (k : Nat) : Prop :=
  ∃ (b b' : Nat) (rep : Fin b → SVec F) (rep' : Fin b' → SVec F), M.Shape b' b ∧ X.hdim k = .ok b ∧ X'.hdim k = .ok b' ∧
    (∀ g, X.getPreferredRepresentative g.val k = .ok (rep g)) ∧ (∀ h, X'.getPreferredRepresentative h.val k = .ok (rep' h)) ∧
    ∀ (z : Fin (cdim B k) → F) (c : Fin b → F), z - ∑ g, c g • vecOf (cdim B k) (rep g) ∈ boundaries B k →
      cmap f B B' k *ᵥ z - ∑ h, (M.mat b' b *ᵥ c) h • vecOf (cdim B' k) (rep' h) ∈ boundaries B' k

end BATS
