import Verif.Spec.ZigzagFilt
import Verif.Model.Simplicial
import Mathlib.Algebra.Order.Group.Abs
import Mathlib.Algebra.Order.Group.Unbundled.Abs

/-!
# Specification: thickened level sets of a function on the vertices
-/

namespace BATS
namespace Zigzag

variable {T : Type} [LinearOrder T]

/-- the vertex sets of the simplices present at `t` -/
def IsComplexAt (X : SCpx) (vals : List (List (List (T × T)))) (t : T) (L : Finset (Finset Nat)) : Prop :=
  ∀ σ : Finset Nat, σ ∈ L ↔ σ.Nonempty ∧ ∃ i, X.findIdx (σ.sort (· ≤ ·)) = some i ∧ ∃ v ∈ intervals vals (σ.card - 1) i, v.1 ≤ t ∧ t ≤ v.2

variable [AddCommGroup T]

/-- all vertices of `s` have values within `eps` of `t` -/
def Near (f0 : List T) (eps : T) (s : List Nat) (t : T) : Prop := ∀ v ∈ s, |f0.getD v 0 - t| ≤ eps

/-- `vals` holds the presence times of the simplices of `X`: the simplex is present at `t` if and only if `P s t` -/
def PresentIff (X : SCpx) (vals : List (List (List (T × T)))) (P : List Nat → T → Prop) : Prop :=
  ∀ s i, s ≠ [] → X.findIdx s = some i → ∀ t, (∃ v ∈ intervals vals (s.length - 1) i, v.1 ≤ t ∧ t ≤ v.2) ↔ P s t

end Zigzag
end BATS
