import Verif.Model.SimplicialMap
import Verif.Spec.Induced

/-!
# Specification: vertex maps which are simplicial
-/

namespace BATS
namespace SMap

/-- the images of the vertices of `x` under the vertex map `f0` -/
def img (f0 x : List Nat) : List Nat := x.map (fun v => f0.getD v 0)

/-- `f0` gives an image to every vertex of every simplex of `X` -/
def Covers (f0 : List Nat) (X : SCpx) : Prop := ∀ x, x ≠ [] → (∃ i, X.findIdx x = some i) → ∀ v ∈ x, v < f0.length

/-- `f0` sends every simplex of `X` to a simplex of `Y` (its vertices sorted) or identifies two of its vertices -/
def Carries (f0 : List Nat) (X Y : SCpx) : Prop :=
  ∀ x, x ≠ [] → (∃ i, X.findIdx x = some i) → (img f0 x).Nodup → ∃ j, Y.findIdx ((img f0 x).mergeSort (· ≤ ·)) = some j

/-- every simplex of `X` is a simplex of `Y` -/
def Contained (X Y : SCpx) : Prop := ∀ x, x ≠ [] → (∃ i, X.findIdx x = some i) → ∃ j, Y.findIdx x = some j

end SMap
end BATS
