import Verif.Model.Nerve
import Verif.Spec.Diagram

/-!
# Specification: the nerve of a cover, maps of covers
-/

namespace BATS
namespace Nrv

/-- every set of the cover is listed in increasing order, as the iteration over a `std::set` does -/
def IsCover (cover : List (List Nat)) : Prop := ∀ c ∈ cover, c.Pairwise (· < ·)

/-- `s` lists, in increasing order, at most `D + 1` sets of the cover; if there are at least two, they have a common point -/
structure IsNerveSimplex (cover : List (List Nat)) (D : Nat) (s : List Nat) : Prop where
  ne : s ≠ []
  inc : s.Pairwise (· < ·)
  lt : ∀ a ∈ s, a < cover.length
  len : s.length ≤ D + 1
  common : 2 ≤ s.length → ∃ x, ∀ a ∈ s, x ∈ cover.getD a []

/-- `f` assigns to every set of `c` a set of `c'` which contains it -/
def IsCoverMap (c c' : List (List Nat)) (f : List Nat) : Prop :=
  c.length ≤ f.length ∧ ∀ i, i < c.length → f.getD i 0 < c'.length ∧ ∀ x ∈ c.getD i [], x ∈ c'.getD (f.getD i 0) []

/-- a diagram of covers and assignments which respect inclusion -/
structure IsCoverDiagram (D : Diagram (List (List Nat)) (List Nat)) : Prop where
  node : ∀ c ∈ D.node, IsCover c
  edges : D.HasEdges IsCoverMap

end Nrv
end BATS

namespace BATS
namespace Nrv

/-- the nerve of a cover, without bound on the dimension: all vertices, and the sets of at least two indices whose cover sets have a common point -/
noncomputable def nerveComplex (cover : List (List Nat)) : Finset (Finset Nat) := by
  classical
  exact (Finset.range cover.length).powerset.filter (fun σ => σ.Nonempty ∧ (2 ≤ σ.card → ∃ x, ∀ a ∈ σ, x ∈ cover.getD a []))

end Nrv
end BATS
