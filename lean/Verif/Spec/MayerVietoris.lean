import Verif.Spec.Pair
import Verif.Spec.Homology
import Mathlib.LinearAlgebra.Finsupp.LinearCombination

/-!
# Specification: chains as functions on simplices, the Mayer-Vietoris connecting homomorphism
-/

namespace BATS

/-- the boundary of ordered simplices: `∂ [v0, .., vn] = Σ_l (-1)^l [v0, .., omit vl, .., vn]`, on finitely supported functions on lists of vertices -/
noncomputable def orderedBoundary (F : Type) [Field F] : (List Nat →₀ F) →ₗ[F] (List Nat →₀ F) :=
  Finsupp.linearCombination F (fun s => ∑ l ∈ Finset.range s.length, Finsupp.single (s.eraseIdx l) ((-1 : F) ^ l))

namespace SCpx

/-- the `i`-th simplex of dimension `k` of `X` -/
def simplexAt (X : SCpx) (k i : Nat) : List Nat :=
  match X.getSimplex k i with
  | .ok s => s
  | .error _ => []

/-- a vector of coefficients as a function on the simplices -/
noncomputable def chainFn {F : Type} [Field F] (X : SCpx) (k : Nat) {n : Nat} (c : Fin n → F) : List Nat →₀ F :=
  ∑ i : Fin n, Finsupp.single (X.simplexAt k i.val) (c i)

/-- the chain `c` is a combination of simplices of `A` -/
def ChainOn {F : Type} [Field F] (A : SCpx) (c : List Nat →₀ F) : Prop := ∀ s, c s ≠ 0 → s ∈ simplices A

end SCpx
end BATS
