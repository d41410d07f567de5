import Verif.Spec.Pair

/-! # Specification: the product of two simplicial complexes (staircase triangulation) -/

namespace BATS
namespace SCpx

/-- a chain in the product order: both coordinates weakly increase, consecutive points differ -/
def ProductChain (c : List (Nat × Nat)) : Prop := c.Pairwise (fun p q => p.1 ≤ q.1 ∧ p.2 ≤ q.2 ∧ p ≠ q)

/-- the simplices of the product: nonempty chains in `σ × τ` for simplices `σ` of `X`, `τ` of `Y` with `dim σ + dim τ ≤ k`; the vertex `(i, j)` is written
`i + n * j` -/
def productSimplices (X Y : SCpx) (n k : Nat) : Set (List Nat) :=
  {s | ∃ c : List (Nat × Nat), s = c.map (fun p => p.1 + n * p.2) ∧ c ≠ [] ∧ ProductChain c ∧
    ∃ σ ∈ simplices X, ∃ τ ∈ simplices Y, σ.length + τ.length ≤ k + 2 ∧ ∀ p ∈ c, p.1 ∈ σ ∧ p.2 ∈ τ}

end SCpx
end BATS
