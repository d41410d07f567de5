import Verif.Model.Light
import Mathlib.Data.Set.Basic
import Mathlib.Data.Nat.Digits.Defs

/-! # Specification: histories of additions to a light complex with vertices `0, .., n-1` and dimension at most `k` -/

namespace BATS
namespace Light

/-- the simplex passed to a call -/
def Op.simplex : Op → List Nat
  | .add s | .addRecursive s => s

/-- what a call does to the set of simplices: `add` stores one simplex, `add_recursive` also all its faces -/
def specStep (K : Set (List Nat)) : Op → Set (List Nat)
  | .add s => {t | t ∈ K ∨ t = s}
  | .addRecursive s => {t | t ∈ K ∨ (t ≠ [] ∧ t.Sublist s)}

/-- the set of simplices after a history -/
def specRun (ops : List Op) : Set (List Nat) := ops.foldl specStep ∅

/-- a simplex that fits the parameters -/
def Valid (n k : Nat) (s : List Nat) : Prop := s ≠ [] ∧ s.length ≤ k + 1 ∧ ∀ x ∈ s, x < n

/-- the obligations of the caller: valid simplices; before `add` of a simplex with more than one vertex its faces are stored -/
def Allowed (n k : Nat) (K : Set (List Nat)) : Op → Prop
  | .add s => Valid n k s ∧ (s.length = 1 ∨ ∀ i, i < s.length → s.eraseIdx i ∈ K)
  | .addRecursive s => Valid n k s

/-- every call of the history meets them -/
def AllowedRun (n k : Nat) : Set (List Nat) → List Op → Prop
  | _, [] => True
  | K, o :: os => Allowed n k K o ∧ AllowedRun n k (specStep K o) os

/-- the queries on `L` describe exactly the set `K` -/
structure Represents (L : Light) (n k : Nat) (K : Set (List Nat)) : Prop where
  dims : L.maxdim = k
  valid : ∀ s ∈ K, Valid n k s
  found : ∀ s, Valid n k s → ∃ r, L.findIdx s = .ok r ∧ (s ∈ K ↔ ∃ i, r = some i)
  range : ∀ s ∈ K, ∀ i, L.findIdx s = .ok (some i) → ∃ c, L.numCells (s.length - 1) = .ok c ∧ i < c ∧ L.getSimplex (s.length - 1) i = .ok s
  count : ∀ d, d ≤ k → ∃ c, L.numCells d = .ok c ∧ ∀ i, i < c → ∃ s ∈ K, s.length = d + 1 ∧ L.findIdx s = .ok (some i)

end Light
end BATS
