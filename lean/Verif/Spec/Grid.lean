import Verif.Spec.Cubical
import Mathlib.Order.Basic
import Mathlib.Algebra.Notation.Prod
import Mathlib.Algebra.Order.Group.Nat

/-!
# Specification: Freudenthal triangulations

Points of the grid are pairs or triples of numbers, ordered coordinatewise (the order of `ℕ × ℕ`, `ℕ × ℕ × ℕ`); `1` is `(1, .., 1)`.
-/

namespace BATS
namespace Grid

/-- a simplex of the Freudenthal triangulation of `ℝ^d`, with its vertices in order: lattice points increasing in the coordinatewise order, all in one
unit cube -/
def IsChain {P : Type} [Preorder P] [Add P] [One P] (l : List P) : Prop := l ≠ [] ∧ l.Pairwise (· < ·) ∧ ∀ p ∈ l, ∀ q ∈ l, q ≤ p + 1

/-- the simplices of the Freudenthal triangulation with vertices in the set `B`; vertices are named by `name` -/
def triangulation {P : Type} [Preorder P] [Add P] [One P] (B : Set P) (name : P → Nat) : Set (List Nat) :=
  {t | ∃ l : List P, IsChain l ∧ (∀ p ∈ l, p ∈ B) ∧ t = l.map name}

/-- row-major index of a point in a grid with `n` columns -/
def rowMajor2 (n : Nat) (p : Nat × Nat) : Nat := p.1 * n + p.2

/-- row-major index of a point in a `_ × n2 × n3` grid -/
def rowMajor3 (n2 n3 : Nat) (p : Nat × Nat × Nat) : Nat := (p.1 * n2 + p.2.1) * n3 + p.2.2

/-- the points with coordinates in `[i0, i1)`, `[j0, j1)`, `[k0, k1)` -/
def box3 (i0 i1 j0 j1 k0 k1 : Nat) : Set (Nat × Nat × Nat) :=
  {p | (i0 ≤ p.1 ∧ p.1 < i1) ∧ (j0 ≤ p.2.1 ∧ p.2.1 < j1) ∧ (k0 ≤ p.2.2 ∧ p.2.2 < k1)}

/-- the lattice points of the cube `s` -/
def corners (s : List Nat) : Set (Nat × Nat × Nat) :=
  {p | (lo s 0 ≤ p.1 ∧ p.1 ≤ hi s 0) ∧ (lo s 1 ≤ p.2.1 ∧ p.2.1 ≤ hi s 1) ∧ (lo s 2 ≤ p.2.2 ∧ p.2.2 ≤ hi s 2)}

/-- the cube `s` of `ℝ^3` lies in `[i0, i1] × [j0, j1] × [k0, k1]` -/
def CubeIn (i0 i1 j0 j1 k0 k1 : Nat) (s : List Nat) : Prop :=
  IsCube 3 s ∧ (i0 ≤ lo s 0 ∧ hi s 0 ≤ i1) ∧ (j0 ≤ lo s 1 ∧ hi s 1 ≤ j1) ∧ (k0 ≤ lo s 2 ∧ hi s 2 ≤ k1)

end Grid
end BATS
