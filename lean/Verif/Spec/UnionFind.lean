import Verif.Model.UnionFind
import Verif.Spec.Persistence
import Mathlib.SetTheory.Cardinal.Finite

/-!
# Specification: connected components of a filtered graph
-/

namespace BATS
namespace UF

variable {T : Type} [LinearOrder T]

/-- `a` and `b` are the ends of one of the edges `(a, b, value)` with value at most `t` -/
def linkedAt (N : Nat) (es : List (Nat × Nat × T)) (t : T) (a b : Fin N) : Prop := ∃ d, (a.val, b.val, d) ∈ es ∧ d ≤ t

/-- the connected components of the graph at `t`: the quotient of the vertices by the equivalence generated by the edges -/
abbrev Components (N : Nat) (es : List (Nat × Nat × T)) (t : T) : Type := Quot (linkedAt N es t)

/-- the number of connected components at `t` that contain a vertex born at or before `s` -/
noncomputable def componentsHit (N : Nat) (es : List (Nat × Nat × T)) (birth : Nat → T) (s t : T) : Nat :=
  Nat.card {c : Components N es t // ∃ v : Fin N, birth v ≤ s ∧ Quot.mk _ v = c}

/-- every column is the boundary of an edge: a nonzero coefficient and its negative, at two rows -/
def IsGraphBoundary {F : Type} [Field F] (cols : List (SVec F)) : Prop := ∀ c ∈ cols, ∃ (i j : Nat) (x : F), c = [(i, x), (j, -x)] ∧ x ≠ 0

/-- the edges of the graph: the rows of the two entries of each column, and its value -/
def graphEdges {F : Type} [Field F] (cols : List (SVec F)) (vals : List T) : List (Nat × Nat × T) :=
  (cols.zip vals).map (fun p => ((p.1.getD 0 (0, 0)).1, (p.1.getD 1 (0, 0)).1, p.2))

/-- position of the pair `i < j` in the condensed distance vector of `N` points (rows of the upper triangle, one after the other) -/
def condensedIdx (N i j : Nat) : Nat := (i * N - i * (i + 1) / 2) + (j - i - 1)

/-- the points `a < b` are at distance at most `t` -/
def closeAt (N : Nat) (vals : List T) (t : T) (a b : Fin N) : Prop := a < b ∧ ∃ d, vals[condensedIdx N a b]? = some d ∧ d ≤ t

end UF
end BATS
