import Verif.Model.Simplicial
import Mathlib.Data.Set.Basic
import Mathlib.Data.Finset.Sort
import Mathlib.LinearAlgebra.Matrix.ToLin
import Mathlib.LinearAlgebra.Dimension.Finrank
import Mathlib.LinearAlgebra.Quotient.Basic

/-!
# Specification: histories of additions to a complex, simplicial homology

A simplex is a nonempty list of vertices. A complex is specified by the set of its simplices.
-/

namespace BATS

namespace SCpx

/-- the simplex passed to a call -/
def Op.simplex : Op → List Nat
  | .add s | .addDirected s | .addRecursive s | .addDirectedRecursive s => s

/-- adding one simplex to a set of simplices: accepted if it is a vertex or all its codimension-one faces are present -/
def specAdd (K : Set (List Nat)) (s : List Nat) : Set (List Nat) :=
  {t | t ∈ K ∨ (t = s ∧ (s.length = 1 ∨ ∀ k, k < s.length → s.eraseIdx k ∈ K))}

/-- adding one simplex together with all its faces (nonempty subsequences) -/
def specAddRec (K : Set (List Nat)) (s : List Nat) : Set (List Nat) := {t | t ∈ K ∨ (t ≠ [] ∧ t.Sublist s)}

/-- what a call does to the set of simplices; `add` and `add_recursive` sort the vertices first -/
def specStep (K : Set (List Nat)) : Op → Set (List Nat)
  | .add s => specAdd K (s.mergeSort (· ≤ ·))
  | .addDirected s => specAdd K s
  | .addRecursive s => specAddRec K (s.mergeSort (· ≤ ·))
  | .addDirectedRecursive s => specAddRec K s

/-- the set of simplices after a history -/
def specRun (ops : List Op) : Set (List Nat) := ops.foldl specStep ∅

/-- the queries on `X` describe exactly the set `K`: `find_idx` finds the members and nothing else, and for every dimension
`d ≤ maxdim()` it is a bijection between the members with `d+1` vertices and the positions `0, .., ncells(d) - 1`, whose inverse
is `get_simplex`. -/
structure Represents (X : SCpx) (K : Set (List Nat)) : Prop where
  found : ∀ s, s ≠ [] → (s ∈ K ↔ ∃ i, X.findIdx s = some i)
  dim : ∀ s ∈ K, s ≠ [] ∧ s.length ≤ X.maxdim + 1
  range : ∀ s ∈ K, ∀ i, X.findIdx s = some i → ∃ n, X.numCells (s.length - 1) = .ok n ∧ i < n ∧ X.getSimplex (s.length - 1) i = .ok s
  count : ∀ d, d ≤ X.maxdim → ∃ n, X.numCells d = .ok n ∧ ∀ i, i < n → ∃ s ∈ K, s.length = d + 1 ∧ X.findIdx s = some i

/-- complexes obtained from an empty one by a history of calls -/
def Reachable (X : SCpx) : Prop := ∃ m ops, (∀ o ∈ ops, o.simplex ≠ []) ∧ run (init m) ops = .ok X

end SCpx

/-! ## Simplicial homology of a finite abstract simplicial complex -/

section
variable (F : Type) [Field F] (K : Finset (Finset Nat))

/-- the simplices with `n` vertices -/
abbrev Simps (n : Nat) : Type := {s : Finset Nat // s ∈ K ∧ s.card = n}

instance (n : Nat) : Fintype (Simps K n) := Fintype.subtype (K.filter (fun s => s.card = n)) (by intro s; simp)

/-- boundary matrix from simplices with `n+1` vertices to simplices with `n` vertices: the coefficient of `s` minus its vertex
`v` in the boundary of `s` is `(-1)^(number of vertices of s smaller than v)` -/
def simplicialBoundary (n : Nat) : Matrix (Simps K n) (Simps K (n + 1)) F := fun t s =>
  ∑ v ∈ s.1, if s.1.erase v = t.1 then (-1) ^ (s.1.filter (· < v)).card else 0

/-- the `k`-th simplicial Betti number over `F`: the dimension of `ker ∂_k / im ∂_{k+1}` -/
noncomputable def simplicialBetti (k : Nat) : Nat :=
  Module.finrank F (LinearMap.ker (simplicialBoundary F K k).mulVecLin ⧸
    (LinearMap.range (simplicialBoundary F K (k + 1)).mulVecLin).submoduleOf (LinearMap.ker (simplicialBoundary F K k).mulVecLin))

end

end BATS
