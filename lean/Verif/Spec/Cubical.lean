import Verif.Model.Cubical
import Mathlib.Data.Set.Basic
import Mathlib.LinearAlgebra.Matrix.ToLin
import Mathlib.LinearAlgebra.Dimension.Finrank
import Mathlib.LinearAlgebra.Quotient.Basic

/-!
# Specification: elementary cubes, histories of additions to a cubical complex, cubical homology

An elementary cube in `ℝ^D` is a product of `D` intervals `[a, a]` or `[a, a+1]`, written as the list of the `2*D` endpoints.
-/

namespace BATS

/-- left and right end of the interval number `i` -/
def lo (s : List Nat) (i : Nat) : Nat := s.getD (2 * i) 0
def hi (s : List Nat) (i : Nat) : Nat := s.getD (2 * i + 1) 0

/-- `s` is an elementary cube in `ℝ^D` -/
def IsCube (D : Nat) (s : List Nat) : Prop := s.length = 2 * D ∧ ∀ i, i < D → hi s i = lo s i ∨ hi s i = lo s i + 1

/-- the directions in which the cube extends -/
def dirs (D : Nat) (s : List Nat) : Finset Nat := (Finset.range D).filter fun i => lo s i ≠ hi s i

/-- the dimension of a cube -/
def cubeDimension (D : Nat) (s : List Nat) : Nat := (dirs D s).card

/-- `t` is a face (of any dimension) of `s`: it is contained in `s` -/
def CubeFace (D : Nat) (t s : List Nat) : Prop := IsCube D t ∧ ∀ i, i < D → lo s i ≤ lo t i ∧ hi t i ≤ hi s i

/-- the two faces of codimension one in direction `i` -/
def upperFace (s : List Nat) (i : Nat) : List Nat := s.set (2 * i) (hi s i)
def lowerFace (s : List Nat) (i : Nat) : List Nat := s.set (2 * i + 1) (lo s i)

namespace Cub

/-- what a call does to the set of cubes: `add` accepts a cube if its faces of codimension one are present; `add_recursive` adds all
faces of the cube -/
def specStep (D : Nat) (K : Set (List Nat)) : Op → Set (List Nat)
  | .add s => {t | t ∈ K ∨ (t = s ∧ ∀ i ∈ dirs D s, upperFace s i ∈ K ∧ lowerFace s i ∈ K)}
  | .addRecursive s => {t | t ∈ K ∨ CubeFace D t s}

/-- the set of cubes after a history -/
def specRun (D : Nat) (ops : List Op) : Set (List Nat) := ops.foldl (specStep D) ∅

/-- the cube passed to a call -/
def Op.cube : Op → List Nat
  | .add s | .addRecursive s => s

/-- the queries on `X` describe exactly the set `K` of cubes in `ℝ^D` -/
structure Represents (X : Cub) (D : Nat) (K : Set (List Nat)) : Prop where
  dims : X.maxdim = D
  cube : ∀ s ∈ K, IsCube D s
  found : ∀ s, s.length = 2 * D → (s ∈ K ↔ ∃ i, X.findIdx s = some i)
  range : ∀ s ∈ K, ∀ i, X.findIdx s = some i →
    ∃ n, X.numCells (cubeDimension D s) = .ok n ∧ i < n ∧ X.getCube (cubeDimension D s) i = .ok s
  count : ∀ d, d ≤ D → ∃ n, X.numCells d = .ok n ∧ ∀ i, i < n → ∃ s ∈ K, cubeDimension D s = d ∧ X.findIdx s = some i

end Cub

section
variable (F : Type) [Field F] (D : Nat) (K : Finset (List Nat))

/-- the cubes of dimension `n` -/
abbrev Cubes (n : Nat) : Type := {s : List Nat // s ∈ K ∧ cubeDimension D s = n}

instance (n : Nat) : Fintype (Cubes D K n) := Fintype.subtype (K.filter (fun s => cubeDimension D s = n)) (by intro s; simp)

/-- the boundary of a cube: the sum over the directions `i` in which it extends of `(-1)^(number of such directions before i)` times
the upper face minus the lower face in direction `i` -/
def cubicalBoundary (n : Nat) : Matrix (Cubes D K n) (Cubes D K (n + 1)) F := fun t s =>
  ∑ i ∈ dirs D s.1, (-1) ^ ((dirs D s.1).filter (· < i)).card *
    ((if upperFace s.1 i = t.1 then 1 else 0) - (if lowerFace s.1 i = t.1 then 1 else 0))

/-- the `k`-th cubical Betti number over `F`: the dimension of `ker ∂_k / im ∂_{k+1}`, where `∂_0 = 0` -/
noncomputable def cubicalBetti : Nat → Nat
  | 0 => Module.finrank F ((Cubes D K 0 → F) ⧸ LinearMap.range (cubicalBoundary F D K 0).mulVecLin)
  | k + 1 => Module.finrank F (LinearMap.ker (cubicalBoundary F D K k).mulVecLin ⧸
      (LinearMap.range (cubicalBoundary F D K (k + 1)).mulVecLin).submoduleOf (LinearMap.ker (cubicalBoundary F D K k).mulVecLin))

end

end BATS
