import Verif.Spec.Reduction
import Mathlib.LinearAlgebra.Matrix.ToLin
import Mathlib.LinearAlgebra.Dimension.Finrank
import Mathlib.LinearAlgebra.Quotient.Basic

/-!
# Specification: chain complexes, homology, Betti numbers

A chain complex is a list of stored matrices; `bdry B k` is the linear-algebra matrix of the `k`-th boundary map
`C_k → C_{k-1}` (for `k = 0` the target has dimension `(B 0).nrow`; beyond the top dimension `C_k = 0`).
-/

namespace BATS

variable {F : Type _} [Field F]

/-- the coordinate vector denoted by a stored vector -/
abbrev vecOf (n : Nat) (v : List (Nat × F)) : Fin n → F := fun i => coef v i

/-- dimension of `C_k`: number of columns of the `k`-th boundary matrix -/
def cdim (B : List (CMat F)) (k : Nat) : Nat := (B.getD k ⟨0, []⟩).cols.length

/-- dimension of the target of the `k`-th boundary map -/
def rdim (B : List (CMat F)) : Nat → Nat
  | 0 => (B.getD 0 ⟨0, []⟩).nrow
  | k + 1 => cdim B k

/-- the `k`-th boundary map as a matrix -/
def bdry (B : List (CMat F)) (k : Nat) : Matrix (Fin (rdim B k)) (Fin (cdim B k)) F :=
  matOf (rdim B k) (cdim B k) (B.getD k ⟨0, []⟩).cols

/-- the `(k+1)`-st boundary map `C_{k+1} → C_k` as a matrix (definitionally `bdry B (k+1)`) -/
def bdryUp (B : List (CMat F)) (k : Nat) : Matrix (Fin (cdim B k)) (Fin (cdim B (k + 1))) F := bdry B (k + 1)

/-- `B` is a chain complex: at least one boundary matrix, well-formed stored matrices of matching shapes, and
the composite of two consecutive boundary maps is zero. -/
structure IsChainComplex (B : List (CMat F)) : Prop where
  ne : B ≠ []
  shape : ∀ k, k < B.length → (B.getD k ⟨0, []⟩).Shape (rdim B k) (cdim B k)
  sq : ∀ k, k + 1 < B.length → bdry B k * bdryUp B k = 0

/-- the entry stored in row `i`, column `j` of the `k`-th boundary matrix -/
def ent (B : List (CMat F)) (k i j : Nat) : F := coef ((B.getD k ⟨0, []⟩).cols.getD j []) i

/-- the boundary matrix of dimension 0 is zero (as built by the constructor from a complex, chain_complex.hpp:31-33) -/
def ZeroBdry0 (B : List (CMat F)) : Prop := ∀ c ∈ (B.getD 0 ⟨0, []⟩).cols, c = []

/-- cycles `Z_k = ker d_k` -/
def cycles (B : List (CMat F)) (k : Nat) : Submodule F (Fin (cdim B k) → F) :=
  LinearMap.ker (bdry B k).mulVecLin

/-- boundaries `im d_{k+1}` -/
def boundaries (B : List (CMat F)) (k : Nat) : Submodule F (Fin (cdim B k) → F) :=
  LinearMap.range (bdryUp B k).mulVecLin

/-- homology `H_k = ker d_k / im d_{k+1}` -/
abbrev Homology (B : List (CMat F)) (k : Nat) : Type _ :=
  cycles B k ⧸ (boundaries B k).submoduleOf (cycles B k)

/-- the Betti number: dimension of `H_k` -/
noncomputable def bettiNumber (B : List (CMat F)) (k : Nat) : Nat := Module.finrank F (Homology B k)

end BATS
