import Mathlib.LinearAlgebra.Matrix.ToLin
import Mathlib.LinearAlgebra.Dimension.Finrank
import Mathlib.LinearAlgebra.Quotient.Basic

/-! # Finite graded complexes with a basis -/

namespace BATS
open Matrix

variable {F : Type} [Field F] {T : Type} [Fintype T] [DecidableEq T]

/-- chains of degree `n` -/
def inDeg (F : Type) [Field F] {T : Type} (deg : T → Nat) (n : Nat) : Submodule F (T → F) where
  carrier := {x | ∀ t, deg t ≠ n → x t = 0}
  add_mem' := by intro a b ha hb t ht; rw [Pi.add_apply, ha t ht, hb t ht, add_zero]
  zero_mem' := by intro t _; rfl
  smul_mem' := by intro r a ha t ht; rw [Pi.smul_apply, ha t ht, smul_zero]

/-- cycles of degree `n` of the differential `d` -/
def gCycles (deg : T → Nat) (d : Matrix T T F) (n : Nat) : Submodule F (T → F) := inDeg F deg n ⊓ LinearMap.ker d.mulVecLin

/-- boundaries of degree `n` -/
def gBoundaries (deg : T → Nat) (d : Matrix T T F) (n : Nat) : Submodule F (T → F) := (inDeg F deg (n + 1)).map d.mulVecLin

/-- dimension of the homology in degree `n` -/
noncomputable def gBetti (deg : T → Nat) (d : Matrix T T F) (n : Nat) : Nat :=
  Module.finrank F (gCycles deg d n ⧸ (gBoundaries deg d n).submoduleOf (gCycles deg d n))

/-- `d` lowers the degree by one and `d² = 0` -/
structure GradedComplex (deg : T → Nat) (d : Matrix T T F) : Prop where
  homog : ∀ s t, d s t ≠ 0 → deg t = deg s + 1
  sq : d * d = 0

end BATS
