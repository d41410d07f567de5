import Verif.Spec.Homology
import Mathlib.Data.Matrix.Reflection
import Mathlib.Algebra.Field.Rat

set_option linter.unusedSectionVars false

/-! # Decidability of the invariants on literals, and two small complexes used as witnesses -/

namespace BATS

variable {F : Type _} [Field F] [DecidableEq F]

instance (v : List (Nat × F)) : Decidable (Sorted v) := by unfold Sorted; infer_instance
instance (v : List (Nat × F)) : Decidable (NoZero v) := by unfold NoZero; infer_instance
instance (v : List (Nat × F)) : Decidable (VecOK v) := by unfold VecOK; infer_instance
instance (m : Nat) (v : List (Nat × F)) : Decidable (Below m v) := by unfold Below; infer_instance
instance (M : CMat F) : Decidable M.OK := by unfold CMat.OK; infer_instance
instance (M : CMat F) (m n : Nat) : Decidable (M.Shape m n) :=
  decidable_of_iff (M.OK ∧ M.nrow = m ∧ M.cols.length = n)
    ⟨fun h => ⟨h.1, h.2.1, h.2.2⟩, fun h => ⟨h.ok, h.nrow, h.ncol⟩⟩

instance {n : Type _} [LinearOrder n] [Fintype n] (V : Matrix n n F) : Decidable (UpperInv V) := by
  unfold UpperInv
  have h1 : Decidable (∀ i j, j < i → V i j = 0) :=
    @Fintype.decidableForallFintype _ _ (fun i => @Fintype.decidableForallFintype _ _ (fun j => inferInstance) _) _
  have h2 : Decidable (∀ i, V i i ≠ 0) := inferInstance
  exact @instDecidableAnd _ _ h1 h2
instance {n : Type _} [LinearOrder n] [Fintype n] (V : Matrix n n F) : Decidable (LowerInv V) := by
  unfold LowerInv
  have h1 : Decidable (∀ i j, i < j → V i j = 0) :=
    @Fintype.decidableForallFintype _ _ (fun i => @Fintype.decidableForallFintype _ _ (fun j => inferInstance) _) _
  have h2 : Decidable (∀ i, V i i ≠ 0) := inferInstance
  exact @instDecidableAnd _ _ h1 h2
instance {n : Type _} [LinearOrder n] [Fintype n] (V : Matrix n n F) : Decidable (UnitUpperTri V) := by
  unfold UnitUpperTri
  have h1 : Decidable (∀ i j, j < i → V i j = 0) :=
    @Fintype.decidableForallFintype _ _ (fun i => @Fintype.decidableForallFintype _ _ (fun j => inferInstance) _) _
  have h2 : Decidable (∀ i, V i i = 1) := inferInstance
  exact @instDecidableAnd _ _ h1 h2
instance {m n : Type _} [LinearOrder m] [LinearOrder n] [Fintype m] (V : Matrix m n F) (i : m) (j : n) :
    Decidable (Low V i j) := by
  unfold Low; infer_instance
instance {m n : Type _} [LinearOrder m] [LinearOrder n] [Fintype m] [Fintype n] (V : Matrix m n F) :
    Decidable (Reduced V) := by
  unfold Reduced; infer_instance

/-- decidable reading of `IsChainComplex` -/
theorem isChainComplex_of_bool {B : List (CMat F)} (h0 : B ≠ [])
    (h1 : ∀ k : Fin B.length, (B.getD k ⟨0, []⟩).Shape (rdim B k) (cdim B k))
    (h2 : ∀ k : Fin (B.length - 1), bdry B k * bdryUp B k = 0) : IsChainComplex B :=
  ⟨h0, fun k hk => h1 ⟨k, hk⟩, fun k hk => h2 ⟨k, by omega⟩⟩

/-- the solid triangle: vertices 0,1,2, edges 01, 02, 12, one 2-cell, over ℚ -/
def triangleQ : List (CMat ℚ) :=
  [⟨1, [[], [], []]⟩,
   ⟨3, [[(0, -1), (1, 1)], [(0, -1), (2, 1)], [(1, -1), (2, 1)]]⟩,
   ⟨3, [[(0, 1), (1, -1), (2, 1)]]⟩]

/-- the hollow triangle -/
def circleQ : List (CMat ℚ) :=
  [⟨1, [[], [], []]⟩,
   ⟨3, [[(0, -1), (1, 1)], [(0, -1), (2, 1)], [(1, -1), (2, 1)]]⟩]

theorem triangleQ_complex : IsChainComplex triangleQ := by
  apply isChainComplex_of_bool
  · decide
  · decide +kernel
  · decide +kernel

theorem circleQ_complex : IsChainComplex circleQ := by
  apply isChainComplex_of_bool
  · decide
  · decide +kernel
  · decide +kernel

end BATS
