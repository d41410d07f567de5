import Verif.Spec.Simplicial
import Verif.Spec.SimplicialMap

/-!
# Specification: pairs of complexes, relative simplicial homology, the Mayer-Vietoris boundary
-/

namespace BATS

namespace SCpx

/-- the vertices of every simplex of `X` are stored in increasing order (true for complexes built with `add` and `add_recursive`) -/
def Ordered (X : SCpx) : Prop := ∀ s, s ≠ [] → (∃ i, X.findIdx s = some i) → s.Pairwise (· ≤ ·)

/-- the simplices of `X` -/
def simplices (X : SCpx) : Set (List Nat) := {s | s ≠ [] ∧ ∃ i, X.findIdx s = some i}

end SCpx

section
variable (F : Type) [Field F] (K L : Finset (Finset Nat))

/-- chains of `K` on simplices with `n` vertices which vanish outside `L` -/
def chainsIn (n : Nat) : Submodule F (Simps K n → F) where
  carrier := {c | ∀ s, s.1 ∉ L → c s = 0}
  add_mem' := by intro a b ha hb s hs; rw [Pi.add_apply, ha s hs, hb s hs, add_zero]
  zero_mem' := by intro s _; rfl
  smul_mem' := by intro r a ha s hs; rw [Pi.smul_apply, ha s hs, smul_zero]

/-- relative cycles of `(K, L)` in dimension `k`: chains whose boundary lies in `L` -/
def relativeCycles (k : Nat) : Submodule F (Simps K (k + 1) → F) := (chainsIn F K L k).comap (simplicialBoundary F K k).mulVecLin

/-- relative boundaries of `(K, L)`: boundaries plus chains of `L` -/
def relativeBoundaries (k : Nat) : Submodule F (Simps K (k + 1) → F) :=
  LinearMap.range (simplicialBoundary F K (k + 1)).mulVecLin ⊔ chainsIn F K L (k + 1)

/-- the `k`-th relative Betti number of the pair: the dimension of `H_k(K, L)` -/
noncomputable def relativeBetti (k : Nat) : Nat :=
  Module.finrank F (relativeCycles F K L k ⧸ (relativeBoundaries F K L k).submoduleOf (relativeCycles F K L k))

end

end BATS
