import Verif.Spec.Cubical

set_option linter.unusedSectionVars false
set_option linter.unusedVariables false

/-!
# Specification: homology of cubical sets, the maps induced by inclusions, values of images on cubes
-/

namespace BATS

/-- a cubical set in `ℝ^D`: elementary cubes, closed under faces of codimension one (hence under all faces) -/
structure IsCubicalSet (D : Nat) (K : Finset (List Nat)) : Prop where
  cube : ∀ s ∈ K, IsCube D s
  down : ∀ s ∈ K, ∀ i ∈ dirs D s, upperFace s i ∈ K ∧ lowerFace s i ∈ K

section
variable (F : Type) [Field F] (D : Nat) {K L : Finset (List Nat)}

/-- cubical cycles; all chains of dimension zero are cycles -/
def cubCycles (K : Finset (List Nat)) : (k : Nat) → Submodule F (Cubes D K k → F)
  | 0 => ⊤
  | k + 1 => LinearMap.ker (cubicalBoundary F D K k).mulVecLin

/-- cubical boundaries -/
def cubBoundaries (K : Finset (List Nat)) (k : Nat) : Submodule F (Cubes D K k → F) := LinearMap.range (cubicalBoundary F D K k).mulVecLin

/-- cubical homology `H_k(K; F)` -/
abbrev CubHomology (K : Finset (List Nat)) (k : Nat) : Type := cubCycles F D K k ⧸ (cubBoundaries F D K k).submoduleOf (cubCycles F D K k)

/-- inclusion of chains: the coefficients of cubes outside `K` are zero -/
def extendCubes (h : K ⊆ L) (n : Nat) : (Cubes D K n → F) →ₗ[F] (Cubes D L n → F) where
  toFun x s := if hs : s.1 ∈ K then x ⟨s.1, hs, s.2.2⟩ else 0
  map_add' x y := by
    funext s
    show (if hs : s.1 ∈ K then (x + y) ⟨s.1, hs, s.2.2⟩ else 0) = (if hs : s.1 ∈ K then x ⟨s.1, hs, s.2.2⟩ else 0) + (if hs : s.1 ∈ K then y ⟨s.1, hs, s.2.2⟩ else 0)
    split <;> simp
  map_smul' c x := by
    funext s
    show (if hs : s.1 ∈ K then (c • x) ⟨s.1, hs, s.2.2⟩ else 0) = c * (if hs : s.1 ∈ K then x ⟨s.1, hs, s.2.2⟩ else 0)
    split <;> simp

theorem extendCubes_mem (h : K ⊆ L) (n : Nat) (x : Cubes D K n → F) (s : Cubes D K n) : extendCubes F D h n x ⟨s.1, h s.2.1, s.2.2⟩ = x s := by
  show (if hs : s.1 ∈ K then _ else _) = _
  rw [dif_pos s.2.1]

theorem extendCubes_not_mem (h : K ⊆ L) (n : Nat) (x : Cubes D K n → F) (s : Cubes D L n) (hs : s.1 ∉ K) : extendCubes F D h n x s = 0 := by
  show (if hs : s.1 ∈ K then _ else _) = _
  rw [dif_neg hs]

/-- inclusion is a chain map -/
theorem extendCubes_boundary (hK : IsCubicalSet D K) (h : K ⊆ L) (n : Nat) (x : Cubes D K (n + 1) → F) :
    (cubicalBoundary F D L n).mulVecLin (extendCubes F D h (n + 1) x) = extendCubes F D h n ((cubicalBoundary F D K n).mulVecLin x) := by
  funext t
  rw [Matrix.mulVecLin_apply]
  have key : (Matrix.mulVec (cubicalBoundary F D L n) (extendCubes F D h (n + 1) x)) t =
      ∑ s : Cubes D K (n + 1), cubicalBoundary F D L n t ⟨s.1, h s.2.1, s.2.2⟩ * x s := by
    unfold Matrix.mulVec dotProduct
    symm
    apply Fintype.sum_of_injective (fun s : Cubes D K (n + 1) => (⟨s.1, h s.2.1, s.2.2⟩ : Cubes D L (n + 1)))
    · intro a b e
      exact Subtype.ext (congrArg (fun s : Cubes D L (n + 1) => s.1) e)
    · intro s hs
      rw [extendCubes_not_mem, mul_zero]
      intro hm
      exact hs ⟨⟨s.1, hm, s.2.2⟩, rfl⟩
    · intro s
      rw [extendCubes_mem]
  rw [key]
  by_cases ht : t.1 ∈ K
  · have := extendCubes_mem F D h n ((cubicalBoundary F D K n).mulVecLin x) ⟨t.1, ht, t.2.2⟩
    rw [this, Matrix.mulVecLin_apply]
    rfl
  · rw [extendCubes_not_mem _ _ _ _ _ _ ht]
    apply Finset.sum_eq_zero
    intro s _
    have : cubicalBoundary F D L n t ⟨s.1, h s.2.1, s.2.2⟩ = 0 := by
      unfold cubicalBoundary
      apply Finset.sum_eq_zero
      intro i hi
      have hd := hK.down s.1 s.2.1 i hi
      rw [if_neg (fun e => ht (by have e' : upperFace s.1 i = t.1 := e; rw [← e']; exact hd.1)),
        if_neg (fun e => ht (by have e' : lowerFace s.1 i = t.1 := e; rw [← e']; exact hd.2)), sub_zero, mul_zero]
    rw [this, zero_mul]

theorem extendCubes_cycles (hK : IsCubicalSet D K) (h : K ⊆ L) (k : Nat) (x : Cubes D K k → F) (hx : x ∈ cubCycles F D K k) :
    extendCubes F D h k x ∈ cubCycles F D L k := by
  cases k with
  | zero => trivial
  | succ k =>
    unfold cubCycles at hx ⊢
    rw [LinearMap.mem_ker] at hx ⊢
    rw [extendCubes_boundary F D hK h, hx, map_zero]

/-- the map `H_k(K) → H_k(L)` induced by the inclusion `K ⊆ L` -/
def cubInclusion (hK : IsCubicalSet D K) (h : K ⊆ L) (k : Nat) : CubHomology F D K k →ₗ[F] CubHomology F D L k :=
  Submodule.mapQ _ _ ((extendCubes F D h k).restrict (p := cubCycles F D K k) (q := cubCycles F D L k) (extendCubes_cycles F D hK h k))
    (by
      rintro ⟨x, hx⟩ ⟨y, hy⟩
      refine ⟨extendCubes F D h (k + 1) y, ?_⟩
      rw [extendCubes_boundary F D hK h k, hy]
      rfl)

end

/-- the lattice points of a cube -/
def CubeVertex (D : Nat) (p s : List Nat) : Prop := p.length = D ∧ ∀ i, i < D → lo s i ≤ p.getD i 0 ∧ p.getD i 0 ≤ hi s i

section
variable {T : Type} [LinearOrder T]

/-- the value of a two-dimensional image at a lattice point; `none` outside -/
def pixel2 (f0 : List (List T)) (p : List Nat) : Option T := (f0[p.getD 0 0]?).bind (fun r => r[p.getD 1 0]?)

/-- the value of a three-dimensional image at a lattice point -/
def pixel3 (f0 : List (List (List T))) (p : List Nat) : Option T :=
  (f0[p.getD 0 0]?).bind (fun m => (m[p.getD 1 0]?).bind (fun r => r[p.getD 2 0]?))

/-- `v` is the largest value of the image `f` at the vertices of the cube `s`, all of which lie inside the image -/
def IsCubeMax (D : Nat) (f : List Nat → Option T) (s : List Nat) (v : T) : Prop :=
  (∃ p, CubeVertex D p s ∧ f p = some v) ∧ ∀ p, CubeVertex D p s → ∃ y, f p = some y ∧ y ≤ v

end

end BATS
