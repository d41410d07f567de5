import Verif.Proofs.Product
import Verif.Props.Pair

set_option linter.unusedSectionVars false
set_option linter.unusedVariables false
set_option linter.unusedSimpArgs false

/-! # C77: the triangulated product (include/complex/simplicial_complex.hpp:633-763)

`ProductChain`, `productSimplices` are in `Verif/Spec/Product.lean`. -/

namespace BATS
open SCpx

/-- C77: for complexes with increasing simplices, `TriangulatedProduct(X, Y, k, n)` returns a complex whose simplices are exactly the chains (in the product
order) in `σ × τ`, for simplices `σ` of `X` and `τ` of `Y` with `dim σ + dim τ ≤ k`, with the vertex `(i, j)` labelled `i + n j`. -/
theorem C77_simplices {X Y : SCpx} (hX : Reachable X) (hY : Reachable Y) (sX : ∀ s ∈ simplices X, s.Pairwise (· < ·)) (sY : ∀ s ∈ simplices Y, s.Pairwise (· < ·))
    (k n : Nat) : ∃ XY, triangulatedProduct X Y k n = .ok XY ∧ Reachable XY ∧ XY.maxdim = k ∧ Represents XY (productSimplices X Y n k) := by
  obtain ⟨cX, iX⟩ := hX.inv
  obtain ⟨cY, iY⟩ := hY.inv
  exact triangulatedProduct_spec iX iY
    (fun d s h => sX s (by rw [simplices_eq iX]; exact (mem_setOf (iX.ok.len d s h)).2 h))
    (fun d s h => sY s (by rw [simplices_eq iY]; exact (mem_setOf (iY.ok.len d s h)).2 h)) k n

/-- C77: if the labels of the vertices of `X` are smaller than `n`, distinct points of the product have distinct labels: a list of labels is a simplex iff
its decoding is a chain whose two projections lie in simplices of `X` and `Y` (of total dimension at most `k`). -/
theorem C77_decoded {X Y XY : SCpx} (hX : Reachable X) (hY : Reachable Y) (sX : ∀ s ∈ simplices X, s.Pairwise (· < ·)) (sY : ∀ s ∈ simplices Y, s.Pairwise (· < ·))
    {k n : Nat} (hn : ∀ v, [v] ∈ simplices X → v < n) (h : triangulatedProduct X Y k n = .ok XY) (s : List Nat) :
    s ∈ simplices XY ↔ s ≠ [] ∧ ProductChain (s.map (fun v => (v % n, v / n))) ∧
      ∃ σ ∈ simplices X, ∃ τ ∈ simplices Y, σ.length + τ.length ≤ k + 2 ∧ ∀ v ∈ s, v % n ∈ σ ∧ v / n ∈ τ := by
  obtain ⟨cX, iX⟩ := hX.inv
  obtain ⟨XY', e, _, _, hr⟩ := C77_simplices hX hY sX sY k n
  have : XY' = XY := by rw [h] at e; exact (Except.ok.inj e).symm
  subst this
  have hlab : ∀ σ ∈ simplices X, ∀ v ∈ σ, v < n := by
    intro σ hσ v hv
    apply hn
    rw [simplices_eq iX] at hσ ⊢
    have := iX.ok.sublist _ _ σ [v] hσ.2 (List.singleton_sublist.2 hv) (by simp) rfl
    exact ⟨by simp, this⟩
  have hdec : ∀ i j, i < n → (i + n * j) % n = i ∧ (i + n * j) / n = j := by
    intro i j hi
    have hp : 0 < n := by omega
    refine ⟨?_, ?_⟩
    · rw [Nat.add_mul_mod_self_left, Nat.mod_eq_of_lt hi]
    · rw [Nat.add_mul_div_left _ _ hp, Nat.div_eq_of_lt hi, Nat.zero_add]
  have hiff : s ∈ simplices XY' ↔ s ∈ productSimplices X Y n k := by
    constructor
    · rintro ⟨h1, h2⟩; exact (hr.found s h1).2 h2
    · intro hs; exact ⟨(hr.dim s hs).1, (hr.found s (hr.dim s hs).1).1 hs⟩
  rw [hiff]
  constructor
  · rintro ⟨c, rfl, c0, hc, σ, hσ, τ, hτ, hl, hm⟩
    have hback : (c.map (fun p => p.1 + n * p.2)).map (fun v => (v % n, v / n)) = c := by
      rw [List.map_map]
      conv_rhs => rw [← List.map_id c]
      apply List.map_congr_left
      intro p hp
      obtain ⟨a, b⟩ := hdec p.1 p.2 (hlab σ hσ _ (hm p hp).1)
      show ((p.1 + n * p.2) % n, (p.1 + n * p.2) / n) = p
      rw [a, b]
    refine ⟨by simpa using c0, by rw [hback]; exact hc, σ, hσ, τ, hτ, hl, ?_⟩
    intro v hv
    obtain ⟨p, hp, rfl⟩ := List.mem_map.1 hv
    obtain ⟨a, b⟩ := hdec p.1 p.2 (hlab σ hσ _ (hm p hp).1)
    rw [a, b]; exact hm p hp
  · rintro ⟨h0, hc, σ, hσ, τ, hτ, hl, hm⟩
    refine ⟨s.map (fun v => (v % n, v / n)), ?_, by simpa using h0, hc, σ, hσ, τ, hτ, hl, ?_⟩
    · rw [List.map_map]
      conv_lhs => rw [← List.map_id s]
      apply List.map_congr_left
      intro v _
      exact (Nat.mod_add_div v n).symm
    · intro p hp
      obtain ⟨v, hv, rfl⟩ := List.mem_map.1 hp
      exact hm v hv

/-- C77: `TriangulatedProduct(X, Y)` without further arguments has no restriction on the dimensions: its simplices are all chains in `σ × τ`. -/
theorem C77_full {X Y : SCpx} (hX : Reachable X) (hY : Reachable Y) (sX : ∀ s ∈ simplices X, s.Pairwise (· < ·)) (sY : ∀ s ∈ simplices Y, s.Pairwise (· < ·)) :
    ∃ XY n, X.numCells 0 = .ok n ∧ triangulatedProductFull X Y = .ok XY ∧ Reachable XY ∧ XY.maxdim = X.maxdim + Y.maxdim ∧
      ∀ s, s ∈ simplices XY ↔ ∃ c : List (Nat × Nat), s = c.map (fun p => p.1 + n * p.2) ∧ c ≠ [] ∧ ProductChain c ∧
        ∃ σ ∈ simplices X, ∃ τ ∈ simplices Y, ∀ p ∈ c, p.1 ∈ σ ∧ p.2 ∈ τ := by
  obtain ⟨cX, iX⟩ := hX.inv
  obtain ⟨cY, iY⟩ := hY.inv
  have hn : X.numCells 0 = .ok (cX 0).length := by unfold numCells; exact rd_some (iX.dim 0 iX.sizes.ne).nc
  obtain ⟨XY, e, r, m, hr⟩ := C77_simplices hX hY sX sY (X.maxdim + Y.maxdim) (cX 0).length
  refine ⟨XY, _, hn, ?_, r, m, ?_⟩
  · unfold triangulatedProductFull
    rw [hn, bind_ok]; exact e
  · intro s
    have hiff : s ∈ simplices XY ↔ s ∈ productSimplices X Y (cX 0).length (X.maxdim + Y.maxdim) := by
      constructor
      · rintro ⟨h1, h2⟩; exact (hr.found s h1).2 h2
      · intro hs; exact ⟨(hr.dim s hs).1, (hr.found s (hr.dim s hs).1).1 hs⟩
    have hdim : ∀ {Z : SCpx} {c : Cells} (_ : Inv Z c) (σ : List Nat), σ ∈ simplices Z → σ.length ≤ Z.maxdim + 1 := by
      intro Z c i σ hσ
      rw [simplices_eq i] at hσ
      by_contra hlt
      have := hσ.2
      unfold maxdim at hlt
      rw [i.top _ (by have := i.sizes.ne; omega)] at this
      simp at this
    rw [hiff]
    constructor
    · rintro ⟨c, h1, h2, h3, σ, hσ, τ, hτ, _, hm⟩; exact ⟨c, h1, h2, h3, σ, hσ, τ, hτ, hm⟩
    · rintro ⟨c, h1, h2, h3, σ, hσ, τ, hτ, hm⟩
      have := hdim iX σ hσ
      have := hdim iY τ hτ
      exact ⟨c, h1, h2, h3, σ, hσ, τ, hτ, by omega, hm⟩

/-- C77, exact behaviour: the default `n = X.ncells(0)` is too small if the labels of `X` are not `0, .., ncells(0) - 1`: the product of the points `{0, 2}` and
`{0, 1}` has three points. -/
theorem C77_collision : (((init 0).run [.add [0], .add [2]]).bind (fun X => ((init 0).run [.add [0], .add [1]]).bind (fun Y =>
    (triangulatedProductFull X Y).bind (fun Z => Z.getSimplices 0)))) = .ok [[0], [2], [4]] := by decide +kernel

/-- C77, exact behaviour: with a bound on the dimension the result is not the skeleton of the product: the 1-skeleton of a square lacks the diagonal `(0, 3)`,
which the full product contains. -/
theorem C77_not_skeleton : (((init 1).run [.addRecursive [0, 1]]).bind (fun X =>
    (triangulatedProductDim X X 1).bind (fun Z => Z.getSimplices 1))) = .ok [[0, 2], [1, 3], [0, 1], [2, 3]] ∧
  (((init 1).run [.addRecursive [0, 1]]).bind (fun X =>
    (triangulatedProductFull X X).bind (fun Z => Z.getSimplices 1))) = .ok [[0, 2], [1, 3], [0, 1], [2, 3], [0, 3]] := by
  constructor <;> decide +kernel

/-- the hypotheses hold for two hollow triangles; the product is a torus with 9 vertices, 27 edges and 18 triangles -/
example : ∃ X, Reachable X ∧ (∀ s ∈ simplices X, s.Pairwise (· < ·)) ∧ (∀ v, [v] ∈ simplices X → v < 3) ∧
    (triangulatedProduct X X 2 3).map (fun Z => Z.ncells) = .ok [9, 27, 18] := by
  obtain ⟨X, hX, _⟩ := C19_history 1 triOps (by decide +kernel)
  have rX : Reachable X := ⟨1, triOps, by decide +kernel, hX⟩
  have e1 : ((SCpx.init 1).run triOps).map (Pair.check (fun s => decide (s.Pairwise (· < ·)) && s.all (fun v => decide (v < 3)))) = .ok true := by decide +kernel
  have e2 : ((SCpx.init 1).run triOps).bind (fun X => (triangulatedProduct X X 2 3).map (fun Z => Z.ncells)) = .ok [9, 27, 18] := by decide +kernel
  rw [hX] at e1 e2
  have c1 := Pair.check_spec rX (Except.ok.inj e1)
  refine ⟨X, rX, ?_, ?_, e2⟩
  · intro s hs
    have := c1 s hs
    rw [Bool.and_eq_true] at this
    simpa using this.1
  · intro v hv
    have := c1 _ hv
    simpa using this

end BATS
