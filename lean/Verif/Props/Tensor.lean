import Verif.Proofs.Tensor4
import Verif.Proofs.Examples
import Verif.Props.Homology

set_option linter.unusedSectionVars false
set_option linter.unusedVariables false
set_option linter.unusedSimpArgs false

/-! # C47: tensor products of chain complexes (include/chain/chain_complex.hpp:298-334, 384-387) -/

namespace BATS
open Finset

variable {F : Type} [Field F] [DecidableEq F] {A B : List (CMat F)}

/-- C47: `tensor_product(A, B, dmax)` is a chain complex with `dmax + 1` boundary matrices and `Σ_{i+j=n} dim A_i · dim B_j` cells of dimension `n ≤ dmax`,
whatever is read outside of the array `ind_shift`. -/
theorem C47_complex (hA : IsChainComplex A) (hB : IsChainComplex B) (zA : ZeroBdry0 A) (zB : ZeroBdry0 B) (dmax : Nat) (sA sB : Nat → Nat) (tab0 : Nat → Nat → Nat) :
    IsChainComplex (tensorProduct A B dmax sA sB tab0) ∧ (tensorProduct A B dmax sA sB tab0).length = dmax + 1 ∧ ZeroBdry0 (tensorProduct A B dmax sA sB tab0) ∧
    ∀ n, n ≤ dmax → cdim (tensorProduct A B dmax sA sB tab0) n = ∑ ij ∈ antidiagonal n, cdim A ij.1 * cdim B ij.2 := by
  rw [tensorProduct_eq hA.ne hB.ne]
  refine ⟨tMats_complex hA hB zA zB dmax, by simp, tMats_zero dmax, ?_⟩
  intro n hn
  rw [tMats_cdim hn, tShift_full]

/-- C47: `d(a ⊗ b) = da ⊗ b + (-1)^{dim a} a ⊗ db`: the cell `a ⊗ b` with `dim a = i`, `dim b = n - i` has index
`Σ_{k < i} dim A_k · dim B_{n-k} + a · dim B_{n-i} + b`, and this is the entry in the row of `a' ⊗ b'` and the column of `a ⊗ b`. -/
theorem C47_boundary (hA : IsChainComplex A) (hB : IsChainComplex B) (zA : ZeroBdry0 A) (zB : ZeroBdry0 B) (dmax : Nat) (sA sB : Nat → Nat) (tab0 : Nat → Nat → Nat)
    {n i a b i' a' b' : Nat} (hn : n + 1 ≤ dmax) (hi : i ≤ n + 1) (ha : a < cdim A i) (hb : b < cdim B (n + 1 - i))
    (hi' : i' ≤ n) (ha' : a' < cdim A i') (hb' : b' < cdim B (n - i')) :
    ent (tensorProduct A B dmax sA sB tab0) (n + 1) ((∑ k ∈ range i', cdim A k * cdim B (n - k)) + (a' * cdim B (n - i') + b'))
      ((∑ k ∈ range i, cdim A k * cdim B (n + 1 - k)) + (a * cdim B (n + 1 - i) + b)) =
    (if i' + 1 = i ∧ b' = b then ent A i a' a else 0) + (if i' = i ∧ a' = a then (-1) ^ i * ent B (n + 1 - i) b' b else 0) := by
  rw [tensorProduct_eq hA.ne hB.ne]
  unfold ent
  rw [tMats_getD hn]
  have e0 : (tMat A B sA sB (n + 1)).cols = tCols A B sA sB (n + 1) := by unfold tMat; rw [if_neg (by omega)]
  have e1 := tCols_get (sA := sA) (sB := sB) hi ha hb
  have e2 := (tCol_spec (sA := sA) (sB := sB) hA hB zA zB (n := n + 1) (by omega) hi ha hb).2.2 i' a' b' (by omega) ha' hb'
  unfold tShift at e1 e2
  rw [e0, e1]
  refine Eq.trans e2 ?_
  unfold ent
  congr 1
  · by_cases h1 : i' + 1 = i <;> by_cases h2 : b' = b <;> simp [h1, h2]
  · by_cases h1 : i' = i <;> by_cases h2 : a' = a <;> simp [h1, h2]

/-- C47: every cell of dimension `n` is one of these: the indices of the cells `a ⊗ b` are all indices below the dimension, each once. -/
theorem C47_cells (hA : IsChainComplex A) (hB : IsChainComplex B) (dmax : Nat) (sA sB : Nat → Nat) (tab0 : Nat → Nat → Nat) {n : Nat} (hn : n ≤ dmax) (r : Nat) :
    r < cdim (tensorProduct A B dmax sA sB tab0) n ↔ ∃! x : Nat × Nat × Nat, x.1 ≤ n ∧ x.2.1 < cdim A x.1 ∧ x.2.2 < cdim B (n - x.1) ∧
      r = (∑ k ∈ range x.1, cdim A k * cdim B (n - k)) + (x.2.1 * cdim B (n - x.1) + x.2.2) := by
  have hc : cdim (tensorProduct A B dmax sA sB tab0) n = tShift A B n (n + 1) := by
    rw [tensorProduct_eq hA.ne hB.ne, tMats_cdim hn]
  have hblk : ∀ i a b, a < cdim A i → b < cdim B (n - i) → a * cdim B (n - i) + b < cdim A i * cdim B (n - i) := by
    intro i a b h1 h2
    calc a * cdim B (n - i) + b < a * cdim B (n - i) + cdim B (n - i) := by omega
      _ = (a + 1) * cdim B (n - i) := by ring
      _ ≤ _ := Nat.mul_le_mul_right _ (by omega)
  constructor
  · intro hr
    have h0 : r < cdim (tensorProduct A B dmax sA sB tab0) n := hr
    rw [hc] at hr
    have key : ∀ m, m ≤ n + 1 → r < tShift A B n m → ∃ i x, i < m ∧ x < cdim A i * cdim B (n - i) ∧ r = tShift A B n i + x := by
      intro m
      induction m with
      | zero => intro _ h; simp [tShift] at h
      | succ m ih =>
        intro hm h
        by_cases hlt : r < tShift A B n m
        · obtain ⟨i, x, h1, h2, h3⟩ := ih (by omega) hlt
          exact ⟨i, x, by omega, h2, h3⟩
        · rw [tShift_succ] at h
          exact ⟨m, r - tShift A B n m, by omega, by omega, by omega⟩
    obtain ⟨i, x, h1, h2, h3⟩ := key (n + 1) (le_refl _) hr
    have hp : 0 < cdim B (n - i) := by
      rcases Nat.eq_zero_or_pos (cdim B (n - i)) with h | h
      · rw [h] at h2; omega
      · exact h
    have ha : x / cdim B (n - i) < cdim A i := by rw [Nat.div_lt_iff_lt_mul hp]; exact h2
    have hb : x % cdim B (n - i) < cdim B (n - i) := Nat.mod_lt _ hp
    have hx : x / cdim B (n - i) * cdim B (n - i) + x % cdim B (n - i) = x := Nat.div_add_mod' x _
    refine ⟨(i, x / cdim B (n - i), x % cdim B (n - i)), ⟨by dsimp only; omega, ha, hb, ?_⟩, ?_⟩
    · show r = tShift A B n i + (x / cdim B (n - i) * cdim B (n - i) + x % cdim B (n - i))
      rw [hx]; exact h3
    · rintro ⟨i', a', b'⟩ ⟨g1, g2, g3, g4⟩
      dsimp only at g1 g2 g3 g4
      have g4 : r = tShift A B n i' + (a' * cdim B (n - i') + b') := g4
      obtain ⟨q1, q2⟩ := tShift_apart (hblk i' a' b' g2 g3) h2 (by rw [← g4]; exact h3)
      subst q1
      have d1 : a' = x / cdim B (n - i') := by
        rw [← q2, mul_comm, Nat.mul_add_div hp, Nat.div_eq_of_lt g3, Nat.add_zero]
      have d2 : b' = x % cdim B (n - i') := by
        rw [← q2, mul_comm, Nat.mul_add_mod, Nat.mod_eq_of_lt g3]
      rw [d1, d2]
  · rintro ⟨⟨i, a, b⟩, ⟨h1, h2, h3, h4⟩, _⟩
    dsimp only at h1 h2 h3 h4
    have h4 : r = tShift A B n i + (a * cdim B (n - i) + b) := h4
    rw [hc]
    have := tShift_mono (A := A) (B := B) (n := n) (show i + 1 ≤ n + 1 by omega)
    rw [tShift_succ] at this
    have := hblk i a b h2 h3
    omega

/-- C47: the Künneth formula, in the dimensions below the truncation. -/
theorem C47_kunneth (hA : IsChainComplex A) (hB : IsChainComplex B) (zA : ZeroBdry0 A) (zB : ZeroBdry0 B) {dmax n : Nat} (hn : n < dmax) (sA sB : Nat → Nat) (tab0 : Nat → Nat → Nat) :
    bettiNumber (tensorProduct A B dmax sA sB tab0) n = ∑ ij ∈ antidiagonal n, bettiNumber A ij.1 * bettiNumber B ij.2 := by
  rw [tensorProduct_eq hA.ne hB.ne]
  exact tMats_betti hA hB zA zB (Or.inl hn)

/-- C47: `tensor_product(A, B)` satisfies the Künneth formula in every dimension. -/
theorem C47_kunneth_full (hA : IsChainComplex A) (hB : IsChainComplex B) (zA : ZeroBdry0 A) (zB : ZeroBdry0 B) (sA sB : Nat → Nat) (tab0 : Nat → Nat → Nat) (n : Nat) :
    bettiNumber (tensorProductFull A B sA sB tab0) n = ∑ ij ∈ antidiagonal n, bettiNumber A ij.1 * bettiNumber B ij.2 := by
  unfold tensorProductFull
  rw [tensorProduct_eq hA.ne hB.ne]
  exact tMats_betti hA hB zA zB (Or.inr (le_refl _))

/-- C47: with zero boundary matrices in dimension 0 the values read outside of `ind_shift`, and its initial content, have no effect. -/
theorem C47_stray (hA : IsChainComplex A) (hB : IsChainComplex B) (zA : ZeroBdry0 A) (zB : ZeroBdry0 B) (dmax : Nat) (sA sB sA' sB' : Nat → Nat) (tab0 tab0' : Nat → Nat → Nat) :
    tensorProduct A B dmax sA sB tab0 = tensorProduct A B dmax sA' sB' tab0' := by
  rw [tensorProduct_eq hA.ne hB.ne, tensorProduct_eq hA.ne hB.ne]
  apply List.map_congr_left
  intro n _
  unfold tMat
  split
  · rfl
  · rename_i hn
    congr 1
    unfold tCols
    apply List.flatMap_congr
    intro i hi
    apply List.flatMap_congr
    intro a ha
    apply List.map_congr_left
    intro b hb
    rw [List.mem_range] at hi ha hb
    unfold tCol tensorColumn
    congr 1
    · by_cases h : i = 0
      · subst h; rw [col_zero zA ha]; rfl
      · rw [if_neg h, if_neg h]
    · by_cases h : n - i = 0
      · rw [h] at hb ⊢
        rw [col_zero zB hb]
        rfl
      · rw [if_neg h, if_neg h]

/-- C47: without that hypothesis they do: for complexes with an augmentation the result depends on what is read at `ind_shift[-1][j]`. -/
theorem C47_stray_witness : ∃ A B : List (CMat ℚ), IsChainComplex A ∧ IsChainComplex B ∧ ZeroBdry0 B ∧
    tensorProduct A B 1 (fun _ => 0) (fun _ => 0) (fun _ _ => 0) ≠ tensorProduct A B 1 (fun _ => 1) (fun _ => 0) (fun _ _ => 0) := by
  refine ⟨[⟨1, [[(0, 1)]]⟩], circleQ, ?_, circleQ_complex, ?_, ?_⟩
  · apply isChainComplex_of_bool
    · decide
    · decide +kernel
    · decide +kernel
  · unfold ZeroBdry0; decide
  · decide +kernel

/-- the torus: circle ⊗ circle; the Betti numbers computed by the library's reduction are 1, 2, 1 -/
example : IsChainComplex circleQ ∧ ZeroBdry0 circleQ ∧
    (tensorProductFull circleQ circleQ (fun _ => 5) (fun _ => 7) (fun _ _ => 9)).map (fun M => (M.nrow, M.cols.length)) = [(1, 9), (9, 18), (18, 9)] ∧
    ((tensorProductFull circleQ circleQ (fun _ => 5) (fun _ => 7) (fun _ _ => 9)).getD 2 ⟨0, []⟩).cols.getD 1 [] = [(1, -1), (4, 1), (9, 1), (11, -1)] ∧
    (Variant.standard.reduce (tensorProductFull circleQ circleQ (fun _ => 5) (fun _ => 7) (fun _ _ => 9))).bind
      (fun C => do pure [← C.hdim 0, ← C.hdim 1, ← C.hdim 2]) = .ok [1, 2, 1] :=
  ⟨circleQ_complex, by unfold ZeroBdry0; decide, by decide +kernel, by decide +kernel, by decide +kernel⟩

end BATS
