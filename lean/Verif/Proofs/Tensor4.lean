import Verif.Proofs.Tensor3

set_option linter.unusedSectionVars false
set_option linter.unusedVariables false
set_option linter.unusedSimpArgs false

/-! # Homology of the tensor product -/

namespace BATS
open Matrix Module

variable {F : Type} [Field F] [DecidableEq F] {A B C : List (CMat F)} {sA sB : Nat → Nat}

/-- number of cells of dimension `m` in the tensor product -/
theorem tShift_full (m : Nat) : tShift A B m (m + 1) = ∑ ij ∈ Finset.antidiagonal m, cdim A ij.1 * cdim B ij.2 := by
  rw [Finset.Nat.sum_antidiagonal_eq_sum_range_succ (fun i j => cdim A i * cdim B j)]
  rfl

/-- position of a cell `x ⊗ y` of dimension `m` -/
def tPos (A B : List (CMat F)) (m : Nat) (x : Tot A × Tot B) : Nat := tShift A B m x.1.1 + (x.1.2 * cdim B (m - x.1.1) + x.2.2)

theorem tPos_in {m : Nat} {x : Tot A × Tot B} (h : tensorDeg (totDeg A) (totDeg B) x = m) :
    x.1.1.val ≤ m ∧ m - x.1.1.val = x.2.1.val ∧ x.2.2.val < cdim B (m - x.1.1) ∧ x.1.2 * cdim B (m - x.1.1) + x.2.2 < cdim A x.1.1 * cdim B (m - x.1.1) := by
  have h' : x.1.1.val + x.2.1.val = m := h
  have e : m - x.1.1.val = x.2.1.val := by omega
  have hb : x.2.2.val < cdim B (m - x.1.1) := lt_of_lt_of_eq x.2.2.2 (congrArg (cdim B) e.symm)
  refine ⟨by omega, e, hb, ?_⟩
  have ha := x.1.2.2
  calc x.1.2.val * cdim B (m - x.1.1) + x.2.2.val < x.1.2.val * cdim B (m - x.1.1) + cdim B (m - x.1.1) := by omega
      _ = (x.1.2.val + 1) * cdim B (m - x.1.1) := by ring
      _ ≤ _ := Nat.mul_le_mul_right _ (by omega)

theorem tPos_lt {m : Nat} {x : Tot A × Tot B} (h : tensorDeg (totDeg A) (totDeg B) x = m) : tPos A B m x < tShift A B m (m + 1) := by
  obtain ⟨h1, _, _, h3⟩ := tPos_in h
  have := tShift_mono (A := A) (B := B) (n := m) (show x.1.1.val + 1 ≤ m + 1 by omega)
  rw [tShift_succ] at this
  unfold tPos
  omega

theorem tPos_inj {m : Nat} {x y : Tot A × Tot B} (hx : tensorDeg (totDeg A) (totDeg B) x = m) (hy : tensorDeg (totDeg A) (totDeg B) y = m)
    (h : tPos A B m x = tPos A B m y) : x = y := by
  obtain ⟨h1, h2, h3, h4⟩ := tPos_in hx
  obtain ⟨g1, g2, g3, g4⟩ := tPos_in hy
  obtain ⟨e1, e2⟩ := tShift_apart h4 g4 h
  have e1' : m - y.1.1.val = m - x.1.1.val := by rw [e1]
  have e2 : x.1.2.val * cdim B (m - x.1.1.val) + x.2.2.val = y.1.2.val * cdim B (m - x.1.1.val) + y.2.2.val :=
    e2.trans (congrArg (fun k => y.1.2.val * cdim B k + y.2.2.val) e1')
  have g3 : y.2.2.val < cdim B (m - x.1.1.val) := lt_of_lt_of_eq g3 (congrArg (cdim B) e1')
  have hp : 0 < cdim B (m - x.1.1.val) := by omega
  have d1 : x.1.2.val = y.1.2.val := by
    have := congrArg (fun k => k / cdim B (m - x.1.1.val)) e2
    rw [mul_comm, Nat.mul_add_div hp, Nat.div_eq_of_lt h3, mul_comm, Nat.mul_add_div hp, Nat.div_eq_of_lt g3] at this
    omega
  have d2 : x.2.2.val = y.2.2.val := by rw [d1] at e2; omega
  exact Prod.ext (tot_ext e1 d1) (tot_ext (by omega) d2)

/-- the cells of dimension `m` of the tensor product -/
noncomputable def tEquiv (m : Nat) (hC : cdim C m = tShift A B m (m + 1)) : {x : Tot A × Tot B // tensorDeg (totDeg A) (totDeg B) x = m} ≃ Fin (cdim C m) :=
  Equiv.ofBijective (fun x => ⟨tPos A B m x.1, by rw [hC]; exact tPos_lt x.2⟩) (by
    rw [Fintype.bijective_iff_injective_and_card]
    refine ⟨?_, ?_⟩
    · intro x y h
      exact Subtype.ext (tPos_inj x.2 y.2 (Fin.mk.inj_iff.1 h))
    · rw [card_tensor, Fintype.card_fin, hC, tShift_full]
      apply Finset.sum_congr rfl
      intro ij _
      rw [Fintype.card_congr (totEquiv A ij.1), Fintype.card_congr (totEquiv B ij.2), Fintype.card_fin, Fintype.card_fin])

theorem tEquiv_val (m : Nat) (hC : cdim C m = tShift A B m (m + 1)) (x) : (tEquiv m hC x).val = tPos A B m x.1 := rfl

theorem tMats_getD {dmax m : Nat} (h : m ≤ dmax) : ((List.range (dmax + 1)).map (tMat A B sA sB)).getD m ⟨0, []⟩ = tMat A B sA sB m := by
  rw [List.getD_eq_getElem?_getD, List.getElem?_map, List.getElem?_range (by omega)]
  rfl

theorem tMats_cdim {dmax m : Nat} (h : m ≤ dmax) : cdim ((List.range (dmax + 1)).map (tMat A B sA sB)) m = tShift A B m (m + 1) := by
  unfold cdim
  rw [tMats_getD h, tMat_length]
  rfl

theorem tMats_ent (hA : IsChainComplex A) (hB : IsChainComplex B) (zA : ZeroBdry0 A) (zB : ZeroBdry0 B) {dmax m : Nat} (h : m + 1 ≤ dmax)
    {s t : Tot A × Tot B} (hs : tensorDeg (totDeg A) (totDeg B) s = m) (ht : tensorDeg (totDeg A) (totDeg B) t = m + 1) :
    ent ((List.range (dmax + 1)).map (tMat A B sA sB)) (m + 1) (tPos A B m s) (tPos A B (m + 1) t) = tensorD (totDeg A) (totD A) (totD B) s t := by
  obtain ⟨h1, h2, h3, h4⟩ := tPos_in hs
  obtain ⟨g1, g2, g3, g4⟩ := tPos_in ht
  unfold ent
  rw [tMats_getD h]
  have e0 : (tMat A B sA sB (m + 1)).cols = tCols A B sA sB (m + 1) := by unfold tMat; rw [if_neg (by omega)]
  rw [e0, show tPos A B (m + 1) t = tShift A B (m + 1) t.1.1 + (t.1.2 * cdim B (m + 1 - t.1.1) + t.2.2) from rfl, tCols_get g1 t.1.2.2 g3]
  have key := (tCol_spec (sA := sA) (sB := sB) hA hB zA zB (n := m + 1) (by omega) g1 t.1.2.2 g3).2.2 s.1.1 s.1.2 s.2.2 (by omega) s.1.2.2 h3
  refine Eq.trans key ?_
  unfold tensorD
  rw [Matrix.add_apply, kronecker_apply, kronecker_apply]
  congr 1
  · unfold totD
    by_cases e : s.1.1.val + 1 = t.1.1.val
    · rw [if_pos e, if_pos e]
      congr 1
      rw [Matrix.one_apply]
      by_cases e' : s.2.2.val = t.2.2.val
      · rw [if_pos e', if_pos (tot_ext (by omega) e')]
      · rw [if_neg e', if_neg (fun hc => e' (by rw [hc]))]
    · rw [if_neg e, if_neg e, zero_mul]
  · unfold signs
    by_cases e : s.1.1.val = t.1.1.val
    · rw [if_pos e]
      congr 1
      · by_cases e' : s.1.2.val = t.1.2.val
        · rw [if_pos e', tot_ext e e', diagonal_apply_eq]
          rfl
        · rw [if_neg e', diagonal_apply_ne _ (fun hc => e' (by rw [hc]))]
      · unfold totD
        rw [if_pos (by omega)]
        exact congrArg (fun k => ent B k s.2.2.val t.2.2.val) g2
    · rw [if_neg e, diagonal_apply_ne _ (fun hc => e (by rw [hc])), zero_mul]

theorem tMats_zero (dmax : Nat) : ZeroBdry0 ((List.range (dmax + 1)).map (tMat A B sA sB)) := by
  intro c hc
  rw [tMats_getD (by omega)] at hc
  exact (List.mem_replicate.1 hc).2

theorem tMats_complex (hA : IsChainComplex A) (hB : IsChainComplex B) (zA : ZeroBdry0 A) (zB : ZeroBdry0 B) (dmax : Nat) :
    IsChainComplex ((List.range (dmax + 1)).map (tMat A B sA sB)) := by
  obtain ⟨C, hC⟩ : ∃ C, C = (List.range (dmax + 1)).map (tMat A B sA sB) := ⟨_, rfl⟩
  have hlen : C.length = dmax + 1 := by rw [hC]; simp
  rw [← hC]
  refine ⟨?_, ?_, ?_⟩
  · intro h; rw [h] at hlen; simp at hlen
  · intro k hk
    rw [hlen] at hk
    have hg : C.getD k ⟨0, []⟩ = tMat A B sA sB k := by rw [hC]; exact tMats_getD (by omega)
    cases k with
    | zero =>
      refine ⟨?_, ?_, ?_⟩
      · rw [hg]
        intro c hc
        have : c = [] := (List.mem_replicate.1 hc).2
        subst this
        exact ⟨⟨List.Pairwise.nil, by intro p hp; exact absurd hp List.not_mem_nil⟩, by intro p hp; exact absurd hp List.not_mem_nil⟩
      · rfl
      · rfl
    | succ k =>
      have e0 : tMat A B sA sB (k + 1) = ⟨tShift A B k (k + 1), tCols A B sA sB (k + 1)⟩ := by unfold tMat; rw [if_neg (by omega)]; rfl
      refine ⟨?_, ?_, rfl⟩
      · rw [hg, e0]
        intro c hc
        dsimp only at hc ⊢
        unfold tCols at hc
        obtain ⟨i, hi, hc⟩ := List.mem_flatMap.1 hc
        obtain ⟨a, ha, hc⟩ := List.mem_flatMap.1 hc
        obtain ⟨b, hb, rfl⟩ := List.mem_map.1 hc
        rw [List.mem_range] at hi ha hb
        have := tCol_spec (sA := sA) (sB := sB) hA hB zA zB (n := k + 1) (by omega) (by omega) ha hb
        exact ⟨this.1, this.2.1⟩
      · rw [hg, e0]
        show _ = cdim C k
        rw [hC, tMats_cdim (by omega)]
  · intro k hk
    rw [hlen] at hk
    cases k with
    | zero =>
      have : bdry C 0 = 0 := by
        ext i j
        show coef ((C.getD 0 ⟨0, []⟩).cols.getD j []) i = 0
        rw [col_zero (by rw [hC]; exact tMats_zero dmax) j.2]; rfl
      rw [this, Matrix.zero_mul]
    | succ k =>
      have c : ∀ m, m ≤ dmax → cdim C m = tShift A B m (m + 1) := fun m hm => by rw [hC]; exact tMats_cdim hm
      refine link_sq ((tot_graded hA).tensor (tot_graded hB)) (tEquiv k (c k (by omega))) (tEquiv (k + 1) (c _ (by omega))) (tEquiv (k + 1 + 1) (c _ (by omega))) ?_ ?_
      · intro s t
        rw [tEquiv_val, tEquiv_val, hC]
        exact tMats_ent hA hB zA zB (by omega) s.2 t.2
      · intro s t
        rw [tEquiv_val, tEquiv_val, hC]
        exact tMats_ent hA hB zA zB (by omega) s.2 t.2

theorem tShift_big {m : Nat} (hA : A ≠ []) (hB : B ≠ []) (h : (A.length - 1) + (B.length - 1) < m) : tShift A B m (m + 1) = 0 := by
  unfold tShift
  apply Finset.sum_eq_zero
  intro i hi
  have := List.length_pos_of_ne_nil hA
  have := List.length_pos_of_ne_nil hB
  by_cases hc : A.length ≤ i
  · rw [cdim_big hc, zero_mul]
  · rw [cdim_big (A := B) (by omega), mul_zero]

theorem tMats_betti (hA : IsChainComplex A) (hB : IsChainComplex B) (zA : ZeroBdry0 A) (zB : ZeroBdry0 B) {dmax n : Nat}
    (hn : n < dmax ∨ (A.length - 1) + (B.length - 1) ≤ dmax) :
    bettiNumber ((List.range (dmax + 1)).map (tMat A B sA sB)) n = ∑ ij ∈ Finset.antidiagonal n, bettiNumber A ij.1 * bettiNumber B ij.2 := by
  have hc : ∀ m, m ≤ n + 1 → cdim ((List.range (dmax + 1)).map (tMat A B sA sB)) m = tShift A B m (m + 1) := by
    intro m hm
    by_cases h : m ≤ dmax
    · exact tMats_cdim h
    · rw [cdim_big (by simp; omega), tShift_big hA.ne hB.ne (by omega)]
  rw [betti_link ((tot_graded hA).tensor (tot_graded hB)) (tMats_complex hA hB zA zB dmax) (tMats_zero dmax) (n := n) (fun m hm => tEquiv m (hc m hm)), kunneth (tot_graded hA) (tot_graded hB)]
  · apply Finset.sum_congr rfl
    intro ij _
    rw [betti_tot hA zA, betti_tot hB zB]
  · intro m h1 h2 s t
    rw [tEquiv_val, tEquiv_val]
    by_cases h : m + 1 ≤ dmax
    · exact tMats_ent hA hB zA zB h s.2 t.2
    · exfalso
      have := tPos_lt t.2
      rw [tShift_big hA.ne hB.ne (by omega)] at this
      omega

end BATS
