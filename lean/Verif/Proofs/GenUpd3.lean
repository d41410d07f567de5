import Verif.Proofs.GenUpd2

set_option linter.unusedSectionVars false
set_option linter.unusedVariables false
set_option linter.unusedSimpArgs false

/-! # The general update: the final reduction (degree -1) -/

namespace BATS
namespace GenUpd
open Reduction Matrix DG

variable {F : Type} [Field F] [DecidableEq F]

/-- clearing with a basis that is already triangular -/
theorem clearing_gen {n n2 m : Nat} {M M2 R0 U0 : CMat F} {r2 : CMat F × CMat F × P2C} (hM : M.Shape m n) (hR0 : R0.Shape m n) (hU0 : U0.Shape n n)
    (hup : UpperInv (U0.mat n n)) (heq : M.mat m n * U0.mat n n = R0.mat m n)
    (hDD : M.mat m n * M2.mat n n2 = 0) (h2 : LevelUOK n n2 M2 r2) :
    ∃ r, reduceClearingU R0 U0 r2.1 r2.2.2 = .ok r ∧ LevelUOK m n M r := by
  classical
  obtain ⟨R2, U2, p2⟩ := r2
  obtain ⟨h2, hf⟩ := h2
  simp only at h2 hf
  have hlen : p2.length = n := h2.table.len
  obtain ⟨cols', ucols', hrun, hcl, hul, hcm, hum⟩ := clearBasisLoop_spec R2.cols p2 0 R0.cols U0.cols
    (by rw [hR0.ncol, hlen]; omega) (by rw [hU0.ncol, hR0.ncol]) (fun i j h => by rw [h2.shapeR.ncol]; exact h2.table.bound i j h)
  have hS : (⟨R0.nrow, cols'⟩ : CMat F).Shape m n := by
    refine ⟨colsOK_of_getD ?_, hR0.nrow, by rw [← hR0.ncol]; exact hcl⟩
    intro j _
    show VecOK (cols'.getD j []) ∧ Below R0.nrow (cols'.getD j [])
    rw [hcm j]
    split
    · exact ⟨vecOK_nil, below_nil _⟩
    · rw [hR0.nrow]; exact hR0.colsOK.getD j
  have hR2 : ColsOK n R2.cols := h2.shapeR.colsOK
  have hSU : (⟨U0.nrow, ucols'⟩ : CMat F).Shape n n := by
    refine ⟨colsOK_of_getD ?_, hU0.nrow, by rw [← hR0.ncol]; exact hul⟩
    intro j _
    show VecOK (ucols'.getD j []) ∧ Below U0.nrow (ucols'.getD j [])
    rw [hum j, if_pos (Nat.zero_le _), hU0.nrow]
    split
    · exact hR2.getD _
    · exact hU0.colsOK.getD j
  have hcase : ∀ i : Fin n, (cols'.getD i [] = R0.cols.getD i [] ∧ (matOf n n ucols').col i = (U0.mat n n).col i) ∨
      ∃ j : Fin n2, Low (R2.mat n n2) i j ∧ cols'.getD i [] = [] ∧ (matOf n n ucols').col i = (R2.mat n n2).col j := by
    intro i
    cases hp : p2.getD i none with
    | none =>
      left
      refine ⟨?_, ?_⟩
      · rw [hcm, if_neg (by simp only [Nat.sub_zero, hp]; simp)]
      · funext a
        show coef (ucols'.getD i []) a = _
        rw [hum, if_pos (Nat.zero_le _)]
        simp only [Nat.sub_zero, hp]
        rfl
    | some k =>
      right
      have hg : p2[i.val]? = some (some k) := by
        have hl : i.val < p2.length := by rw [hlen]; exact i.2
        rw [← hp]; simp [hl]
      have hk := h2.table.bound _ _ hg
      refine ⟨⟨k, hk⟩, (h2.table.iff i ⟨k, hk⟩).1 hg, ?_, ?_⟩
      · rw [hcm, if_pos ⟨Nat.zero_le _, by simp only [Nat.sub_zero, hp]; simp⟩]
      · funext a
        show coef (ucols'.getD i []) a = _
        rw [hum, if_pos (Nat.zero_le _)]
        simp only [Nat.sub_zero, hp]
        rfl
  have hW : UpperInv (matOf n n ucols') := by
    apply upperInv_of_low
    intro i
    rcases hcase i with ⟨_, h⟩ | ⟨j, hl, _, h⟩
    · rw [h]; exact ⟨hup.2 i, fun i' hi' => hup.1 i' i hi'⟩
    · rw [h]; exact hl
  have hMW : (⟨R0.nrow, cols'⟩ : CMat F).mat m n = M.mat m n * matOf n n ucols' := by
    ext a i
    have : (M.mat m n * matOf n n ucols') a i = (M.mat m n *ᵥ ((matOf n n ucols').col i)) a := rfl
    rw [this]
    show coef (cols'.getD i []) a = _
    rcases hcase i with ⟨hc, h⟩ | ⟨j, hl, hc, h⟩
    · rw [h, hc]
      have e : M.mat m n *ᵥ (U0.mat n n).col i = (M.mat m n * U0.mat n n).col i := rfl
      rw [e, heq]; rfl
    · rw [h, hc, ← hf.eq]
      have e : M.mat m n *ᵥ (M2.mat n n2 * U2.mat n2 n2).col j = (M.mat m n * (M2.mat n n2 * U2.mat n2 n2)).col j := rfl
      rw [e, ← Matrix.mul_assoc, hDD, Matrix.zero_mul]; rfl
  obtain ⟨R, U', p, V, h, hR, hU, hV, h1, h3, h4⟩ := reduceStdU_spec hS hSU
  have hUe : U'.mat n n = matOf n n ucols' * V := h3
  refine ⟨(R, U', p), ?_, levelOK_of_factor hM hR (hW.mul hV.upperInv) (by rw [h1, hMW, Matrix.mul_assoc]) h4, hU,
    by rw [hUe]; exact hW.mul hV.upperInv, by rw [hUe, h1, hMW, Matrix.mul_assoc]⟩
  unfold reduceClearingU
  rw [hrun]
  exact h

theorem reduce_gen {n m : Nat} {M R0 U0 : CMat F} (hM : M.Shape m n) (hR0 : R0.Shape m n) (hU0 : U0.Shape n n)
    (hup : UpperInv (U0.mat n n)) (heq : M.mat m n * U0.mat n n = R0.mat m n) :
    ∃ r, reduceStdU R0 U0 = .ok r ∧ LevelUOK m n M r := by
  obtain ⟨R, U', p, V, h, hR, hU, hV, h1, h3, h4⟩ := reduceStdU_spec hR0 hU0
  exact ⟨(R, U', p), h, levelOK_of_factor hM hR (hup.mul hV.upperInv) (by rw [h1, ← heq, Matrix.mul_assoc]) h4, hU,
    by rw [h3]; exact hup.mul hV.upperInv, by rw [h3, h1, ← heq, Matrix.mul_assoc]⟩

/-- `R = D U` with `U` triangular -/
structure Fact (m n : Nat) (M R U : CMat F) : Prop where
  shM : M.Shape m n
  shR : R.Shape m n
  fac : FactorOK m n M R U

theorem Done.fact {e : Nat} {d2 : Nat → Nat} {M2 : Nat → Nat → Nat → F} {U R D : List (CMat F)} {l : Nat} (h : Done e d2 M2 U R l)
    (hD : (at' D l).Shape (rr e d2 l) (d2 l)) (hM : ∀ i j, i < rr e d2 l → j < d2 l → M2 l i j = ent D l i j) :
    Fact (rr e d2 l) (d2 l) (at' D l) (at' R l) (at' U l) := by
  obtain ⟨h1, h2, h3⟩ := h
  refine ⟨hD, ⟨by rw [CMat.OK, h2]; exact h1.okR, h2, h1.lenR⟩, h1.shU, diag_upperInv h1.shU h3, ?_⟩
  ext i j
  rw [Matrix.mul_apply]
  show _ = ent1 (at' R l) i j
  rw [h1.eq i j i.2 j.2, Finset.sum_range]
  apply Finset.sum_congr rfl
  intro x _
  rw [hM i x i.2 x.2]; rfl

theorem finishDown_spec {e N : Nat} {d2 : Nat → Nat} {D : List (CMat F)}
    (hDD : ∀ l, l + 1 < N → (at' D l).mat (rr e d2 l) (d2 l) * (at' D (l + 1)).mat (d2 l) (d2 (l + 1)) = 0) :
    ∀ (k : Nat) (U R : List (CMat F)) (p : List P2C), k ≤ N → U.length = N + 1 → R.length = N + 1 → p.length = N + 1 →
    (∀ l, l < k → Fact (rr e d2 l) (d2 l) (at' D l) (at' R l) (at' U l)) →
    (∀ l, k ≤ l → l < N → LevelUOK (rr e d2 l) (d2 l) (at' D l) (at' R l, at' U l, p.getD l [])) →
    ∃ U' R' p', RedDG.finishDown N k U R p = .ok (U', R', p') ∧ U'.length = N + 1 ∧ R'.length = N + 1 ∧ p'.length = N + 1 ∧
      (∀ l, l < N → LevelUOK (rr e d2 l) (d2 l) (at' D l) (at' R' l, at' U' l, p'.getD l [])) ∧
      at' U' N = at' U N ∧ at' R' N = at' R N ∧ p'.getD N [] = p.getD N []
  | 0, U, R, p, _, hU, hR, hp, _, h2 => ⟨U, R, p, rfl, hU, hR, hp, fun l hl => h2 l (Nat.zero_le _) hl, rfl, rfl, rfl⟩
  | k + 1, U, R, p, hk, hU, hR, hp, h1, h2 => by
    have hf := h1 k (by omega)
    obtain ⟨s, hs1, hs2⟩ : ∃ s, (match (if k < N - 1 then some (k + 1) else none : Option Nat) with
        | none => reduceStdU (at' R k) (at' U k)
        | some k' => do
          let r' ← rd R k'
          let p' ← rd p k'
          reduceClearingU (at' R k) (at' U k) r' p') = .ok s ∧ LevelUOK (rr e d2 k) (d2 k) (at' D k) s := by
      by_cases hc : k < N - 1
      · rw [if_pos hc]
        obtain ⟨s, a1, a2⟩ := clearing_gen hf.shM hf.shR hf.fac.shape hf.fac.upper hf.fac.eq (hDD k (by omega)) (h2 (k + 1) (le_refl _) (by omega))
        refine ⟨s, ?_, a2⟩
        simp only
        rw [rd_getD ⟨0, []⟩ (by omega), bind_ok, rd_getD [] (by omega), bind_ok]
        exact a1
      · rw [if_neg hc]
        exact reduce_gen hf.shM hf.shR hf.fac.shape hf.fac.upper hf.fac.eq
    have aU := at_set U (k := k) (by omega) s.2.1
    have aR := at_set R (k := k) (by omega) s.1
    have aP : ∀ l, (p.set k s.2.2).getD l [] = if l = k then s.2.2 else p.getD l [] := fun l => getD_set' _ _ _ _ _ (by omega)
    obtain ⟨U', R', p', b1, b2, b3, b4, b5, b6, b7, b8⟩ := finishDown_spec hDD k (U.set k s.2.1) (R.set k s.1) (p.set k s.2.2) (by omega) (by simp [hU]) (by simp [hR]) (by simp [hp])
      (by intro l hl
          rw [aU, aR, if_neg (by omega), if_neg (by omega)]; exact h1 l (by omega))
      (by intro l hl hl'
          rw [aU, aR, aP]
          by_cases e1 : l = k
          · subst e1; simp only [if_true]; exact hs2
          · rw [if_neg e1, if_neg e1, if_neg e1]; exact h2 l (by omega) hl')
    refine ⟨U', R', p', ?_, b2, b3, b4, b5, by rw [b6, aU, if_neg (by omega)], by rw [b7, aR, if_neg (by omega)], by rw [b8, aP, if_neg (by omega)]⟩
    have hst : RedDG.finishStep k (if k < N - 1 then some (k + 1) else none) U R p = .ok (U.set k s.2.1, R.set k s.1, p.set k s.2.2) := by
      unfold RedDG.finishStep
      rw [rd_getD ⟨0, []⟩ (by omega), bind_ok, rd_getD ⟨0, []⟩ (by omega), bind_ok]
      by_cases hc : k < N - 1
      · rw [if_pos hc] at hs1 ⊢
        simp only at hs1 ⊢
        rw [rd_getD ⟨0, []⟩ (show k + 1 < R.length by omega), bind_ok, rd_getD [] (show k + 1 < p.length by omega), bind_ok] at hs1 ⊢
        rw [hs1, bind_ok, wr_lt _ (by omega), bind_ok, wr_lt _ (by omega), bind_ok, wr_lt _ (by omega), bind_ok]; rfl
      · rw [if_neg hc] at hs1 ⊢
        simp only at hs1 ⊢
        rw [hs1, bind_ok, wr_lt _ (by omega), bind_ok, wr_lt _ (by omega), bind_ok, wr_lt _ (by omega), bind_ok]; rfl
    unfold RedDG.finishDown
    rw [hst, bind_ok]
    exact b1

end GenUpd
end BATS
