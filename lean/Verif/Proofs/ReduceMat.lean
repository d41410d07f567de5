import Verif.Spec.Reduction
import Verif.Proofs.Reduction
import Verif.Proofs.Pivot

set_option linter.unusedSectionVars false
set_option linter.unusedSimpArgs false
set_option linter.unusedVariables false

namespace BATS
open Matrix

variable {F : Type _} [Field F] [DecidableEq F]

@[simp] theorem matOf_apply (m n : Nat) (cols : List (SVec F)) (i : Fin m) (j : Fin n) :
    matOf m n cols i j = coef (cols.getD j []) i := rfl

namespace Reduction

theorem low_matOf {m n : Nat} {cols : List (SVec F)} (h : ColsOK m cols) (i : Fin m) (j : Fin n) :
    Low (matOf m n cols) i j ↔ low (cols.getD j []) = some i.val := by
  have hj := h.getD j
  rw [low_iff hj.1]
  unfold Low
  simp only [matOf_apply]
  apply and_congr Iff.rfl
  constructor
  · intro h1 i' hi'
    by_cases hm : i' < m
    · exact h1 ⟨i', hm⟩ hi'
    · exact hj.2.coef_eq_zero (by omega)
  · intro h1 i' hi'
    exact h1 i' hi'

theorem applied_matOf {V : Nat → Nat → F} {n : Nat} {cs0 cs : List (SVec F)} (h : Applied V n cs0 cs) (m : Nat) :
    matOf m n cs = matOf m n cs0 * (Matrix.of fun (i j : Fin n) => V i j) := by
  ext i j
  rw [Matrix.mul_apply]
  simp only [matOf_apply, Matrix.of_apply]
  rw [h j j.2 i, Finset.sum_range]
  exact Finset.sum_congr rfl (fun k _ => mul_comm _ _)

theorem unitUpper_matOf {V : Nat → Nat → F} (h : UnitUpper V) (n : Nat) :
    UnitUpperTri (Matrix.of fun (i j : Fin n) => V i j) :=
  ⟨fun i j hij => h.2 i j hij, fun i => h.1 i⟩

theorem rinv_table {m n : Nat} {cols : List (SVec F)} {p2c : P2C} (h : RInv m n cols p2c) :
    IsPivotTable (matOf m n cols) p2c := by
  refine ⟨h.plen, fun i k hk => (h.sound i k hk).1, fun i j => ?_⟩
  rw [low_matOf h.ok]
  exact ⟨fun hk => (h.sound _ _ hk).2, fun hl => h.complete j j.2 i hl⟩

theorem _root_.BATS.IsPivotTable.reduced {m n : Nat} {R : Matrix (Fin m) (Fin n) F} {p2c : P2C} (h : IsPivotTable R p2c) :
    Reduced R := by
  intro i j j' h1 h2
  rw [← h.iff] at h1 h2
  rw [h1] at h2
  exact Fin.ext (by simpa using h2)

theorem stdColLoopU_ok {mu j : Nat} : ∀ (fuel : Nat) (cols ucols : List (SVec F)) (p2c : P2C) r,
    ColsOK mu ucols → stdColLoopU j fuel cols ucols p2c = .ok r → ColsOK mu r.2.1 := by
  intro fuel
  induction fuel with
  | zero => intro cols ucols p2c r _ h; cases h
  | succ fuel ih =>
    intro cols ucols p2c r hu h
    unfold stdColLoopU at h
    cases hc : rd cols j with
    | error e => rw [hc] at h; cases h
    | ok c =>
      rw [hc] at h
      simp only [bind_ok] at h
      split at h
      · cases h; exact hu
      · cases hp : SVec.lastnz c with
        | error e => rw [hp] at h; cases h
        | ok piv =>
          rw [hp] at h; simp only [bind_ok] at h
          cases he : rd p2c piv.1 with
          | error e => rw [he] at h; cases h
          | ok e =>
            rw [he] at h; simp only [bind_ok] at h
            cases e with
            | none => simp only at h; cases h; exact hu
            | some k =>
              simp only at h
              cases hck : rd cols k with
              | error e => rw [hck] at h; cases h
              | ok ck =>
                rw [hck] at h; simp only [bind_ok] at h
                cases hpk : SVec.lastnz ck with
                | error e => rw [hpk] at h; cases h
                | ok pk =>
                  rw [hpk] at h; simp only [bind_ok] at h
                  cases hd : CMat.fdiv piv.2 pk.2 with
                  | error e => rw [hd] at h; cases h
                  | ok a =>
                    rw [hd] at h; simp only [bind_ok] at h
                    cases huj : rd ucols j with
                    | error e => rw [huj] at h; cases h
                    | ok uj =>
                      rw [huj] at h; simp only [bind_ok] at h
                      cases huk : rd ucols k with
                      | error e => rw [huk] at h; cases h
                      | ok uk =>
                        rw [huk] at h; simp only [bind_ok] at h
                        have m1 : uj ∈ ucols := by
                          unfold rd at huj; split at huj
                          · rename_i e1; cases huj; exact List.mem_of_getElem? e1
                          · cases huj
                        have m2 : uk ∈ ucols := by
                          unfold rd at huk; split at huk
                          · rename_i e1; cases huk; exact List.mem_of_getElem? e1
                          · cases huk
                        refine ih _ _ _ r (hu.set j ?_) h
                        exact ⟨vecOK_axpy _ (hu _ m2).1 (hu _ m1).1, below_axpy _ (hu _ m2).2 (hu _ m1).2⟩

theorem stdLoopU_ok {mu m : Nat} : ∀ (todo j : Nat) (cols ucols : List (SVec F)) (p2c : P2C) r,
    ColsOK mu ucols → stdLoopU m todo j cols ucols p2c = .ok r → ColsOK mu r.2.1 := by
  intro todo
  induction todo with
  | zero => intro j cols ucols p2c r hu h; cases h; exact hu
  | succ todo ih =>
    intro j cols ucols p2c r hu h
    unfold stdLoopU at h
    cases hc : stdColLoopU j (m + 1) cols ucols p2c with
    | error e => rw [hc] at h; cases h
    | ok r' =>
      rw [hc] at h
      simp only [bind_ok] at h
      exact ih _ _ _ _ r (stdColLoopU_ok _ _ _ _ _ hu hc) h

/-- the complete specification of `reduce_matrix_standard(M, U)` -/
theorem reduceStdU_spec {m n mu : Nat} {M U : CMat F} (hM : M.Shape m n) (hU : U.Shape mu n) :
    ∃ (R U' : CMat F) (p2c : P2C) (V : Matrix (Fin n) (Fin n) F),
      reduceStdU M U = .ok (R, U', p2c) ∧ R.Shape m n ∧ U'.Shape mu n ∧ UnitUpperTri V ∧
      R.mat m n = M.mat m n * V ∧ U'.mat mu n = U.mat mu n * V ∧
      IsPivotTable (R.mat m n) p2c := by
  obtain ⟨mr, mc⟩ := M
  obtain ⟨ur, uc⟩ := U
  have h1 := hM.nrow; have h2 := hM.ncol; have h3 := hU.nrow; have h4 := hU.ncol
  simp only at h1 h2 h3 h4
  subst h1 h3
  have hMok : ColsOK mr mc := hM.ok
  have hUok : ColsOK ur uc := hU.ok
  obtain ⟨cols', ucols', p2c', V', hrun, hl1, hl2, hinv, hV, ha1, ha2⟩ :=
    stdLoopU_spec (m := mr) mc uc n 0 mc uc (List.replicate mr none) _ (by omega) h2 h4 (rinv_init hMok)
      unitUpper_id (applied_id n mc) (applied_id n uc)
  refine ⟨⟨mr, cols'⟩, ⟨ur, ucols'⟩, p2c', Matrix.of fun (i j : Fin n) => V' i j, ?_, ⟨hinv.ok, rfl, hl1⟩,
    ⟨stdLoopU_ok _ _ _ _ _ _ hUok hrun, rfl, hl2⟩, unitUpper_matOf hV n, applied_matOf ha1 _, applied_matOf ha2 _,
    rinv_table hinv⟩
  unfold reduceStdU
  simp only [h2, h4, ne_eq, not_true_eq_false, if_false, hrun, bind_ok, pure_ok]

theorem reduceStdU_proj (M U : CMat F) (h : M.cols.length = U.cols.length) :
    (reduceStdU M U).map (fun r => (r.1, r.2.2)) = reduceStd M := by
  unfold reduceStdU reduceStd
  simp only [h, ne_eq, not_true_eq_false, if_false]
  have := stdLoopU_proj (F := F) M.nrow U.cols.length 0 M.cols U.cols (List.replicate M.nrow none) h.symm
  rw [← this]
  cases stdLoopU M.nrow U.cols.length 0 M.cols U.cols (List.replicate M.nrow none) <;> rfl

theorem colsOK_identity (n : Nat) : ColsOK n (CMat.identity (F := F) n).cols := by
  intro c hc
  unfold CMat.identity at hc
  simp only [List.mem_map, List.mem_range] at hc
  obtain ⟨j, hj, rfl⟩ := hc
  refine ⟨⟨by simp [Sorted], ?_⟩, ?_⟩
  · intro p hp; simp at hp; subst hp; exact one_ne_zero
  · intro p hp; simp at hp; subst hp; exact hj

theorem shape_identity (n : Nat) : (CMat.identity (F := F) n).Shape n n :=
  ⟨colsOK_identity n, rfl, by simp [CMat.identity]⟩

theorem mat_identity (n : Nat) : (CMat.identity (F := F) n).mat n n = 1 := by
  ext i j
  simp only [CMat.mat, matOf_apply, CMat.identity, Matrix.one_apply]
  have : ((List.range n).map (fun j => [(j, (1 : F))])).getD j [] = [(j.val, 1)] := by simp
  rw [this]
  simp only [coef, add_zero]
  by_cases h : j.val = i.val
  · simp [h, Fin.ext_iff]
  · simp [h, Fin.ext_iff]; intro h'; exact absurd h'.symm h

/-- the complete specification of `reduce_matrix_standard(M)` -/
theorem reduceStd_spec {m n : Nat} {M : CMat F} (hM : M.Shape m n) :
    ∃ (R : CMat F) (p2c : P2C) (V : Matrix (Fin n) (Fin n) F),
      reduceStd M = .ok (R, p2c) ∧ R.Shape m n ∧ UnitUpperTri V ∧ R.mat m n = M.mat m n * V ∧
      IsPivotTable (R.mat m n) p2c := by
  obtain ⟨R, U', p2c, V, h, hR, _, hV, h1, _, h2⟩ := reduceStdU_spec hM (shape_identity (F := F) n)
  refine ⟨R, p2c, V, ?_, hR, hV, h1, h2⟩
  have := reduceStdU_proj M (CMat.identity n) (by rw [hM.ncol]; simp [CMat.identity])
  rw [← this, h]; rfl

end Reduction
end BATS
