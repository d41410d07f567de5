import Verif.Proofs.QuiverLR

set_option linter.unusedSectionVars false
set_option linter.unusedVariables false
set_option linter.unusedSimpArgs false

/-! # Divide and conquer -/

namespace BATS
namespace Quiver
open Matrix Reduction CMat BATS.Fact

variable {F : Type} [Field F] [DecidableEq F]

/-- quiver/sparse.hpp:57-71 -/
theorem passP_mat {cl nl : Bool} {b c : Nat} {f g : SparseFact F} (hP : f.P.Shape b b) (hp : IsPermMatrix (f.P.mat b b))
    (hE : if nl then g.E.Shape b c ∧ Monomial (g.E.mat b c) else g.E.Shape c b ∧ Monomial (g.E.mat c b)) :
    ∃ R, prMat nl cl f g = .ok R ∧ (if nl then R.Shape b c ∧ Monomial (R.mat b c) else R.Shape c b ∧ Monomial (R.mat c b)) ∧
      ∃ C C' : Matrix (Fin b) (Fin b) F, C * C' = 1 ∧ (if cl then f.P.mat b b * C = 1 else C' * f.P.mat b b = 1) ∧
      (if nl then R.mat b c = C' * g.E.mat b c else R.mat c b = g.E.mat c b * C) := by
  obtain ⟨t, t1, t2, t3⟩ := transpose_spec hP
  obtain ⟨p1, p2⟩ := perm_mul hp
  have hpt := IsPermMatrix.transpose hp
  cases nl <;> cases cl <;> simp only [prMat, if_true, Bool.false_eq_true, if_false, t1, bind_ok] at hE ⊢
  · obtain ⟨R, r1, r2, r3⟩ := gemm_spec hE.1 hP
    exact ⟨R, r1, ⟨r2, by rw [r3]; exact mono_mul_perm hp hE.2⟩, f.P.mat b b, (f.P.mat b b)ᵀ, p1, p2, r3⟩
  · obtain ⟨R, r1, r2, r3⟩ := gemm_spec hE.1 t2
    rw [t3] at r3
    exact ⟨R, r1, ⟨r2, by rw [r3]; exact mono_mul_perm hpt hE.2⟩, (f.P.mat b b)ᵀ, f.P.mat b b, p2, p1, r3⟩
  · obtain ⟨R, r1, r2, r3⟩ := gemm_spec t2 hE.1
    rw [t3] at r3
    exact ⟨R, r1, ⟨r2, by rw [r3]; exact perm_mul_mono hpt hE.2⟩, f.P.mat b b, (f.P.mat b b)ᵀ, p1, p2, r3⟩
  · obtain ⟨R, r1, r2, r3⟩ := gemm_spec hP hE.1
    exact ⟨R, r1, ⟨r2, by rw [r3]; exact perm_mul_mono hp hE.2⟩, (f.P.mat b b)ᵀ, f.P.mat b b, p2, p1, r3⟩

/-- quiver/sparse.hpp:200-216 -/
theorem passP_matL {cl pl : Bool} {b c : Nat} {f g : SparseFact F} (hP : f.P.Shape b b) (hp : IsPermMatrix (f.P.mat b b))
    (hE : if pl then g.E.Shape c b ∧ Monomial (g.E.mat c b) else g.E.Shape b c ∧ Monomial (g.E.mat b c)) :
    ∃ R, plE pl cl f g = .ok R ∧ (if pl then R.Shape c b ∧ Monomial (R.mat c b) else R.Shape b c ∧ Monomial (R.mat b c)) ∧
      ∃ C C' : Matrix (Fin b) (Fin b) F, C * C' = 1 ∧ (if cl then C' * f.P.mat b b = 1 else f.P.mat b b * C = 1) ∧
      (if pl then R.mat c b = g.E.mat c b * C else R.mat b c = C' * g.E.mat b c) := by
  obtain ⟨t, t1, t2, t3⟩ := transpose_spec hP
  obtain ⟨p1, p2⟩ := perm_mul hp
  have hpt := IsPermMatrix.transpose hp
  cases pl <;> cases cl <;> simp only [plE, if_true, Bool.false_eq_true, if_false, t1, bind_ok] at hE ⊢
  · obtain ⟨R, r1, r2, r3⟩ := gemm_spec hP hE.1
    exact ⟨R, r1, ⟨r2, by rw [r3]; exact perm_mul_mono hp hE.2⟩, (f.P.mat b b)ᵀ, f.P.mat b b, p2, p1, r3⟩
  · obtain ⟨R, r1, r2, r3⟩ := gemm_spec t2 hE.1
    rw [t3] at r3
    exact ⟨R, r1, ⟨r2, by rw [r3]; exact perm_mul_mono hpt hE.2⟩, f.P.mat b b, (f.P.mat b b)ᵀ, p1, p2, r3⟩
  · obtain ⟨R, r1, r2, r3⟩ := gemm_spec hE.1 t2
    rw [t3] at r3
    exact ⟨R, r1, ⟨r2, by rw [r3]; exact mono_mul_perm hpt hE.2⟩, (f.P.mat b b)ᵀ, f.P.mat b b, p2, p1, r3⟩
  · obtain ⟨R, r1, r2, r3⟩ := gemm_spec hE.1 hP
    exact ⟨R, r1, ⟨r2, by rw [r3]; exact mono_mul_perm hp hE.2⟩, f.P.mat b b, (f.P.mat b b)ᵀ, p1, p2, r3⟩

/-- `pass_P_right` -/
theorem passPRight_spec {D : Dgm F} {d : Nat → Nat} (hD : IsZigzag D d) {s : QState F} {st : Nat → Stage} (h : SInv D d s st) {k : Nat}
    (hk : k + 1 < D.edata.length) (h1 : st k = .el) (hL : (fk s k).L.mat (d k) (d k) = 1) (hU : (fk s k).U.mat (d (k + 1)) (d (k + 1)) = 1)
    (h2 : st (k + 1) = .q) (hL2 : (fk s (k + 1)).L.mat (d (k + 1)) (d (k + 1)) = 1) :
    ∃ s', passPRight D s k = .ok s' ∧ SInv D d s' st ∧ Agree s s' (fun j => j = k ∨ j = k + 1) ∧
      eα .el (left D k) (fk s' k) (d k) = 1 ∧ eβ .el (left D k) (fk s' k) (d (k + 1)) = 1 ∧ (fk s' (k + 1)).L.mat (d (k + 1)) (d (k + 1)) = 1 ∧
      (fk s' (k + 1)).U = (fk s (k + 1)).U := by
  have ok0 := h.ok k (by omega)
  have ok1 := h.ok (k + 1) hk
  rw [h1] at ok0; rw [h2] at ok1
  obtain ⟨lu, hP, hp, hE⟩ := ok0
  obtain ⟨lu1, hE1⟩ := ok1
  obtain ⟨R, r1, r2, C, C', c1, c2, c3⟩ := passP_mat (cl := left D k) (nl := left D (k + 1)) hP hp hE1
  have hkf : k + 1 < s.facts.length := by rw [h.flen]; omega
  have hkf' : k < (s.facts.set (k + 1) { fk s (k + 1) with E := R }).length := by rw [List.length_set, h.flen]; omega
  have e0 : fk (⟨(s.facts.set (k + 1) { fk s (k + 1) with E := R }).set k { fk s k with P := identity (d (k + 1)) }, s.mats⟩ : QState F) k =
      { fk s k with P := identity (d (k + 1)) } := set_getD_self hkf'
  have e1 : fk (⟨(s.facts.set (k + 1) { fk s (k + 1) with E := R }).set k { fk s k with P := identity (d (k + 1)) }, s.mats⟩ : QState F) (k + 1) =
      { fk s (k + 1) with E := R } := (set_getD_ne (by omega)).trans (set_getD_self hkf)
  have hβ : eβ .el (left D k) { fk s k with P := identity (d (k + 1)) } (d (k + 1)) = 1 := by
    unfold eβ; simp only [mat_identity, Matrix.mul_one, Matrix.one_mul, hU, ite_self]
  have ha : Agree s (⟨(s.facts.set (k + 1) { fk s (k + 1) with E := R }).set k { fk s k with P := identity (d (k + 1)) }, s.mats⟩ : QState F) (fun j => j = k ∨ j = k + 1) :=
    ⟨by simp, rfl, fun j hj => (set_getD_ne (by omega)).trans (set_getD_ne (by omega)), fun j hj => rfl⟩
  refine ⟨_, ?_, ?_, ha, by rw [e0]; exact hL, by rw [e0]; exact hβ, by rw [e1]; exact hL2, by rw [e1]⟩
  · unfold passPRight
    simp only [isLeft_ok hD (by omega : k < D.edata.length), isLeft_ok hD hk, rdf h hk, rdf h (by omega : k < D.edata.length), bind_ok, r1, wr_ok _ hkf,
      wr_ok _ hkf', hP.nrow]
    rfl
  · refine h.move hk ha (fun j _ => rfl) ?_ ?_ c1 ?_ ?_
    · rw [h1, e0]
      refine ⟨⟨lu.L, lu.lo, lu.U, lu.up⟩, shape_identity _, ?_, hE⟩
      show IsPermMatrix ((identity _ : CMat F).mat _ _); rw [mat_identity]; exact perm_one
    · rw [h2, e1]
      exact ⟨⟨lu1.L, lu1.lo, lu1.U, lu1.up⟩, r2⟩
    · rw [h1, e0, hβ]
      unfold ValR
      have hβ0 : eβ .el (left D k) (fk s k) (d (k + 1)) = (fk s k).P.mat _ _ := by
        unfold eβ; simp only [hU, Matrix.mul_one, Matrix.one_mul, ite_self]
      rw [hβ0]
      split
      · rename_i hl
        rw [if_pos hl] at c2
        rw [Matrix.mul_assoc _ _ C, c2]; rfl
      · rename_i hl
        rw [if_neg hl] at c2
        rw [← Matrix.mul_assoc, ← Matrix.mul_assoc, c2]; rfl
    · rw [h2, e1]
      unfold ValL
      show if left D (k + 1) then (fk s (k + 1)).L.mat _ _ * R.mat _ _ * (fk s (k + 1)).U.mat _ _ = C' * ((fk s (k + 1)).L.mat _ _ * (fk s (k + 1)).E.mat _ _ * (fk s (k + 1)).U.mat _ _)
        else (fk s (k + 1)).U.mat _ _ * R.mat _ _ * (fk s (k + 1)).L.mat _ _ = (fk s (k + 1)).U.mat _ _ * (fk s (k + 1)).E.mat _ _ * (fk s (k + 1)).L.mat _ _ * C
      split
      · rename_i hl; rw [if_pos hl] at c3
        rw [hL2, c3]; simp only [Matrix.one_mul, Matrix.mul_assoc]
      · rename_i hl; rw [if_neg hl] at c3
        rw [hL2, c3]; simp only [Matrix.mul_one, Matrix.mul_assoc]

/-- `pass_P_left` -/
theorem passPLeft_spec {D : Dgm F} {d : Nat → Nat} (hD : IsZigzag D d) {s : QState F} {st : Nat → Stage} (h : SInv D d s st) {k : Nat}
    (hk : k + 1 < D.edata.length) (h1 : st k = .q) (hU : (fk s k).U.mat (d (k + 1)) (d (k + 1)) = 1)
    (h2 : st (k + 1) = .eu) (hL2 : (fk s (k + 1)).L.mat (d (k + 1)) (d (k + 1)) = 1) (hU2 : (fk s (k + 1)).U.mat (d (k + 2)) (d (k + 2)) = 1) :
    ∃ s', passPLeft D s (k + 1) = .ok s' ∧ SInv D d s' st ∧ Agree s s' (fun j => j = k ∨ j = k + 1) ∧
      eα .eu (left D (k + 1)) (fk s' (k + 1)) (d (k + 1)) = 1 ∧ eβ .eu (left D (k + 1)) (fk s' (k + 1)) (d (k + 2)) = 1 ∧
      (fk s' k).U.mat (d (k + 1)) (d (k + 1)) = 1 ∧ (fk s' k).L = (fk s k).L := by
  have ok0 := h.ok k (by omega)
  have ok1 := h.ok (k + 1) hk
  rw [h1] at ok0; rw [h2] at ok1
  obtain ⟨lu, hP, hp, hE⟩ := ok1
  obtain ⟨lu1, hE1⟩ := ok0
  obtain ⟨R, r1, r2, C, C', c1, c2, c3⟩ := passP_matL (cl := left D (k + 1)) (pl := left D k) hP hp hE1
  have hkf : k < s.facts.length := by rw [h.flen]; omega
  have hkf' : k + 1 < (s.facts.set k { fk s k with E := R }).length := by rw [List.length_set, h.flen]; omega
  have e0 : fk (⟨(s.facts.set k { fk s k with E := R }).set (k + 1) { fk s (k + 1) with P := identity (d (k + 1)) }, s.mats⟩ : QState F) (k + 1) =
      { fk s (k + 1) with P := identity (d (k + 1)) } := set_getD_self hkf'
  have e1 : fk (⟨(s.facts.set k { fk s k with E := R }).set (k + 1) { fk s (k + 1) with P := identity (d (k + 1)) }, s.mats⟩ : QState F) k =
      { fk s k with E := R } := (set_getD_ne (by omega)).trans (set_getD_self hkf)
  have hα : eα .eu (left D (k + 1)) { fk s (k + 1) with P := identity (d (k + 1)) } (d (k + 1)) = 1 := by
    unfold eα; simp only [mat_identity, Matrix.mul_one, Matrix.one_mul, hL2, ite_self]
  have ha : Agree s (⟨(s.facts.set k { fk s k with E := R }).set (k + 1) { fk s (k + 1) with P := identity (d (k + 1)) }, s.mats⟩ : QState F) (fun j => j = k ∨ j = k + 1) :=
    ⟨by simp, rfl, fun j hj => (set_getD_ne (by omega)).trans (set_getD_ne (by omega)), fun j hj => rfl⟩
  refine ⟨_, ?_, ?_, ha, by rw [e0]; exact hα, by rw [e0]; exact hU2, by rw [e1]; exact hU, by rw [e1]⟩
  · unfold passPLeft
    simp only [Nat.add_sub_cancel, isLeft_ok hD (by omega : k < D.edata.length), isLeft_ok hD hk, rdf h hk, rdf h (by omega : k < D.edata.length), bind_ok, r1, wr_ok _ hkf,
      wr_ok _ hkf', hP.nrow]
    rfl
  · refine h.move hk ha (fun j _ => rfl) ?_ ?_ c1 ?_ ?_
    · rw [h1, e1]
      exact ⟨⟨lu1.L, lu1.lo, lu1.U, lu1.up⟩, r2⟩
    · rw [h2, e0]
      refine ⟨⟨lu.L, lu.lo, lu.U, lu.up⟩, shape_identity _, ?_, hE⟩
      show IsPermMatrix ((identity _ : CMat F).mat _ _); rw [mat_identity]; exact perm_one
    · rw [h1, e1]
      unfold ValR
      show if left D k then (fk s k).L.mat _ _ * R.mat _ _ * (fk s k).U.mat _ _ = (fk s k).L.mat _ _ * (fk s k).E.mat _ _ * (fk s k).U.mat _ _ * C
        else (fk s k).U.mat _ _ * R.mat _ _ * (fk s k).L.mat _ _ = C' * ((fk s k).U.mat _ _ * (fk s k).E.mat _ _ * (fk s k).L.mat _ _)
      split
      · rename_i hl; rw [if_pos hl] at c3
        rw [hU, c3]; simp only [Matrix.mul_one, Matrix.mul_assoc]
      · rename_i hl; rw [if_neg hl] at c3
        rw [hU, c3]; simp only [Matrix.one_mul, Matrix.mul_assoc]
    · rw [h2, e0, hα]
      unfold ValL
      have hα0 : eα .eu (left D (k + 1)) (fk s (k + 1)) (d (k + 1)) = (fk s (k + 1)).P.mat _ _ := by
        unfold eα; simp only [hL2, Matrix.mul_one, Matrix.one_mul, ite_self]
      rw [hα0]
      split
      · rename_i hl
        rw [if_pos hl] at c2
        rw [← Matrix.mul_assoc, ← Matrix.mul_assoc, c2]; rfl
      · rename_i hl
        rw [if_neg hl] at c2
        rw [Matrix.mul_assoc _ _ C, c2]; rfl

/-! ### restaging -/

theorem perm_diag {n : Nat} {P : Matrix (Fin n) (Fin n) F} (hp : IsPermMatrix P) (hd : ∀ i, P i i ≠ 0) : P = 1 := by
  obtain ⟨σ, hσ⟩ := hp
  ext i j
  have : σ i = i := by
    by_contra hne
    apply hd i
    rw [hσ, if_neg hne]
  rw [hσ, this, Matrix.one_apply]

theorem perm_lower_one {n : Nat} {P L : Matrix (Fin n) (Fin n) F} (hp : IsPermMatrix P) (hl : LowerInv L) (h : P * L = 1 ∨ L * P = 1) : L = 1 := by
  have h' : L * P = 1 := by rcases h with h | h; exact mul_eq_one_comm.1 h; exact h
  have : P = 1 := perm_diag hp (lower_inverse hl h').2
  rw [this, Matrix.mul_one] at h'; exact h'

theorem perm_upper_one {n : Nat} {P U : Matrix (Fin n) (Fin n) F} (hp : IsPermMatrix P) (hl : UpperInv U) (h : U * P = 1 ∨ P * U = 1) : U = 1 := by
  have h' : U * P = 1 := by rcases h with h | h; exact h; exact mul_eq_one_comm.1 h
  have : P = 1 := perm_diag hp (UpperInv.inverse hl h').2
  rw [this, Matrix.mul_one] at h'; exact h'

theorem eu_L {l : Bool} {f : SparseFact F} {M : CMat F} {a b : Nat} (h : SOK .eu l f M a b) (hα : eα .eu l f a = 1) : f.L.mat a a = 1 := by
  obtain ⟨lu, hP, hp, hE⟩ := h
  unfold eα at hα; simp only at hα
  split at hα
  · exact perm_lower_one hp lu.lo (Or.inl hα)
  · exact perm_lower_one hp lu.lo (Or.inr hα)

theorem el_U {l : Bool} {f : SparseFact F} {M : CMat F} {a b : Nat} (h : SOK .el l f M a b) (hβ : eβ .el l f b = 1) : f.U.mat b b = 1 := by
  obtain ⟨lu, hP, hp, hE⟩ := h
  unfold eβ at hβ; simp only at hβ
  split at hβ
  · exact perm_upper_one hp lu.up (Or.inl hβ)
  · exact perm_upper_one hp lu.up (Or.inr hβ)

theorem eu_q {l : Bool} {f : SparseFact F} {M : CMat F} {a b : Nat} (h : SOK .eu l f M a b) : SOK .q l f M a b := by
  refine ⟨h.1, ?_⟩
  have := h.2.2.2
  split
  · rw [if_pos (by assumption)] at this; exact ⟨this.1, this.2.1⟩
  · rw [if_neg (by assumption)] at this; exact ⟨this.1, this.2.1⟩

theorem el_q {l : Bool} {f : SparseFact F} {M : CMat F} {a b : Nat} (h : SOK .el l f M a b) : SOK .q l f M a b := by
  refine ⟨h.1, ?_⟩
  have := h.2.2.2
  split
  · rw [if_pos (by assumption)] at this; exact ⟨this.1, this.2.1⟩
  · rw [if_neg (by assumption)] at this; exact ⟨this.1, this.2.1⟩

theorem SInv.restage {D : Dgm F} {d : Nat → Nat} {s : QState F} {st st' : Nat → Stage} (h : SInv D d s st)
    (hst : ∀ k, k < D.edata.length → st' k = st k ∨ (st' k = .q ∧ st k = .eu ∧ eα .eu (left D k) (fk s k) (d k) = 1) ∨
      (st' k = .q ∧ st k = .el ∧ eβ .el (left D k) (fk s k) (d (k + 1)) = 1)) : SInv D d s st' := by
  obtain ⟨N, hu, hN⟩ := h.iso
  refine ⟨h.flen, h.mlen, fun k hk => ?_, N, hu, fun k hk => ?_⟩
  · have ok := h.ok k hk
    rcases hst k hk with e | ⟨e1, e2, e3⟩ | ⟨e1, e2, e3⟩
    · rw [e]; exact ok
    · rw [e2] at ok; rw [e1]; exact eu_q ok
    · rw [e2] at ok; rw [e1]; exact el_q ok
  · have ok := h.ok k hk
    have r := hN k hk
    rcases hst k hk with e | ⟨e1, e2, e3⟩ | ⟨e1, e2, e3⟩
    · rw [e]; exact r
    · rw [e2] at ok r; rw [e1]
      have e4 : eα .q (left D k) (fk s k) (d k) = eα .eu (left D k) (fk s k) (d k) := by rw [e3]; exact eu_L ok e3
      rw [e4]; exact r
    · rw [e2] at ok r; rw [e1]
      have e4 : eβ .q (left D k) (fk s k) (d (k + 1)) = eβ .el (left D k) (fk s k) (d (k + 1)) := by rw [e3]; exact el_U ok e3
      rw [e4]; exact r

/-! ### factoring a monomial matrix -/

theorem facEL_mono {l : Bool} {a b : Nat} {M : CMat F} (h : if l then M.Shape a b ∧ Monomial (M.mat a b) else M.Shape b a ∧ Monomial (M.mat b a)) {f : SparseFact F}
    (hf : facEL l M = .ok f) : f.L.mat a a = 1 ∧ f.U.mat b b = 1 := by
  unfold facEL at hf
  cases l
  · exact puel_mono h.1 h.2 hf
  · exact leup_mono h.1 h.2 hf

theorem facEU_mono {l : Bool} {a b : Nat} {M : CMat F} (h : if l then M.Shape a b ∧ Monomial (M.mat a b) else M.Shape b a ∧ Monomial (M.mat b a)) {f : SparseFact F}
    (hf : facEU l M = .ok f) : f.L.mat a a = 1 ∧ f.U.mat b b = 1 := by
  unfold facEU at hf
  cases l
  · exact uelp_mono h.1 h.2 hf
  · exact pleu_mono h.1 h.2 hf

theorem shape_of_mono {l : Bool} {a b : Nat} {M : CMat F} (h : if l then M.Shape a b ∧ Monomial (M.mat a b) else M.Shape b a ∧ Monomial (M.mat b a)) :
    if l then M.Shape a b else M.Shape b a := by
  split
  · rw [if_pos (by assumption)] at h; exact h.1
  · rw [if_neg (by assumption)] at h; exact h.1

/-- refactoring a monomial edge -/
theorem SInv.refac {D : Dgm F} {d : Nat → Nat} {s : QState F} {st : Nat → Stage} (h : SInv D d s st) {k : Nat} (hk : k < D.edata.length) (hq : st k = .q)
    (hL : (fk s k).L.mat (d k) (d k) = 1) (hU : (fk s k).U.mat (d (k + 1)) (d (k + 1)) = 1) :
    (∃ f, facEL (left D k) (fk s k).E = .ok f ∧ wr s.facts k f = .ok (s.facts.set k f) ∧ SInv D d ⟨s.facts.set k f, s.mats⟩ (Function.update st k .el) ∧
      f.L.mat (d k) (d k) = 1 ∧ f.U.mat (d (k + 1)) (d (k + 1)) = 1) ∧
    (∃ f, facEU (left D k) (fk s k).E = .ok f ∧ wr s.facts k f = .ok (s.facts.set k f) ∧ SInv D d ⟨s.facts.set k f, s.mats⟩ (Function.update st k .eu) ∧
      f.L.mat (d k) (d k) = 1 ∧ f.U.mat (d (k + 1)) (d (k + 1)) = 1) := by
  have ok := h.ok k hk
  rw [hq] at ok
  obtain ⟨lu, hE⟩ := ok
  have a1 : eα (st k) (left D k) (fk s k) (d k) = 1 := by rw [hq]; exact hL
  have a2 : eβ (st k) (left D k) (fk s k) (d (k + 1)) = 1 := by rw [hq]; exact hU
  have a3 : eE (st k) (fk s k) (mt s k) = (fk s k).E := by rw [hq]; rfl
  constructor
  · obtain ⟨f, f1, f2, f3⟩ := facEL_spec (shape_of_mono hE) (mt s k)
    obtain ⟨w1, w2⟩ := h.put hk f2 (by rw [a1, a2, a3]; exact f3)
    exact ⟨f, f1, w1, w2, facEL_mono hE f1⟩
  · obtain ⟨f, f1, f2, f3⟩ := facEU_spec (shape_of_mono hE) (mt s k)
    obtain ⟨w1, w2⟩ := h.put hk f2 (by rw [a1, a2, a3]; exact f3)
    exact ⟨f, f1, w1, w2, facEU_mono hE f1⟩

/-- all edges are clean -/
def Clean (D : Dgm F) (d : Nat → Nat) (s : QState F) (st : Nat → Stage) (k : Nat) : Prop :=
  eα (st k) (left D k) (fk s k) (d k) = 1 ∧ eβ (st k) (left D k) (fk s k) (d (k + 1)) = 1

theorem dqELLoop_spec {D : Dgm F} {d : Nat → Nat} (hD : IsZigzag D d) : ∀ (n j : Nat) (s : QState F) (st : Nat → Stage), SInv D d s st →
    j + n < D.edata.length → (∀ k, j ≤ k → k < j + n → st k = .q ∧ Clean D d s st k) → st (j + n) = .q → (fk s (j + n)).L.mat (d (j + n)) (d (j + n)) = 1 →
    ∃ s' st', dqELLoop D n j s = .ok s' ∧ SInv D d s' st' ∧ (∀ k, ¬ (j ≤ k ∧ k ≤ j + n) → st' k = st k) ∧ Agree s s' (fun k => j ≤ k ∧ k ≤ j + n) ∧
      (∀ k, j ≤ k → k < j + n → st' k = .el ∧ Clean D d s' st' k) ∧ st' (j + n) = .q ∧ (fk s' (j + n)).L.mat (d (j + n)) (d (j + n)) = 1
  | 0, j, s, st, h, hj, hq, he, hL => ⟨s, st, rfl, h, fun _ _ => rfl, Agree.refl _ _, fun k h1 h2 => by omega, he, hL⟩
  | n + 1, j, s, st, h, hj, hq, he, hL => by
    obtain ⟨q1, q2, q3⟩ := hq j (by omega) (by omega)
    rw [q1] at q2 q3
    obtain ⟨⟨f, f1, f2, f3, f4, f5⟩, _⟩ := h.refac (k := j) (by omega) q1 q2 q3
    have hf : fk (⟨s.facts.set j f, s.mats⟩ : QState F) j = f := set_getD_self (by rw [h.flen]; omega)
    have hne : ∀ k, k ≠ j → fk (⟨s.facts.set j f, s.mats⟩ : QState F) k = fk s k := fun k hk => set_getD_ne (fun e => hk e.symm)
    have hj1 : st (j + 1) = .q ∧ (fk s (j + 1)).L.mat (d (j + 1)) (d (j + 1)) = 1 := by
      cases n with
      | zero => exact ⟨he, hL⟩
      | succ n =>
        obtain ⟨z1, z2, _⟩ := hq (j + 1) (by omega) (by omega)
        rw [z1] at z2; exact ⟨z1, z2⟩
    obtain ⟨s1, p1, p2, p3, p4, p5, p6, p7⟩ := passPRight_spec hD f3 (k := j) (by omega) (Function.update_self _ _ _) (by rw [hf]; exact f4) (by rw [hf]; exact f5)
      (by rw [Function.update_of_ne (by omega)]; exact hj1.1) (by rw [hne _ (by omega)]; exact hj1.2)
    have key : ∀ k, j < k → k ≤ j + (n + 1) → (∀ b, (fk s1 k).U.mat b b = (fk s k).U.mat b b) := by
      intro k h1 h2 b
      by_cases hk1 : k = j + 1
      · subst hk1; rw [p7, hne _ (by omega)]
      · rw [p3.f k (by omega), hne k (by omega)]
    obtain ⟨s', st', r1, r2, r3, r4, r5, r6, r7⟩ := dqELLoop_spec hD n (j + 1) s1 _ p2 (by omega) (by
        intro k h1 h2
        rw [Function.update_of_ne (by omega)]
        obtain ⟨z1, z2, z3⟩ := hq k (by omega) (by omega)
        refine ⟨z1, ?_⟩
        unfold Clean
        rw [Function.update_of_ne (by omega), z1]
        rw [z1] at z2 z3
        refine ⟨?_, ?_⟩
        · by_cases hk1 : k = j + 1
          · subst hk1; exact p6
          · rw [p3.f k (by omega), hne k (by omega)]; exact z2
        · show (fk s1 k).U.mat _ _ = 1
          rw [key k (by omega) (by omega)]; exact z3)
      (by rw [Function.update_of_ne (by omega), show j + 1 + n = j + (n + 1) by omega]; exact he)
      (by
        cases n with
        | zero => exact p6
        | succ n => rw [show j + 1 + (n + 1) = j + (n + 1 + 1) by omega, p3.f _ (by omega), hne _ (by omega)]; exact hL)
    refine ⟨s', st', ?_, r2, ?_, ?_, ?_, ?_, ?_⟩
    · rw [dqELLoop]
      simp only [isLeft_ok hD (by omega : j < D.edata.length), rdf h (by omega : j < D.edata.length), bind_ok, f1, f2, p1]
      exact r1
    · intro k hk; rw [r3 k (by omega), Function.update_of_ne (by omega)]
    · exact (agree_set.trans p3 (r := fun k => k = j ∨ k = j + 1) (fun i x => Or.inl x) (fun _ x => x)).trans r4 (fun i x => by omega) (fun i x => by omega)
    · intro k h1 h2
      by_cases hk : k = j
      · subst hk
        have est : st' k = .el := by rw [r3 k (by omega), Function.update_self]
        refine ⟨est, ?_⟩
        unfold Clean
        rw [est, r4.f k (by omega)]
        exact ⟨p4, p5⟩
      · exact r5 k (by omega) (by omega)
    · rw [show j + (n + 1) = j + 1 + n by omega]; exact r6
    · rw [show j + (n + 1) = j + 1 + n by omega]; exact r7
theorem dqEULoop_spec {D : Dgm F} {d : Nat → Nat} (hD : IsZigzag D d) (j : Nat) : ∀ (n : Nat) (s : QState F) (st : Nat → Stage), SInv D d s st →
    j + n < D.edata.length → (∀ k, j < k → k ≤ j + n → st k = .q ∧ Clean D d s st k) → st j = .q → (fk s j).U.mat (d (j + 1)) (d (j + 1)) = 1 →
    ∃ s' st', dqEULoop D j n s = .ok s' ∧ SInv D d s' st' ∧ (∀ k, ¬ (j ≤ k ∧ k ≤ j + n) → st' k = st k) ∧ Agree s s' (fun k => j ≤ k ∧ k ≤ j + n) ∧
      (∀ k, j < k → k ≤ j + n → st' k = .eu ∧ Clean D d s' st' k) ∧ st' j = .q ∧ (fk s' j).U.mat (d (j + 1)) (d (j + 1)) = 1
  | 0, s, st, h, hj, hq, he, hU => ⟨s, st, rfl, h, fun _ _ => rfl, Agree.refl _ _, fun k h1 h2 => by omega, he, hU⟩
  | n + 1, s, st, h, hj, hq, he, hU => by
    obtain ⟨q1, q2, q3⟩ := hq (j + (n + 1)) (by omega) (by omega)
    rw [q1] at q2 q3
    obtain ⟨_, f, f1, f2, f3, f4, f5⟩ := h.refac (k := j + (n + 1)) (by omega) q1 q2 q3
    have hf : fk (⟨s.facts.set (j + (n + 1)) f, s.mats⟩ : QState F) (j + n + 1) = f := set_getD_self (by rw [h.flen]; omega)
    have hne : ∀ k, k ≠ j + (n + 1) → fk (⟨s.facts.set (j + (n + 1)) f, s.mats⟩ : QState F) k = fk s k := fun k hk => set_getD_ne (fun e => hk e.symm)
    have hj1 : st (j + n) = .q ∧ (fk s (j + n)).U.mat (d (j + n + 1)) (d (j + n + 1)) = 1 := by
      cases n with
      | zero => exact ⟨he, hU⟩
      | succ n =>
        obtain ⟨z1, _, z2⟩ := hq (j + (n + 1)) (by omega) (by omega)
        rw [z1] at z2; exact ⟨z1, z2⟩
    obtain ⟨s1, p1, p2, p3, p4, p5, p6, p7⟩ := passPLeft_spec hD f3 (k := j + n) (by omega) (by rw [Function.update_of_ne (by omega)]; exact hj1.1)
      (by rw [hne _ (by omega)]; exact hj1.2) (Function.update_self _ _ _) (by rw [hf]; exact f4) (by rw [hf]; exact f5)
    have key : ∀ k, j ≤ k → k < j + (n + 1) → (∀ b, (fk s1 k).L.mat b b = (fk s k).L.mat b b) := by
      intro k h1 h2 b
      by_cases hk1 : k = j + n
      · subst hk1; rw [p7, hne _ (by omega)]
      · rw [p3.f k (by omega), hne k (by omega)]
    obtain ⟨s', st', r1, r2, r3, r4, r5, r6, r7⟩ := dqEULoop_spec hD j n s1 _ p2 (by omega) (by
        intro k h1 h2
        rw [Function.update_of_ne (by omega)]
        obtain ⟨z1, z2, z3⟩ := hq k (by omega) (by omega)
        refine ⟨z1, ?_⟩
        unfold Clean
        rw [Function.update_of_ne (by omega), z1]
        rw [z1] at z2 z3
        refine ⟨?_, ?_⟩
        · show (fk s1 k).L.mat _ _ = 1
          rw [key k (by omega) (by omega)]; exact z2
        · by_cases hk1 : k = j + n
          · subst hk1; exact p6
          · rw [p3.f k (by omega), hne k (by omega)]; exact z3)
      (by rw [Function.update_of_ne (by omega)]; exact he)
      (by
        cases n with
        | zero => exact p6
        | succ n => rw [p3.f _ (by omega), hne _ (by omega)]; exact hU)
    refine ⟨s', st', ?_, r2, ?_, ?_, ?_, r6, r7⟩
    · rw [dqEULoop]
      simp only [isLeft_ok hD (by omega : j + (n + 1) < D.edata.length), rdf h (by omega : j + (n + 1) < D.edata.length), bind_ok, f1, f2]
      exact (congrArg (fun x => x >>= dqEULoop D j n) p1).trans r1
    · intro k hk; rw [r3 k (by omega), Function.update_of_ne (by omega)]
    · exact (agree_set.trans p3 (r := fun k => k = j + n ∨ k = j + n + 1) (fun i x => Or.inr x) (fun _ x => x)).trans r4 (fun i x => by omega) (fun i x => by omega)
    · intro k h1 h2
      by_cases hk : k = j + (n + 1)
      · subst hk
        have est : st' (j + (n + 1)) = .eu := by rw [r3 _ (by omega), Function.update_self]
        refine ⟨est, ?_⟩
        unfold Clean
        rw [est, r4.f _ (by omega)]
        exact ⟨p4, p5⟩
      · exact r5 k (by omega) (by omega)

end Quiver
end BATS
