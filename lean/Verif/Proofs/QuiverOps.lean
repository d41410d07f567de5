import Verif.Proofs.QuiverSweep

set_option linter.unusedSectionVars false
set_option linter.unusedVariables false
set_option linter.unusedSimpArgs false

/-! # The single operations of the sweeps -/

namespace BATS
namespace Quiver
open Matrix Reduction CMat BATS.Fact

variable {F : Type} [Field F] [DecidableEq F]

theorem perm_mul {n : Nat} {P : Matrix (Fin n) (Fin n) F} (h : IsPermMatrix P) : P * Pᵀ = 1 ∧ Pᵀ * P = 1 := by
  obtain ⟨σ, hσ⟩ := h
  have e : P * Pᵀ = 1 := by
    ext i j
    rw [Matrix.mul_apply, Matrix.one_apply]
    simp only [Matrix.transpose_apply, hσ]
    rw [Finset.sum_eq_single (σ i)]
    · by_cases hij : i = j
      · subst hij; simp
      · rw [if_pos rfl, if_neg hij, if_neg (fun hh => hij (σ.injective hh).symm), mul_zero]
    · intro b _ hb; rw [if_neg (fun hh => hb hh.symm), zero_mul]
    · intro hh; exact absurd (Finset.mem_univ _) hh
  exact ⟨e, mul_eq_one_comm.1 e⟩

theorem perm_one {n : Nat} : IsPermMatrix (1 : Matrix (Fin n) (Fin n) F) :=
  ⟨Equiv.refl _, fun i j => by rw [Matrix.one_apply]; rfl⟩

theorem lower_one {n : Nat} : LowerInv (1 : Matrix (Fin n) (Fin n) F) :=
  ⟨fun i j h => Matrix.one_apply_ne (ne_of_lt h), fun i => by rw [Matrix.one_apply_eq]; exact one_ne_zero⟩

theorem upper_one {n : Nat} : UpperInv (1 : Matrix (Fin n) (Fin n) F) :=
  ⟨fun i j h => Matrix.one_apply_ne (ne_of_gt h), fun i => by rw [Matrix.one_apply_eq]; exact one_ne_zero⟩

theorem UnitLowerTri.lowerInv {n : Nat} {L : Matrix (Fin n) (Fin n) F} (h : UnitLowerTri L) : LowerInv L :=
  ⟨h.1, fun i => by rw [h.2 i]; exact one_ne_zero⟩

theorem lower_mul {n : Nat} {V W : Matrix (Fin n) (Fin n) F} (hV : LowerInv V) (hW : LowerInv W) : LowerInv (V * W) := by
  have := UpperInv.mul (UpperInv.of_transpose hW) (UpperInv.of_transpose hV)
  rw [← Matrix.transpose_mul] at this
  have := LowerInv.of_transpose this
  rwa [Matrix.transpose_transpose] at this

theorem lower_inverse {n : Nat} {V W : Matrix (Fin n) (Fin n) F} (hV : LowerInv V) (h : V * W = 1) : LowerInv W := by
  have h' : Vᵀ * Wᵀ = 1 := by rw [← Matrix.transpose_mul, mul_eq_one_comm.1 h, Matrix.transpose_one]
  have := LowerInv.of_transpose (UpperInv.inverse (UpperInv.of_transpose hV) h')
  rwa [Matrix.transpose_transpose] at this

theorem prod3_spec {m a b n : Nat} {W X Y : CMat F} (hW : W.Shape m a) (hX : X.Shape a b) (hY : Y.Shape b n) :
    ∃ R, prod3 W X Y = .ok R ∧ R.Shape m n ∧ R.mat m n = W.mat m a * X.mat a b * Y.mat b n := by
  obtain ⟨p, p1, p2, p3⟩ := gemm_spec hW hX
  obtain ⟨q, q1, q2, q3⟩ := gemm_spec p2 hY
  exact ⟨q, by unfold prod3; simp only [p1, q1, bind_ok], q2, by rw [q3, p3]⟩

/-! ### factorisations -/

theorem facEL_spec {l : Bool} {a b : Nat} {M : CMat F} (h : if l then M.Shape a b else M.Shape b a) (M' : CMat F) :
    ∃ f, facEL l M = .ok f ∧ SOK .el l f M' a b ∧ ValL l 1 1 M (1 : Matrix (Fin a) (Fin a) F) (1 : Matrix (Fin b) (Fin b) F) f.E (eα .el l f a) (eβ .el l f b) := by
  by_cases hl : l = true
  · subst hl
    rw [if_pos rfl] at h
    obtain ⟨f, f0, f1, f2, f3, f4, f5, f6, f7, f8, f9⟩ := leup_core h
    refine ⟨f, f0, ⟨⟨f1, UnitLowerTri.lowerInv f5, f3, f7.upperInv⟩, f4, f8, ?_⟩, ?_⟩
    · exact ⟨f2, f6⟩
    · show f.L.mat a a * f.E.mat a b * (f.U.mat b b * f.P.mat b b) = 1 * (1 * M.mat a b * 1)
      rw [Matrix.one_mul, Matrix.one_mul, Matrix.mul_one, f9]; simp only [Matrix.mul_assoc]
  · have hl : l = false := by simpa using hl
    subst hl
    rw [if_neg (by simp)] at h
    obtain ⟨f, f0, f1, f2, f3, f4, f5, f6, f7, f8, f9⟩ := puel_core h
    refine ⟨f, f0, ⟨⟨f4, UnitLowerTri.lowerInv f8, f2, f6.upperInv⟩, f1, f5, ?_⟩, ?_⟩
    · exact ⟨f3, f7⟩
    · show f.P.mat b b * f.U.mat b b * f.E.mat b a * f.L.mat a a = 1 * M.mat b a * 1 * 1
      rw [Matrix.one_mul, Matrix.mul_one, Matrix.mul_one, f9]

theorem facEU_spec {l : Bool} {a b : Nat} {M : CMat F} (h : if l then M.Shape a b else M.Shape b a) (M' : CMat F) :
    ∃ f, facEU l M = .ok f ∧ SOK .eu l f M' a b ∧ ValL l 1 1 M (1 : Matrix (Fin a) (Fin a) F) (1 : Matrix (Fin b) (Fin b) F) f.E (eα .eu l f a) (eβ .eu l f b) := by
  by_cases hl : l = true
  · subst hl
    rw [if_pos rfl] at h
    obtain ⟨f, f0, f1, f2, f3, f4, f5, f6, f7, f8, f9⟩ := pleu_core h
    refine ⟨f, f0, ⟨⟨f2, UnitLowerTri.lowerInv f6, f4, f8.upperInv⟩, f1, f5, ?_⟩, ?_⟩
    · exact ⟨f3, f7⟩
    · show f.P.mat a a * f.L.mat a a * f.E.mat a b * f.U.mat b b = 1 * (1 * M.mat a b * 1)
      rw [Matrix.one_mul, Matrix.one_mul, Matrix.mul_one, f9]
  · have hl : l = false := by simpa using hl
    subst hl
    rw [if_neg (by simp)] at h
    obtain ⟨f, f0, f1, f2, f3, f4, f5, f6, f7, f8, f9⟩ := uelp_core h
    refine ⟨f, f0, ⟨⟨f3, UnitLowerTri.lowerInv f7, f1, f5.upperInv⟩, f4, f8, ?_⟩, ?_⟩
    · exact ⟨f2, f6⟩
    · show f.U.mat b b * f.E.mat b a * (f.L.mat a a * f.P.mat a a) = 1 * M.mat b a * 1 * 1
      rw [Matrix.one_mul, Matrix.mul_one, Matrix.mul_one, f9]; simp only [Matrix.mul_assoc]

theorem facQ_spec {l : Bool} {a b : Nat} {M : CMat F} (h : if l then M.Shape a b else M.Shape b a) (M' : CMat F) :
    ∃ f, (if l then lqu M else uql M) = .ok f ∧ SOK .q l f M' a b ∧
      ValL l 1 1 M (1 : Matrix (Fin a) (Fin a) F) (1 : Matrix (Fin b) (Fin b) F) f.E (eα .q l f a) (eβ .q l f b) := by
  by_cases hl : l = true
  · subst hl
    rw [if_pos rfl] at h
    obtain ⟨f, f0, f1, f2, f3, f4, f5, f6, f7⟩ := lqu_spec h
    refine ⟨f, f0, ⟨⟨f1, f4, f3, f5⟩, ?_⟩, ?_⟩
    · exact ⟨f2, f6.2⟩
    · show f.L.mat a a * f.E.mat a b * f.U.mat b b = 1 * (1 * M.mat a b * 1)
      rw [Matrix.one_mul, Matrix.one_mul, Matrix.mul_one, f7]
  · have hl : l = false := by simpa using hl
    subst hl
    rw [if_neg (by simp)] at h
    obtain ⟨f, f0, f1, f2, f3, f4, f5, f6, f7⟩ := uql_spec h
    refine ⟨f, f0, ⟨⟨f3, f5, f1, f4⟩, ?_⟩, ?_⟩
    · exact ⟨f2, f6.2⟩
    · show f.U.mat b b * f.E.mat b a * f.L.mat a a = 1 * M.mat b a * 1 * 1
      rw [Matrix.one_mul, Matrix.mul_one, Matrix.mul_one, f7]

/-! ### lists -/

theorem set_getD_self {α : Type} {l : List α} {i : Nat} {a z : α} (h : i < l.length) : (l.set i a).getD i z = a := by
  rw [List.getD_eq_getElem?_getD, List.getElem?_set_self h]; rfl

theorem set_getD_ne {α : Type} {l : List α} {i j : Nat} {a z : α} (h : i ≠ j) : (l.set i a).getD j z = l.getD j z := by
  rw [List.getD_eq_getElem?_getD, List.getElem?_set_ne h, ← List.getD_eq_getElem?_getD]

/-- a factorisation is stored -/
theorem SInv.put {D : Dgm F} {d : Nat → Nat} {s : QState F} {st : Nat → Stage} (h : SInv D d s st) {k : Nat} (hk : k < D.edata.length) {f : SparseFact F}
    {x : Stage} (hok : SOK x (left D k) f (mt s k) (d k) (d (k + 1)))
    (hv : ValL (left D k) 1 1 (eE (st k) (fk s k) (mt s k)) (eα (st k) (left D k) (fk s k) (d k)) (eβ (st k) (left D k) (fk s k) (d (k + 1)))
      (eE x f (mt s k)) (eα x (left D k) f (d k)) (eβ x (left D k) f (d (k + 1)))) :
    wr s.facts k f = .ok (s.facts.set k f) ∧ SInv D d ⟨s.facts.set k f, s.mats⟩ (Function.update st k x) := by
  have hkf : k < s.facts.length := by rw [h.flen]; exact hk
  refine ⟨wr_ok f hkf, ?_⟩
  have e : fk (⟨s.facts.set k f, s.mats⟩ : QState F) k = f := set_getD_self hkf
  refine h.refactor hk (k := k) ⟨by simp, rfl, fun j hj => set_getD_ne (fun hh => hj hh.symm), fun j hj => rfl⟩ (fun j hj => Function.update_of_ne hj _ _) ?_ ?_
  · rw [Function.update_self, e]; exact hok
  · rw [Function.update_self, e]; exact hv

/-! ### passing factors to the neighbour -/

/-- quiver/sparse.hpp:29-45: the new matrix -/
theorem passUP_mat {cl nl : Bool} {b c : Nat} {f : SparseFact F} {A : CMat F} (hU : f.U.Shape b b) (hu : UpperInv (f.U.mat b b)) (hP : f.P.Shape b b)
    (hp : IsPermMatrix (f.P.mat b b)) (hA : if nl then A.Shape b c else A.Shape c b) :
    ∃ R, upMat nl cl f A = .ok R ∧ (if nl then R.Shape b c else R.Shape c b) ∧ ∃ C C' : Matrix (Fin b) (Fin b) F, C * C' = 1 ∧
      (if cl then eβ .el cl f b * C = 1 else C' * eβ .el cl f b = 1) ∧ (if nl then R.mat b c = C' * A.mat b c else R.mat c b = A.mat c b * C) := by
  obtain ⟨u, u1, u2, u3, u4⟩ := uInv_spec hU hu
  obtain ⟨p, p1, p2, p3⟩ := transpose_spec hP
  obtain ⟨q1, q2⟩ := perm_mul hp
  have k1 : p.mat b b * u.mat b b * (f.U.mat b b * f.P.mat b b) = 1 := by
    rw [Matrix.mul_assoc, ← Matrix.mul_assoc (u.mat b b), u4, Matrix.one_mul, p3, q2]
  have k2 : f.U.mat b b * f.P.mat b b * (p.mat b b * u.mat b b) = 1 := mul_eq_one_comm.1 k1
  have k3 : u.mat b b * p.mat b b * (f.P.mat b b * f.U.mat b b) = 1 := by
    rw [Matrix.mul_assoc, ← Matrix.mul_assoc (p.mat b b), p3, q2, Matrix.one_mul, u4]
  have k4 : f.P.mat b b * f.U.mat b b * (u.mat b b * p.mat b b) = 1 := mul_eq_one_comm.1 k3
  cases nl <;> cases cl <;> simp only [upMat, if_true, Bool.false_eq_true, if_false, u1, p1, bind_ok] at hA ⊢
  · obtain ⟨R, r1, r2, r3⟩ := prod3_spec hA hP hU
    exact ⟨R, r1, r2, f.P.mat b b * f.U.mat b b, u.mat b b * p.mat b b, k4, k3, by rw [r3, Matrix.mul_assoc]⟩
  · obtain ⟨R, r1, r2, r3⟩ := prod3_spec hA p2 u2
    exact ⟨R, r1, r2, p.mat b b * u.mat b b, f.U.mat b b * f.P.mat b b, k1, k2, by rw [r3, Matrix.mul_assoc]⟩
  · obtain ⟨R, r1, r2, r3⟩ := prod3_spec u2 p2 hA
    exact ⟨R, r1, r2, f.P.mat b b * f.U.mat b b, u.mat b b * p.mat b b, k4, k3, r3⟩
  · obtain ⟨R, r1, r2, r3⟩ := prod3_spec hU hP hA
    exact ⟨R, r1, r2, p.mat b b * u.mat b b, f.U.mat b b * f.P.mat b b, k1, k2, r3⟩

/-- quiver/sparse.hpp:173-189: the new matrix -/
theorem passPL_mat {cl pl : Bool} {b c : Nat} {f : SparseFact F} {A : CMat F} (hL : f.L.Shape b b) (hl : LowerInv (f.L.mat b b)) (hP : f.P.Shape b b)
    (hp : IsPermMatrix (f.P.mat b b)) (hA : if pl then A.Shape c b else A.Shape b c) :
    ∃ R, plMat pl cl f A = .ok R ∧ (if pl then R.Shape c b else R.Shape b c) ∧ ∃ C C' : Matrix (Fin b) (Fin b) F, C * C' = 1 ∧
      (if cl then C' * eα .eu cl f b = 1 else eα .eu cl f b * C = 1) ∧ (if pl then R.mat c b = A.mat c b * C else R.mat b c = C' * A.mat b c) := by
  obtain ⟨u, u1, u2, u3, u4⟩ := lInv_spec hL hl
  obtain ⟨p, p1, p2, p3⟩ := transpose_spec hP
  obtain ⟨q1, q2⟩ := perm_mul hp
  have k1 : p.mat b b * u.mat b b * (f.L.mat b b * f.P.mat b b) = 1 := by
    rw [Matrix.mul_assoc, ← Matrix.mul_assoc (u.mat b b), u4, Matrix.one_mul, p3, q2]
  have k2 : f.L.mat b b * f.P.mat b b * (p.mat b b * u.mat b b) = 1 := mul_eq_one_comm.1 k1
  have k3 : u.mat b b * p.mat b b * (f.P.mat b b * f.L.mat b b) = 1 := by
    rw [Matrix.mul_assoc, ← Matrix.mul_assoc (p.mat b b), p3, q2, Matrix.one_mul, u4]
  have k4 : f.P.mat b b * f.L.mat b b * (u.mat b b * p.mat b b) = 1 := mul_eq_one_comm.1 k3
  cases pl <;> cases cl <;> simp only [plMat, if_true, Bool.false_eq_true, if_false, u1, p1, bind_ok] at hA ⊢
  · obtain ⟨R, r1, r2, r3⟩ := prod3_spec hL hP hA
    exact ⟨R, r1, r2, p.mat b b * u.mat b b, f.L.mat b b * f.P.mat b b, k1, k2, r3⟩
  · obtain ⟨R, r1, r2, r3⟩ := prod3_spec u2 p2 hA
    exact ⟨R, r1, r2, f.P.mat b b * f.L.mat b b, u.mat b b * p.mat b b, k4, k3, r3⟩
  · obtain ⟨R, r1, r2, r3⟩ := prod3_spec hA p2 u2
    exact ⟨R, r1, r2, p.mat b b * u.mat b b, f.L.mat b b * f.P.mat b b, k1, k2, by rw [r3, Matrix.mul_assoc]⟩
  · obtain ⟨R, r1, r2, r3⟩ := prod3_spec hA hP hL
    exact ⟨R, r1, r2, f.P.mat b b * f.L.mat b b, u.mat b b * p.mat b b, k4, k3, by rw [r3, Matrix.mul_assoc]⟩

end Quiver
end BATS
