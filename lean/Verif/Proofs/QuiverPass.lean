import Verif.Proofs.QuiverOps

set_option linter.unusedSectionVars false
set_option linter.unusedVariables false
set_option linter.unusedSimpArgs false

/-! # Passing factors between neighbouring edges -/

namespace BATS
namespace Quiver
open Matrix Reduction CMat BATS.Fact

variable {F : Type} [Field F] [DecidableEq F]

theorem perm_mul_mono {m n : Nat} {P : Matrix (Fin m) (Fin m) F} {E : Matrix (Fin m) (Fin n) F} (hp : IsPermMatrix P) (hE : Monomial E) : Monomial (P * E) := by
  obtain ⟨σ, hσ⟩ := hp
  have e : ∀ i j, (P * E) i j = E (σ i) j := by
    intro i j
    rw [Matrix.mul_apply, Finset.sum_eq_single (σ i)]
    · rw [hσ, if_pos rfl, one_mul]
    · intro b _ hb; rw [hσ, if_neg (fun hh => hb hh.symm), zero_mul]
    · intro hh; exact absurd (Finset.mem_univ _) hh
  refine ⟨fun i j j' h1 h2 => ?_, fun i i' j h1 h2 => ?_⟩
  · rw [e] at h1 h2; exact hE.1 _ _ _ h1 h2
  · rw [e] at h1 h2; exact σ.injective (hE.2 _ _ _ h1 h2)

theorem mono_mul_perm {m n : Nat} {P : Matrix (Fin n) (Fin n) F} {E : Matrix (Fin m) (Fin n) F} (hp : IsPermMatrix P) (hE : Monomial E) : Monomial (E * P) := by
  have := Monomial.transpose (perm_mul_mono (IsPermMatrix.transpose hp) (Monomial.transpose hE))
  rwa [← Matrix.transpose_mul, Matrix.transpose_transpose] at this

theorem rdf {D : Dgm F} {d : Nat → Nat} {s : QState F} {st : Nat → Stage} (h : SInv D d s st) {k : Nat} (hk : k < D.edata.length) :
    rd s.facts k = .ok (fk s k) := rd_getD _ (by rw [h.flen]; exact hk)

theorem rdm {D : Dgm F} {d : Nat → Nat} {s : QState F} {st : Nat → Stage} (h : SInv D d s st) {k : Nat} (hk : k < D.edata.length) :
    rd s.mats k = .ok (mt s k) := rd_getD _ (by rw [h.mlen]; exact hk)

/-- `pass_UP_right` -/
theorem passUPRight_spec {D : Dgm F} {d : Nat → Nat} (hD : IsZigzag D d) {s : QState F} {st : Nat → Stage} (h : SInv D d s st) {k : Nat}
    (hk : k + 1 < D.edata.length) (h1 : st k = .el) (h2 : st (k + 1) = .raw) :
    ∃ R, passUPRight D s k = .ok ⟨s.facts.set k { fk s k with U := identity (d (k + 1)), P := identity (d (k + 1)) }, s.mats.set (k + 1) R⟩ ∧
      SInv D d ⟨s.facts.set k { fk s k with U := identity (d (k + 1)), P := identity (d (k + 1)) }, s.mats.set (k + 1) R⟩ st := by
  have ok0 := h.ok k (by omega)
  have ok1 := h.ok (k + 1) hk
  rw [h1] at ok0; rw [h2] at ok1
  obtain ⟨lu, hP, hp, hE⟩ := ok0
  obtain ⟨R, r1, r2, C, C', c1, c2, c3⟩ := passUP_mat (cl := left D k) (nl := left D (k + 1)) lu.U lu.up hP hp ok1
  have hkf : k < s.facts.length := by rw [h.flen]; omega
  have hkm : k + 1 < s.mats.length := by rw [h.mlen]; omega
  refine ⟨R, ?_, ?_⟩
  · unfold passUPRight
    simp only [isLeft_ok hD (by omega : k < D.edata.length), isLeft_ok hD hk, rdf h (by omega : k < D.edata.length), rdm h hk, bind_ok, r1, wr_ok _ hkf,
      wr_ok _ hkm, lu.U.nrow, hP.nrow]
    rfl
  · have e0 : fk (⟨s.facts.set k { fk s k with U := identity (d (k + 1)), P := identity (d (k + 1)) }, s.mats.set (k + 1) R⟩ : QState F) k =
        { fk s k with U := identity (d (k + 1)), P := identity (d (k + 1)) } := set_getD_self hkf
    have e1 : mt (⟨s.facts.set k { fk s k with U := identity (d (k + 1)), P := identity (d (k + 1)) }, s.mats.set (k + 1) R⟩ : QState F) (k + 1) = R :=
      set_getD_self hkm
    refine h.move hk ⟨by simp, by simp, fun j hj => set_getD_ne (by omega), fun j hj => set_getD_ne (by omega)⟩ (fun j _ => rfl) ?_ ?_ c1 ?_ ?_
    · rw [h1, e0]
      refine ⟨⟨lu.L, lu.lo, shape_identity _, ?_⟩, shape_identity _, ?_, hE⟩
      · show UpperInv ((identity _ : CMat F).mat _ _); rw [mat_identity]; exact upper_one
      · show IsPermMatrix ((identity _ : CMat F).mat _ _); rw [mat_identity]; exact perm_one
    · rw [h2, e1]; exact r2
    · rw [h1, e0]
      unfold ValR
      have hβ : eβ .el (left D k) { fk s k with U := identity (d (k + 1)), P := identity (d (k + 1)) } (d (k + 1)) = 1 := by
        unfold eβ; simp only [mat_identity, Matrix.mul_one, ite_self]
      rw [hβ]
      split
      · rename_i hl
        rw [if_pos hl] at c2
        rw [Matrix.mul_assoc _ _ C, c2]; rfl
      · rename_i hl
        rw [if_neg hl] at c2
        rw [← Matrix.mul_assoc, ← Matrix.mul_assoc, c2]; rfl
    · rw [h2, e1]
      unfold ValL
      show if left D (k + 1) then (1 : Matrix _ _ F) * R.mat _ _ * 1 = C' * (1 * (mt s (k + 1)).mat _ _ * 1) else (1 : Matrix _ _ F) * R.mat _ _ * 1 = 1 * (mt s (k + 1)).mat _ _ * 1 * C
      split
      · rename_i hl; rw [if_pos hl] at c3
        rw [Matrix.one_mul, Matrix.mul_one, Matrix.one_mul, Matrix.mul_one]; exact c3
      · rename_i hl; rw [if_neg hl] at c3
        rw [Matrix.one_mul, Matrix.mul_one, Matrix.one_mul, Matrix.mul_one]; exact c3

/-- `pass_PL_left` -/
theorem passPLLeft_spec {D : Dgm F} {d : Nat → Nat} (hD : IsZigzag D d) {s : QState F} {st : Nat → Stage} (h : SInv D d s st) {k : Nat}
    (hk : k + 1 < D.edata.length) (h1 : st k = .raw) (h2 : st (k + 1) = .eu) :
    ∃ R, passPLLeft D s (k + 1) = .ok ⟨s.facts.set (k + 1) { fk s (k + 1) with L := identity (d (k + 1)), P := identity (d (k + 1)) }, s.mats.set k R⟩ ∧
      SInv D d ⟨s.facts.set (k + 1) { fk s (k + 1) with L := identity (d (k + 1)), P := identity (d (k + 1)) }, s.mats.set k R⟩ st := by
  have ok0 := h.ok k (by omega)
  have ok1 := h.ok (k + 1) hk
  rw [h1] at ok0; rw [h2] at ok1
  obtain ⟨lu, hP, hp, hE⟩ := ok1
  obtain ⟨R, r1, r2, C, C', c1, c2, c3⟩ := passPL_mat (cl := left D (k + 1)) (pl := left D k) lu.L lu.lo hP hp ok0
  have hkf : k + 1 < s.facts.length := by rw [h.flen]; omega
  have hkm : k < s.mats.length := by rw [h.mlen]; omega
  refine ⟨R, ?_, ?_⟩
  · unfold passPLLeft
    simp only [Nat.add_sub_cancel, isLeft_ok hD (by omega : k < D.edata.length), isLeft_ok hD hk, rdf h hk, rdm h (by omega : k < D.edata.length), bind_ok, r1, wr_ok _ hkf,
      wr_ok _ hkm, lu.L.nrow, hP.nrow]
    rfl
  · have e0 : fk (⟨s.facts.set (k + 1) { fk s (k + 1) with L := identity (d (k + 1)), P := identity (d (k + 1)) }, s.mats.set k R⟩ : QState F) (k + 1) =
        { fk s (k + 1) with L := identity (d (k + 1)), P := identity (d (k + 1)) } := set_getD_self hkf
    have e1 : mt (⟨s.facts.set (k + 1) { fk s (k + 1) with L := identity (d (k + 1)), P := identity (d (k + 1)) }, s.mats.set k R⟩ : QState F) k = R :=
      set_getD_self hkm
    refine h.move hk ⟨by simp, by simp, fun j hj => set_getD_ne (by omega), fun j hj => set_getD_ne (by omega)⟩ (fun j _ => rfl) ?_ ?_ c1 ?_ ?_
    · rw [h1, e1]; exact r2
    · rw [h2, e0]
      refine ⟨⟨shape_identity _, ?_, lu.U, lu.up⟩, shape_identity _, ?_, hE⟩
      · show LowerInv ((identity _ : CMat F).mat _ _); rw [mat_identity]; exact lower_one
      · show IsPermMatrix ((identity _ : CMat F).mat _ _); rw [mat_identity]; exact perm_one
    · rw [h1, e1]
      unfold ValR
      show if left D k then (1 : Matrix _ _ F) * R.mat _ _ * 1 = 1 * (mt s k).mat _ _ * 1 * C else (1 : Matrix _ _ F) * R.mat _ _ * 1 = C' * (1 * (mt s k).mat _ _ * 1)
      split
      · rename_i hl; rw [if_pos hl] at c3
        rw [Matrix.one_mul, Matrix.mul_one, Matrix.one_mul, Matrix.mul_one]; exact c3
      · rename_i hl; rw [if_neg hl] at c3
        rw [Matrix.one_mul, Matrix.mul_one, Matrix.one_mul, Matrix.mul_one]; exact c3
    · rw [h2, e0]
      unfold ValL
      have hα : eα .eu (left D (k + 1)) { fk s (k + 1) with L := identity (d (k + 1)), P := identity (d (k + 1)) } (d (k + 1)) = 1 := by
        unfold eα; simp only [mat_identity, Matrix.mul_one, ite_self]
      rw [hα]
      split
      · rename_i hl
        rw [if_pos hl] at c2
        rw [← Matrix.mul_assoc, ← Matrix.mul_assoc, c2]; rfl
      · rename_i hl
        rw [if_neg hl] at c2
        rw [Matrix.mul_assoc _ _ C, c2]; rfl

/-- quiver/sparse.hpp:84-98: the new `L` -/
theorem passL_mat {cl pl : Bool} {b c : Nat} {f g : SparseFact F} (hL : f.L.Shape b b) (hl : LowerInv (f.L.mat b b)) (gL : g.L.Shape c c) (gl : LowerInv (g.L.mat c c))
    (hE : if pl then g.E.Shape c b ∧ ShapeEL (g.E.mat c b) else g.E.Shape b c ∧ ShapeELhat (g.E.mat b c)) :
    ∃ R, lMat pl cl f g = .ok R ∧ R.Shape c c ∧ LowerInv (R.mat c c) ∧ ∃ C C' : Matrix (Fin b) (Fin b) F, C * C' = 1 ∧
      (if cl then C' * f.L.mat b b = 1 else f.L.mat b b * C = 1) ∧
      (if pl then R.mat c c * g.E.mat c b = g.L.mat c c * g.E.mat c b * C else g.E.mat b c * R.mat c c = C' * (g.E.mat b c * g.L.mat c c)) := by
  obtain ⟨u, u1, u2, u3, u4⟩ := lInv_spec hL hl
  have ul : LowerInv (u.mat b b) := lower_inverse hl u3
  cases pl <;> cases cl <;> simp only [lMat, if_true, Bool.false_eq_true, if_false, u1, bind_ok] at hE ⊢
  · obtain ⟨t, t1, t2, t3, t4⟩ := lElCommute_spec hE.1 hL hE.2 hl
    obtain ⟨R, r1, r2, r3⟩ := gemm_spec t2 gL
    refine ⟨R, by simp only [t1, r1, bind_ok], r2, by rw [r3]; exact lower_mul t3 gl, u.mat b b, f.L.mat b b, u4, u3, ?_⟩
    rw [r3, ← Matrix.mul_assoc, t4, Matrix.mul_assoc]
  · obtain ⟨t, t1, t2, t3, t4⟩ := lElCommute_spec hE.1 u2 hE.2 ul
    obtain ⟨R, r1, r2, r3⟩ := gemm_spec t2 gL
    refine ⟨R, by simp only [t1, r1, bind_ok], r2, by rw [r3]; exact lower_mul t3 gl, f.L.mat b b, u.mat b b, u3, u4, ?_⟩
    rw [r3, ← Matrix.mul_assoc, t4, Matrix.mul_assoc]
  · obtain ⟨t, t1, t2, t3, t4⟩ := elLCommute_spec hE.1 u2 hE.2 ul
    obtain ⟨R, r1, r2, r3⟩ := gemm_spec gL t2
    refine ⟨R, by simp only [t1, r1, bind_ok], r2, by rw [r3]; exact lower_mul gl t3, u.mat b b, f.L.mat b b, u4, u3, ?_⟩
    rw [r3, Matrix.mul_assoc, t4, Matrix.mul_assoc]
  · obtain ⟨t, t1, t2, t3, t4⟩ := elLCommute_spec hE.1 hL hE.2 hl
    obtain ⟨R, r1, r2, r3⟩ := gemm_spec gL t2
    refine ⟨R, by simp only [t1, r1, bind_ok], r2, by rw [r3]; exact lower_mul gl t3, f.L.mat b b, u.mat b b, u3, u4, ?_⟩
    rw [r3, Matrix.mul_assoc, t4, Matrix.mul_assoc]

/-- quiver/sparse.hpp:227-239: the new `U` -/
theorem passU_mat {cl nl : Bool} {b c : Nat} {f g : SparseFact F} (hU : f.U.Shape b b) (hu : UpperInv (f.U.mat b b)) (gU : g.U.Shape c c) (gu : UpperInv (g.U.mat c c))
    (hE : if nl then g.E.Shape b c ∧ ShapeEU (g.E.mat b c) else g.E.Shape c b ∧ ShapeEUhat (g.E.mat c b)) :
    ∃ R, uMat cl nl f g = .ok R ∧ R.Shape c c ∧ UpperInv (R.mat c c) ∧ ∃ C C' : Matrix (Fin b) (Fin b) F, C * C' = 1 ∧
      (if cl then f.U.mat b b * C = 1 else C' * f.U.mat b b = 1) ∧
      (if nl then g.E.mat b c * R.mat c c = C' * (g.E.mat b c * g.U.mat c c) else R.mat c c * g.E.mat c b = g.U.mat c c * g.E.mat c b * C) := by
  obtain ⟨u, u1, u2, u3, u4⟩ := uInv_spec hU hu
  have ul : UpperInv (u.mat b b) := UpperInv.inverse hu u3
  cases cl <;> cases nl <;> simp only [uMat, if_true, Bool.false_eq_true, if_false, u1, bind_ok] at hE ⊢
  · obtain ⟨t, t1, t2, t3, t4⟩ := euUCommute_spec hE.1 hU hE.2 hu
    obtain ⟨R, r1, r2, r3⟩ := gemm_spec gU t2
    refine ⟨R, by simp only [t1, r1, bind_ok], r2, by rw [r3]; exact gu.mul t3, f.U.mat b b, u.mat b b, u3, u4, ?_⟩
    rw [r3, Matrix.mul_assoc, t4, Matrix.mul_assoc]
  · obtain ⟨t, t1, t2, t3, t4⟩ := uEuCommute_spec hE.1 u2 hE.2 ul
    obtain ⟨R, r1, r2, r3⟩ := gemm_spec t2 gU
    refine ⟨R, by simp only [t1, r1, bind_ok], r2, by rw [r3]; exact t3.mul gu, f.U.mat b b, u.mat b b, u3, u4, ?_⟩
    rw [r3, ← Matrix.mul_assoc, t4, Matrix.mul_assoc]
  · obtain ⟨t, t1, t2, t3, t4⟩ := euUCommute_spec hE.1 u2 hE.2 ul
    obtain ⟨R, r1, r2, r3⟩ := gemm_spec gU t2
    refine ⟨R, by simp only [t1, r1, bind_ok], r2, by rw [r3]; exact gu.mul t3, u.mat b b, f.U.mat b b, u4, u3, ?_⟩
    rw [r3, Matrix.mul_assoc, t4, Matrix.mul_assoc]
  · obtain ⟨t, t1, t2, t3, t4⟩ := uEuCommute_spec hE.1 hU hE.2 hu
    obtain ⟨R, r1, r2, r3⟩ := gemm_spec t2 gU
    refine ⟨R, by simp only [t1, r1, bind_ok], r2, by rw [r3]; exact t3.mul gu, u.mat b b, f.U.mat b b, u4, u3, ?_⟩
    rw [r3, ← Matrix.mul_assoc, t4, Matrix.mul_assoc]

/-- a stage in which the factor `L` stands alone on the side of the left node -/
def Stage.hasL (x : Stage) : Prop := x = .el ∨ x = .q
/-- a stage in which the factor `U` stands alone on the side of the right node -/
def Stage.hasU (x : Stage) : Prop := x = .eu ∨ x = .q

theorem SOK.lu {x : Stage} {l : Bool} {f : SparseFact F} {M : CMat F} {a b : Nat} (h : SOK x l f M a b) (hx : x ≠ .raw) : LUOK f a b := by
  cases x
  · exact absurd rfl hx
  · exact h.1
  · exact h.1
  · exact h.1

theorem SOK.withL {x : Stage} {l : Bool} {f : SparseFact F} {M : CMat F} {a b : Nat} (h : SOK x l f M a b) (hx : x ≠ .raw) {L : CMat F} (hL : L.Shape a a)
    (hlo : LowerInv (L.mat a a)) : SOK x l { f with L := L } M a b := by
  have lu := h.lu hx
  cases x
  · exact absurd rfl hx
  · exact ⟨⟨hL, hlo, lu.U, lu.up⟩, h.2⟩
  · exact ⟨⟨hL, hlo, lu.U, lu.up⟩, h.2⟩
  · exact ⟨⟨hL, hlo, lu.U, lu.up⟩, h.2⟩

theorem SOK.withU {x : Stage} {l : Bool} {f : SparseFact F} {M : CMat F} {a b : Nat} (h : SOK x l f M a b) (hx : x ≠ .raw) {U : CMat F} (hU : U.Shape b b)
    (hup : UpperInv (U.mat b b)) : SOK x l { f with U := U } M a b := by
  have lu := h.lu hx
  cases x
  · exact absurd rfl hx
  · exact ⟨⟨lu.L, lu.lo, hU, hup⟩, h.2⟩
  · exact ⟨⟨lu.L, lu.lo, hU, hup⟩, h.2⟩
  · exact ⟨⟨lu.L, lu.lo, hU, hup⟩, h.2⟩

theorem Stage.hasL.ne {x : Stage} (h : x.hasL) : x ≠ .raw := by rcases h with h | h <;> rw [h] <;> simp
theorem Stage.hasU.ne {x : Stage} (h : x.hasU) : x ≠ .raw := by rcases h with h | h <;> rw [h] <;> simp

theorem Stage.hasL.eα {x : Stage} (h : x.hasL) (l : Bool) (f : SparseFact F) (a : Nat) : eα x l f a = f.L.mat a a := by rcases h with h | h <;> rw [h] <;> rfl
theorem Stage.hasU.eβ {x : Stage} (h : x.hasU) (l : Bool) (f : SparseFact F) (a : Nat) : eβ x l f a = f.U.mat a a := by rcases h with h | h <;> rw [h] <;> rfl

theorem eE_ne {x : Stage} (h : x ≠ .raw) (f : SparseFact F) (M : CMat F) : eE x f M = f.E := by cases x <;> first | rfl | exact absurd rfl h

theorem eβ_withL (x : Stage) (l : Bool) (f : SparseFact F) (L : CMat F) (b : Nat) : eβ x l { f with L := L } b = eβ x l f b := by cases x <;> rfl
theorem eα_withU (x : Stage) (l : Bool) (f : SparseFact F) (U : CMat F) (b : Nat) : eα x l { f with U := U } b = eα x l f b := by cases x <;> rfl

/-- `pass_L_left` -/
theorem passLLeft_spec {D : Dgm F} {d : Nat → Nat} (hD : IsZigzag D d) {s : QState F} {st : Nat → Stage} (h : SInv D d s st) {k : Nat}
    (hk : k + 1 < D.edata.length) (h1 : st k = .el) (hβ : eβ .el (left D k) (fk s k) (d (k + 1)) = 1) (h2 : (st (k + 1)).hasL) :
    ∃ R, passLLeft D s (k + 1) = .ok ⟨(s.facts.set k { fk s k with L := R }).set (k + 1) { fk s (k + 1) with L := identity (d (k + 1)) }, s.mats⟩ ∧
      SInv D d ⟨(s.facts.set k { fk s k with L := R }).set (k + 1) { fk s (k + 1) with L := identity (d (k + 1)) }, s.mats⟩ st := by
  have ok0 := h.ok k (by omega)
  have ok1 := h.ok (k + 1) hk
  have lu1 := ok1.lu h2.ne
  have ok0' := ok0
  rw [h1] at ok0'
  obtain ⟨lu, hP, hp, hE⟩ := ok0'
  obtain ⟨R, r1, r2, r3, C, C', c1, c2, c3⟩ := passL_mat (cl := left D (k + 1)) (pl := left D k) lu1.L lu1.lo lu.L lu.lo hE
  have hkf : k < s.facts.length := by rw [h.flen]; omega
  have hkf' : k + 1 < (s.facts.set k { fk s k with L := R }).length := by rw [List.length_set, h.flen]; omega
  refine ⟨R, ?_, ?_⟩
  · unfold passLLeft
    simp only [Nat.add_sub_cancel, isLeft_ok hD (by omega : k < D.edata.length), isLeft_ok hD hk, rdf h hk, rdf h (by omega : k < D.edata.length), bind_ok, r1, wr_ok _ hkf,
      wr_ok _ hkf', lu1.L.nrow]
    rfl
  · have e0 : fk (⟨(s.facts.set k { fk s k with L := R }).set (k + 1) { fk s (k + 1) with L := identity (d (k + 1)) }, s.mats⟩ : QState F) (k + 1) =
        { fk s (k + 1) with L := identity (d (k + 1)) } := set_getD_self hkf'
    have e1 : fk (⟨(s.facts.set k { fk s k with L := R }).set (k + 1) { fk s (k + 1) with L := identity (d (k + 1)) }, s.mats⟩ : QState F) k =
        { fk s k with L := R } := (set_getD_ne (by omega)).trans (set_getD_self hkf)
    refine h.move hk ⟨by simp, rfl, fun j hj => (set_getD_ne (by omega)).trans (set_getD_ne (by omega)), fun j hj => rfl⟩ (fun j _ => rfl) ?_ ?_ c1 ?_ ?_
    · rw [e1]; exact ok0.withL (by rw [h1]; simp) r2 r3
    · rw [e0]
      exact ok1.withL h2.ne (shape_identity _) (by rw [mat_identity]; exact lower_one)
    · rw [e1, h1, hβ, eβ_withL, hβ]
      unfold ValR
      show if left D k then R.mat _ _ * (fk s k).E.mat _ _ * 1 = (fk s k).L.mat _ _ * (fk s k).E.mat _ _ * 1 * C else 1 * (fk s k).E.mat _ _ * R.mat _ _ = C' * (1 * (fk s k).E.mat _ _ * (fk s k).L.mat _ _)
      split
      · rename_i hl; rw [if_pos hl] at c3; simp only [Matrix.mul_one]; exact c3
      · rename_i hl; rw [if_neg hl] at c3; simp only [Matrix.one_mul]; exact c3
    · rw [e0, h2.eα, h2.eα, eE_ne h2.ne, eE_ne h2.ne, eβ_withL]
      simp only [mat_identity]
      unfold ValL
      split
      · rename_i hl
        rw [if_pos hl] at c2
        rw [← Matrix.mul_assoc, ← Matrix.mul_assoc, c2]
        exact congrArg _ (eβ_withL _ _ (fk s (k + 1)) _ _)
      · rename_i hl
        rw [if_neg hl] at c2
        rw [Matrix.mul_assoc _ _ C, c2]
        exact congrArg (fun z => z * _ * _) (eβ_withL _ _ (fk s (k + 1)) _ _)

/-- `pass_U_right` -/
theorem passURight_spec {D : Dgm F} {d : Nat → Nat} (hD : IsZigzag D d) {s : QState F} {st : Nat → Stage} (h : SInv D d s st) {k : Nat}
    (hk : k + 1 < D.edata.length) (h1 : (st k).hasU) (h2 : st (k + 1) = .eu) (hα : eα .eu (left D (k + 1)) (fk s (k + 1)) (d (k + 1)) = 1) :
    ∃ R, passURight D s k = .ok ⟨(s.facts.set (k + 1) { fk s (k + 1) with U := R }).set k { fk s k with U := identity (d (k + 1)) }, s.mats⟩ ∧
      SInv D d ⟨(s.facts.set (k + 1) { fk s (k + 1) with U := R }).set k { fk s k with U := identity (d (k + 1)) }, s.mats⟩ st := by
  have ok0 := h.ok k (by omega)
  have ok1 := h.ok (k + 1) hk
  have lu := ok0.lu h1.ne
  have ok1' := ok1
  rw [h2] at ok1'
  obtain ⟨lu1, hP, hp, hE⟩ := ok1'
  obtain ⟨R, r1, r2, r3, C, C', c1, c2, c3⟩ := passU_mat (cl := left D k) (nl := left D (k + 1)) lu.U lu.up lu1.U lu1.up hE
  have hkf : k + 1 < s.facts.length := by rw [h.flen]; omega
  have hkf' : k < (s.facts.set (k + 1) { fk s (k + 1) with U := R }).length := by rw [List.length_set, h.flen]; omega
  refine ⟨R, ?_, ?_⟩
  · unfold passURight
    simp only [isLeft_ok hD (by omega : k < D.edata.length), isLeft_ok hD hk, rdf h hk, rdf h (by omega : k < D.edata.length), bind_ok, r1, wr_ok _ hkf,
      wr_ok _ hkf', lu.U.nrow]
    rfl
  · have e0 : fk (⟨(s.facts.set (k + 1) { fk s (k + 1) with U := R }).set k { fk s k with U := identity (d (k + 1)) }, s.mats⟩ : QState F) k =
        { fk s k with U := identity (d (k + 1)) } := set_getD_self hkf'
    have e1 : fk (⟨(s.facts.set (k + 1) { fk s (k + 1) with U := R }).set k { fk s k with U := identity (d (k + 1)) }, s.mats⟩ : QState F) (k + 1) =
        { fk s (k + 1) with U := R } := (set_getD_ne (by omega)).trans (set_getD_self hkf)
    refine h.move hk ⟨by simp, rfl, fun j hj => (set_getD_ne (by omega)).trans (set_getD_ne (by omega)), fun j hj => rfl⟩ (fun j _ => rfl) ?_ ?_ c1 ?_ ?_
    · rw [e0]
      exact ok0.withU h1.ne (shape_identity _) (by rw [mat_identity]; exact upper_one)
    · rw [e1]; exact ok1.withU (by rw [h2]; simp) r2 r3
    · rw [e0, h1.eβ, h1.eβ, eE_ne h1.ne, eE_ne h1.ne, eα_withU]
      simp only [mat_identity]
      unfold ValR
      split
      · rename_i hl
        rw [if_pos hl] at c2
        rw [Matrix.mul_assoc _ _ C, c2]
        exact congrArg (fun z => z * _ * _) (eα_withU _ _ (fk s k) _ _)
      · rename_i hl
        rw [if_neg hl] at c2
        rw [← Matrix.mul_assoc, ← Matrix.mul_assoc, c2]
        exact congrArg _ (eα_withU _ _ (fk s k) _ _)
    · rw [e1, h2, hα, eα_withU, hα]
      unfold ValL
      show if left D (k + 1) then 1 * (fk s (k + 1)).E.mat _ _ * R.mat _ _ = C' * (1 * (fk s (k + 1)).E.mat _ _ * (fk s (k + 1)).U.mat _ _)
        else R.mat _ _ * (fk s (k + 1)).E.mat _ _ * 1 = (fk s (k + 1)).U.mat _ _ * (fk s (k + 1)).E.mat _ _ * 1 * C
      split
      · rename_i hl; rw [if_pos hl] at c3; simp only [Matrix.one_mul]; exact c3
      · rename_i hl; rw [if_neg hl] at c3; simp only [Matrix.mul_one]; exact c3

end Quiver
end BATS
