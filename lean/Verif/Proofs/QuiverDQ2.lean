import Verif.Proofs.QuiverDQ

set_option linter.unusedSectionVars false
set_option linter.unusedVariables false
set_option linter.unusedSimpArgs false

/-! # Divide and conquer: the recursion -/

namespace BATS
namespace Quiver
open Matrix Reduction CMat BATS.Fact

variable {F : Type} [Field F] [DecidableEq F]

/-- what is known of the edges `j0, …, j1` after a call: all in stage `x`, only the outer factors at the two ends may differ from the identity -/
def Range (D : Dgm F) (d : Nat → Nat) (s : QState F) (st : Nat → Stage) (x : Stage) (j0 j1 : Nat) : Prop :=
  ∀ k, j0 ≤ k → k ≤ j1 → st k = x ∧ (j0 < k → eα x (left D k) (fk s k) (d k) = 1) ∧ (k < j1 → eβ x (left D k) (fk s k) (d (k + 1)) = 1)

/-- after `type_A_dq_common` -/
def CRange (D : Dgm F) (d : Nat → Nat) (s : QState F) (st : Nat → Stage) (j0 j2 j1 : Nat) : Prop :=
  ∀ k, j0 ≤ k → k ≤ j1 → st k = (if k < j2 then .el else if k = j2 then .q else .eu) ∧
    (j0 < k → eα (st k) (left D k) (fk s k) (d k) = 1) ∧ (k < j1 → eβ (st k) (left D k) (fk s k) (d (k + 1)) = 1)

def Ran (D : Dgm F) (d : Nat → Nat) (s : QState F) (st : Nat → Stage) (s' : QState F) (st' : Nat → Stage) (j0 j1 : Nat) : Prop :=
  SInv D d s' st' ∧ (∀ k, ¬ (j0 ≤ k ∧ k ≤ j1) → st' k = st k) ∧ Agree s s' (fun k => j0 ≤ k ∧ k ≤ j1)

def ELSpec (D : Dgm F) (d : Nat → Nat) (fuel : Nat) : Prop :=
  ∀ (j0 j1 : Nat) (s : QState F) (st : Nat → Stage), SInv D d s st → j0 ≤ j1 → j1 < D.edata.length → j1 - j0 + 1 ≤ fuel →
    (∀ k, j0 ≤ k → k ≤ j1 → st k = .raw) → ∃ s' st', dqEL D fuel j0 j1 s = .ok s' ∧ Ran D d s st s' st' j0 j1 ∧ Range D d s' st' .el j0 j1

def EUSpec (D : Dgm F) (d : Nat → Nat) (fuel : Nat) : Prop :=
  ∀ (j0 j1 : Nat) (s : QState F) (st : Nat → Stage), SInv D d s st → j0 ≤ j1 → j1 < D.edata.length → j1 - j0 + 1 ≤ fuel →
    (∀ k, j0 ≤ k → k ≤ j1 → st k = .raw) → ∃ s' st', dqEU D fuel j0 j1 s = .ok s' ∧ Ran D d s st s' st' j0 j1 ∧ Range D d s' st' .eu j0 j1

def CSpec (D : Dgm F) (d : Nat → Nat) (fuel : Nat) : Prop :=
  ∀ (j0 j1 : Nat) (s : QState F) (st : Nat → Stage), SInv D d s st → j0 + 4 ≤ j1 → j1 < D.edata.length → j1 - j0 ≤ fuel →
    (∀ k, j0 ≤ k → k ≤ j1 → st k = .raw) → ∃ s' st', dqCommon D fuel j0 j1 s = .ok ((j0 + j1) / 2, s') ∧ Ran D d s st s' st' j0 j1 ∧
      CRange D d s' st' j0 ((j0 + j1) / 2) j1

theorem ite_bind_ok {α β : Type} {l : Bool} {a b : Res α} {x : α} (h : (if l then a else b) = .ok x) (g : α → Res β) :
    (if l = true then a >>= g else b >>= g) = g x := by
  cases l
  · rw [if_neg (by simp)] at h ⊢; rw [h]; rfl
  · rw [if_pos rfl] at h ⊢; rw [h]; rfl

theorem cSpec_succ {D : Dgm F} {d : Nat → Nat} (hD : IsZigzag D d) {fuel : Nat} (hEL : ELSpec D d fuel) (hEU : EUSpec D d fuel) : CSpec D d (fuel + 1) := by
  intro j0 j1 s st h hj hj1 hf hraw
  obtain ⟨i, hi⟩ : ∃ i, (j0 + j1) / 2 = i + 1 := ⟨(j0 + j1) / 2 - 1, by omega⟩
  have hi1 : j0 + 1 ≤ i := by omega
  have hi2 : i + 2 < j1 := by omega
  have hi3 : i - j0 + 3 ≤ j1 - j0 := by omega
  have hi4 : j1 - (i + 2) + 3 ≤ j1 - j0 := by omega
  rw [hi]
  obtain ⟨s1, st1, a1, ⟨a2, a3, a4⟩, a5⟩ := hEL j0 i s st h (by omega) (by omega) (by omega) (fun k h1 h2 => hraw k h1 (by omega))
  obtain ⟨s2, st2, b1, ⟨b2, b3, b4⟩, b5⟩ := hEU (i + 2) j1 s1 st1 a2 (by omega) (by omega) (by omega)
    (fun k h1 h2 => by rw [a3 k (by omega)]; exact hraw k (by omega) (by omega))
  have t1 : st2 (i + 1) = .raw := by rw [b3 _ (by omega), a3 _ (by omega)]; exact hraw _ (by omega) (by omega)
  have t2 : st2 (i + 2) = .eu := (b5 (i + 2) (by omega) (by omega)).1
  have t3 : st2 i = .el := by rw [b3 _ (by omega)]; exact (a5 i (by omega) (by omega)).1
  obtain ⟨R, c1, c2⟩ := passPLLeft_spec hD b2 (k := i + 1) (by omega) t1 t2
  generalize hs3 : (⟨s2.facts.set (i + 1 + 1) { fk s2 (i + 1 + 1) with L := identity (d (i + 1 + 1)), P := identity (d (i + 1 + 1)) }, s2.mats.set (i + 1) R⟩ : QState F) = s3 at c1 c2
  have c3 : fk s3 (i + 2) = { fk s2 (i + 1 + 1) with L := identity (d (i + 1 + 1)), P := identity (d (i + 1 + 1)) } := by
    rw [← hs3]; exact set_getD_self (by rw [b2.flen]; omega)
  have c4 : Agree s2 s3 (fun k => k = i + 1 ∨ k = i + 2) := by
    rw [← hs3]; exact ⟨by simp, by simp, fun k hk => set_getD_ne (by omega), fun k hk => set_getD_ne (by omega)⟩
  have c5 : ∀ k, k ≠ i + 2 → fk s3 k = fk s2 k := by
    intro k hk; rw [← hs3]; exact set_getD_ne (by omega)
  obtain ⟨R', d1, d2⟩ := passUPRight_spec hD c2 (k := i) (by omega) t3 t1
  generalize hs4 : (⟨s3.facts.set i { fk s3 i with U := identity (d (i + 1)), P := identity (d (i + 1)) }, s3.mats.set (i + 1) R'⟩ : QState F) = s4 at d1 d2
  have d3 : fk s4 i = { fk s3 i with U := identity (d (i + 1)), P := identity (d (i + 1)) } := by
    rw [← hs4]; exact set_getD_self (by rw [c2.flen]; omega)
  have d4 : Agree s3 s4 (fun k => k = i ∨ k = i + 1) := by
    rw [← hs4]; exact ⟨by simp, by simp, fun k hk => set_getD_ne (by omega), fun k hk => set_getD_ne (by omega)⟩
  have d5 : ∀ k, k ≠ i → fk s4 k = fk s3 k := by
    intro k hk; rw [← hs4]; exact set_getD_ne (by omega)
  obtain ⟨_, _, f, f1, f2, f3⟩ := d2.fac (k := i + 1) (by omega) t1
  generalize hst : Function.update st2 (i + 1) .q = st5 at f3
  have u1 : st5 (i + 1) = .q := by rw [← hst]; exact Function.update_self _ _ _
  have u2 : ∀ k, k ≠ i + 1 → st5 k = st2 k := fun k hk => by rw [← hst]; exact Function.update_of_ne hk _ _
  generalize hs5 : (⟨s4.facts.set (i + 1) f, s4.mats⟩ : QState F) = s5 at f3
  have f4 : Agree s4 s5 (fun k => k = i + 1) := by rw [← hs5]; exact agree_set
  have A5 : ∀ k, i + 1 < k → k ≤ j1 → st5 k = .eu ∧ eα .eu (left D k) (fk s5 k) (d k) = 1 := by
    intro k h1 h2
    refine ⟨by rw [u2 k (by omega)]; exact (b5 k (by omega) h2).1, ?_⟩
    rw [f4.f k (by omega), d5 k (by omega)]
    by_cases hk : k = i + 2
    · subst hk; rw [c3]; exact eα_one (f := fk s2 (i + 2))
    · rw [c5 k hk]; exact (b5 k (by omega) h2).2.1 (by omega)
  have B5 : ∀ k, j0 ≤ k → k ≤ i → st5 k = .el ∧ eβ .el (left D k) (fk s5 k) (d (k + 1)) = 1 := by
    intro k h1 h2
    refine ⟨by rw [u2 k (by omega), b3 k (by omega)]; exact (a5 k h1 h2).1, ?_⟩
    rw [f4.f k (by omega)]
    by_cases hk : k = i
    · subst hk; rw [d3]; exact eβ_one (f := fk s3 k)
    · rw [d5 k hk, c5 k (by omega), b4.f k (by omega)]; exact (a5 k h1 h2).2.2 (by omega)
  obtain ⟨s6, g1, g2, g3, g4⟩ := passURight_only hD f3 (k := i + 1) (by omega) (Or.inr u1) (A5 (i + 2) (by omega) (by omega)).1 (A5 (i + 2) (by omega) (by omega)).2
  obtain ⟨s7, h1', h2', h3', h4'⟩ := passLLeft_only hD g2 (k := i) (by omega) (B5 i (by omega) (by omega)).1
    (by rw [g3.agree.f i (by omega)]; exact (B5 i (by omega) (by omega)).2) (Or.inr u1)
  obtain ⟨s8, k1, k2, k3, k4⟩ := lrSweep2_spec hD j0 (i - j0) s7 st5 h2' (by omega)
    (fun k x y => ⟨(B5 k x (by omega)).1, by rw [h3'.eβ, g3.agree.f k (by omega)]; exact (B5 k x (by omega)).2⟩)
    (fun _ => Or.inl (by rw [show j0 + (i - j0) = i by omega]; exact (B5 i (by omega) (by omega)).1))
  obtain ⟨s9, l1, l2, l3, l4⟩ := rlSweep2_spec hD (j1 - (i + 2)) (i + 2) s8 st5 k2 (by omega)
    (fun k x y => ⟨(A5 k (by omega) (by omega)).1, by
      rw [k3.agree.f k (by omega), h3'.agree.f k (by omega), g3.eα]; exact (A5 k (by omega) (by omega)).2⟩)
    (fun _ => Or.inl (A5 (i + 2) (by omega) (by omega)).1)
  refine ⟨s9, st5, ?_, ⟨l2, ?_, ?_⟩, ?_⟩
  · rw [dqCommon]
    simp only [hi]
    rw [show i + 1 - 1 = i from rfl, a1, bind_ok, show i + 1 + 1 = i + 2 from rfl, b1, bind_ok]
    rw [show passPLLeft D s2 (i + 2) = .ok s3 from c1, bind_ok, d1, bind_ok, isLeft_ok hD (by omega : i + 1 < D.edata.length), bind_ok,
      rdm d2 (by omega : i + 1 < D.edata.length), bind_ok]
    refine (ite_bind_ok f1 _).trans ?_
    simp only [f2, bind_ok, hs5, g1, h1', k1]
    rw [l1]
    rfl
  · intro k hk; rw [u2 k (by omega), b3 k (by omega), a3 k (by omega)]
  · have x1 := a4.trans b4 (r := fun k => j0 ≤ k ∧ k ≤ j1) (fun k x => by omega) (fun k x => by omega)
    have x2 := x1.trans c4 (r := fun k => j0 ≤ k ∧ k ≤ j1) (fun k x => by omega) (fun k x => by omega)
    have x3 := x2.trans d4 (r := fun k => j0 ≤ k ∧ k ≤ j1) (fun k x => by omega) (fun k x => by omega)
    have x4 := x3.trans f4 (r := fun k => j0 ≤ k ∧ k ≤ j1) (fun k x => by omega) (fun k x => by omega)
    have x5 := x4.trans g3.agree (r := fun k => j0 ≤ k ∧ k ≤ j1) (fun k x => by omega) (fun k x => by omega)
    have x6 := x5.trans h3'.agree (r := fun k => j0 ≤ k ∧ k ≤ j1) (fun k x => by omega) (fun k x => by omega)
    have x7 := x6.trans k3.agree (r := fun k => j0 ≤ k ∧ k ≤ j1) (fun k x => by omega) (fun k x => by omega)
    exact x7.trans l3.agree (fun k x => by omega) (fun k x => by omega)
  · intro k y1 y2
    rcases Nat.lt_trichotomy k (i + 1) with hk | hk | hk
    · obtain ⟨z1, z2⟩ := B5 k y1 (by omega)
      refine ⟨by rw [if_pos hk]; exact z1, fun y3 => ?_, fun y3 => ?_⟩
      · rw [l3.eα]; exact k4 k y3 (by omega)
      · rw [l3.agree.f k (by omega), k3.eβ, h3'.eβ, g3.agree.f k (by omega), z1]; exact z2
    · subst hk
      refine ⟨by rw [if_neg (by omega), if_pos rfl]; exact u1, fun y3 => ?_, fun y3 => ?_⟩
      · rw [l3.eα, k3.agree.f _ (by omega)]; exact h4'
      · rw [l3.agree.f _ (by omega), k3.eβ, h3'.eβ]; exact g4
    · obtain ⟨z1, z2⟩ := A5 k hk y2
      refine ⟨by rw [if_neg (by omega), if_neg (by omega)]; exact z1, fun y3 => ?_, fun y3 => ?_⟩
      · rw [l3.eα, k3.agree.f k (by omega), h3'.agree.f k (by omega), g3.eα, z1]; exact z2
      · exact l4 k (by omega) (by omega)

/-- quiver/sparse.hpp:435-438: the value of the last edge, multiplied out -/
theorem absorbU {l : Bool} {a b : Nat} {f : SparseFact F} {M : CMat F} (h : SOK .q l f M a b) (hL : f.L.mat a a = 1) (M' : CMat F) :
    ∃ R g, (if l then gemm f.E f.U else gemm f.U f.E) = .ok R ∧ facEL l R = .ok g ∧ SOK .el l g M' a b ∧
      ValL l 1 1 f.E (f.L.mat a a) (f.U.mat b b) g.E (eα .el l g a) (eβ .el l g b) := by
  obtain ⟨lu, hE⟩ := h
  cases l
  · rw [if_neg (by simp)] at hE
    obtain ⟨R, r1, r2, r3⟩ := gemm_spec lu.U hE.1
    obtain ⟨g, g1, g2, g3⟩ := facEL_spec (l := false) (a := a) (b := b) (M := R) (by exact r2) M'
    refine ⟨R, g, r1, g1, g2, ?_⟩
    unfold ValL at *
    rw [if_neg (by simp)] at g3 ⊢
    rw [g3, hL, r3]; simp only [Matrix.one_mul, Matrix.mul_one]
  · rw [if_pos rfl] at hE
    obtain ⟨R, r1, r2, r3⟩ := gemm_spec hE.1 lu.U
    obtain ⟨g, g1, g2, g3⟩ := facEL_spec (l := true) (a := a) (b := b) (M := R) (by exact r2) M'
    refine ⟨R, g, r1, g1, g2, ?_⟩
    unfold ValL at *
    rw [if_pos rfl] at g3 ⊢
    rw [g3, hL, r3]; simp only [Matrix.one_mul, Matrix.mul_one]

/-- quiver/sparse.hpp:399-402: the value of the first edge, multiplied out -/
theorem absorbL {l : Bool} {a b : Nat} {f : SparseFact F} {M : CMat F} (h : SOK .q l f M a b) (hU : f.U.mat b b = 1) (M' : CMat F) :
    ∃ R g, (if l then gemm f.L f.E else gemm f.E f.L) = .ok R ∧ facEU l R = .ok g ∧ SOK .eu l g M' a b ∧
      ValL l 1 1 f.E (f.L.mat a a) (f.U.mat b b) g.E (eα .eu l g a) (eβ .eu l g b) := by
  obtain ⟨lu, hE⟩ := h
  cases l
  · rw [if_neg (by simp)] at hE
    obtain ⟨R, r1, r2, r3⟩ := gemm_spec hE.1 lu.L
    obtain ⟨g, g1, g2, g3⟩ := facEU_spec (l := false) (a := a) (b := b) (M := R) (by exact r2) M'
    refine ⟨R, g, r1, g1, g2, ?_⟩
    unfold ValL at *
    rw [if_neg (by simp)] at g3 ⊢
    rw [g3, hU, r3]; simp only [Matrix.one_mul, Matrix.mul_one]
  · rw [if_pos rfl] at hE
    obtain ⟨R, r1, r2, r3⟩ := gemm_spec lu.L hE.1
    obtain ⟨g, g1, g2, g3⟩ := facEU_spec (l := true) (a := a) (b := b) (M := R) (by exact r2) M'
    refine ⟨R, g, r1, g1, g2, ?_⟩
    unfold ValL at *
    rw [if_pos rfl] at g3 ⊢
    rw [g3, hU, r3]; simp only [Matrix.one_mul, Matrix.mul_one]

theorem elSpec_succ {D : Dgm F} {d : Nat → Nat} (hD : IsZigzag D d) {fuel : Nat} (hC : CSpec D d fuel) : ELSpec D d (fuel + 1) := by
  intro j0 j1 s st h hj hj1 hf hraw
  obtain ⟨n, rfl⟩ : ∃ n, j1 = j0 + n := ⟨j1 - j0, by omega⟩
  have hn : j0 + n - j0 = n := by omega
  by_cases hs : n < 4
  · obtain ⟨s1, st1, a1, a2, a3, a4, a5, a6⟩ := lrSweep1_spec hD h (j := j0) (n := n) hj1 hraw
    obtain ⟨s2, b1, b2, b3, b4⟩ := lrSweep2_spec hD j0 n s1 st1 a2 hj1 (fun k x y => ⟨a4 k x (by omega), a5 k x y⟩) (fun _ => Or.inl (a4 _ (by omega) (by omega)))
    refine ⟨s2, st1, ?_, ⟨b2, a3, a6.trans b3.agree (fun _ x => x) (fun _ x => x)⟩, fun k y1 y2 => ⟨a4 k y1 y2, fun y3 => ?_, fun y3 => ?_⟩⟩
    · rw [dqEL, hn, if_pos hs, a1, bind_ok, b1]
    · have := b4 k y3 y2; rw [a4 k y1 y2] at this; exact this
    · rw [b3.eβ]; exact a5 k y1 y3
  · obtain ⟨s1, st1, a1, ⟨a2, a3, a4⟩, a5⟩ := hC j0 (j0 + n) s st h (by omega) hj1 (by omega) hraw
    generalize hj2 : (j0 + (j0 + n)) / 2 = j2 at a1 a5
    have g1 : j0 + 1 < j2 := by omega
    have g2 : j2 + 1 < j0 + n := by omega
    obtain ⟨m, hm⟩ : ∃ m, j0 + n = j2 + m := ⟨j0 + n - j2, by omega⟩
    -- the edges from `j2` on have a trivial `L`
    have hq : SInv D d s1 (fun k => if j2 ≤ k ∧ k ≤ j2 + m then .q else st1 k) := by
      refine a2.restage (fun k hk => ?_)
      by_cases hk2 : j2 ≤ k ∧ k ≤ j2 + m
      · rw [if_pos hk2]
        obtain ⟨z1, z2, z3⟩ := a5 k (by omega) (by omega)
        by_cases hkj : k = j2
        · left; rw [z1, if_neg (by omega), if_pos hkj]
        · rw [if_neg (by omega), if_neg hkj] at z1
          right; left
          refine ⟨rfl, z1, ?_⟩
          have := z2 (by omega); rw [z1] at this; exact this
      · left; rw [if_neg hk2]
    have hL : ∀ k, j2 ≤ k → k ≤ j2 + m → (fk s1 k).L.mat (d k) (d k) = 1 ∧ (k < j2 + m → (fk s1 k).U.mat (d (k + 1)) (d (k + 1)) = 1) := by
      intro k y1 y2
      obtain ⟨z1, z2, z3⟩ := a5 k (by omega) (by omega)
      have z2 := z2 (by omega)
      have ok := a2.ok k (by omega)
      by_cases hkj : k = j2
      · rw [if_neg (by omega), if_pos hkj] at z1
        rw [z1] at z2 z3
        exact ⟨z2, fun y3 => z3 (by omega)⟩
      · rw [if_neg (by omega), if_neg hkj] at z1
        rw [z1] at z2 z3 ok
        exact ⟨eu_L ok z2, fun y3 => z3 (by omega)⟩
    obtain ⟨s2, st2, b1, b2, b3, b4, b5, b6, b7⟩ := dqELLoop_spec hD m j2 s1 _ hq (by omega)
      (fun k y1 y2 => by
        unfold Clean
        simp only [if_pos (show j2 ≤ k ∧ k ≤ j2 + m from ⟨y1, by omega⟩)]
        exact ⟨trivial, (hL k y1 (by omega)).1, (hL k y1 (by omega)).2 y2⟩)
      (by simp) ((hL (j2 + m) (by omega) (by omega)).1)
    have ok := b2.ok (j2 + m) (by omega)
    rw [b6] at ok
    obtain ⟨R, g, r1, r2, r3, r4⟩ := absorbU ok b7 (mt s2 (j2 + m))
    obtain ⟨w1, w2⟩ := b2.put (k := j2 + m) (by omega) r3 (by rw [b6]; exact r4)
    have e4 : ∀ k, k ≠ j2 + m → fk (⟨s2.facts.set (j2 + m) g, s2.mats⟩ : QState F) k = fk s2 k := fun k hk => set_getD_ne (fun e => hk e.symm)
    have hst : ∀ k, j0 ≤ k → k ≤ j2 + m → Function.update st2 (j2 + m) .el k = .el := by
      intro k y1 y2
      by_cases hk : k = j2 + m
      · rw [hk, Function.update_self]
      · rw [Function.update_of_ne hk]
        by_cases hk2 : j2 ≤ k
        · exact (b5 k hk2 (by omega)).1
        · rw [b3 k (by omega), if_neg (by omega), (a5 k y1 (by omega)).1, if_pos (by omega)]
    obtain ⟨s4, c1, c2, c3, c4⟩ := lrSweep2_spec hD j0 n _ _ w2 hj1
      (fun k y1 y2 => by
        refine ⟨hst k y1 (by omega), ?_⟩
        rw [e4 k (by omega)]
        by_cases hk2 : j2 ≤ k
        · obtain ⟨z1, _, z2⟩ := b5 k hk2 (by omega)
          rw [z1] at z2; exact z2
        · rw [b4.f k (by omega)]
          obtain ⟨z1, _, z2⟩ := a5 k y1 (by omega)
          have z2 := z2 (by omega)
          rw [z1, if_pos (by omega)] at z2; exact z2)
      (fun _ => Or.inl (hst _ (by omega) (by omega)))
    have hβ : ∀ k, j0 ≤ k → k < j0 + n → eβ .el (left D k) (fk s4 k) (d (k + 1)) = 1 := by
      intro k y1 y2
      rw [c3.eβ, e4 k (by omega)]
      by_cases hk2 : j2 ≤ k
      · obtain ⟨z1, _, z2⟩ := b5 k hk2 (by omega)
        rw [z1] at z2; exact z2
      · rw [b4.f k (by omega)]
        obtain ⟨z1, _, z2⟩ := a5 k y1 (by omega)
        have z2 := z2 (by omega)
        rw [z1, if_pos (by omega)] at z2; exact z2
    refine ⟨s4, _, ?_, ⟨c2, ?_, ?_⟩, fun k y1 y2 => ⟨hst k y1 (by omega), fun y3 => ?_, hβ k y1⟩⟩
    · rw [dqEL, hn, if_neg hs, a1, bind_ok]
      show (do
        let s ← dqELLoop D (j0 + n - j2) j2 s1
        let l ← isLeft D (j0 + n)
        let g ← rd s.facts (j0 + n)
        let a ← if l then gemm g.E g.U else gemm g.U g.E
        let f ← facEL l a
        let facts ← wr s.facts (j0 + n) f
        lrSweep2 D j0 n ⟨facts, s.mats⟩ : Res (QState F)) = _
      rw [hm, show j2 + m - j2 = m by omega, b1, bind_ok, isLeft_ok hD (by omega : j2 + m < D.edata.length), bind_ok,
        rdf b2 (by omega : j2 + m < D.edata.length), bind_ok]
      dsimp only
      refine (ite_bind_ok r1 _).trans ?_
      rw [r2, bind_ok, w1, bind_ok]; exact c1
    · intro k hk
      rw [Function.update_of_ne (by omega), b3 k (by omega), if_neg (by omega), a3 k hk]
    · exact ((a4.trans b4 (r := fun k => j0 ≤ k ∧ k ≤ j0 + n) (fun _ x => x) (fun k x => by omega)).trans agree_set (r := fun k => j0 ≤ k ∧ k ≤ j0 + n) (fun _ x => x)
        (fun k x => by omega)).trans c3.agree (fun _ x => x) (fun _ x => x)
    · have := c4 k y3 y2; rw [hst k y1 (by omega)] at this; exact this

theorem euSpec_succ {D : Dgm F} {d : Nat → Nat} (hD : IsZigzag D d) {fuel : Nat} (hC : CSpec D d fuel) : EUSpec D d (fuel + 1) := by
  intro j0 j1 s st h hj hj1 hf hraw
  obtain ⟨n, rfl⟩ : ∃ n, j1 = j0 + n := ⟨j1 - j0, by omega⟩
  have hn : j0 + n - j0 = n := by omega
  by_cases hs : n < 4
  · obtain ⟨s1, st1, a1, a2, a3, a4, a5, a6⟩ := rlSweep1_spec hD h (j := j0) (n := n) hj1 hraw
    obtain ⟨s2, b1, b2, b3, b4⟩ := rlSweep2_spec hD n j0 s1 st1 a2 hj1 (fun k x y => ⟨a4 k (by omega) y, a5 k x y⟩) (fun _ => Or.inl (a4 _ (by omega) (by omega)))
    refine ⟨s2, st1, ?_, ⟨b2, a3, a6.trans b3.agree (fun _ x => x) (fun _ x => x)⟩, fun k y1 y2 => ⟨a4 k y1 y2, fun y3 => ?_, fun y3 => ?_⟩⟩
    · rw [dqEU, hn, if_pos hs, a1, bind_ok, b1]
    · rw [b3.eα]; exact a5 k y3 y2
    · have := b4 k y1 y3; rw [a4 k y1 y2] at this; exact this
  · obtain ⟨s1, st1, a1, ⟨a2, a3, a4⟩, a5⟩ := hC j0 (j0 + n) s st h (by omega) hj1 (by omega) hraw
    generalize hj2 : (j0 + (j0 + n)) / 2 = j2 at a1 a5
    have g1 : j0 + 1 < j2 := by omega
    have g2 : j2 + 1 < j0 + n := by omega
    obtain ⟨m, hm⟩ : ∃ m, j2 = j0 + m := ⟨j2 - j0, by omega⟩
    have hq : SInv D d s1 (fun k => if j0 ≤ k ∧ k ≤ j0 + m then .q else st1 k) := by
      refine a2.restage (fun k hk => ?_)
      by_cases hk2 : j0 ≤ k ∧ k ≤ j0 + m
      · rw [if_pos hk2]
        obtain ⟨z1, z2, z3⟩ := a5 k (by omega) (by omega)
        by_cases hkj : k = j2
        · left; rw [z1, if_neg (by omega), if_pos hkj]
        · rw [if_pos (by omega)] at z1
          right; right
          refine ⟨rfl, z1, ?_⟩
          have := z3 (by omega); rw [z1] at this; exact this
      · left; rw [if_neg hk2]
    have hU : ∀ k, j0 ≤ k → k ≤ j0 + m → (fk s1 k).U.mat (d (k + 1)) (d (k + 1)) = 1 ∧ (j0 < k → (fk s1 k).L.mat (d k) (d k) = 1) := by
      intro k y1 y2
      obtain ⟨z1, z2, z3⟩ := a5 k (by omega) (by omega)
      have z3 := z3 (by omega)
      have ok := a2.ok k (by omega)
      by_cases hkj : k = j2
      · rw [if_neg (by omega), if_pos hkj] at z1
        rw [z1] at z2 z3
        exact ⟨z3, fun y3 => z2 (by omega)⟩
      · rw [if_pos (by omega)] at z1
        rw [z1] at z2 z3 ok
        exact ⟨el_U ok z3, fun y3 => z2 (by omega)⟩
    obtain ⟨s2, st2, b1, b2, b3, b4, b5, b6, b7⟩ := dqEULoop_spec hD j0 m s1 _ hq (by omega)
      (fun k y1 y2 => by
        unfold Clean
        simp only [if_pos (show j0 ≤ k ∧ k ≤ j0 + m from ⟨by omega, y2⟩)]
        exact ⟨trivial, (hU k (by omega) y2).2 y1, (hU k (by omega) y2).1⟩)
      (by simp) ((hU j0 (by omega) (by omega)).1)
    have ok := b2.ok j0 (by omega)
    rw [b6] at ok
    obtain ⟨R, g, r1, r2, r3, r4⟩ := absorbL ok b7 (mt s2 j0)
    obtain ⟨w1, w2⟩ := b2.put (k := j0) (by omega) r3 (by rw [b6]; exact r4)
    have e4 : ∀ k, k ≠ j0 → fk (⟨s2.facts.set j0 g, s2.mats⟩ : QState F) k = fk s2 k := fun k hk => set_getD_ne (fun e => hk e.symm)
    have hst : ∀ k, j0 ≤ k → k ≤ j0 + n → Function.update st2 j0 .eu k = .eu := by
      intro k y1 y2
      by_cases hk : k = j0
      · rw [hk, Function.update_self]
      · rw [Function.update_of_ne hk]
        by_cases hk2 : k ≤ j2
        · exact (b5 k (by omega) (by omega)).1
        · rw [b3 k (by omega), if_neg (by omega), (a5 k y1 (by omega)).1, if_neg (by omega), if_neg (by omega)]
    have hα2 : ∀ k, j0 < k → k ≤ j0 + n → eα .eu (left D k) (fk s2 k) (d k) = 1 := by
      intro k y1 y2
      by_cases hk2 : k ≤ j2
      · obtain ⟨z1, z2, _⟩ := b5 k y1 (by omega)
        rw [z1] at z2; exact z2
      · rw [b4.f k (by omega)]
        obtain ⟨z1, z2, _⟩ := a5 k (by omega) (by omega)
        have z2 := z2 (by omega)
        rw [z1, if_neg (by omega), if_neg (by omega)] at z2; exact z2
    obtain ⟨s4, c1, c2, c3, c4⟩ := rlSweep2_spec hD n j0 _ _ w2 hj1
      (fun k y1 y2 => ⟨hst k (by omega) (by omega), by rw [e4 k (by omega)]; exact hα2 k y1 y2⟩)
      (fun _ => Or.inl (hst _ (by omega) (by omega)))
    refine ⟨s4, _, ?_, ⟨c2, ?_, ?_⟩, fun k y1 y2 => ⟨hst k y1 (by omega), fun y3 => ?_, fun y3 => ?_⟩⟩
    · rw [dqEU, hn, if_neg hs, a1, bind_ok]
      show (do
        let s ← dqEULoop D j0 (j2 - j0) s1
        let l ← isLeft D j0
        let g ← rd s.facts j0
        let a ← if l then gemm g.L g.E else gemm g.E g.L
        let f ← facEU l a
        let facts ← wr s.facts j0 f
        rlSweep2 D n j0 ⟨facts, s.mats⟩ : Res (QState F)) = _
      rw [show j2 - j0 = m by omega, b1, bind_ok, isLeft_ok hD (by omega : j0 < D.edata.length), bind_ok,
        rdf b2 (by omega : j0 < D.edata.length), bind_ok]
      dsimp only
      refine (ite_bind_ok r1 _).trans ?_
      rw [r2, bind_ok, w1, bind_ok]; exact c1
    · intro k hk
      rw [Function.update_of_ne (by omega), b3 k (by omega), if_neg (by omega), a3 k hk]
    · exact ((a4.trans b4 (r := fun k => j0 ≤ k ∧ k ≤ j0 + n) (fun _ x => x) (fun k x => by omega)).trans agree_set (r := fun k => j0 ≤ k ∧ k ≤ j0 + n) (fun _ x => x)
        (fun k x => by omega)).trans c3.agree (fun _ x => x) (fun _ x => x)
    · rw [c3.eα, e4 k (by omega)]; exact hα2 k y3 y2
    · have := c4 k y1 y3; rw [hst k y1 (by omega)] at this; exact this

theorem dq_all {D : Dgm F} {d : Nat → Nat} (hD : IsZigzag D d) : ∀ fuel, CSpec D d fuel ∧ ELSpec D d fuel ∧ EUSpec D d fuel
  | 0 => ⟨fun j0 j1 s st h h1 h2 h3 => by omega, fun j0 j1 s st h h1 h2 h3 => by omega, fun j0 j1 s st h h1 h2 h3 => by omega⟩
  | fuel + 1 => by
    obtain ⟨a, b, c⟩ := dq_all hD fuel
    exact ⟨cSpec_succ hD b c, elSpec_succ hD a, euSpec_succ hD a⟩

/-- quiver/sparse.hpp:447-482 -/
theorem formDivideConquer_spec {D : Dgm F} {d : Nat → Nat} (hD : IsZigzag D d) (nl : Nat) :
    ∃ mats, formDivideConquer D nl = .ok mats ∧ FormOK D d mats ∧ ∃ N, IsIso D d mats N := by
  unfold formDivideConquer
  by_cases hc : D.edata.length < 5 ∨ nl ≤ 1
  · rw [if_pos hc]; exact formLeftright_spec hD
  · rw [if_neg hc]
    obtain ⟨s, st, a1, ⟨a2, a3, a4⟩, a5⟩ := (dq_all hD (2 * D.edata.length)).1 0 (D.edata.length - 1) (start D) _ (start_inv hD) (by omega) (by omega) (by omega)
      (fun _ _ _ => rfl)
    refine ⟨result s, by rw [a1]; rfl, a2.finish hD (fun k hk => ?_) (fun k h1 h2 => (a5 k (by omega) (by omega)).2.1 h1)
      (fun k hk => (a5 k (by omega) (by omega)).2.2 (by omega))⟩
    rw [(a5 k (by omega) (by omega)).1]
    split
    · simp
    · split <;> simp

end Quiver
end BATS
