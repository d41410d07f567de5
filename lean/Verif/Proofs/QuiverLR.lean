import Verif.Proofs.QuiverPass

set_option linter.unusedSectionVars false
set_option linter.unusedVariables false
set_option linter.unusedSimpArgs false

/-! # The sweeps -/

namespace BATS
namespace Quiver
open Matrix Reduction CMat BATS.Fact

variable {F : Type} [Field F] [DecidableEq F]

theorem Agree.trans {s s' s'' : QState F} {p q r : Nat → Prop} (h : Agree s s' p) (h' : Agree s' s'' q) (hp : ∀ j, p j → r j) (hq : ∀ j, q j → r j) :
    Agree s s'' r :=
  ⟨h'.flen.trans h.flen, h'.mlen.trans h.mlen, fun j hj => (h'.f j (fun x => hj (hq j x))).trans (h.f j (fun x => hj (hp j x))),
    fun j hj => (h'.m j (fun x => hj (hq j x))).trans (h.m j (fun x => hj (hp j x)))⟩

theorem Agree.refl (s : QState F) (p : Nat → Prop) : Agree s s p := ⟨rfl, rfl, fun _ _ => rfl, fun _ _ => rfl⟩

theorem Agree.mono {s s' : QState F} {p q : Nat → Prop} (h : Agree s s' p) (hp : ∀ j, p j → q j) : Agree s s' q :=
  ⟨h.flen, h.mlen, fun j hj => h.f j (fun x => hj (hp j x)), fun j hj => h.m j (fun x => hj (hp j x))⟩

theorem agree_set {s : QState F} {k : Nat} {f : SparseFact F} : Agree s ⟨s.facts.set k f, s.mats⟩ (· = k) :=
  ⟨by simp, rfl, fun j hj => set_getD_ne (fun h => hj h.symm), fun _ _ => rfl⟩

theorem eβ_one {l : Bool} {f : SparseFact F} {b : Nat} {L E : CMat F} : eβ .el l ⟨L, E, identity b, identity b⟩ b = 1 := by
  unfold eβ; simp only [mat_identity, Matrix.mul_one, ite_self]

theorem eα_one {l : Bool} {f : SparseFact F} {a : Nat} {U E : CMat F} : eα .eu l ⟨identity a, E, U, identity a⟩ a = 1 := by
  unfold eα; simp only [mat_identity, Matrix.mul_one, ite_self]

/-- the value stored in `mats` is factored -/
theorem SInv.fac {D : Dgm F} {d : Nat → Nat} {s : QState F} {st : Nat → Stage} (h : SInv D d s st) {k : Nat} (hk : k < D.edata.length) (hr : st k = .raw) :
    (∃ f, facEL (left D k) (mt s k) = .ok f ∧ wr s.facts k f = .ok (s.facts.set k f) ∧ SInv D d ⟨s.facts.set k f, s.mats⟩ (Function.update st k .el)) ∧
    (∃ f, facEU (left D k) (mt s k) = .ok f ∧ wr s.facts k f = .ok (s.facts.set k f) ∧ SInv D d ⟨s.facts.set k f, s.mats⟩ (Function.update st k .eu)) ∧
    (∃ f, (if left D k then lqu (mt s k) else uql (mt s k)) = .ok f ∧ wr s.facts k f = .ok (s.facts.set k f) ∧
      SInv D d ⟨s.facts.set k f, s.mats⟩ (Function.update st k .q)) := by
  have ok := h.ok k hk
  rw [hr] at ok
  refine ⟨?_, ?_, ?_⟩
  · obtain ⟨f, f1, f2, f3⟩ := facEL_spec ok (mt s k)
    obtain ⟨w1, w2⟩ := h.put hk f2 (by rw [hr]; exact f3)
    exact ⟨f, f1, w1, w2⟩
  · obtain ⟨f, f1, f2, f3⟩ := facEU_spec ok (mt s k)
    obtain ⟨w1, w2⟩ := h.put hk f2 (by rw [hr]; exact f3)
    exact ⟨f, f1, w1, w2⟩
  · obtain ⟨f, f1, f2, f3⟩ := facQ_spec ok (mt s k)
    obtain ⟨w1, w2⟩ := h.put hk f2 (by rw [hr]; exact f3)
    exact ⟨f, f1, w1, w2⟩

theorem lrSweep1Loop_spec {D : Dgm F} {d : Nat → Nat} (hD : IsZigzag D d) : ∀ (n j : Nat) (s : QState F) (st : Nat → Stage), SInv D d s st →
    j + 1 + n ≤ D.edata.length → st j = .el → (∀ k, j < k → k < j + 1 + n → st k = .raw) →
    ∃ s' st', lrSweep1Loop D n (j + 1) s = .ok s' ∧ SInv D d s' st' ∧ (∀ k, ¬ (j ≤ k ∧ k < j + 1 + n) → st' k = st k) ∧
      (∀ k, j ≤ k → k < j + 1 + n → st' k = .el) ∧ (∀ k, j ≤ k → k < j + n → eβ .el (left D k) (fk s' k) (d (k + 1)) = 1) ∧
      Agree s s' (fun k => j ≤ k ∧ k < j + 1 + n)
  | 0, j, s, st, h, hj, hel, hraw => by
    refine ⟨s, st, rfl, h, fun _ _ => rfl, ?_, ?_, Agree.refl _ _⟩
    · intro k h1 h2; have : k = j := by omega
      rw [this]; exact hel
    · intro k h1 h2; omega
  | n + 1, j, s, st, h, hj, hel, hraw => by
    obtain ⟨R, p1, p2⟩ := passUPRight_spec hD h (k := j) (by omega) hel (hraw (j + 1) (by omega) (by omega))
    generalize hs1 : (⟨s.facts.set j { fk s j with U := identity (d (j + 1)), P := identity (d (j + 1)) }, s.mats.set (j + 1) R⟩ : QState F) = s1 at p1 p2
    have hf1 : fk s1 j = { fk s j with U := identity (d (j + 1)), P := identity (d (j + 1)) } := by
      rw [← hs1]; exact set_getD_self (by rw [h.flen]; omega)
    have ha1 : Agree s s1 (fun k => k = j ∨ k = j + 1) := by
      rw [← hs1]
      exact ⟨by simp, by simp, fun i hi => set_getD_ne (by omega), fun i hi => set_getD_ne (by omega)⟩
    obtain ⟨⟨f, f1, f2, f3⟩, _, _⟩ := p2.fac (k := j + 1) (by omega) (hraw (j + 1) (by omega) (by omega))
    obtain ⟨s', st', r1, r2, r3, r4, r5, r6⟩ := lrSweep1Loop_spec hD n (j + 1) _ _ f3 (by omega) (Function.update_self _ _ _)
      (fun k h1 h2 => by rw [Function.update_of_ne (by omega)]; exact hraw k (by omega) (by omega))
    refine ⟨s', st', ?_, r2, ?_, ?_, ?_, ?_⟩
    · rw [lrSweep1Loop]
      simp only [Nat.add_sub_cancel, p1, bind_ok, isLeft_ok hD (by omega : j + 1 < D.edata.length), rdm p2 (by omega : j + 1 < D.edata.length), f1, f2]
      exact r1
    · intro k hk; rw [r3 k (by omega), Function.update_of_ne (by omega)]
    · intro k h1 h2
      by_cases hkj : k = j
      · subst hkj
        rw [r3 k (by omega), Function.update_of_ne (by omega)]; exact hel
      · exact r4 k (by omega) (by omega)
    · intro k h1 h2
      by_cases hkj : k = j
      · subst hkj
        rw [r6.f k (by omega)]
        rw [show fk (⟨s1.facts.set (k + 1) f, s1.mats⟩ : QState F) k = fk s1 k from set_getD_ne (by omega), hf1]
        exact eβ_one (f := fk s k)
      · exact r5 k (by omega) (by omega)
    · exact (ha1.trans agree_set (r := fun k => k = j ∨ k = j + 1) (fun _ x => x) (fun i x => Or.inr x)).trans r6 (fun i x => by omega) (fun i x => by omega)

theorem lrSweep1_spec {D : Dgm F} {d : Nat → Nat} (hD : IsZigzag D d) {s : QState F} {st : Nat → Stage} (h : SInv D d s st) {j n : Nat}
    (hj : j + n < D.edata.length) (hraw : ∀ k, j ≤ k → k ≤ j + n → st k = .raw) :
    ∃ s' st', lrSweep1 D j n s = .ok s' ∧ SInv D d s' st' ∧ (∀ k, ¬ (j ≤ k ∧ k ≤ j + n) → st' k = st k) ∧
      (∀ k, j ≤ k → k ≤ j + n → st' k = .el) ∧ (∀ k, j ≤ k → k < j + n → eβ .el (left D k) (fk s' k) (d (k + 1)) = 1) ∧
      Agree s s' (fun k => j ≤ k ∧ k ≤ j + n) := by
  obtain ⟨⟨f, f1, f2, f3⟩, _, _⟩ := h.fac (k := j) (by omega) (hraw j (by omega) (by omega))
  obtain ⟨s', st', r1, r2, r3, r4, r5, r6⟩ := lrSweep1Loop_spec hD n j _ _ f3 (by omega) (Function.update_self _ _ _)
      (fun k h1 h2 => by rw [Function.update_of_ne (by omega)]; exact hraw k (by omega) (by omega))
  refine ⟨s', st', ?_, r2, ?_, fun k h1 h2 => r4 k h1 (by omega), r5, ?_⟩
  · unfold lrSweep1
    simp only [bind_ok, isLeft_ok hD (by omega : j < D.edata.length), rdm h (by omega : j < D.edata.length), f1, f2]
    exact r1
  · intro k hk; rw [r3 k (by omega), Function.update_of_ne (by omega)]
  · exact agree_set.trans r6 (fun i x => by omega) (fun i x => by omega)

theorem rlSweep1Loop_spec {D : Dgm F} {d : Nat → Nat} (hD : IsZigzag D d) (j : Nat) : ∀ (n : Nat) (s : QState F) (st : Nat → Stage), SInv D d s st →
    j + n < D.edata.length → st (j + n) = .eu → (∀ k, j ≤ k → k < j + n → st k = .raw) →
    ∃ s' st', rlSweep1Loop D j n s = .ok s' ∧ SInv D d s' st' ∧ (∀ k, ¬ (j ≤ k ∧ k ≤ j + n) → st' k = st k) ∧
      (∀ k, j ≤ k → k ≤ j + n → st' k = .eu) ∧ (∀ k, j < k → k ≤ j + n → eα .eu (left D k) (fk s' k) (d k) = 1) ∧
      Agree s s' (fun k => j ≤ k ∧ k ≤ j + n)
  | 0, s, st, h, hj, hel, hraw => by
    refine ⟨s, st, rfl, h, fun _ _ => rfl, ?_, ?_, Agree.refl _ _⟩
    · intro k h1 h2; have : k = j := by omega
      rw [this]; exact hel
    · intro k h1 h2; omega
  | n + 1, s, st, h, hj, hel, hraw => by
    obtain ⟨R, p1, p2⟩ := passPLLeft_spec hD h (k := j + n) (by omega) (hraw (j + n) (by omega) (by omega)) hel
    generalize hs1 : (⟨s.facts.set (j + n + 1) { fk s (j + n + 1) with L := identity (d (j + n + 1)), P := identity (d (j + n + 1)) }, s.mats.set (j + n) R⟩ : QState F) = s1 at p1 p2
    have hf1 : fk s1 (j + n + 1) = { fk s (j + n + 1) with L := identity (d (j + n + 1)), P := identity (d (j + n + 1)) } := by
      rw [← hs1]; exact set_getD_self (by rw [h.flen]; omega)
    have ha1 : Agree s s1 (fun k => k = j + n ∨ k = j + n + 1) := by
      rw [← hs1]
      exact ⟨by simp, by simp, fun i hi => set_getD_ne (by omega), fun i hi => set_getD_ne (by omega)⟩
    obtain ⟨_, ⟨f, f1, f2, f3⟩, _⟩ := p2.fac (k := j + n) (by omega) (hraw (j + n) (by omega) (by omega))
    obtain ⟨s', st', r1, r2, r3, r4, r5, r6⟩ := rlSweep1Loop_spec hD j n _ _ f3 (by omega) (Function.update_self _ _ _)
      (fun k h1 h2 => by rw [Function.update_of_ne (by omega)]; exact hraw k (by omega) (by omega))
    refine ⟨s', st', ?_, r2, ?_, ?_, ?_, ?_⟩
    · rw [rlSweep1Loop]
      simp only [p1, bind_ok, isLeft_ok hD (by omega : j + n < D.edata.length), rdm p2 (by omega : j + n < D.edata.length), f1, f2]
      exact r1
    · intro k hk; rw [r3 k (by omega), Function.update_of_ne (by omega)]
    · intro k h1 h2
      by_cases hkj : k = j + n + 1
      · subst hkj
        rw [r3 _ (by omega), Function.update_of_ne (by omega)]; exact hel
      · exact r4 k (by omega) (by omega)
    · intro k h1 h2
      by_cases hkj : k = j + n + 1
      · subst hkj
        rw [r6.f _ (by omega)]
        rw [show fk (⟨s1.facts.set (j + n) f, s1.mats⟩ : QState F) (j + n + 1) = fk s1 (j + n + 1) from set_getD_ne (by omega), hf1]
        exact eα_one (f := fk s (j + n + 1))
      · exact r5 k (by omega) (by omega)
    · exact (ha1.trans agree_set (r := fun k => k = j + n ∨ k = j + n + 1) (fun _ x => x) (fun i x => Or.inl x)).trans r6 (fun i x => by omega) (fun i x => by omega)

theorem rlSweep1_spec {D : Dgm F} {d : Nat → Nat} (hD : IsZigzag D d) {s : QState F} {st : Nat → Stage} (h : SInv D d s st) {j n : Nat}
    (hj : j + n < D.edata.length) (hraw : ∀ k, j ≤ k → k ≤ j + n → st k = .raw) :
    ∃ s' st', rlSweep1 D j n s = .ok s' ∧ SInv D d s' st' ∧ (∀ k, ¬ (j ≤ k ∧ k ≤ j + n) → st' k = st k) ∧
      (∀ k, j ≤ k → k ≤ j + n → st' k = .eu) ∧ (∀ k, j < k → k ≤ j + n → eα .eu (left D k) (fk s' k) (d k) = 1) ∧
      Agree s s' (fun k => j ≤ k ∧ k ≤ j + n) := by
  obtain ⟨_, ⟨f, f1, f2, f3⟩, _⟩ := h.fac (k := j + n) (by omega) (hraw (j + n) (by omega) (by omega))
  obtain ⟨s', st', r1, r2, r3, r4, r5, r6⟩ := rlSweep1Loop_spec hD j n _ _ f3 (by omega) (Function.update_self _ _ _)
      (fun k h1 h2 => by rw [Function.update_of_ne (by omega)]; exact hraw k (by omega) (by omega))
  refine ⟨s', st', ?_, r2, ?_, r4, r5, ?_⟩
  · unfold rlSweep1
    simp only [bind_ok, isLeft_ok hD (by omega : j + n < D.edata.length), rdm h (by omega : j + n < D.edata.length), f1, f2]
    exact r1
  · intro k hk; rw [r3 k (by omega), Function.update_of_ne (by omega)]
  · exact agree_set.trans r6 (fun i x => by omega) (fun i x => by omega)

/-- only the factors `L` on the edges with `p` differ -/
structure OnlyL (s s' : QState F) (p : Nat → Prop) : Prop where
  agree : Agree s s' p
  mats : s'.mats = s.mats
  only : ∀ k, ∃ L, fk s' k = { fk s k with L := L }

structure OnlyU (s s' : QState F) (p : Nat → Prop) : Prop where
  agree : Agree s s' p
  mats : s'.mats = s.mats
  only : ∀ k, ∃ U, fk s' k = { fk s k with U := U }

theorem OnlyL.refl (s : QState F) (p : Nat → Prop) : OnlyL s s p := ⟨Agree.refl _ _, rfl, fun k => ⟨(fk s k).L, rfl⟩⟩
theorem OnlyU.refl (s : QState F) (p : Nat → Prop) : OnlyU s s p := ⟨Agree.refl _ _, rfl, fun k => ⟨(fk s k).U, rfl⟩⟩

theorem OnlyL.trans {s s' s'' : QState F} {p q r : Nat → Prop} (h : OnlyL s s' p) (h' : OnlyL s' s'' q) (hp : ∀ j, p j → r j) (hq : ∀ j, q j → r j) : OnlyL s s'' r := by
  refine ⟨h.agree.trans h'.agree hp hq, h'.mats.trans h.mats, fun k => ?_⟩
  obtain ⟨L, hL⟩ := h.only k
  obtain ⟨L', hL'⟩ := h'.only k
  exact ⟨L', by rw [hL', hL]⟩

theorem OnlyU.trans {s s' s'' : QState F} {p q r : Nat → Prop} (h : OnlyU s s' p) (h' : OnlyU s' s'' q) (hp : ∀ j, p j → r j) (hq : ∀ j, q j → r j) : OnlyU s s'' r := by
  refine ⟨h.agree.trans h'.agree hp hq, h'.mats.trans h.mats, fun k => ?_⟩
  obtain ⟨L, hL⟩ := h.only k
  obtain ⟨L', hL'⟩ := h'.only k
  exact ⟨L', by rw [hL', hL]⟩

theorem OnlyL.eβ {s s' : QState F} {p : Nat → Prop} (h : OnlyL s s' p) (x : Stage) (l : Bool) (k b : Nat) : eβ x l (fk s' k) b = eβ x l (fk s k) b := by
  obtain ⟨L, hL⟩ := h.only k
  rw [hL]; exact eβ_withL x l (fk s k) L b
theorem OnlyU.eα {s s' : QState F} {p : Nat → Prop} (h : OnlyU s s' p) (x : Stage) (l : Bool) (k b : Nat) : eα x l (fk s' k) b = eα x l (fk s k) b := by
  obtain ⟨L, hL⟩ := h.only k
  rw [hL]; exact eα_withU x l (fk s k) L b
theorem OnlyL.E {s s' : QState F} {p : Nat → Prop} (h : OnlyL s s' p) (k : Nat) : (fk s' k).E = (fk s k).E := by
  obtain ⟨L, hL⟩ := h.only k
  rw [hL]
theorem OnlyU.E {s s' : QState F} {p : Nat → Prop} (h : OnlyU s s' p) (k : Nat) : (fk s' k).E = (fk s k).E := by
  obtain ⟨L, hL⟩ := h.only k
  rw [hL]

/-- one step of `type_A_leftright_sweep2` -/
theorem passLLeft_only {D : Dgm F} {d : Nat → Nat} (hD : IsZigzag D d) {s : QState F} {st : Nat → Stage} (h : SInv D d s st) {k : Nat}
    (hk : k + 1 < D.edata.length) (h1 : st k = .el) (hβ : eβ .el (left D k) (fk s k) (d (k + 1)) = 1) (h2 : (st (k + 1)).hasL) :
    ∃ s', passLLeft D s (k + 1) = .ok s' ∧ SInv D d s' st ∧ OnlyL s s' (fun j => j = k ∨ j = k + 1) ∧
      eα (st (k + 1)) (left D (k + 1)) (fk s' (k + 1)) (d (k + 1)) = 1 := by
  obtain ⟨R, p1, p2⟩ := passLLeft_spec hD h hk h1 hβ h2
  refine ⟨_, p1, p2, ⟨⟨by simp, rfl, fun j hj => (set_getD_ne (by omega)).trans (set_getD_ne (by omega)), fun _ _ => rfl⟩, rfl, ?_⟩, ?_⟩
  · intro j
    by_cases hj : j = k + 1
    · subst hj
      exact ⟨_, set_getD_self (by rw [List.length_set, h.flen]; exact hk)⟩
    · by_cases hj2 : j = k
      · subst hj2
        exact ⟨R, (set_getD_ne (by omega)).trans (set_getD_self (by rw [h.flen]; omega))⟩
      · exact ⟨(fk s j).L, (set_getD_ne (by omega)).trans (set_getD_ne (by omega))⟩
  · rw [h2.eα]
    rw [show fk _ (k + 1) = _ from set_getD_self (by rw [List.length_set, h.flen]; exact hk)]
    exact mat_identity _

theorem passURight_only {D : Dgm F} {d : Nat → Nat} (hD : IsZigzag D d) {s : QState F} {st : Nat → Stage} (h : SInv D d s st) {k : Nat}
    (hk : k + 1 < D.edata.length) (h1 : (st k).hasU) (h2 : st (k + 1) = .eu) (hα : eα .eu (left D (k + 1)) (fk s (k + 1)) (d (k + 1)) = 1) :
    ∃ s', passURight D s k = .ok s' ∧ SInv D d s' st ∧ OnlyU s s' (fun j => j = k ∨ j = k + 1) ∧
      eβ (st k) (left D k) (fk s' k) (d (k + 1)) = 1 := by
  obtain ⟨R, p1, p2⟩ := passURight_spec hD h hk h1 h2 hα
  refine ⟨_, p1, p2, ⟨⟨by simp, rfl, fun j hj => (set_getD_ne (by omega)).trans (set_getD_ne (by omega)), fun _ _ => rfl⟩, rfl, ?_⟩, ?_⟩
  · intro j
    by_cases hj : j = k
    · subst hj
      exact ⟨_, set_getD_self (by rw [List.length_set, h.flen]; omega)⟩
    · by_cases hj2 : j = k + 1
      · subst hj2
        exact ⟨R, (set_getD_ne (by omega)).trans (set_getD_self (by rw [h.flen]; omega))⟩
      · exact ⟨(fk s j).U, (set_getD_ne (by omega)).trans (set_getD_ne (by omega))⟩
  · rw [h1.eβ]
    rw [show fk _ k = _ from set_getD_self (by rw [List.length_set, h.flen]; omega)]
    exact mat_identity _

theorem lrSweep2_spec {D : Dgm F} {d : Nat → Nat} (hD : IsZigzag D d) (j : Nat) : ∀ (n : Nat) (s : QState F) (st : Nat → Stage), SInv D d s st →
    j + n < D.edata.length → (∀ k, j ≤ k → k < j + n → st k = .el ∧ eβ .el (left D k) (fk s k) (d (k + 1)) = 1) → (n ≠ 0 → (st (j + n)).hasL) →
    ∃ s', lrSweep2 D j n s = .ok s' ∧ SInv D d s' st ∧ OnlyL s s' (fun k => j ≤ k ∧ k ≤ j + n) ∧
      (∀ k, j < k → k ≤ j + n → eα (st k) (left D k) (fk s' k) (d k) = 1)
  | 0, s, st, h, hj, hel, hL => ⟨s, rfl, h, OnlyL.refl _ _, fun k h1 h2 => by omega⟩
  | n + 1, s, st, h, hj, hel, hL => by
    obtain ⟨e1, e2⟩ := hel (j + n) (by omega) (by omega)
    obtain ⟨s1, p1, p2, p3, p4⟩ := passLLeft_only hD h (k := j + n) (by omega) e1 e2 (hL (by omega))
    obtain ⟨s', r1, r2, r3, r4⟩ := lrSweep2_spec hD j n s1 st p2 (by omega)
      (fun k h1 h2 => ⟨(hel k h1 (by omega)).1, by rw [p3.eβ]; exact (hel k h1 (by omega)).2⟩) (fun _ => Or.inl e1)
    refine ⟨s', ?_, r2, p3.trans r3 (fun i x => by omega) (fun i x => by omega), ?_⟩
    · rw [lrSweep2]
      rw [show j + (n + 1) = j + n + 1 from rfl, p1]; exact r1
    · intro k h1 h2
      by_cases hk : k = j + n + 1
      · subst hk
        rw [r3.agree.f _ (by omega)]; exact p4
      · exact r4 k h1 (by omega)

theorem rlSweep2_spec {D : Dgm F} {d : Nat → Nat} (hD : IsZigzag D d) : ∀ (n j : Nat) (s : QState F) (st : Nat → Stage), SInv D d s st →
    j + n < D.edata.length → (∀ k, j < k → k ≤ j + n → st k = .eu ∧ eα .eu (left D k) (fk s k) (d k) = 1) → (n ≠ 0 → (st j).hasU) →
    ∃ s', rlSweep2 D n j s = .ok s' ∧ SInv D d s' st ∧ OnlyU s s' (fun k => j ≤ k ∧ k ≤ j + n) ∧
      (∀ k, j ≤ k → k < j + n → eβ (st k) (left D k) (fk s' k) (d (k + 1)) = 1)
  | 0, j, s, st, h, hj, hel, hL => ⟨s, rfl, h, OnlyU.refl _ _, fun k h1 h2 => by omega⟩
  | n + 1, j, s, st, h, hj, hel, hL => by
    obtain ⟨e1, e2⟩ := hel (j + 1) (by omega) (by omega)
    obtain ⟨s1, p1, p2, p3, p4⟩ := passURight_only hD h (k := j) (by omega) (hL (by omega)) e1 e2
    obtain ⟨s', r1, r2, r3, r4⟩ := rlSweep2_spec hD n (j + 1) s1 st p2 (by omega)
      (fun k h1 h2 => ⟨(hel k (by omega) (by omega)).1, by rw [p3.eα]; exact (hel k (by omega) (by omega)).2⟩) (fun _ => Or.inl e1)
    refine ⟨s', ?_, r2, p3.trans r3 (fun i x => by omega) (fun i x => by omega), ?_⟩
    · rw [rlSweep2, p1]; exact r1
    · intro k h1 h2
      by_cases hk : k = j
      · subst hk
        rw [r3.agree.f _ (by omega)]; exact p4
      · exact r4 k (by omega) (by omega)

theorem sOK_unit {x : Stage} {l : Bool} {f : SparseFact F} {M : CMat F} {a b : Nat} (h : SOK x l f M a b) : IsUnit (eα x l f a) ∧ IsUnit (eβ x l f b) := by
  have pu : ∀ {n : Nat} {P : Matrix (Fin n) (Fin n) F}, IsPermMatrix P → IsUnit P := fun hp => IsUnit.of_mul_eq_one _ (perm_mul hp).1
  have uu : ∀ {n : Nat} {P : Matrix (Fin n) (Fin n) F}, UpperInv P → IsUnit P := by
    intro n P hp; exact UpperInv.isUnit hp
  have lu : ∀ {n : Nat} {P : Matrix (Fin n) (Fin n) F}, LowerInv P → IsUnit P := by
    intro n P hp; rw [Matrix.isUnit_iff_isUnit_det, ← Matrix.det_transpose]; exact (Matrix.isUnit_iff_isUnit_det _).1 (UpperInv.isUnit (UpperInv.of_transpose hp))
  cases x
  · exact ⟨isUnit_one, isUnit_one⟩
  · refine ⟨lu h.1.lo, ?_⟩
    unfold eβ; simp only; split
    · exact (uu h.1.up).mul (pu h.2.2.1)
    · exact (pu h.2.2.1).mul (uu h.1.up)
  · refine ⟨?_, uu h.1.up⟩
    unfold eα; simp only; split
    · exact (pu h.2.2.1).mul (lu h.1.lo)
    · exact (lu h.1.lo).mul (pu h.2.2.1)
  · exact ⟨lu h.1.lo, uu h.1.up⟩

theorem Rel.absorbL {l : Bool} {a b : Nat} {A E : CMat F} {N α : Matrix (Fin a) (Fin a) F} {N' β : Matrix (Fin b) (Fin b) F}
    (h : Rel l A E N α N' β) (hu : IsUnit α) : ∃ W, IsUnit W ∧ Rel l A E (N * W) 1 N' β := by
  have hd := (Matrix.isUnit_iff_isUnit_det _).1 hu
  unfold Rel at *
  split at h
  · refine ⟨α, hu, ?_⟩
    rw [if_pos (by assumption), h]; simp only [Matrix.one_mul, Matrix.mul_assoc]
  · refine ⟨α⁻¹, Matrix.isUnit_nonsing_inv_iff.2 hu, ?_⟩
    rw [if_neg (by assumption), ← Matrix.mul_assoc, h]
    simp only [Matrix.mul_assoc, Matrix.mul_one, Matrix.mul_nonsing_inv _ hd]

theorem Rel.absorbR {l : Bool} {a b : Nat} {A E : CMat F} {N α : Matrix (Fin a) (Fin a) F} {N' β : Matrix (Fin b) (Fin b) F}
    (h : Rel l A E N α N' β) (hu : IsUnit β) : ∃ W, IsUnit W ∧ Rel l A E N α (N' * W) 1 := by
  have hd := (Matrix.isUnit_iff_isUnit_det _).1 hu
  unfold Rel at *
  split at h
  · refine ⟨β⁻¹, Matrix.isUnit_nonsing_inv_iff.2 hu, ?_⟩
    rw [if_pos (by assumption), ← Matrix.mul_assoc, h]
    simp only [Matrix.mul_assoc, Matrix.mul_one, Matrix.mul_nonsing_inv _ hd]
  · refine ⟨β, hu, ?_⟩
    rw [if_neg (by assumption), h]; simp only [Matrix.one_mul, Matrix.mul_assoc]

/-- all edges are factored and only the outer factors at the two ends may differ from the identity -/
theorem SInv.finish {D : Dgm F} {d : Nat → Nat} (hD : IsZigzag D d) {s : QState F} {st : Nat → Stage} (h : SInv D d s st) (hst : ∀ k, k < D.edata.length → st k ≠ .raw)
    (hα : ∀ k, 0 < k → k < D.edata.length → eα (st k) (left D k) (fk s k) (d k) = 1)
    (hβ : ∀ k, k + 1 < D.edata.length → eβ (st k) (left D k) (fk s k) (d (k + 1)) = 1) :
    FormOK D d (result s) ∧ ∃ N, IsIso D d (result s) N := by
  have hm : 0 < D.edata.length := List.length_pos_iff.2 hD.ne
  have hres : ∀ k, k < D.edata.length → (result s).getD k ⟨0, []⟩ = (fk s k).E := by
    intro k hk
    unfold result
    rw [List.getD_eq_getElem?_getD, List.getElem?_map]
    show _ = (s.facts.getD k noFact).E
    rw [List.getD_eq_getElem?_getD, List.getElem?_eq_getElem (by rw [h.flen]; exact hk)]; rfl
  refine ⟨⟨by unfold result; rw [List.length_map, h.flen], ?_⟩, ?_⟩
  · intro k hk
    rw [hres k hk]
    have ok := h.ok k hk
    have ne := hst k hk
    generalize st k = x at ok ne
    cases x
    · exact absurd rfl ne
    · have := ok.2.2.2
      split
      · rw [if_pos (by assumption)] at this; exact ⟨this.1, this.2.1⟩
      · rw [if_neg (by assumption)] at this; exact ⟨this.1, this.2.1⟩
    · have := ok.2.2.2
      split
      · rw [if_pos (by assumption)] at this; exact ⟨this.1, this.2.1⟩
      · rw [if_neg (by assumption)] at this; exact ⟨this.1, this.2.1⟩
    · exact ok.2
  · obtain ⟨N, hu, hN⟩ := h.iso
    have s1 : ∃ N : (k : Nat) → Matrix (Fin (d k)) (Fin (d k)) F, (∀ k, k ≤ D.edata.length → IsUnit (N k)) ∧
        ∀ k, k < D.edata.length → Rel (left D k) (edge D k) (fk s k).E (N k) 1 (N (k + 1)) (eβ (st k) (left D k) (fk s k) (d (k + 1))) := by
      obtain ⟨W, w1, w2⟩ := (hN 0 hm).absorbL (sOK_unit (h.ok 0 hm)).1
      refine ⟨Function.update N 0 (N 0 * W), ?_, ?_⟩
      · intro k hk
        by_cases hk0 : k = 0
        · subst hk0; rw [Function.update_self]; exact (hu 0 hk).mul w1
        · rw [Function.update_of_ne hk0]; exact hu k hk
      · intro k hk
        rw [Function.update_of_ne (by omega : k + 1 ≠ 0)]
        by_cases hk0 : k = 0
        · subst hk0; rw [Function.update_self, ← eE_ne (hst 0 hk) (fk s 0) (mt s 0)]; exact w2
        · rw [Function.update_of_ne hk0]
          have := hN k hk
          rw [hα k (by omega) hk, eE_ne (hst k hk)] at this; exact this
    obtain ⟨N, hu, hN⟩ := s1
    obtain ⟨m, hm'⟩ : ∃ m, D.edata.length = m + 1 := ⟨D.edata.length - 1, by omega⟩
    have s2 : ∃ N : (k : Nat) → Matrix (Fin (d k)) (Fin (d k)) F, (∀ k, k ≤ D.edata.length → IsUnit (N k)) ∧
        ∀ k, k < D.edata.length → Rel (left D k) (edge D k) (fk s k).E (N k) 1 (N (k + 1)) 1 := by
      obtain ⟨W, w1, w2⟩ := (hN m (by omega)).absorbR (sOK_unit (h.ok m (by omega))).2
      refine ⟨Function.update N (m + 1) (N (m + 1) * W), ?_, ?_⟩
      · intro k hk
        by_cases hk0 : k = m + 1
        · subst hk0; rw [Function.update_self]; exact (hu _ hk).mul w1
        · rw [Function.update_of_ne hk0]; exact hu k hk
      · intro k hk
        rw [Function.update_of_ne (by omega : k ≠ m + 1)]
        by_cases hk0 : k = m
        · subst hk0; rw [Function.update_self]; exact w2
        · rw [Function.update_of_ne (by omega : k + 1 ≠ m + 1)]
          have := hN k hk
          rw [hβ k (by omega)] at this; exact this
    obtain ⟨N, hu, hN⟩ := s2
    refine ⟨N, hu, fun k hk => ?_⟩
    have := hN k hk
    unfold Rel at this
    rw [hres k hk]
    simp only [Matrix.one_mul, Matrix.mul_one] at this
    exact this

/-- the state in which the barcode functions start -/
theorem start_inv {D : Dgm F} {d : Nat → Nat} (hD : IsZigzag D d) : SInv D d (start D) (fun _ => .raw) := by
  refine ⟨by unfold start; simp, rfl, fun k hk => ?_, fun k => 1, fun _ _ => isUnit_one, fun k hk => ?_⟩
  · exact hD.shape k hk
  · unfold Rel
    show if left D k then (edge D k).mat _ _ * 1 = 1 * (1 * (edge D k).mat _ _ * 1) else (edge D k).mat _ _ * 1 = 1 * (1 * (edge D k).mat _ _ * 1)
    simp

/-- quiver/sparse.hpp:142-163 -/
theorem formLeftright_spec {D : Dgm F} {d : Nat → Nat} (hD : IsZigzag D d) :
    ∃ mats, formLeftright D = .ok mats ∧ FormOK D d mats ∧ ∃ N, IsIso D d mats N := by
  have hm : 0 < D.edata.length := List.length_pos_iff.2 hD.ne
  obtain ⟨s, st, r1, r2, _, r4, r5, _⟩ := lrSweep1_spec hD (start_inv hD) (j := 0) (n := D.edata.length - 1) (by omega) (fun _ _ _ => rfl)
  obtain ⟨s', q1, q2, q3, q4⟩ := lrSweep2_spec hD 0 (D.edata.length - 1) s st r2 (by omega) (fun k h1 h2 => ⟨r4 k h1 (by omega), r5 k h1 h2⟩)
    (fun _ => Or.inl (r4 _ (by omega) (by omega)))
  have hres : result s = result s' := by
    unfold result
    apply List.ext_getElem?
    intro k
    rw [List.getElem?_map, List.getElem?_map]
    by_cases hk : k < D.edata.length
    · have := q3.E k
      unfold fk at this
      rw [List.getD_eq_getElem?_getD, List.getD_eq_getElem?_getD, List.getElem?_eq_getElem (by rw [q2.flen]; exact hk),
        List.getElem?_eq_getElem (by rw [r2.flen]; exact hk)] at this
      rw [List.getElem?_eq_getElem (by rw [r2.flen]; exact hk), List.getElem?_eq_getElem (by rw [q2.flen]; exact hk)]
      exact congrArg some this.symm
    · rw [List.getElem?_eq_none (by rw [r2.flen]; omega), List.getElem?_eq_none (by rw [q2.flen]; omega)]
  refine ⟨result s, by unfold formLeftright; rw [r1]; rfl, ?_⟩
  rw [hres]
  refine q2.finish hD (fun k hk => by rw [r4 k (by omega) (by omega)]; simp) (fun k h1 h2 => q4 k h1 (by omega)) (fun k hk => ?_)
  rw [q3.eβ, r4 k (by omega) (by omega)]; exact r5 k (by omega) (by omega)

/-- quiver/sparse.hpp:279-298 -/
theorem formRightleft_spec {D : Dgm F} {d : Nat → Nat} (hD : IsZigzag D d) :
    ∃ mats, formRightleft D = .ok mats ∧ FormOK D d mats ∧ ∃ N, IsIso D d mats N := by
  have hm : 0 < D.edata.length := List.length_pos_iff.2 hD.ne
  obtain ⟨s, st, r1, r2, _, r4, r5, _⟩ := rlSweep1_spec hD (start_inv hD) (j := 0) (n := D.edata.length - 1) (by omega) (fun _ _ _ => rfl)
  obtain ⟨s', q1, q2, q3, q4⟩ := rlSweep2_spec hD (D.edata.length - 1) 0 s st r2 (by omega) (fun k h1 h2 => ⟨r4 k (by omega) (by omega), r5 k h1 h2⟩)
    (fun _ => Or.inl (r4 _ (by omega) (by omega)))
  refine ⟨result s', by unfold formRightleft; rw [r1, bind_ok, q1]; rfl, ?_⟩
  refine q2.finish hD (fun k hk => by rw [r4 k (by omega) (by omega)]; simp) (fun k h1 h2 => ?_) (fun k hk => q4 k (by omega) (by omega))
  rw [q3.eα, r4 k (by omega) (by omega)]; exact r5 k (by omega) (by omega)

end Quiver
end BATS
