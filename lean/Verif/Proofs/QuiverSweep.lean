import Verif.Proofs.QuiverDecomp
import Verif.Proofs.FactLEUP4

set_option linter.unusedSectionVars false
set_option linter.unusedVariables false
set_option linter.unusedSimpArgs false

/-! # The sweeps of quiver/sparse.hpp keep the diagram up to isomorphism -/

namespace BATS
namespace Quiver
open Matrix Reduction CMat BATS.Fact

variable {F : Type} [Field F] [DecidableEq F]

/-- how the current value of an edge is stored -/
inductive Stage where
  /-- in `mats` -/
  | raw
  /-- `L E U P` (left arrow), `P U E L` (right arrow) -/
  | el
  /-- `P L E U` (left arrow), `U E L P` (right arrow) -/
  | eu
  /-- `L E U` (left arrow), `U E L` (right arrow) -/
  | q
  deriving DecidableEq

def eE (st : Stage) (f : SparseFact F) (M : CMat F) : CMat F := match st with | .raw => M | _ => f.E

def eα (st : Stage) (l : Bool) (f : SparseFact F) (a : Nat) : Matrix (Fin a) (Fin a) F :=
  match st with
  | .raw => 1
  | .el => f.L.mat a a
  | .eu => if l then f.P.mat a a * f.L.mat a a else f.L.mat a a * f.P.mat a a
  | .q => f.L.mat a a

def eβ (st : Stage) (l : Bool) (f : SparseFact F) (b : Nat) : Matrix (Fin b) (Fin b) F :=
  match st with
  | .raw => 1
  | .el => if l then f.U.mat b b * f.P.mat b b else f.P.mat b b * f.U.mat b b
  | .eu => f.U.mat b b
  | .q => f.U.mat b b

structure LUOK (f : SparseFact F) (a b : Nat) : Prop where
  L : f.L.Shape a a
  lo : LowerInv (f.L.mat a a)
  U : f.U.Shape b b
  up : UpperInv (f.U.mat b b)

def SOK (st : Stage) (l : Bool) (f : SparseFact F) (M : CMat F) (a b : Nat) : Prop :=
  match st with
  | .raw => if l then M.Shape a b else M.Shape b a
  | .el => LUOK f a b ∧ f.P.Shape b b ∧ IsPermMatrix (f.P.mat b b) ∧
    if l then f.E.Shape a b ∧ ShapeEL (f.E.mat a b) else f.E.Shape b a ∧ ShapeELhat (f.E.mat b a)
  | .eu => LUOK f a b ∧ f.P.Shape a a ∧ IsPermMatrix (f.P.mat a a) ∧
    if l then f.E.Shape a b ∧ ShapeEU (f.E.mat a b) else f.E.Shape b a ∧ ShapeEUhat (f.E.mat b a)
  | .q => LUOK f a b ∧ if l then f.E.Shape a b ∧ Monomial (f.E.mat a b) else f.E.Shape b a ∧ Monomial (f.E.mat b a)

def Rel (l : Bool) {a b : Nat} (A E : CMat F) (N α : Matrix (Fin a) (Fin a) F) (N' β : Matrix (Fin b) (Fin b) F) : Prop :=
  if l then A.mat a b * N' = N * (α * E.mat a b * β) else A.mat b a * N = N' * (β * E.mat b a * α)

abbrev fk (s : QState F) (k : Nat) : SparseFact F := s.facts.getD k noFact
abbrev mt (s : QState F) (k : Nat) : CMat F := s.mats.getD k ⟨0, []⟩

structure SInv (D : Dgm F) (d : Nat → Nat) (s : QState F) (st : Nat → Stage) : Prop where
  flen : s.facts.length = D.edata.length
  mlen : s.mats.length = D.edata.length
  ok : ∀ k, k < D.edata.length → SOK (st k) (left D k) (fk s k) (mt s k) (d k) (d (k + 1))
  iso : ∃ N : (k : Nat) → Matrix (Fin (d k)) (Fin (d k)) F, (∀ k, k ≤ D.edata.length → IsUnit (N k)) ∧
    ∀ k, k < D.edata.length → Rel (left D k) (edge D k) (eE (st k) (fk s k) (mt s k)) (N k) (eα (st k) (left D k) (fk s k) (d k)) (N (k + 1))
      (eβ (st k) (left D k) (fk s k) (d (k + 1)))

/-- the values of an edge in two states: multiplied on the side of the left node by `C` (left arrow) or `C'` (right arrow) -/
def ValL (l : Bool) {a b : Nat} (C C' : Matrix (Fin a) (Fin a) F) (E : CMat F) (α : Matrix (Fin a) (Fin a) F) (β : Matrix (Fin b) (Fin b) F)
    (E' : CMat F) (α' : Matrix (Fin a) (Fin a) F) (β' : Matrix (Fin b) (Fin b) F) : Prop :=
  if l then α' * E'.mat a b * β' = C * (α * E.mat a b * β) else β' * E'.mat b a * α' = β * E.mat b a * α * C'

/-- the same on the side of the right node -/
def ValR (l : Bool) {a b : Nat} (C C' : Matrix (Fin b) (Fin b) F) (E : CMat F) (α : Matrix (Fin a) (Fin a) F) (β : Matrix (Fin b) (Fin b) F)
    (E' : CMat F) (α' : Matrix (Fin a) (Fin a) F) (β' : Matrix (Fin b) (Fin b) F) : Prop :=
  if l then α' * E'.mat a b * β' = α * E.mat a b * β * C else β' * E'.mat b a * α' = C' * (β * E.mat b a * α)

theorem Rel.same {l : Bool} {a b : Nat} {A E E' : CMat F} {N α α' : Matrix (Fin a) (Fin a) F} {N' β β' : Matrix (Fin b) (Fin b) F}
    (h : Rel l A E N α N' β) (hv : ValL l 1 1 E α β E' α' β') : Rel l A E' N α' N' β' := by
  unfold Rel ValL at *
  split at h
  · rw [if_pos (by assumption)] at hv ⊢; rw [h, hv, Matrix.one_mul]
  · rw [if_neg (by assumption)] at hv ⊢; rw [h, hv, Matrix.mul_one]

theorem Rel.valL {l : Bool} {a b : Nat} {A E E' : CMat F} {N α α' C C' : Matrix (Fin a) (Fin a) F} {N' β β' : Matrix (Fin b) (Fin b) F}
    (h : Rel l A E N α N' β) (hc : C' * C = 1) (hv : ValL l C C' E α β E' α' β') : Rel l A E' (N * C') α' N' β' := by
  unfold Rel ValL at *
  split at h
  · rw [if_pos (by assumption)] at hv ⊢; rw [h, hv, Matrix.mul_assoc N C', ← Matrix.mul_assoc C' C, hc, Matrix.one_mul]
  · rw [if_neg (by assumption)] at hv ⊢; rw [hv, ← Matrix.mul_assoc, h, Matrix.mul_assoc, Matrix.mul_assoc, Matrix.mul_assoc]

theorem Rel.valR {l : Bool} {a b : Nat} {A E E' : CMat F} {N α α' : Matrix (Fin a) (Fin a) F} {N' β β' C C' : Matrix (Fin b) (Fin b) F}
    (h : Rel l A E N α N' β) (hc : C * C' = 1) (hv : ValR l C C' E α β E' α' β') : Rel l A E' N α' (N' * C) β' := by
  unfold Rel ValR at *
  split at h
  · rw [if_pos (by assumption)] at hv ⊢; rw [hv, ← Matrix.mul_assoc, h, Matrix.mul_assoc, Matrix.mul_assoc, Matrix.mul_assoc]
  · rw [if_neg (by assumption)] at hv ⊢; rw [h, hv, Matrix.mul_assoc N' C, ← Matrix.mul_assoc C C', hc, Matrix.one_mul]

/-- states which agree outside a set of edges -/
structure Agree (s s' : QState F) (p : Nat → Prop) : Prop where
  flen : s'.facts.length = s.facts.length
  mlen : s'.mats.length = s.mats.length
  f : ∀ j, ¬ p j → fk s' j = fk s j
  m : ∀ j, ¬ p j → mt s' j = mt s j

theorem SInv.refactor {D : Dgm F} {d : Nat → Nat} {s s' : QState F} {st st' : Nat → Stage} (h : SInv D d s st) {k : Nat} (hk : k < D.edata.length)
    (ha : Agree s s' (· = k)) (hst : ∀ j, j ≠ k → st' j = st j) (hok : SOK (st' k) (left D k) (fk s' k) (mt s' k) (d k) (d (k + 1)))
    (hv : ValL (left D k) 1 1 (eE (st k) (fk s k) (mt s k)) (eα (st k) (left D k) (fk s k) (d k)) (eβ (st k) (left D k) (fk s k) (d (k + 1)))
      (eE (st' k) (fk s' k) (mt s' k)) (eα (st' k) (left D k) (fk s' k) (d k)) (eβ (st' k) (left D k) (fk s' k) (d (k + 1)))) : SInv D d s' st' := by
  obtain ⟨N, hu, hN⟩ := h.iso
  refine ⟨by rw [ha.flen]; exact h.flen, by rw [ha.mlen]; exact h.mlen, ?_, N, hu, ?_⟩
  · intro j hj
    by_cases hjk : j = k
    · subst hjk; exact hok
    · rw [ha.f j hjk, ha.m j hjk, hst j hjk]; exact h.ok j hj
  · intro j hj
    by_cases hjk : j = k
    · subst hjk; exact (hN j hj).same hv
    · rw [ha.f j hjk, ha.m j hjk, hst j hjk]; exact hN j hj

/-- change of basis at node `k + 1`: edge `k` gets `C` on the right (left arrow) or `C'` on the left, edge `k + 1` the inverse -/
theorem SInv.move {D : Dgm F} {d : Nat → Nat} {s s' : QState F} {st st' : Nat → Stage} (h : SInv D d s st) {k : Nat} (hk : k + 1 < D.edata.length)
    (ha : Agree s s' (fun j => j = k ∨ j = k + 1)) (hst : ∀ j, ¬ (j = k ∨ j = k + 1) → st' j = st j)
    (hok : SOK (st' k) (left D k) (fk s' k) (mt s' k) (d k) (d (k + 1)))
    (hok1 : SOK (st' (k + 1)) (left D (k + 1)) (fk s' (k + 1)) (mt s' (k + 1)) (d (k + 1)) (d (k + 2)))
    {C C' : Matrix (Fin (d (k + 1))) (Fin (d (k + 1))) F} (hC : C * C' = 1)
    (hv : ValR (left D k) C C' (eE (st k) (fk s k) (mt s k)) (eα (st k) (left D k) (fk s k) (d k)) (eβ (st k) (left D k) (fk s k) (d (k + 1)))
      (eE (st' k) (fk s' k) (mt s' k)) (eα (st' k) (left D k) (fk s' k) (d k)) (eβ (st' k) (left D k) (fk s' k) (d (k + 1))))
    (hv1 : ValL (left D (k + 1)) C' C (eE (st (k + 1)) (fk s (k + 1)) (mt s (k + 1))) (eα (st (k + 1)) (left D (k + 1)) (fk s (k + 1)) (d (k + 1)))
        (eβ (st (k + 1)) (left D (k + 1)) (fk s (k + 1)) (d (k + 2)))
      (eE (st' (k + 1)) (fk s' (k + 1)) (mt s' (k + 1))) (eα (st' (k + 1)) (left D (k + 1)) (fk s' (k + 1)) (d (k + 1)))
        (eβ (st' (k + 1)) (left D (k + 1)) (fk s' (k + 1)) (d (k + 2)))) : SInv D d s' st' := by
  obtain ⟨N, hu, hN⟩ := h.iso
  refine ⟨by rw [ha.flen]; exact h.flen, by rw [ha.mlen]; exact h.mlen, ?_, Function.update N (k + 1) (N (k + 1) * C), ?_, ?_⟩
  · intro j hj
    by_cases hjk : j = k
    · subst hjk; exact hok
    · by_cases hjk1 : j = k + 1
      · subst hjk1; exact hok1
      · have : ¬ (j = k ∨ j = k + 1) := by omega
        rw [ha.f j this, ha.m j this, hst j this]; exact h.ok j hj
  · intro j hj
    by_cases hjk1 : j = k + 1
    · subst hjk1
      rw [Function.update_self]
      exact (hu _ hj).mul (IsUnit.of_mul_eq_one _ hC)
    · rw [Function.update_of_ne hjk1]; exact hu j hj
  · intro j hj
    by_cases hjk : j = k
    · subst hjk
      rw [Function.update_self, Function.update_of_ne (by omega)]
      exact (hN j hj).valR hC hv
    · by_cases hjk1 : j = k + 1
      · subst hjk1
        rw [Function.update_self, Function.update_of_ne (by omega)]
        exact (hN _ hj).valL hC hv1
      · have : ¬ (j = k ∨ j = k + 1) := by omega
        rw [ha.f j this, ha.m j this, hst j this, Function.update_of_ne hjk1, Function.update_of_ne (by omega : j + 1 ≠ k + 1)]; exact hN j hj

end Quiver
end BATS
