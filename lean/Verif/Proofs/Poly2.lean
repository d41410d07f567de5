import Verif.Proofs.Poly1
import Verif.Proofs.Matrix
import Verif.Proofs.SimplicialChain
import Mathlib.LinearAlgebra.Matrix.Charpoly.Minpoly
import Mathlib.LinearAlgebra.Matrix.Charpoly.Coeff
import Mathlib.FieldTheory.Minpoly.Field

set_option linter.unusedSectionVars false
set_option linter.unusedVariables false
set_option linter.unusedSimpArgs false

/-! # Extended Euclidean algorithm; polynomials of matrices -/

namespace BATS

/-! ### extended Euclid -/

/-- the operations implement those of a commutative ring `R`, with a remainder that gets smaller -/
structure PidSpec {α R : Type} [CommRing R] (O : PidOps α) (φ : α → R) (ok : α → Prop) (size : α → Nat) : Prop where
  zero : ok O.zero ∧ φ O.zero = 0
  one : ok O.one ∧ φ O.one = 1
  isZero : ∀ a, ok a → (O.isZero a = true ↔ φ a = 0)
  sub : ∀ a b, ok a → ok b → ok (O.sub a b) ∧ φ (O.sub a b) = φ a - φ b
  mul : ∀ a b, ok a → ok b → ∃ c, O.mul a b = .ok c ∧ ok c ∧ φ c = φ a * φ b
  neg : ∀ a, ok a → ok (O.neg a) ∧ φ (O.neg a) = - φ a
  div : ∀ a b, ok a → ok b → φ b ≠ 0 → ∃ q, O.div a b = .ok q ∧ ok q ∧ ∀ c, ok c → φ c = φ a - φ q * φ b → size c < size b

section
variable {α R : Type} [CommRing R] {O : PidOps α} {φ : α → R} {ok : α → Prop} {size : α → Nat}

theorem PidSpec.loop (S : PidSpec O φ ok size) (A B : R) : ∀ fuel s os t ot r oldr i, ok s → ok os → ok t → ok ot → ok r → ok oldr → size r < fuel →
    φ r = φ s * A + φ t * B → φ oldr = φ os * A + φ ot * B → φ os * φ t - φ s * φ ot = (-1) ^ i →
    ∃ x y g t' s' i', O.loop fuel s os t ot r oldr i = .ok (x, y, g, t', s', i') ∧ ok x ∧ ok y ∧ ok g ∧ ok t' ∧ ok s' ∧
      φ g = φ x * A + φ y * B ∧ φ s' * A + φ t' * B = 0 ∧ φ x * φ t' - φ s' * φ y = (-1) ^ i' := by
  intro fuel
  induction fuel with
  | zero => intro s os t ot r oldr i _ _ _ _ _ _ h; omega
  | succ fuel ih =>
    intro s os t ot r oldr i h1 h2 h3 h4 h5 h6 hf e1 e2 e3
    rw [PidOps.loop]
    split
    · rename_i hz
      have := (S.isZero r h5).1 hz
      exact ⟨os, ot, oldr, t, s, i, rfl, h2, h4, h6, h3, h1, e2, by rw [← e1, this], e3⟩
    · rename_i hz
      have hr : φ r ≠ 0 := fun h => hz ((S.isZero r h5).2 h)
      obtain ⟨q, q1, q2, q3⟩ := S.div oldr r h6 h5 hr
      obtain ⟨qr, a1, a2, a3⟩ := S.mul q r q2 h5
      obtain ⟨qs, b1, b2, b3⟩ := S.mul q s q2 h1
      obtain ⟨qt, c1, c2, c3⟩ := S.mul q t q2 h3
      obtain ⟨u1, u2⟩ := S.sub oldr qr h6 a2
      obtain ⟨v1, v2⟩ := S.sub os qs h2 b2
      obtain ⟨w1, w2⟩ := S.sub ot qt h4 c2
      rw [q1, bind_ok, a1, bind_ok, b1, bind_ok, c1, bind_ok]
      have hlt := q3 _ u1 (by rw [u2, a3])
      apply ih _ _ _ _ _ _ _ v1 h1 w1 h3 u1 h5 (by omega)
      · rw [u2, v2, w2, a3, b3, c3, e1, e2]; ring
      · exact e1
      · rw [v2, w2, b3, c3, pow_succ, ← e3]; ring

theorem PidSpec.euclid (S : PidSpec O φ ok size) {a b : α} (ha : ok a) (hb : ok b) {fuel : Nat} (hf : size b < fuel) :
    ∃ x y g w z, O.extendedEuclidean fuel a b = .ok (x, y, g, w, z) ∧ ok x ∧ ok y ∧ ok g ∧ ok w ∧ ok z ∧
      φ x * φ a + φ y * φ b = φ g ∧ φ g * φ w = φ a ∧ φ g * φ z = φ b ∧ φ x * φ w + φ y * φ z = 1 := by
  obtain ⟨z1, z2⟩ := S.zero
  obtain ⟨o1, o2⟩ := S.one
  obtain ⟨x, y, g, t, s, i, h1, h2, h3, h4, h5, h6, h7, h8, h9⟩ := S.loop (φ a) (φ b) fuel O.zero O.one O.one O.zero b a 0 z1 o1 o1 z1 hb ha hf
    (by rw [z2, o2]; ring) (by rw [z2, o2]; ring) (by rw [z2, o2]; ring)
  unfold PidOps.extendedEuclidean
  rw [h1, bind_ok]
  dsimp only
  obtain ⟨n1, n2⟩ := S.neg t h5
  obtain ⟨m1, m2⟩ := S.neg s h6
  by_cases hi : i % 2 = 1
  · rw [if_pos hi, if_pos hi]
    rw [Odd.neg_one_pow (Nat.odd_iff.2 hi)] at h9
    refine ⟨x, y, g, _, _, rfl, h2, h3, h4, n1, h6, h7.symm, ?_, ?_, ?_⟩
    · rw [n2, h7]
      have : φ x * φ t = φ s * φ y - 1 := by linear_combination h9
      calc (φ x * φ a + φ y * φ b) * -φ t = -(φ x * φ t) * φ a - φ y * (φ t * φ b) := by ring
        _ = -(φ s * φ y - 1) * φ a - φ y * (φ t * φ b) := by rw [this]
        _ = φ a - φ y * (φ s * φ a + φ t * φ b) := by ring
        _ = φ a := by rw [h8]; ring
    · rw [h7]
      have : φ s * φ y = φ x * φ t + 1 := by linear_combination -h9
      calc (φ x * φ a + φ y * φ b) * φ s = φ x * (φ s * φ a) + (φ s * φ y) * φ b := by ring
        _ = φ x * (φ s * φ a) + (φ x * φ t + 1) * φ b := by rw [this]
        _ = φ b + φ x * (φ s * φ a + φ t * φ b) := by ring
        _ = φ b := by rw [h8]; ring
    · rw [n2]; linear_combination -h9
  · rw [if_neg hi, if_neg hi]
    rw [Even.neg_one_pow (Nat.even_iff.2 (by omega))] at h9
    refine ⟨x, y, g, _, _, rfl, h2, h3, h4, h5, m1, h7.symm, ?_, ?_, ?_⟩
    · rw [h7]
      linear_combination φ a * h9 + φ y * h8
    · rw [h7, m2]
      linear_combination φ b * h9 - φ x * h8
    · rw [m2]; linear_combination h9
end

theorem intSpec : PidSpec (R := Int) PidOps.int id (fun _ => True) Int.natAbs where
  zero := ⟨trivial, rfl⟩
  one := ⟨trivial, rfl⟩
  isZero a _ := by simp [PidOps.int]
  sub a b _ _ := ⟨trivial, rfl⟩
  mul a b _ _ := ⟨_, rfl, trivial, rfl⟩
  neg a _ := ⟨trivial, rfl⟩
  div a b _ _ hb := by
    refine ⟨a.tdiv b, ?_, trivial, ?_⟩
    · show (if b = 0 then _ else _) = _
      rw [if_neg (show ¬ b = 0 from hb)]
    · intro c _ hc
      have hb' : b ≠ 0 := hb
      have h1 := Int.mul_tdiv_add_tmod a b
      have hc' : c = a - a.tdiv b * b := hc
      have : c = a.tmod b := by rw [hc']; linear_combination -h1
      rw [this, Int.natAbs_tmod]
      exact Nat.mod_lt _ (Int.natAbs_pos.2 hb')

open Polynomial

variable {F : Type} [Field F] [DecidableEq F]

theorem polySpec : PidSpec (R := F[X]) (PidOps.poly (F := F)) toPoly Trimmed List.length where
  zero := ⟨(const_spec 0).1, by show toPoly (Poly.const 0) = 0; rw [(const_spec (0 : F)).2, C_0]⟩
  one := ⟨(const_spec 1).1, by show toPoly (Poly.const 1) = 1; rw [(const_spec (1 : F)).2, C_1]⟩
  isZero a ha := by
    show a.isEmpty = true ↔ _
    rw [List.isEmpty_iff, toPoly_eq_zero ha]
  sub a b _ _ := sub_spec' a b
  mul a b _ _ := mul_spec' a b
  neg a _ := neg_spec a
  div a b ha hb h0 := by
    have hb0 : b ≠ [] := fun e => h0 ((toPoly_eq_zero hb).2 e)
    obtain ⟨q, r, h1, h2, h3, h4, h5, h6, h7⟩ := divrem_spec ha hb hb0
    refine ⟨q, by show Poly.div a b = _; unfold Poly.div; rw [h1]; rfl, h2, ?_⟩
    intro c hc e
    have : c = r := toPoly_inj hc h3 (by rw [e]; linear_combination -h5)
    rw [this]; exact h4

/-! ### polynomials applied to matrices -/

open Matrix

theorem applyLoop_spec {n : Nat} {A : CMat F} (hA : A.Shape n n) (c : List F) : ∀ (s w : SVec F), VecOK s → Below n s → Below n w →
    ∃ r, Poly.applyLoop A c s w = .ok r ∧ VecOK r ∧ Below n r ∧
      (fun i : Fin n => coef r i) = (fun i : Fin n => coef s i) + (aeval (A.mat n n) (X * toPoly c)) *ᵥ (fun i : Fin n => coef w i) := by
  induction c with
  | nil =>
    intro s w h1 h2 _
    refine ⟨s, rfl, h1, h2, ?_⟩
    rw [toPoly_nil, mul_zero, map_zero, zero_mulVec, add_zero]
  | cons a c ih =>
    intro s w h1 h2 h3
    obtain ⟨w', g1, g2, g3, g4⟩ := gemv_spec hA h3
    obtain ⟨r, k1, k2, k3, k4⟩ := ih (SVec.axpy a w' s) w' (vecOK_axpy a g2 h1) (below_axpy a g3 h2) g3
    refine ⟨r, ?_, k2, k3, ?_⟩
    · rw [Poly.applyLoop, g1]; exact k1
    · rw [k4, g4]
      have e1 : (fun i : Fin n => coef (SVec.axpy a w' s) i) = (fun i : Fin n => coef s i) + a • (A.mat n n *ᵥ (fun i : Fin n => coef w i)) := by
        rw [← g4]; funext i; rw [coef_axpy]; rfl
      have e2 : X * toPoly (a :: c) = C a * X + X * toPoly c * X := by rw [toPoly_cons]; ring
      obtain ⟨N, hN⟩ : ∃ N, N = A.mat n n := ⟨_, rfl⟩
      rw [← hN] at e1 ⊢
      have e3 : aeval N (C a * X + X * toPoly c * X) = a • N + aeval N (X * toPoly c) * N := by
        rw [map_add, map_mul (aeval N) (C a) X, map_mul (aeval N) (X * toPoly c) X, aeval_X, aeval_C, ← Algebra.smul_def]
      rw [e1, e2, e3, add_mulVec, smul_mulVec, ← mulVec_mulVec, add_assoc]

theorem apply_spec {n : Nat} {A : CMat F} (hA : A.Shape n n) (c : List F) {v : SVec F} (hv : VecOK v) (hb : Below n v) :
    ∃ r, Poly.apply c A v = .ok r ∧ VecOK r ∧ Below n r ∧
      (fun i : Fin n => coef r i) = (aeval (A.mat n n) (toPoly c)) *ᵥ (fun i : Fin n => coef v i) := by
  cases c with
  | nil =>
    refine ⟨[], rfl, vecOK_nil, below_nil n, ?_⟩
    rw [toPoly_nil, map_zero, zero_mulVec]
    rfl
  | cons a c =>
    obtain ⟨r, k1, k2, k3, k4⟩ := applyLoop_spec hA c (SVec.axpy a v []) v (vecOK_axpy a hv vecOK_nil) (below_axpy a hb (below_nil n)) hb
    refine ⟨r, k1, k2, k3, ?_⟩
    have e1 : (fun i : Fin n => coef (SVec.axpy a v []) i) = a • (fun i : Fin n => coef v i) := by
      funext i; rw [coef_axpy]; show 0 + _ = _; rw [zero_add]; rfl
    rw [k4, e1, toPoly_cons, map_add, aeval_C, add_mulVec, Algebra.algebraMap_eq_smul_one, smul_mulVec, one_mulVec]

/-! ### companion matrices -/

/-- entries of the companion matrix -/
theorem companion_spec {c : List F} (hc : 1 < c.length) (h1 : c.getD (c.length - 1) 0 = 1) :
    ∃ M, Poly.companion c = .ok M ∧ M.nrow = c.length - 1 ∧ M.cols.length = c.length - 1 ∧ (∀ v ∈ M.cols, Sorted v ∧ Below (c.length - 1) v) ∧
      ∀ i j, i < c.length - 1 → j < c.length - 1 → coef (M.cols.getD j []) i = if j + 1 < c.length - 1 then (if i = j + 1 then 1 else 0) else - c.getD i 0 := by
  have hne : c ≠ [] := by intro e; subst e; simp at hc
  refine ⟨⟨c.length - 1, (List.range (c.length - 1 - 1)).map (fun j => [(j + 1, (1 : F))]) ++ [(List.range (c.length - 1)).map (fun i => (i, -(c.getD i 0)))]⟩, ?_, rfl, ?_, ?_, ?_⟩
  · unfold Poly.companion
    rw [leading_spec hne, bind_ok, h1, if_neg (by simp), if_neg (by omega)]
  · simp only [List.length_append, List.length_map, List.length_range, List.length_cons, List.length_nil]; omega
  · intro v hv
    rw [List.mem_append] at hv
    rcases hv with hv | hv
    · obtain ⟨j, hj, rfl⟩ := List.mem_map.1 hv
      rw [List.mem_range] at hj
      refine ⟨by unfold Sorted; simp, ?_⟩
      intro p hp
      rw [List.mem_singleton] at hp
      subst hp
      show j + 1 < _
      omega
    · rw [List.mem_singleton] at hv
      subst hv
      refine ⟨?_, ?_⟩
      · unfold Sorted
        rw [List.pairwise_map]
        exact List.pairwise_lt_range
      · intro p hp
        obtain ⟨i, hi, rfl⟩ := List.mem_map.1 hp
        exact List.mem_range.1 hi
  · intro i j hi hj
    dsimp only
    rw [List.getD_eq_getElem?_getD]
    by_cases h : j + 1 < c.length - 1
    · rw [if_pos h, List.getElem?_append_left (by simp; omega), List.getElem?_map, List.getElem?_range (by omega)]
      show (if j + 1 = i then (1 : F) else 0) + 0 = _
      rw [add_zero]
      simp only [eq_comm]
    · rw [if_neg h, List.getElem?_append_right (by simp; omega)]
      simp only [List.length_map, List.length_range]
      rw [show j - (c.length - 1 - 1) = 0 by omega]
      show coef ((List.range (c.length - 1)).map (fun i => (i, -(c.getD i 0)))) i = _
      rw [coef_map_range _ (fun i => i) (fun i => -(c.getD i 0)) i, Finset.sum_ite_eq' (Finset.range (c.length - 1)) i, if_pos (Finset.mem_range.2 hi)]

end BATS
