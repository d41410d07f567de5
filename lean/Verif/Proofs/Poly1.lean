import Verif.Model.Poly
import Verif.Proofs.Reduction
import Verif.Spec.Poly
import Mathlib.Algebra.Polynomial.FieldDivision
import Mathlib.Algebra.Polynomial.Eval.Defs
import Mathlib.Algebra.Polynomial.Eval.Degree

set_option linter.unusedSectionVars false
set_option linter.unusedVariables false
set_option linter.unusedSimpArgs false

/-! # Polynomial arithmetic -/

namespace BATS
open Polynomial

variable {F : Type} [Field F] [DecidableEq F]

theorem coeff_toPoly (c : List F) (k : Nat) : (toPoly c).coeff k = c.getD k 0 := by
  unfold toPoly
  rw [Polynomial.finsetSum_coeff]
  simp only [Polynomial.coeff_monomial]
  by_cases h : k < c.length
  · rw [Finset.sum_eq_single k]
    · simp
    · intro b _ hb; simp [hb]
    · intro hk; exact absurd (Finset.mem_range.2 h) hk
  · rw [Finset.sum_eq_zero]
    · rw [List.getD_eq_getElem?_getD, List.getElem?_eq_none (by omega)]; rfl
    · intro b hb
      rw [Finset.mem_range] at hb
      rw [if_neg (by omega)]

theorem toPoly_ext {c c' : List F} (h : ∀ k, c.getD k 0 = c'.getD k 0) : toPoly c = toPoly c' := by
  ext k; rw [coeff_toPoly, coeff_toPoly, h]

theorem toPoly_nil : toPoly ([] : List F) = 0 := by unfold toPoly; simp

theorem toPoly_cons (a : F) (c : List F) : toPoly (a :: c) = C a + X * toPoly c := by
  ext k
  rw [coeff_toPoly, coeff_add]
  cases k with
  | zero => simp
  | succ k => rw [coeff_X_mul, coeff_toPoly]; simp [coeff_C]

/-- `clear_zeros` does not change the polynomial -/
theorem clearZeros_append (c : List F) : ∃ m, c = Poly.clearZeros c ++ List.replicate m 0 := by
  unfold Poly.clearZeros
  refine ⟨(c.reverse.takeWhile (fun a => decide (a = 0))).length, ?_⟩
  have h := List.takeWhile_append_dropWhile (p := fun a : F => decide (a = 0)) (l := c.reverse)
  have h2 : c = (c.reverse.dropWhile (fun a => decide (a = 0))).reverse ++ (c.reverse.takeWhile (fun a => decide (a = 0))).reverse := by
    rw [← List.reverse_append, h, List.reverse_reverse]
  conv_lhs => rw [h2]
  congr 1
  rw [List.eq_replicate_iff]
  refine ⟨by simp, ?_⟩
  intro b hb
  rw [List.mem_reverse] at hb
  have := List.all_eq_true.1 (List.all_takeWhile (p := fun a : F => decide (a = 0)) (l := c.reverse)) b hb
  simpa using this

theorem trimmed_clearZeros (c : List F) : Trimmed (Poly.clearZeros c) := by
  intro a h
  unfold Poly.clearZeros at h
  rw [List.getLast?_reverse] at h
  have := List.head?_dropWhile_not (fun a : F => decide (a = 0)) c.reverse
  rw [h] at this
  simpa using this

theorem getD_append_replicate (c : List F) (m k : Nat) : (c ++ List.replicate m 0).getD k 0 = c.getD k 0 := by
  rw [List.getD_eq_getElem?_getD, List.getD_eq_getElem?_getD]
  by_cases h : k < c.length
  · rw [List.getElem?_append_left h]
  · rw [List.getElem?_append_right (by omega), List.getElem?_eq_none (l := c) (by omega), List.getElem?_replicate]
    split <;> rfl

theorem toPoly_clearZeros (c : List F) : toPoly (Poly.clearZeros c) = toPoly c := by
  obtain ⟨m, h⟩ := clearZeros_append c
  apply toPoly_ext
  intro k
  conv_rhs => rw [h]
  rw [getD_append_replicate]

theorem trimmed_nil : Trimmed ([] : List F) := by intro a h; cases h

theorem trimmed_back {c : List F} (h : Trimmed c) (hc : c ≠ []) : c.getD (c.length - 1) 0 ≠ 0 := by
  apply h
  rw [List.getD_eq_getElem?_getD, List.getLast?_eq_getElem?]
  have : c.length - 1 < c.length := by have := List.length_pos_of_ne_nil hc; omega
  rw [List.getElem?_eq_getElem this]; rfl

theorem degree_toPoly {c : List F} (h : Trimmed c) (hc : c ≠ []) : (toPoly c).degree = ((c.length - 1 : Nat) : WithBot Nat) := by
  apply Polynomial.degree_eq_of_le_of_coeff_ne_zero
  · rw [Polynomial.degree_le_iff_coeff_zero]
    intro m hm
    rw [coeff_toPoly, List.getD_eq_getElem?_getD, List.getElem?_eq_none]
    · rfl
    · have : c.length - 1 < m := by exact_mod_cast hm
      omega
  · rw [coeff_toPoly]; exact trimmed_back h hc

theorem toPoly_eq_zero {c : List F} (h : Trimmed c) : toPoly c = 0 ↔ c = [] := by
  constructor
  · intro h0
    by_contra hc
    have := degree_toPoly h hc
    rw [h0, degree_zero] at this
    exact absurd this (by simp)
  · rintro rfl; exact toPoly_nil

theorem toPoly_inj {c c' : List F} (h : Trimmed c) (h' : Trimmed c') (e : toPoly c = toPoly c') : c = c' := by
  have hl : c.length = c'.length := by
    by_cases hc : c = []
    · subst hc
      rw [toPoly_nil] at e
      rw [(toPoly_eq_zero h').1 e.symm]
    · by_cases hc' : c' = []
      · subst hc'
        rw [toPoly_nil] at e
        exact absurd ((toPoly_eq_zero h).1 e) hc
      · have d1 := degree_toPoly h hc
        rw [e, degree_toPoly h' hc'] at d1
        have := List.length_pos_of_ne_nil hc
        have := List.length_pos_of_ne_nil hc'
        have : c'.length - 1 = c.length - 1 := by exact_mod_cast d1
        omega
  apply List.ext_getElem hl
  intro k h1 h2
  have := congrArg (fun p => p.coeff k) e
  beta_reduce at this
  rw [coeff_toPoly, coeff_toPoly, List.getD_eq_getElem?_getD, List.getD_eq_getElem?_getD, List.getElem?_eq_getElem h1, List.getElem?_eq_getElem h2] at this
  exact this

theorem length_lt_iff {c d : List F} (h : Trimmed c) (h' : Trimmed d) (hd : d ≠ []) : c.length < d.length ↔ (toPoly c).degree < (toPoly d).degree := by
  rw [degree_toPoly h' hd]
  have := List.length_pos_of_ne_nil hd
  by_cases hc : c = []
  · subst hc
    rw [toPoly_nil, degree_zero]
    constructor
    · intro _; exact WithBot.bot_lt_coe _
    · intro _; exact this
  · rw [degree_toPoly h hc]
    have := List.length_pos_of_ne_nil hc
    constructor
    · intro h; exact_mod_cast (by omega : c.length - 1 < d.length - 1)
    · intro h; have : c.length - 1 < d.length - 1 := by exact_mod_cast h
      omega

theorem const_spec (a : F) : Trimmed (Poly.const a) ∧ toPoly (Poly.const a) = C a := by
  unfold Poly.const
  refine ⟨trimmed_clearZeros _, ?_⟩
  rw [toPoly_clearZeros, toPoly_cons, toPoly_nil]; simp

theorem toPoly_set (c : List F) {k : Nat} (hk : k < c.length) (v : F) : toPoly (c.set k v) = toPoly c + Polynomial.monomial k (v - c.getD k 0) := by
  ext m
  rw [coeff_toPoly, coeff_add, coeff_toPoly, coeff_monomial]
  by_cases h : k = m
  · subst h
    rw [if_pos rfl, List.getD_eq_getElem?_getD, List.getElem?_set_self hk]
    simp
  · rw [if_neg h, add_zero, List.getD_eq_getElem?_getD, List.getElem?_set_ne h, List.getD_eq_getElem?_getD]

theorem toPoly_replicate (n : Nat) : toPoly (List.replicate n (0 : F)) = 0 := by
  ext m
  rw [coeff_toPoly, coeff_zero, List.getD_eq_getElem?_getD, List.getElem?_replicate]
  split <;> rfl

theorem getD_replicate (n k : Nat) : (List.replicate n (0 : F)).getD k 0 = 0 := by
  rw [List.getD_eq_getElem?_getD, List.getElem?_replicate]
  split <;> rfl

theorem monomial_spec (d : Nat) (s : F) : Trimmed (Poly.monomial d s) ∧ toPoly (Poly.monomial d s) = Polynomial.monomial d s := by
  unfold Poly.monomial
  refine ⟨trimmed_clearZeros _, ?_⟩
  rw [toPoly_clearZeros, toPoly_set _ (by simp), toPoly_replicate, getD_replicate]; simp

theorem evalLoop_spec (v : F) (c : List F) : ∀ s w, Poly.evalLoop v c s w = s + w * v * (toPoly c).eval v := by
  induction c with
  | nil => intro s w; rw [toPoly_nil]; simp [Poly.evalLoop]
  | cons a c ih => intro s w; rw [Poly.evalLoop, ih, toPoly_cons]; simp; ring

theorem eval_spec (c : List F) (v : F) : Poly.eval c v = (toPoly c).eval v := by
  cases c with
  | nil => rw [toPoly_nil]; simp [Poly.eval]
  | cons a c => rw [Poly.eval, evalLoop_spec, toPoly_cons]; simp

theorem toPoly_map_neg (c : List F) : toPoly (c.map (fun a => -a)) = - toPoly c := by
  induction c with
  | nil => rw [List.map_nil, toPoly_nil, neg_zero]
  | cons a c ih => rw [List.map_cons, toPoly_cons, ih, toPoly_cons, C_neg]; ring

theorem neg_spec (c : List F) : Trimmed (Poly.neg c) ∧ toPoly (Poly.neg c) = - toPoly c :=
  ⟨trimmed_clearZeros _, by unfold Poly.neg; rw [toPoly_clearZeros, toPoly_map_neg]⟩

theorem addLoop_spec (x y : List F) : toPoly (Poly.addLoop x y) = toPoly x + toPoly y := by
  fun_induction Poly.addLoop x y with
  | case1 y => rw [toPoly_nil, zero_add]
  | case2 a x => rw [toPoly_nil, add_zero]
  | case3 a x b y ih => rw [toPoly_cons, toPoly_cons, toPoly_cons, ih, C_add]; ring

theorem add_spec' (x y : List F) : Trimmed (Poly.add x y) ∧ toPoly (Poly.add x y) = toPoly x + toPoly y :=
  ⟨trimmed_clearZeros _, by unfold Poly.add; rw [toPoly_clearZeros, addLoop_spec]⟩

theorem subLoop_spec (x y : List F) : toPoly (Poly.subLoop x y) = toPoly x - toPoly y := by
  fun_induction Poly.subLoop x y with
  | case1 y => rw [toPoly_nil, zero_sub, toPoly_map_neg]
  | case2 a x => rw [toPoly_nil, sub_zero]
  | case3 a x b y ih => rw [toPoly_cons, toPoly_cons, toPoly_cons, ih, C_sub]; ring

theorem sub_spec' (x y : List F) : Trimmed (Poly.sub x y) ∧ toPoly (Poly.sub x y) = toPoly x - toPoly y :=
  ⟨trimmed_clearZeros _, by unfold Poly.sub; rw [toPoly_clearZeros, subLoop_spec]⟩

theorem mulInner_spec (a : F) (y : List F) : ∀ k acc, k + y.length ≤ acc.length →
    ∃ r, Poly.mulInner a y k acc = .ok r ∧ r.length = acc.length ∧ toPoly r = toPoly acc + C a * X ^ k * toPoly y := by
  induction y with
  | nil => intro k acc _; exact ⟨acc, rfl, rfl, by rw [toPoly_nil, mul_zero, add_zero]⟩
  | cons b y ih =>
    intro k acc h
    rw [List.length_cons] at h
    have hk : k < acc.length := by omega
    obtain ⟨r, h1, h2, h3⟩ := ih (k + 1) (acc.set k (acc.getD k 0 + a * b)) (by rw [List.length_set]; omega)
    refine ⟨r, ?_, by rw [h2, List.length_set], ?_⟩
    · rw [Poly.mulInner]
      have e1 : rd acc k = .ok (acc.getD k 0) := by
        unfold rd; rw [List.getD_eq_getElem?_getD, List.getElem?_eq_getElem hk]; rfl
      have e2 : wr acc k (acc.getD k 0 + a * b) = .ok (acc.set k (acc.getD k 0 + a * b)) := by unfold wr; rw [if_pos hk]
      rw [e1]
      show (do let acc ← wr acc k (acc.getD k 0 + a * b); Poly.mulInner a y (k + 1) acc) = _
      rw [e2]
      exact h1
    · rw [h3, toPoly_set _ hk, toPoly_cons, ← C_mul_X_pow_eq_monomial, show acc.getD k 0 + a * b - acc.getD k 0 = a * b by ring, C_mul]
      ring

theorem mulOuter_spec (y : List F) (x : List F) : ∀ i acc, i + x.length + y.length ≤ acc.length + 1 →
    ∃ r, Poly.mulOuter y x i acc = .ok r ∧ r.length = acc.length ∧ toPoly r = toPoly acc + X ^ i * toPoly x * toPoly y := by
  induction x with
  | nil => intro i acc _; exact ⟨acc, rfl, rfl, by rw [toPoly_nil, mul_zero, zero_mul, add_zero]⟩
  | cons a x ih =>
    intro i acc h
    rw [List.length_cons] at h
    obtain ⟨r1, h1, h2, h3⟩ := mulInner_spec a y i acc (by omega)
    obtain ⟨r, g1, g2, g3⟩ := ih (i + 1) r1 (by omega)
    refine ⟨r, ?_, by rw [g2, h2], ?_⟩
    · rw [Poly.mulOuter, h1]; exact g1
    · rw [g3, h3, toPoly_cons]; ring

theorem mul_spec' (x y : List F) : ∃ r, Poly.mul x y = .ok r ∧ Trimmed r ∧ toPoly r = toPoly x * toPoly y := by
  unfold Poly.mul
  split
  · rename_i h
    refine ⟨[], rfl, trimmed_nil, ?_⟩
    rw [Bool.or_eq_true, List.isEmpty_iff, List.isEmpty_iff] at h
    rcases h with rfl | rfl <;> rw [toPoly_nil] <;> simp
  · rename_i h
    rw [Bool.or_eq_true, List.isEmpty_iff, List.isEmpty_iff, not_or] at h
    have := List.length_pos_of_ne_nil h.1
    have := List.length_pos_of_ne_nil h.2
    obtain ⟨r, h1, h2, h3⟩ := mulOuter_spec y x 0 (List.replicate (x.length + y.length - 1) 0) (by rw [List.length_replicate]; omega)
    refine ⟨Poly.clearZeros r, ?_, trimmed_clearZeros r, ?_⟩
    · rw [h1]; rfl
    · rw [toPoly_clearZeros, h3, toPoly_replicate, zero_add, pow_zero, one_mul]

theorem leading_spec {c : List F} (hc : c ≠ []) : Poly.leading c = .ok (c.getD (c.length - 1) 0) := by
  unfold Poly.leading
  rw [List.getLast?_eq_getElem?]
  have : c.length - 1 < c.length := by have := List.length_pos_of_ne_nil hc; omega
  rw [List.getD_eq_getElem?_getD, List.getElem?_eq_getElem this]
  rfl

theorem divremLoop_spec {y : List F} (hy : Trimmed y) (hy0 : y ≠ []) : ∀ fuel q r, Trimmed q → Trimmed r → r.length < fuel →
    ∃ q' r', Poly.divremLoop y fuel q r = .ok (q', r') ∧ Trimmed q' ∧ Trimmed r' ∧ r'.length < y.length ∧
      toPoly q' * toPoly y + toPoly r' = toPoly q * toPoly y + toPoly r := by
  intro fuel
  induction fuel with
  | zero => intro q r _ _ h; omega
  | succ fuel ih =>
    intro q r hq hr hf
    rw [Poly.divremLoop]
    have hyl := List.length_pos_of_ne_nil hy0
    split
    · rename_i h
      exact ⟨q, r, rfl, hq, hr, h, rfl⟩
    · rename_i h
      have hr0 : r ≠ [] := by intro e; subst e; rw [List.length_nil] at h; omega
      rw [leading_spec hr0, leading_spec hy0]
      obtain ⟨m, hm⟩ : ∃ m, m = Poly.monomial ((r.length - 1) - (y.length - 1)) (r.getD (r.length - 1) 0 / y.getD (y.length - 1) 0) := ⟨_, rfl⟩
      obtain ⟨m1, m2⟩ := monomial_spec ((r.length - 1) - (y.length - 1)) (r.getD (r.length - 1) 0 / y.getD (y.length - 1) 0)
      rw [← hm] at m1 m2
      obtain ⟨p, p1, p2, p3⟩ := mul_spec' m y
      have s1 := add_spec' q m
      have s2 := sub_spec' r p
      have hlt : (Poly.subAssign r p).length < r.length := by
        show (Poly.sub r p).length < r.length
        rw [length_lt_iff s2.1 hr hr0]
        rw [s2.2, p3, m2]
        have hyb := trimmed_back hy hy0
        have hrb := trimmed_back hr hr0
        have hmd : (Polynomial.monomial ((r.length - 1) - (y.length - 1)) (r.getD (r.length - 1) 0 / y.getD (y.length - 1) 0) * toPoly y).degree = (toPoly r).degree := by
          rw [degree_mul, degree_monomial _ (div_ne_zero hrb hyb), degree_toPoly hy hy0, degree_toPoly hr hr0, ← Nat.cast_add]
          congr 1
          omega
        apply degree_sub_lt_left hmd.symm
        · intro e; exact hr0 ((toPoly_eq_zero hr).1 e)
        · rw [leadingCoeff_mul, leadingCoeff_monomial]
          have l1 : (toPoly r).leadingCoeff = r.getD (r.length - 1) 0 := by
            unfold Polynomial.leadingCoeff; rw [natDegree_eq_of_degree_eq_some (degree_toPoly hr hr0), coeff_toPoly]
          have l2 : (toPoly y).leadingCoeff = y.getD (y.length - 1) 0 := by
            unfold Polynomial.leadingCoeff; rw [natDegree_eq_of_degree_eq_some (degree_toPoly hy hy0), coeff_toPoly]
          rw [l1, l2, div_mul_cancel₀ _ hyb]
      obtain ⟨q', r', k1, k2, k3, k4, k5⟩ := ih (Poly.addAssign q m) (Poly.subAssign r p) s1.1 s2.1 (by omega)
      refine ⟨q', r', ?_, k2, k3, k4, ?_⟩
      · rw [bind_ok, bind_ok]
        dsimp only
        rw [← hm, p1, bind_ok]
        exact k1
      rw [k5]
      show toPoly (Poly.add q m) * _ + toPoly (Poly.sub r p) = _
      rw [s1.2, s2.2, p3]
      ring

theorem divrem_spec {x y : List F} (hx : Trimmed x) (hy : Trimmed y) (hy0 : y ≠ []) :
    ∃ q r, Poly.divrem x y = .ok (q, r) ∧ Trimmed q ∧ Trimmed r ∧ r.length < y.length ∧ toPoly q * toPoly y + toPoly r = toPoly x ∧
      toPoly q = toPoly x / toPoly y ∧ toPoly r = toPoly x % toPoly y := by
  obtain ⟨c1, c2⟩ := const_spec (0 : F)
  obtain ⟨q, r, h1, h2, h3, h4, h5⟩ := divremLoop_spec hy hy0 (x.length + 2) (Poly.const 0) x c1 hx (by omega)
  rw [c2, C_0, zero_mul, zero_add] at h5
  have hne : toPoly y ≠ 0 := fun e => hy0 ((toPoly_eq_zero hy).1 e)
  have hd : (toPoly r).degree < (toPoly y).degree := (length_lt_iff h3 hy hy0).1 h4
  have := Polynomial.div_modByMonic_unique (f := toPoly x) (g := toPoly y * C (toPoly y).leadingCoeff⁻¹) (C (toPoly y).leadingCoeff * toPoly q) (toPoly r) (monic_mul_leadingCoeff_inv hne) ⟨by
    have e : toPoly y * C (toPoly y).leadingCoeff⁻¹ * (C (toPoly y).leadingCoeff * toPoly q) = toPoly q * toPoly y * C ((toPoly y).leadingCoeff⁻¹ * (toPoly y).leadingCoeff) := by rw [C_mul]; ring
    rw [e, inv_mul_cancel₀ (leadingCoeff_ne_zero.2 hne), C_1, mul_one, add_comm]; exact h5, by
    rw [degree_mul_leadingCoeff_inv _ hne]; exact hd⟩
  refine ⟨q, r, h1, h2, h3, h4, h5, ?_, ?_⟩
  · rw [Polynomial.div_def, this.1, ← mul_assoc, ← C_mul, inv_mul_cancel₀ (leadingCoeff_ne_zero.2 hne), C_1, one_mul]
  · rw [Polynomial.mod_def, this.2]

theorem remainder_spec {x y : List F} (hx : Trimmed x) (hy : Trimmed y) (hy0 : y ≠ []) :
    ∃ r, Poly.remainder x y = .ok r ∧ Trimmed r ∧ r.length < y.length ∧ toPoly r = toPoly x % toPoly y := by
  obtain ⟨q, r, h1, h2, h3, h4, h5, h6, h7⟩ := divrem_spec hx hy hy0
  exact ⟨r, by unfold Poly.remainder; rw [h1]; rfl, h3, h4, h7⟩

theorem div_spec' {x y : List F} (hx : Trimmed x) (hy : Trimmed y) (hy0 : y ≠ []) :
    ∃ q, Poly.div x y = .ok q ∧ Trimmed q ∧ toPoly q = toPoly x / toPoly y := by
  obtain ⟨q, r, h1, h2, h3, h4, h5, h6, h7⟩ := divrem_spec hx hy hy0
  exact ⟨q, by unfold Poly.div; rw [h1]; rfl, h2, h6⟩

theorem gcdLoop_spec : ∀ fuel (a b : List F), Trimmed a → Trimmed b → b.length < fuel →
    ∃ g, Poly.gcdLoop fuel a b = .ok g ∧ Trimmed g ∧ toPoly g = EuclideanDomain.gcd (toPoly b) (toPoly a) := by
  intro fuel
  induction fuel with
  | zero => intro a b _ _ h; omega
  | succ fuel ih =>
    intro a b ha hb hf
    rw [Poly.gcdLoop]
    split
    · rename_i h
      rw [List.isEmpty_iff] at h
      subst h
      exact ⟨a, rfl, ha, by rw [toPoly_nil, EuclideanDomain.gcd_zero_left]⟩
    · rename_i h
      rw [List.isEmpty_iff] at h
      obtain ⟨r, h1, h2, h3, h4⟩ := remainder_spec ha hb h
      obtain ⟨g, g1, g2, g3⟩ := ih b r hb h2 (by omega)
      refine ⟨g, by rw [h1]; exact g1, g2, ?_⟩
      rw [g3, h4, ← EuclideanDomain.gcd_val]

end BATS
