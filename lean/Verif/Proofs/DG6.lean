import Verif.Proofs.DG5

set_option linter.unusedSectionVars false
set_option linter.unusedVariables false
set_option linter.unusedSimpArgs false

/-! # Updating filtered DG vector spaces -/

namespace BATS
namespace DG
open Reduction Matrix

variable {F : Type} [Field F] [DecidableEq F] {T : Type} [LinearOrder T]

/-! ### one level -/

theorem LevelOK.congr {m n : Nat} {M M' R R' : CMat F} {p : P2C} (h : LevelOK m n M R p) (hM : M'.Shape m n) (hR : R'.Shape m n) (e1 : M'.mat m n = M.mat m n)
    (e2 : R'.mat m n = R.mat m n) : LevelOK m n M' R' p := by
  refine ⟨hM, hR, ?_, ?_⟩
  · rw [e2]; exact h.table
  · rw [e1, e2]; exact h.piv

theorem FactorOK.congr {m n : Nat} {M M' R R' U U' : CMat F} (h : FactorOK m n M R U) (hU : U'.Shape n n) (e1 : M'.mat m n = M.mat m n)
    (e2 : R'.mat m n = R.mat m n) (e3 : U'.mat n n = U.mat n n) : FactorOK m n M' R' U' := by
  refine ⟨hU, ?_, ?_⟩
  · rw [e3]; exact h.upper
  · rw [e1, e2, e3]; exact h.eq

/-- permuting rows and columns of the differential, then updating -/
theorem upd_level {m n : Nat} {M M' U U1 R R1 : CMat F} (hf : FactorOK m n M R U) (hM : M'.Shape m n) (hU : U1.Shape n n) (hR : R1.Shape m n)
    (f : Fin m → Fin m) (g : Fin n ≃ Fin n) (e1 : M'.mat m n = (M.mat m n).submatrix f g) (e2 : U1.mat n n = (U.mat n n).submatrix g id)
    (e3 : R1.mat m n = (R.mat m n).submatrix f id) : ∃ r, RedCpx.updateReduction2 U1 R1 = .ok r ∧ LevelUOK m n M' r := by
  refine updateReduction2_spec hM hU hR ?_ ?_
  · intro x y hxy
    apply hf.upper.injective
    funext i
    have := congrFun hxy (g.symm i)
    rw [e2] at this
    simp only [Matrix.mulVec, dotProduct, Matrix.submatrix_apply, id, Equiv.apply_symm_apply] at this
    exact this
  · rw [e1, e2, e3, ← hf.eq, Matrix.submatrix_mul_equiv]

/-! ### the second loop -/

theorem updateFrom_gen (Q : Nat → CMat F → CMat F → P2C → Prop) (L : Nat) : ∀ (todo k : Nat) (U R : List (CMat F)) (p : List P2C), k + todo ≤ L → U.length = L → R.length = L → p.length = L →
    (∀ l, k ≤ l → l < k + todo → ∃ r, RedCpx.updateReduction2 (U.getD l ⟨0, []⟩) (R.getD l ⟨0, []⟩) = .ok r ∧ Q l r.1 r.2.1 r.2.2) →
    ∃ U' R' p', RedCpx.updateFrom todo k U R p = .ok (U', R', p') ∧ U'.length = L ∧ R'.length = L ∧ p'.length = L ∧
      ∀ l, (k ≤ l ∧ l < k + todo → Q l (R'.getD l ⟨0, []⟩) (U'.getD l ⟨0, []⟩) (p'.getD l [])) ∧
        (¬ (k ≤ l ∧ l < k + todo) → U'.getD l ⟨0, []⟩ = U.getD l ⟨0, []⟩ ∧ R'.getD l ⟨0, []⟩ = R.getD l ⟨0, []⟩ ∧ p'.getD l [] = p.getD l [])
  | 0, k, U, R, p, hk, lU, lR, lp, _ => ⟨U, R, p, rfl, lU, lR, lp, fun l => ⟨fun h => absurd h (by omega), fun _ => ⟨rfl, rfl, rfl⟩⟩⟩
  | todo + 1, k, U, R, p, hk, lU, lR, lp, hs => by
    obtain ⟨r, h1, h2⟩ := hs k (by omega) (by omega)
    obtain ⟨U', R', p', a1, a2, a3, a4, a5⟩ := updateFrom_gen Q L todo (k + 1) (U.set k r.2.1) (R.set k r.1) (p.set k r.2.2) (by omega) (by simp [lU]) (by simp [lR]) (by simp [lp])
      (fun l hl hl' => by
        rw [getD_set' _ _ _ _ _ (by omega), getD_set' _ _ _ _ _ (by omega), if_neg (by omega), if_neg (by omega)]
        exact hs l (by omega) (by omega))
    refine ⟨U', R', p', ?_, a2, a3, a4, fun l => ⟨fun hl => ?_, fun hl => ?_⟩⟩
    · unfold RedCpx.updateFrom
      rw [rd_getD ⟨0, []⟩ (by omega), bind_ok, rd_getD ⟨0, []⟩ (by omega), bind_ok, h1, bind_ok,
        wr_lt _ (by omega), bind_ok, wr_lt _ (by omega), bind_ok, wr_lt _ (by omega), bind_ok]
      exact a1
    · by_cases e : l = k
      · subst e
        obtain ⟨b1, b2, b3⟩ := (a5 l).2 (by omega)
        rw [b1, b2, b3, getD_set' _ _ _ _ _ (by omega), getD_set' _ _ _ _ _ (by omega), getD_set' _ _ _ _ _ (by omega), if_pos rfl, if_pos rfl, if_pos rfl]
        exact h2
      · exact (a5 l).1 (by omega)
    · obtain ⟨b1, b2, b3⟩ := (a5 l).2 (by omega)
      rw [b1, b2, b3, getD_set' _ _ _ _ _ (by omega), getD_set' _ _ _ _ _ (by omega), getD_set' _ _ _ _ _ (by omega), if_neg (by omega), if_neg (by omega), if_neg (by omega)]
      exact ⟨rfl, rfl, rfl⟩

/-! ### permuting `U` and `R` -/

/-- dimension of the rows of `U[l]` -/
def uk (co : Bool) (l : Nat) : Nat := if co then l - 1 else l
/-- whether the rows of `U[l]` are permuted -/
def uc (co : Bool) (N l : Nat) : Prop := if co then 1 ≤ l ∧ (l = 1 ∨ l ≠ N) else 1 ≤ l ∧ l < N
/-- dimension of the rows of `R[l]` -/
def rk (co : Bool) (l : Nat) : Nat := if co then l else l - 1
/-- whether the rows of `R[l]` are permuted -/
def rc (co : Bool) (N l : Nat) : Prop := if co then 1 ≤ l ∧ l < N else 1 ≤ l

instance (co : Bool) (N l : Nat) : Decidable (uc co N l) := by unfold uc; cases co <;> infer_instance
instance (co : Bool) (N l : Nat) : Decidable (rc co N l) := by unfold rc; cases co <;> infer_instance

theorem uc_dim {co : Bool} {e N l : Nat} {d : Nat → Nat} (h : uc co N l) : dc co e d l = d (uk co l) := by
  cases co with
  | false => rfl
  | true =>
    simp only [uc, if_true] at h
    obtain ⟨m, rfl⟩ : ∃ m, l = m + 1 := ⟨l - 1, by omega⟩
    rfl

theorem rc_dim {co : Bool} {e N l : Nat} {d : Nat → Nat} (h : rc co N l) : dr co e d l = d (rk co l) := by
  cases co with
  | true => rfl
  | false =>
    simp only [rc, Bool.false_eq_true, if_false] at h
    obtain ⟨m, rfl⟩ : ∃ m, l = m + 1 := ⟨l - 1, by omega⟩
    rfl

theorem permuteMatrices1_spec (co : Bool) {e N : Nat} {d : Nat → Nat} (hN : 1 ≤ N) (hdN : d N = 0) {U R : List (CMat F)} (hU : ShapesBy (N + 1) (dc co e d) (dc co e d) U)
    (hR : DShapes co e N d R) {k : Nat} (hk : k < N) {p : List Nat} (hp : IsPermOf (d k) p) :
    ∃ U' R', RedDG.permuteMatrices (deg co) U R k p = .ok (U', R') ∧ ShapesBy (N + 1) (dc co e d) (dc co e d) U' ∧ DShapes co e N d R' ∧
      (∀ l i j, l < N + 1 → i < dc co e d l → j < dc co e d l → ent U' l i j = ent U l (if uc co N l ∧ uk co l = k then p.getD i 0 else i) j) ∧
      (∀ l i j, l < N + 1 → i < dr co e d l → j < dc co e d l → ent R' l i j = ent R l (if rc co N l ∧ rk co l = k then p.getD i 0 else i) j) := by
  obtain ⟨q, q1, q2, q3⟩ := Perm.invPerm_spec hp
  have hlen : R.length - 2 = N - 1 := by rw [hR.len]; omega
  unfold RedDG.permuteMatrices
  rw [q1, bind_ok, hlen]
  cases co with
  | false =>
    rw [if_pos (show deg false = -1 from rfl)]
    simp only [uc, uk, rc, rk, Bool.false_eq_true, if_false]
    have hvac : ∀ {P : Prop} {l j : Nat}, l = N → j < dc false e d l → P := by
      intro P l j hl hj
      subst hl
      have : dc false e d l = d l := rfl
      omega
    by_cases h0 : k = 0
    · subst h0
      rw [if_pos rfl]
      obtain ⟨R', e1, e2, e3⟩ := modifyBy_spec hR (k := 1) (by omega) (permuteRows_inv_reindexes (m := dr false e d 1) (n := dc false e d 1) hp q2 q3)
      refine ⟨U, R', by rw [e1]; rfl, hU, e2, ?_, ?_⟩
      · intro l i j hl hi hj
        rw [if_neg (by omega)]
      · intro l i j hl hi hj
        rw [e3 l i j hl hi hj]
        by_cases h : l = 1
        · rw [if_pos h, if_pos (by omega)]; rfl
        · rw [if_neg h, if_neg (by omega)]
    · rw [if_neg h0]
      obtain ⟨U', e1, e2, e3⟩ := modifyBy_spec hU (k := k) (by omega) (permuteRows_inv_reindexes (m := dc false e d k) (n := dc false e d k) hp q2 q3)
      have hUent : ∀ l i j, l < N + 1 → i < dc false e d l → j < dc false e d l → ent U' l i j = ent U l (if (1 ≤ l ∧ l < N) ∧ l = k then p.getD i 0 else i) j := by
        intro l i j hl hi hj
        rw [e3 l i j hl hi hj]
        by_cases h : l = k
        · rw [if_pos h, if_pos (by omega)]; rfl
        · rw [if_neg h, if_neg (by omega)]
      by_cases h1 : k = N - 1
      · rw [if_pos h1]
        refine ⟨U', R, by rw [e1]; rfl, e2, hR, hUent, ?_⟩
        intro l i j hl hi hj
        by_cases h : l = N
        · exact hvac h hj
        · rw [if_neg (by omega)]
      · rw [if_neg h1, e1, bind_ok]
        obtain ⟨R', f1, f2, f3⟩ := modifyBy_spec hR (k := k + 1) (by omega) (permuteRows_inv_reindexes (m := dr false e d (k + 1)) (n := dc false e d (k + 1)) hp q2 q3)
        refine ⟨U', R', by rw [f1]; rfl, e2, f2, hUent, ?_⟩
        intro l i j hl hi hj
        rw [f3 l i j hl hi hj]
        by_cases h : l = k + 1
        · rw [if_pos h, if_pos (by omega)]; rfl
        · rw [if_neg h, if_neg (by omega)]
  | true =>
    rw [if_neg (show ¬ deg true = -1 by decide)]
    simp only [uc, uk, rc, rk, if_true]
    by_cases h0 : k = 0
    · subst h0
      rw [if_pos rfl]
      obtain ⟨U', e1, e2, e3⟩ := modifyBy_spec hU (k := 1) (by omega) (permuteRows_inv_reindexes (m := dc true e d 1) (n := dc true e d 1) hp q2 q3)
      refine ⟨U', R, by rw [e1]; rfl, e2, hR, ?_, ?_⟩
      · intro l i j hl hi hj
        rw [e3 l i j hl hi hj]
        by_cases h : l = 1
        · rw [if_pos h, if_pos (by omega)]; rfl
        · rw [if_neg h, if_neg (by omega)]
      · intro l i j hl hi hj
        rw [if_neg (by omega)]
    · rw [if_neg h0]
      by_cases h1 : k = N - 1
      · rw [if_pos h1]
        obtain ⟨R', f1, f2, f3⟩ := modifyBy_spec hR (k := k) (by omega) (permuteRows_inv_reindexes (m := dr true e d k) (n := dc true e d k) hp q2 q3)
        refine ⟨U, R', by rw [f1]; rfl, hU, f2, ?_, ?_⟩
        · intro l i j hl hi hj
          rw [if_neg (by omega)]
        · intro l i j hl hi hj
          rw [f3 l i j hl hi hj]
          by_cases h : l = k
          · rw [if_pos h, if_pos (by omega)]; rfl
          · rw [if_neg h, if_neg (by omega)]
      · rw [if_neg h1]
        obtain ⟨U', e1, e2, e3⟩ := modifyBy_spec hU (k := k + 1) (by omega) (permuteRows_inv_reindexes (m := dc true e d (k + 1)) (n := dc true e d (k + 1)) hp q2 q3)
        obtain ⟨R', f1, f2, f3⟩ := modifyBy_spec hR (k := k) (by omega) (permuteRows_inv_reindexes (m := dr true e d k) (n := dc true e d k) hp q2 q3)
        refine ⟨U', R', by rw [e1, bind_ok, f1]; rfl, e2, f2, ?_, ?_⟩
        · intro l i j hl hi hj
          rw [e3 l i j hl hi hj]
          by_cases h : l = k + 1
          · rw [if_pos h, if_pos (by omega)]; rfl
          · rw [if_neg h, if_neg (by omega)]
        · intro l i j hl hi hj
          rw [f3 l i j hl hi hj]
          by_cases h : l = k
          · rw [if_pos h, if_pos (by omega)]; rfl
          · rw [if_neg h, if_neg (by omega)]

theorem uk_lt {co : Bool} {N l : Nat} (hN : 1 ≤ N) (hl : l < N + 1) (h : uc co N l) : uk co l < N := by
  cases co with
  | false => simp only [uc, uk, Bool.false_eq_true, if_false] at h ⊢; omega
  | true => simp only [uc, uk, if_true] at h ⊢; omega

theorem rk_lt {co : Bool} {N l : Nat} (hN : 1 ≤ N) (hl : l < N + 1) (h : rc co N l) : rk co l < N := by
  cases co with
  | false => simp only [rc, rk, Bool.false_eq_true, if_false] at h ⊢; omega
  | true => simp only [rc, rk, if_true] at h ⊢; omega

theorem permuteMatricesFrom_dg (co : Bool) {e N : Nat} {d : Nat → Nat} (hN : 1 ≤ N) (hdN : d N = 0) : ∀ (ps : List (List Nat)) (k : Nat) (U R : List (CMat F)), k + ps.length = N →
    ShapesBy (N + 1) (dc co e d) (dc co e d) U → DShapes co e N d R → (∀ a, a < ps.length → IsPermOf (d (k + a)) (ps.getD a [])) →
    ∃ U' R', RedDG.permuteMatricesFrom (deg co) k ps U R = .ok (U', R') ∧ ShapesBy (N + 1) (dc co e d) (dc co e d) U' ∧ DShapes co e N d R' ∧
      (∀ l i j, l < N + 1 → i < dc co e d l → j < dc co e d l →
        ent U' l i j = ent U l (if uc co N l ∧ k ≤ uk co l then (ps.getD (uk co l - k) []).getD i 0 else i) j) ∧
      (∀ l i j, l < N + 1 → i < dr co e d l → j < dc co e d l →
        ent R' l i j = ent R l (if rc co N l ∧ k ≤ rk co l then (ps.getD (rk co l - k) []).getD i 0 else i) j)
  | [], k, U, R, hk, hU, hR, _ => by
    simp only [List.length_nil] at hk
    refine ⟨U, R, rfl, hU, hR, ?_, ?_⟩
    · intro l i j hl hi hj
      rw [if_neg]
      rintro ⟨h1, h2⟩
      have := uk_lt hN hl h1; omega
    · intro l i j hl hi hj
      rw [if_neg]
      rintro ⟨h1, h2⟩
      have := rk_lt hN hl h1; omega
  | p :: ps, k, U, R, hk, hU, hR, hp => by
    simp only [List.length_cons] at hk
    have hp0 : IsPermOf (d k) p := by simpa using hp 0 (by simp)
    have hps : ∀ a, a < ps.length → IsPermOf (d (k + 1 + a)) (ps.getD a []) := by
      intro a ha
      have := hp (a + 1) (by simp only [List.length_cons]; omega)
      rw [show k + (a + 1) = k + 1 + a by omega] at this
      simpa using this
    obtain ⟨U1, R1, a1, a2, a3, a4, a5⟩ := permuteMatrices1_spec co hN hdN hU hR (k := k) (by omega) hp0
    obtain ⟨U2, R2, b1, b2, b3, b4, b5⟩ := permuteMatricesFrom_dg co hN hdN ps (k + 1) U1 R1 (by omega) a2 a3 hps
    have comb : ∀ (P : Prop) [Decidable P] (x i : Nat), (P → x < N) →
        (if P ∧ x = k then p.getD (if P ∧ k + 1 ≤ x then (ps.getD (x - (k + 1)) []).getD i 0 else i) 0 else (if P ∧ k + 1 ≤ x then (ps.getD (x - (k + 1)) []).getD i 0 else i)) =
        if P ∧ k ≤ x then ((p :: ps).getD (x - k) []).getD i 0 else i := by
      intro P _ x i hx
      by_cases hP : P
      · by_cases h : x = k
        · subst h
          rw [if_pos ⟨hP, rfl⟩, if_neg (by omega), if_pos ⟨hP, le_refl _⟩, Nat.sub_self, List.getD_cons_zero]
        · rw [if_neg (by rintro ⟨_, h'⟩; exact h h')]
          by_cases h' : k + 1 ≤ x
          · rw [if_pos ⟨hP, h'⟩, if_pos ⟨hP, by omega⟩, show x - k = x - (k + 1) + 1 by omega, List.getD_cons_succ]
          · rw [if_neg (by omega), if_neg (by omega)]
      · rw [if_neg (fun h => hP h.1), if_neg (fun h => hP h.1), if_neg (fun h => hP h.1)]
    have lt1 : ∀ (P : Prop) [Decidable P] (x i D : Nat), (P → x < N ∧ D = d x) → i < D → (if P ∧ k + 1 ≤ x then (ps.getD (x - (k + 1)) []).getD i 0 else i) < D := by
      intro P _ x i D hx hi
      by_cases h : P ∧ k + 1 ≤ x
      · rw [if_pos h]
        obtain ⟨hx1, hx2⟩ := hx h.1
        have := hps (x - (k + 1)) (by omega)
        rw [show k + 1 + (x - (k + 1)) = x by omega] at this
        rw [hx2] at hi ⊢
        exact sigma_getD _ _ this i hi
      · rw [if_neg h]; exact hi
    refine ⟨U2, R2, by unfold RedDG.permuteMatricesFrom; rw [a1, bind_ok]; exact b1, b2, b3, ?_, ?_⟩
    · intro l i j hl hi hj
      rw [b4 l i j hl hi hj, a4 l _ j hl (lt1 (uc co N l) (uk co l) i _ (fun h => ⟨uk_lt hN hl h, uc_dim h⟩) hi) hj]
      congr 1
      exact comb (uc co N l) (uk co l) i (fun h => uk_lt hN hl h)
    · intro l i j hl hi hj
      rw [b5 l i j hl hi hj, a5 l _ j hl (lt1 (rc co N l) (rk co l) i _ (fun h => ⟨rk_lt hN hl h, rc_dim h⟩) hi) hj]
      congr 1
      exact comb (rc co N l) (rk co l) i (fun h => rk_lt hN hl h)

end DG
end BATS
