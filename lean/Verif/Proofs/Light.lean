import Verif.Model.Light
import Verif.Proofs.SimplicialRec
import Mathlib.Data.Nat.Digits.Defs
import Mathlib.Tactic.IntervalCases
import Mathlib.Algebra.Ring.Parity

set_option linter.unusedSectionVars false
set_option linter.unusedVariables false
set_option linter.unusedSimpArgs false

/-! # Keys and faces of the light simplicial complex -/

namespace BATS
namespace Light
open Reduction

/-- a base-`n` number with digits below `n` -/
theorem ofDigits_lt {n : Nat} : ∀ {s : List Nat}, (∀ x ∈ s, x < n) → Nat.ofDigits n s < n ^ s.length
  | [], _ => by simp [Nat.ofDigits]
  | x :: s, h => by
    have hx := h x (by simp)
    have hs := ofDigits_lt (s := s) (fun y hy => h y (by simp [hy]))
    rw [Nat.ofDigits_cons, List.length_cons, pow_succ]
    have h1 : Nat.ofDigits n s + 1 ≤ n ^ s.length := hs
    have h2 := Nat.mul_le_mul_left n h1
    rw [Nat.mul_add, Nat.mul_one] at h2
    rw [Nat.mul_comm (n ^ s.length)]
    omega

/-- the parameters fit in a machine word, and the offset table holds the powers of `n` -/
structure Fits (L : Light) : Prop where
  one : 1 < L.W
  fits : L.n ^ (L.k + 1) ≤ L.W
  off : ∀ i, i ≤ L.k → L.offset[i]? = some (L.n ^ i)

theorem pow_lt_word {W n k i : Nat} (h1 : 1 < W) (h : n ^ (k + 1) ≤ W) (hi : i ≤ k) : n ^ i < W := by
  rcases Nat.lt_or_ge n 2 with hn | hn
  · interval_cases n
    · rcases i with _ | i <;> simp <;> omega
    · simpa using h1
  · exact lt_of_lt_of_le (Nat.pow_lt_pow_right hn (by omega)) h

theorem offsetLoop_get {W n k : Nat} (h1 : 1 < W) (h : n ^ (k + 1) ≤ W) : ∀ (m j : Nat), j + m = k → ∀ i, i < m →
    (offsetLoop W n m (n ^ j))[i]? = some (n ^ (j + 1 + i)) := by
  intro m
  induction m with
  | zero => intro j _ i hi; omega
  | succ m ih =>
    intro j hj i hi
    unfold offsetLoop
    have e : n * n ^ j % W = n ^ (j + 1) := by
      rw [← pow_succ', Nat.mod_eq_of_lt (pow_lt_word h1 h (by omega))]
    rw [e]
    cases i with
    | zero => rfl
    | succ i =>
      rw [List.getElem?_cons_succ, ih (j + 1) (by omega) i (by omega)]
      congr 2; omega

theorem fits_init {W n k : Nat} (h1 : 1 < W) (h : n ^ (k + 1) ≤ W) : Fits (init W n k) := by
  refine ⟨h1, h, ?_⟩
  intro i hi
  show ((1 % W) :: offsetLoop W n k (1 % W))[i]? = some (n ^ i)
  rw [Nat.mod_eq_of_lt h1]
  cases i with
  | zero => simp
  | succ i =>
    have := offsetLoop_get h1 h k 0 (by omega) i (by simp only [init] at hi; omega)
    rw [pow_zero] at this
    rw [List.getElem?_cons_succ, this]
    congr 2; omega

/-- vertices in range -/
def InRange (L : Light) (s : List Nat) : Prop := (∀ x ∈ s, x < L.n) ∧ s.length ≤ L.k + 1

variable {L : Light}

theorem InRange.eraseIdx {s : List Nat} (h : InRange L s) (i : Nat) : InRange L (s.eraseIdx i) :=
  ⟨fun x hx => h.1 x (List.mem_of_mem_eraseIdx hx), le_trans (List.length_eraseIdx_le _ _) h.2⟩

theorem InRange.sublist {s t : List Nat} (h : InRange L s) (hst : t.Sublist s) : InRange L t :=
  ⟨fun x hx => h.1 x (hst.subset hx), le_trans hst.length_le h.2⟩

theorem digits_lt_word (hL : Fits L) {s : List Nat} (h : InRange L s) : Nat.ofDigits L.n s < L.W := by
  rcases s with _ | ⟨x, s⟩
  · simp [Nat.ofDigits]; have := hL.one; omega
  · have hn : 0 < L.n := by have := h.1 x (by simp); omega
    exact lt_of_lt_of_le (ofDigits_lt h.1) (le_trans (Nat.pow_le_pow_right hn h.2) hL.fits)

theorem keyLoop_spec (hL : Fits L) : ∀ (s : List Nat) (j key : Nat), j + s.length ≤ L.k + 1 → key + L.n ^ j * Nat.ofDigits L.n s < L.W →
    keyLoop L s j key = .ok (key + L.n ^ j * Nat.ofDigits L.n s) := by
  intro s
  induction s with
  | nil => intro j key _ _; simp [keyLoop, Nat.ofDigits]
  | cons x s ih =>
    intro j key hj hk
    simp only [List.length_cons] at hj
    have e : L.n ^ j * Nat.ofDigits L.n (x :: s) = x * L.n ^ j + L.n ^ (j + 1) * Nat.ofDigits L.n s := by
      rw [Nat.ofDigits_cons]; ring
    rw [e] at hk ⊢
    unfold keyLoop
    rw [rd_some (hL.off j (by omega)), bind_ok, Nat.mod_eq_of_lt (a := x * L.n ^ j) (by omega), Nat.mod_eq_of_lt (by omega),
      ih (j + 1) _ (by omega) (by omega), Nat.add_assoc]

theorem simplexKey_spec (hL : Fits L) {s : List Nat} (h : InRange L s) : L.simplexKey s = .ok (Nat.ofDigits L.n s) := by
  have := digits_lt_word hL h
  unfold simplexKey
  rw [keyLoop_spec hL s 0 0 (by have := h.2; omega) (by simpa using this)]
  simp

theorem ofDigits_snoc (n : Nat) (a : List Nat) (v : Nat) : Nat.ofDigits n (a ++ [v]) = Nat.ofDigits n a + v * n ^ a.length := by
  rw [Nat.ofDigits_append]; simp [Nat.ofDigits]; ring

theorem keyToSimplex_spec (hL : Fits L) : ∀ (d : Nat) (s : List Nat), s.length = d + 1 → InRange L s →
    L.keyToSimplex d (Nat.ofDigits L.n s) = .ok s := by
  intro d
  induction d with
  | zero =>
    intro s hl h
    obtain ⟨x, rfl⟩ := List.length_eq_one_iff.1 hl
    simp [keyToSimplex, Nat.ofDigits]
  | succ d ih =>
    intro s hl h
    obtain ⟨a, v, rfl⟩ : ∃ a v, s = a ++ [v] := ⟨s.dropLast, s.getLast (by intro e; rw [e] at hl; simp at hl), (List.dropLast_append_getLast _).symm⟩
    have hla : a.length = d + 1 := by simpa using hl
    have ha : InRange L a := h.sublist (List.sublist_append_left _ _)
    have hn : 0 < L.n := by have := h.1 v (by simp); omega
    have hlt := ofDigits_lt ha.1
    rw [hla] at hlt
    have hpos : 0 < L.n ^ (d + 1) := Nat.pow_pos hn
    have hk : d + 1 ≤ L.k := by have := h.2; simp at this; omega
    rw [ofDigits_snoc, hla]
    unfold keyToSimplex maxVertex
    rw [rd_some (hL.off _ hk), bind_ok, if_neg (by omega)]
    have e : (Nat.ofDigits L.n a + v * L.n ^ (d + 1)) / L.n ^ (d + 1) = v := by
      rw [Nat.add_mul_div_right _ _ hpos, Nat.div_eq_of_lt hlt, Nat.zero_add]
    simp only [e, pure_ok, bind_ok]
    rw [Nat.add_sub_cancel, ih a hla ha]
    rfl

/-- one step of the iterator: `a` are the vertices before the removed one, `b` those after it -/
theorem iterNext_spec (hL : Fits L) (stray : Nat) {a b : List Nat} {v : Nat} (h : InRange L (a ++ v :: b)) :
    ∃ after', L.iterNext stray a.length (Nat.ofDigits L.n (a ++ [v])) (L.n ^ a.length * Nat.ofDigits L.n b) =
        .ok (Nat.ofDigits L.n (a ++ b), Nat.ofDigits L.n a, after') ∧
      (0 < a.length → after' = L.n ^ (a.length - 1) * Nat.ofDigits L.n (v :: b)) := by
  have hn : 0 < L.n := by have := h.1 v (by simp); omega
  have ha : InRange L a := h.sublist (List.sublist_append_left _ _)
  have hab : InRange L (a ++ b) := h.sublist ((List.Sublist.refl a).append (List.sublist_cons_self v b))
  have hvb : InRange L (v :: b) := h.sublist (List.sublist_append_right _ _)
  have hlt := ofDigits_lt ha.1
  have hpos : 0 < L.n ^ a.length := Nat.pow_pos hn
  have hk : a.length ≤ L.k := by have := h.2; simp at this; omega
  have e1 : (Nat.ofDigits L.n a + v * L.n ^ a.length) / L.n ^ a.length = v := by
    rw [Nat.add_mul_div_right _ _ hpos, Nat.div_eq_of_lt hlt, Nat.zero_add]
  have e2 : (Nat.ofDigits L.n a + v * L.n ^ a.length) % L.n ^ a.length = Nat.ofDigits L.n a := by
    rw [Nat.add_mul_mod_self_right, Nat.mod_eq_of_lt hlt]
  have e3 : (Nat.ofDigits L.n a + L.n ^ a.length * Nat.ofDigits L.n b) % L.W = Nat.ofDigits L.n (a ++ b) := by
    rw [← Nat.ofDigits_append, Nat.mod_eq_of_lt (digits_lt_word hL hab)]
  unfold iterNext
  rw [rd_some (hL.off _ hk), bind_ok, if_neg (by omega), ofDigits_snoc]
  simp only [e1, e2, e3]
  by_cases h0 : a.length = 0
  · rw [if_pos h0]
    exact ⟨_, rfl, fun h => by omega⟩
  · rw [if_neg h0, rd_some (hL.off _ (by omega)), bind_ok]
    refine ⟨_, rfl, fun _ => ?_⟩
    have e4 : L.n ^ (a.length - 1) * Nat.ofDigits L.n (v :: b) = L.n ^ a.length * Nat.ofDigits L.n b + v * L.n ^ (a.length - 1) := by
      rw [Nat.ofDigits_cons]
      have : L.n ^ a.length = L.n * L.n ^ (a.length - 1) := by rw [← pow_succ']; congr 1; omega
      rw [this]; ring
    have e5 : L.n ^ (a.length - 1) * Nat.ofDigits L.n (v :: b) < L.W := by
      have h1 := ofDigits_lt hvb.1
      have h2 := Nat.mul_lt_mul_of_pos_left h1 (Nat.pow_pos (n := a.length - 1) hn)
      rw [← pow_add] at h2
      refine lt_of_lt_of_le h2 (le_trans (Nat.pow_le_pow_right hn ?_) hL.fits)
      have := h.2
      simp at this ⊢; omega
    rw [e4] at e5 ⊢
    rw [Nat.mod_eq_of_lt (a := v * L.n ^ (a.length - 1)) (by omega), Nat.mod_eq_of_lt e5]

theorem snoc_decomp {a : List Nat} {n : Nat} (h : a.length = n + 1) : ∃ a' v, a = a' ++ [v] ∧ a'.length = n := by
  refine ⟨a.dropLast, a.getLast (by intro e; rw [e] at h; simp at h), (List.dropLast_append_getLast _).symm, by simp [h]⟩

theorem eraseIdx_mid (a b : List Nat) (v : Nat) : (a ++ v :: b).eraseIdx a.length = a ++ b := by
  rw [List.eraseIdx_append_of_length_le (le_refl _)]; simp

theorem iterLoop_spec (hL : Fits L) (stray : Nat) : ∀ (m : Nat) (a b : List Nat) (c : Int) (after : Nat), a.length = m → InRange L (a ++ b) →
    (0 < m → after = L.n ^ (m - 1) * Nat.ofDigits L.n b) →
    L.iterLoop stray m c (Nat.ofDigits L.n a) after =
      .ok ((List.range m).reverse.map (fun i => (Nat.ofDigits L.n ((a ++ b).eraseIdx i), c * (-1) ^ (m - 1 - i)))) := by
  intro m
  induction m with
  | zero => intro a b c after _ _ _; rfl
  | succ m ih =>
    intro a b c after hl h haft
    obtain ⟨a', v, rfl, hl'⟩ := snoc_decomp hl
    have hr : InRange L (a' ++ v :: b) := by simpa using h
    obtain ⟨after', g1, g2⟩ := iterNext_spec hL stray hr
    rw [hl'] at g1 g2
    unfold iterLoop
    rw [haft (by omega), Nat.add_sub_cancel, g1, bind_ok]
    simp only
    rw [ih a' (v :: b) (-c) after' hl' hr (fun h => g2 h), bind_ok, pure_ok, List.range_succ, List.reverse_append, List.map_append]
    congr 1
    simp only [List.reverse_cons, List.reverse_nil, List.nil_append, List.map_cons, List.map_nil, List.append_assoc, List.singleton_append,
      List.cons.injEq, Prod.mk.injEq]
    refine ⟨⟨?_, by simp⟩, ?_⟩
    · rw [← hl', eraseIdx_mid]
    · apply List.map_congr_left
      intro i hi
      rw [List.mem_reverse, List.mem_range] at hi
      rw [show m - i = (m - 1 - i) + 1 by omega, pow_succ]
      simp

theorem startCoeff_eq (d : Nat) : startCoeff d = (-1) ^ d := by
  unfold startCoeff
  rcases Nat.even_or_odd d with h | h
  · rw [if_neg (by rw [Nat.even_iff] at h; omega), h.neg_one_pow]
  · rw [if_pos (by rw [Nat.odd_iff] at h; omega), h.neg_one_pow]

theorem iterFaces_spec (hL : Fits L) (stray : Nat) {d : Nat} {s : List Nat} (hl : s.length = d + 1) (h : InRange L s) :
    L.iterFaces stray d (Nat.ofDigits L.n s) = .ok ((List.range (d + 1)).reverse.map (fun i => (Nat.ofDigits L.n (s.eraseIdx i), (-1) ^ i))) := by
  unfold iterFaces
  rw [iterLoop_spec hL stray (d + 1) s [] _ 0 hl (by simpa using h) (by intro _; simp [Nat.ofDigits]), startCoeff_eq, List.append_nil]
  congr 1
  apply List.map_congr_left
  intro i hi
  rw [List.mem_reverse, List.mem_range] at hi
  rw [Nat.add_sub_cancel, ← pow_add, show d + (d - i) = 2 * (d - i) + i by omega, pow_add, pow_mul]
  simp

theorem ofDigits_inj {n : Nat} : ∀ {s t : List Nat}, s.length = t.length → (∀ x ∈ s, x < n) → (∀ x ∈ t, x < n) →
    Nat.ofDigits n s = Nat.ofDigits n t → s = t := by
  intro s
  induction s with
  | nil => intro t hl _ _ _; exact (List.length_eq_zero_iff.1 hl.symm).symm
  | cons x s ih =>
    intro t hl h1 h2 e
    rcases t with _ | ⟨y, t⟩
    · simp at hl
    · rw [Nat.ofDigits_cons, Nat.ofDigits_cons] at e
      have hx := h1 x (by simp)
      have hy := h2 y (by simp)
      have e1 : x = y := by
        have := congrArg (· % n) e
        simpa [Nat.add_mul_mod_self_left, Nat.mod_eq_of_lt hx, Nat.mod_eq_of_lt hy] using this
      subst e1
      have e2 : Nat.ofDigits n s = Nat.ofDigits n t := Nat.eq_of_mul_eq_mul_left (by omega : 0 < n) (by omega)
      rw [ih (by simpa using hl) (fun z hz => h1 z (by simp [hz])) (fun z hz => h2 z (by simp [hz])) e2]

end Light
end BATS
