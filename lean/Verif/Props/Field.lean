import Verif.Model.Field
import Mathlib.Data.ZMod.Basic
import Mathlib.Data.Nat.Prime.Basic
import Mathlib.Data.Rat.Lemmas
import Mathlib.Algebra.Field.ZMod
import Mathlib.Tactic.Ring
import Mathlib.Tactic.LinearCombination
import Mathlib.Tactic.FieldSimp
import Mathlib.Tactic.NormNum.Prime
import Mathlib.Tactic.Linarith

/-!
# Properties C01–C05: the coefficient fields

Specification vocabulary: `Canon P a` says that the stored integer is the canonical residue;
the field element denoted by a stored integer is its cast to Mathlib's `ZMod P`.
-/

namespace BATS

/-! ## C04 isprime -/

theorem C04_isprime_correct (p : Nat) : isprime p = true ↔ Nat.Prime p := by
  unfold isprime
  split
  · rename_i h
    simp only [Bool.false_eq_true, false_iff]
    intro hp; have := hp.two_le; omega
  · rename_i h
    rw [List.all_eq_true]
    constructor
    · intro H
      rw [Nat.prime_def_lt']
      refine ⟨by omega, ?_⟩
      intro m hm hmp hdvd
      obtain ⟨k, hk⟩ := hdvd
      have hk2 : 2 ≤ k := by
        rcases k with _ | _ | k
        · omega
        · omega
        · omega
      have hmle : m ≤ p / 2 := by
        rw [Nat.le_div_iff_mul_le (by norm_num)]
        nlinarith
      have := H m (by rw [List.mem_range'_1]; omega)
      simp at this
      exact this (by rw [hk]; exact Nat.mul_mod_right m k)
    · intro hp i hi
      rw [List.mem_range'_1] at hi
      simp only [bne_iff_ne, ne_eq]
      intro h0
      have hd : i ∣ p := Nat.dvd_of_mod_eq_zero h0
      rcases (Nat.dvd_prime hp).1 hd with h1 | h1
      · omega
      · omega

example : isprime 7 = true ∧ isprime 9 = false ∧ isprime 4 = false := by decide

/-! ## C01, C03: ModP -/

/-- the stored value is the canonical representative -/
def Canon (P : Nat) (a : Int) : Prop := 0 ≤ a ∧ a < P

/-- side condition for the absence of `int` overflow in products: `P * P < 2^31` -/
def FitsInt (P : Nat) : Prop := P * P < 2147483648

theorem FitsInt.lt {P : Nat} (h : FitsInt P) : P < 46341 := by
  unfold FitsInt at h; by_contra hc; push Not at hc
  have := Nat.mul_le_mul hc hc; omega

theorem u32_of_nonneg {x : Int} (h0 : 0 ≤ x) (h1 : x < 4294967296) : u32 x = x := by
  unfold u32; omega

theorem toI32_of_small {x : Int} (h0 : 0 ≤ x) (h1 : x < 2147483648) : toI32 x = x := by
  unfold toI32; split <;> omega

theorem i32_ok {x : Int} (h0 : -2147483648 ≤ x) (h1 : x < 2147483648) : i32 x = .ok x := by
  unfold i32; simp [h0, h1]

theorem canon_emod {P : Nat} (hP : 0 < P) (x : Int) : Canon P (x % P) :=
  ⟨Int.emod_nonneg _ (by omega), Int.emod_lt_of_pos _ (by omega)⟩

theorem cast_emod (P : Nat) (x : Int) : ((x % P : Int) : ZMod P) = (x : ZMod P) := by
  exact ZMod.intCast_mod x P

theorem ofInt_spec {P : Nat} (hP : 0 < P) {v : Int} (h0 : -(P : Int) ≤ v) (h1 : v + P < 4294967296) :
    Canon P (ModP.ofInt P v) ∧ ((ModP.ofInt P v : Int) : ZMod P) = (v : ZMod P) := by
  unfold ModP.ofInt
  rw [u32_of_nonneg (by omega) (by omega)]
  refine ⟨canon_emod hP _, ?_⟩
  rw [cast_emod]; simp

/-- C03: the constructor is right for every `int` that is at least `-P`. -/
theorem C03_ofInt_above (P : Nat) (hP : Nat.Prime P) (hs : P < 2147483648) (v : Int)
    (hlo : -(P : Int) ≤ v) (hhi : v < 2147483648) :
    Canon P (ModP.ofInt P v) ∧ ((ModP.ofInt P v : Int) : ZMod P) = (v : ZMod P) :=
  ofInt_spec hP.pos hlo (by omega)

/-- C03 exact behaviour below `-P`: the result is the residue of `v + 2^32`, so it is the residue of `v`
exactly when `P` divides `2^32`, i.e. for no odd prime. -/
theorem C03_ofInt_below (P : Nat) (hP : Nat.Prime P) (hodd : P ≠ 2) (hs : P < 2147483648) (v : Int)
    (hlo : -2147483648 ≤ v) (hhi : v < -(P : Int)) :
    Canon P (ModP.ofInt P v) ∧ ((ModP.ofInt P v : Int) : ZMod P) ≠ (v : ZMod P) := by
  unfold ModP.ofInt
  have hu : u32 (v + P) = v + P + 4294967296 := by unfold u32; omega
  rw [hu]
  refine ⟨canon_emod hP.pos _, ?_⟩
  rw [cast_emod]
  push_cast
  simp only [CharP.cast_eq_zero, add_zero]
  intro h
  have h2 : ((4294967296 : ℕ) : ZMod P) = 0 := by
    have : (v : ZMod P) + 4294967296 = v + 0 := by simpa using h
    have := add_left_cancel this
    simpa using this
  rw [ZMod.natCast_eq_zero_iff] at h2
  have h3 : P ∣ 2 ^ 32 := by norm_num; exact h2
  have := (Nat.prime_dvd_prime_iff_eq hP Nat.prime_two).1 (hP.dvd_of_dvd_pow h3)
  exact hodd this

/-- C03, for every `int` and every odd prime `P`: the constructor returns a canonical representative, and it represents `v` exactly if `v ≥ -P`. -/
theorem C03_ofInt_iff (P : Nat) (hP : Nat.Prime P) (hodd : P ≠ 2) (hs : P < 2147483648) (v : Int)
    (hlo : -2147483648 ≤ v) (hhi : v < 2147483648) :
    Canon P (ModP.ofInt P v) ∧ (((ModP.ofInt P v : Int) : ZMod P) = (v : ZMod P) ↔ -(P : Int) ≤ v) := by
  by_cases h : -(P : Int) ≤ v
  · have := C03_ofInt_above P hP hs v h hhi
    exact ⟨this.1, iff_of_true this.2 h⟩
  · have := C03_ofInt_below P hP hodd hs v hlo (by omega)
    exact ⟨this.1, iff_of_false this.2 h⟩

/-- C03 negation witness: `ModP<int,3>(-5)` is `2`, but `-5 ≡ 1 (mod 3)`. -/
theorem C03_ofInt_wrong : ModP.ofInt 3 (-5) = 2 ∧ (-5 : Int) % 3 = 1 := by decide

example : Nat.Prime 3 ∧ (3:Nat) < 2147483648 ∧ -(3 : Int) ≤ -2 ∧ ModP.ofInt 3 (-2) = 1 := by
  refine ⟨by norm_num, by norm_num, by norm_num, by decide⟩

section
variable {P : Nat}

theorem C01_add (hP : Nat.Prime P) (hf : FitsInt P) (a b : Int) (ha : Canon P a) (hb : Canon P b) :
    ∃ c, ModP.add P a b = .ok c ∧ Canon P c ∧ (c : ZMod P) = (a : ZMod P) + (b : ZMod P) := by
  have := hf.lt; obtain ⟨a0, a1⟩ := ha; obtain ⟨b0, b1⟩ := hb
  unfold ModP.add
  rw [i32_ok (by omega) (by omega)]
  refine ⟨_, rfl, ?_⟩
  have := ofInt_spec hP.pos (v := a + b) (by omega) (by omega)
  simpa using this

theorem C01_addAssign (hP : Nat.Prime P) (hf : FitsInt P) (a b : Int) (ha : Canon P a) (hb : Canon P b) :
    ∃ c, ModP.addAssign P a b = .ok c ∧ Canon P c ∧ (c : ZMod P) = (a : ZMod P) + (b : ZMod P) := by
  have := hf.lt; obtain ⟨a0, a1⟩ := ha; obtain ⟨b0, b1⟩ := hb
  have hp := hP.pos
  unfold ModP.addAssign
  rw [i32_ok (by omega) (by omega)]
  refine ⟨_, rfl, ?_⟩
  have hc := canon_emod hp (a + b)
  rw [u32_of_nonneg (by omega) (by omega), toI32_of_small hc.1 (by have := hc.2; omega)]
  refine ⟨hc, ?_⟩
  rw [cast_emod]; push_cast; rfl

theorem C01_sub (hP : Nat.Prime P) (hf : FitsInt P) (a b : Int) (ha : Canon P a) (hb : Canon P b) :
    ∃ c, ModP.sub P a b = .ok c ∧ Canon P c ∧ (c : ZMod P) = (a : ZMod P) - (b : ZMod P) := by
  have := hf.lt; obtain ⟨a0, a1⟩ := ha; obtain ⟨b0, b1⟩ := hb
  unfold ModP.sub
  rw [i32_ok (by omega) (by omega)]
  refine ⟨_, rfl, ?_⟩
  rw [u32_of_nonneg (by omega) (by omega), toI32_of_small (by omega) (by omega)]
  have := ofInt_spec hP.pos (v := a - b + P) (by omega) (by omega)
  simpa using this

theorem C01_subAssign (hP : Nat.Prime P) (hf : FitsInt P) (a b : Int) (ha : Canon P a) (hb : Canon P b) :
    ∃ c, ModP.subAssign P a b = .ok c ∧ Canon P c ∧ (c : ZMod P) = (a : ZMod P) - (b : ZMod P) := by
  have := hf.lt; obtain ⟨a0, a1⟩ := ha; obtain ⟨b0, b1⟩ := hb
  have hp := hP.pos
  unfold ModP.subAssign
  rw [i32_ok (by omega) (by omega)]
  refine ⟨_, rfl, ?_⟩
  have hc := canon_emod hp (a - b + P)
  rw [u32_of_nonneg (by omega) (by omega), toI32_of_small hc.1 (by have := hc.2; omega)]
  refine ⟨hc, ?_⟩
  rw [cast_emod]; push_cast; simp

theorem C01_neg (hP : Nat.Prime P) (hf : FitsInt P) (a : Int) (ha : Canon P a) :
    ∃ c, ModP.neg P a = .ok c ∧ Canon P c ∧ (c : ZMod P) = -(a : ZMod P) := by
  have := hf.lt; obtain ⟨a0, a1⟩ := ha
  unfold ModP.neg
  refine ⟨_, rfl, ?_⟩
  rw [u32_of_nonneg (by omega) (by omega), toI32_of_small (by omega) (by omega)]
  have := ofInt_spec hP.pos (v := P - a) (by omega) (by omega)
  simpa using this

theorem mul_canon_bound (hf : FitsInt P) {a b : Int} (ha : Canon P a) (hb : Canon P b) :
    0 ≤ a * b ∧ a * b < 2147483648 := by
  obtain ⟨a0, a1⟩ := ha; obtain ⟨b0, b1⟩ := hb
  refine ⟨mul_nonneg a0 b0, ?_⟩
  have h1 : a * b ≤ (P : Int) * P := mul_le_mul (by omega) (by omega) b0 (by omega)
  have h2 : ((P * P : Nat) : Int) < 2147483648 := by exact_mod_cast hf
  push_cast at h2; omega

theorem C01_mul (hP : Nat.Prime P) (hf : FitsInt P) (a b : Int) (ha : Canon P a) (hb : Canon P b) :
    ∃ c, ModP.mul P a b = .ok c ∧ Canon P c ∧ (c : ZMod P) = (a : ZMod P) * (b : ZMod P) := by
  have := hf.lt
  obtain ⟨h0, h1⟩ := mul_canon_bound hf ha hb
  unfold ModP.mul
  rw [i32_ok (by omega) (by omega)]
  refine ⟨_, rfl, ?_⟩
  have := ofInt_spec hP.pos (v := a * b) (by omega) (by omega)
  simpa using this

theorem C01_mulAssign (hP : Nat.Prime P) (hf : FitsInt P) (a b : Int) (ha : Canon P a) (hb : Canon P b) :
    ∃ c, ModP.mulAssign P a b = .ok c ∧ Canon P c ∧ (c : ZMod P) = (a : ZMod P) * (b : ZMod P) := by
  have := hf.lt
  obtain ⟨h0, h1⟩ := mul_canon_bound hf ha hb
  unfold ModP.mulAssign
  rw [i32_ok (by omega) (by omega)]
  refine ⟨_, rfl, ?_⟩
  have hc := canon_emod hP.pos (a * b)
  rw [u32_of_nonneg (by omega) (by omega), toI32_of_small hc.1 (by have := hc.2; omega)]
  refine ⟨hc, ?_⟩
  rw [cast_emod]; push_cast; rfl

/-- For canonical `a ≠ 0` some multiple `k * a` with `1 ≤ k < P` is `1` modulo `P`. -/
theorem exists_inverse (hP : Nat.Prime P) {a : Int} (ha : Canon P a) (hne : a ≠ 0) :
    ∃ k : Int, 1 ≤ k ∧ k < P ∧ (k * a) % P = 1 := by
  have := Fact.mk hP
  have hne' : (a : ZMod P) ≠ 0 := by
    rw [Ne, ZMod.intCast_zmod_eq_zero_iff_dvd]
    intro hd
    have := Int.eq_zero_of_dvd_of_nonneg_of_lt ha.1 ha.2 hd
    exact hne this
  set k := ((a : ZMod P)⁻¹).val with hk
  have hk1 : (k : ZMod P) = (a : ZMod P)⁻¹ := by rw [hk]; simp
  have hkP : k < P := ZMod.val_lt _
  have hmul : ((k * a : Int) : ZMod P) = ((1 : Int) : ZMod P) := by
    push_cast; rw [hk1]; simp [hne']
  refine ⟨k, ?_, by exact_mod_cast hkP, ?_⟩
  · have : k ≠ 0 := by
      intro h0; rw [h0] at hk1
      have : (a : ZMod P)⁻¹ ≠ 0 := inv_ne_zero hne'
      exact this (by rw [← hk1]; simp)
    omega
  · have := (ZMod.intCast_eq_intCast_iff' _ _ _).1 hmul
    rw [this]
    exact Int.emod_eq_of_lt (by norm_num) (by exact_mod_cast hP.one_lt)

/-- The inversion loop started at the multiple `b` reaches the first multiple congruent to one. -/
theorem ffInvLoop_spec (hf : FitsInt P) {a : Int} (ha : Canon P a) {k : Int}
    (hkP : k < P) (hk : (k * a) % P = 1) :
    ∀ (fuel : Nat) (b : Int), 1 ≤ b → b ≤ k → k - b < fuel →
      ∃ r, ModP.ffInvLoop P a fuel b (b * a) = .ok r ∧ 1 ≤ r ∧ r ≤ k ∧ (r * a) % P = 1 := by
  have hlt := hf.lt
  intro fuel
  induction fuel with
  | zero => intro b h1 h2 h3; omega
  | succ fuel ih =>
    intro b h1 h2 h3
    have hb : Canon P b := ⟨by omega, by omega⟩
    obtain ⟨m0, m1⟩ := mul_canon_bound hf hb ha
    unfold ModP.ffInvLoop
    rw [u32_of_nonneg m0 (by omega)]
    by_cases hc : (b * a) % P = 1
    · exact ⟨b, by simp [hc], h1, h2, hc⟩
    · have hne : b ≠ k := by intro h; rw [h] at hc; exact hc hk
      have hb' : Canon P (b + 1) := ⟨by omega, by omega⟩
      obtain ⟨m0', m1'⟩ := mul_canon_bound hf hb' ha
      have e : b * a + a = (b + 1) * a := by ring
      rw [if_neg hc, i32_ok (by omega) (by omega), e, i32_ok (by omega) m1']
      exact ih (b + 1) (by omega) (by omega) (by omega)

theorem C01_inv (hP : Nat.Prime P) (hf : FitsInt P) (a : Int) (ha : Canon P a) (hne : a ≠ 0) :
    ∃ c, ModP.inv P a = .ok c ∧ Canon P c ∧ (c : ZMod P) * (a : ZMod P) = 1 := by
  have := hf.lt
  obtain ⟨k, hk1, hkP, hk⟩ := exists_inverse hP ha hne
  obtain ⟨r, hr, r1, rk, hra⟩ := ffInvLoop_spec hf ha hkP hk P 1 (by norm_num) hk1 (by omega)
  rw [one_mul] at hr
  unfold ModP.inv ModP.ffInv
  rw [if_neg hne, hr]
  refine ⟨_, rfl, ?_⟩
  have hs := ofInt_spec hP.pos (v := r) (by omega) (by omega)
  refine ⟨hs.1, ?_⟩
  rw [hs.2]
  have : ((r * a : Int) : ZMod P) = ((1 : Int) : ZMod P) := by
    rw [ZMod.intCast_eq_intCast_iff', hra]
    exact (Int.emod_eq_of_lt (by norm_num) (by exact_mod_cast hP.one_lt)).symm
  push_cast at this; exact this

/-- C01: inversion of zero throws. -/
theorem C01_inv_zero : ModP.inv P 0 = .error .thrown := rfl

theorem C01_div (hP : Nat.Prime P) (hf : FitsInt P) (a b : Int) (ha : Canon P a) (hb : Canon P b)
    (hne : b ≠ 0) :
    ∃ c, ModP.div P a b = .ok c ∧ Canon P c ∧ (c : ZMod P) * (b : ZMod P) = (a : ZMod P) := by
  have := hf.lt
  obtain ⟨v, hv, hvc, hvm⟩ := C01_inv hP hf b hb hne
  obtain ⟨h0, h1⟩ := mul_canon_bound hf ha hvc
  unfold ModP.div
  rw [if_neg hne, hv]
  refine ⟨ModP.ofInt P (a * v), ?_, ?_⟩
  · show (i32 (a * v) >>= fun s => pure (ModP.ofInt P s)) = _
    rw [i32_ok (by omega) (by omega)]; rfl
  · have hs := ofInt_spec hP.pos (v := a * v) (by omega) (by omega)
    refine ⟨hs.1, ?_⟩
    rw [hs.2]; push_cast; rw [mul_assoc, hvm, mul_one]

theorem C01_divAssign (hP : Nat.Prime P) (hf : FitsInt P) (a b : Int) (ha : Canon P a) (hb : Canon P b)
    (hne : b ≠ 0) :
    ∃ c, ModP.divAssign P a b = .ok c ∧ Canon P c ∧ (c : ZMod P) * (b : ZMod P) = (a : ZMod P) := by
  have := hf.lt
  obtain ⟨v, hv, hvc, hvm⟩ := C01_inv hP hf b hb hne
  obtain ⟨h0, h1⟩ := mul_canon_bound hf ha hvc
  have hc := canon_emod hP.pos (a * v)
  unfold ModP.divAssign
  rw [if_neg hne, hv]
  refine ⟨(a * v) % P, ?_, hc, ?_⟩
  · show (i32 (a * v) >>= fun s => pure (toI32 (u32 s % P))) = _
    rw [i32_ok (by omega) (by omega)]
    show Except.ok (toI32 (u32 (a * v) % P)) = _
    rw [u32_of_nonneg (by omega) (by omega), toI32_of_small hc.1 (by have := hc.2; omega)]
  · rw [cast_emod]; push_cast; rw [mul_assoc, hvm, mul_one]

/-- C01: division by zero throws. -/
theorem C01_div_zero (a : Int) : ModP.div P a 0 = .error .thrown := rfl
theorem C01_divAssign_zero (a : Int) : ModP.divAssign P a 0 = .error .thrown := rfl

/-- C01: `==` on canonical stored values decides equality of field elements. -/
theorem C01_eq (a b : Int) (ha : Canon P a) (hb : Canon P b) :
    ModP.eq a b = true ↔ (a : ZMod P) = (b : ZMod P) := by
  unfold ModP.eq
  rw [beq_iff_eq, ZMod.intCast_eq_intCast_iff', Int.emod_eq_of_lt ha.1 ha.2, Int.emod_eq_of_lt hb.1 hb.2]

/-- C01: `iszero` decides being zero. -/
theorem C01_iszero (a : Int) (ha : Canon P a) : ModP.iszero a = true ↔ (a : ZMod P) = 0 := by
  unfold ModP.iszero
  rw [beq_iff_eq, ZMod.intCast_zmod_eq_zero_iff_dvd]
  constructor
  · rintro rfl; exact dvd_zero _
  · intro h; exact Int.eq_zero_of_dvd_of_nonneg_of_lt ha.1 ha.2 h

/-- C01: every element of `ZMod P` is stored by exactly one canonical value, so the stored values with the
operations above are a copy of the field `ZMod P`. -/
theorem C01_canon_unique (hP : Nat.Prime P) (x : ZMod P) : ∃! a : Int, Canon P a ∧ (a : ZMod P) = x := by
  have : NeZero P := ⟨hP.ne_zero⟩
  refine ⟨x.val, ⟨⟨by omega, by exact_mod_cast ZMod.val_lt x⟩, by simp⟩, ?_⟩
  rintro b ⟨hb, rfl⟩
  have : ((ZMod.val (b : ZMod P) : Int)) = b % P := by
    rw [ZMod.val_intCast]
  rw [this, Int.emod_eq_of_lt hb.1 hb.2]

end

/-- hypotheses are satisfiable, and the model computes: 3 / 5 = 2 in Z/7 -/
example : Nat.Prime 7 ∧ FitsInt 7 ∧ Canon 7 3 ∧ Canon 7 5 ∧ ModP.div 7 3 5 = .ok 2 :=
  ⟨by norm_num, by unfold FitsInt; norm_num, ⟨by norm_num, by norm_num⟩, ⟨by norm_num, by norm_num⟩, by decide⟩

/-! ## C02: ModP<int,2> -/

namespace Mod2

/-- the field element denoted by a stored bit pattern: its parity -/
def den (a : Store) : ZMod 2 := if a.getLsbD 0 then 1 else 0

theorem and_one_eq_zero (a : Store) : (a &&& 1#32 = 0#32) ↔ a.getLsbD 0 = false := by
  constructor
  · intro h
    have := congrArg (fun v : BitVec 32 => v.getLsbD 0) h
    simpa using this
  · intro h
    apply BitVec.eq_of_getLsbD_eq
    intro i hi
    rcases Nat.eq_zero_or_pos i with rfl | hi0
    · simpa using h
    · simp [BitVec.getLsbD_one, Nat.ne_of_gt hi0]

theorem and_one_eq_iff (a b : Store) : (a &&& 1#32 = b &&& 1#32) ↔ a.getLsbD 0 = b.getLsbD 0 := by
  constructor
  · intro h
    have := congrArg (fun v : BitVec 32 => v.getLsbD 0) h
    simpa using this
  · intro h
    apply BitVec.eq_of_getLsbD_eq
    intro i hi
    rcases Nat.eq_zero_or_pos i with rfl | hi0
    · simpa using h
    · simp [BitVec.getLsbD_one, Nat.ne_of_gt hi0]

theorem C02_add (a b : Store) : den (add a b) = den a + den b := by
  unfold den add
  rw [BitVec.getLsbD_xor]
  cases a.getLsbD 0 <;> cases b.getLsbD 0 <;> decide

theorem C02_sub (a b : Store) : den (sub a b) = den a - den b := by
  unfold den sub
  rw [BitVec.getLsbD_xor]
  cases a.getLsbD 0 <;> cases b.getLsbD 0 <;> decide

theorem C02_neg (a : Store) : den (neg a) = - den a := by
  unfold den neg
  cases a.getLsbD 0 <;> decide

theorem C02_mul (a b : Store) : den (mul a b) = den a * den b := by
  unfold den mul
  rw [BitVec.getLsbD_and]
  cases a.getLsbD 0 <;> cases b.getLsbD 0 <;> decide

/-- division throws exactly on the zero element, otherwise it is field division -/
theorem C02_div (a b : Store) :
    (den b = 0 → div a b = .error .thrown) ∧ (den b ≠ 0 → ∃ c, div a b = .ok c ∧ den c * den b = den a) := by
  unfold div
  have key := and_one_eq_zero b
  constructor
  · intro h
    have : b.getLsbD 0 = false := by
      unfold den at h; cases hb : b.getLsbD 0
      · rfl
      · rw [hb] at h; exact absurd h (by decide)
    rw [if_pos (key.2 this)]
  · intro h
    have hb : b.getLsbD 0 = true := by
      cases hb : b.getLsbD 0
      · unfold den at h; rw [hb] at h; exact absurd rfl h
      · rfl
    refine ⟨a, ?_, ?_⟩
    · rw [if_neg]; intro h'; rw [key.1 h'] at hb; exact absurd hb (by decide)
    · unfold den; rw [hb]; simp

theorem C02_inv (a : Store) :
    (den a = 0 → inv a = .error .thrown) ∧ (den a ≠ 0 → ∃ c, inv a = .ok c ∧ den c * den a = 1) := by
  unfold inv
  have key := and_one_eq_zero a
  constructor
  · intro h
    have : a.getLsbD 0 = false := by
      unfold den at h; cases hb : a.getLsbD 0
      · rfl
      · rw [hb] at h; exact absurd h (by decide)
    rw [if_pos (key.2 this)]
  · intro h
    have hb : a.getLsbD 0 = true := by
      cases hb : a.getLsbD 0
      · unfold den at h; rw [hb] at h; exact absurd rfl h
      · rfl
    refine ⟨1#32, ?_, ?_⟩
    · rw [if_neg]; intro h'; rw [key.1 h'] at hb; exact absurd hb (by decide)
    · unfold den; rw [hb]; decide

theorem C02_eq (a b : Store) : eq a b = true ↔ den a = den b := by
  unfold eq den
  rw [beq_iff_eq, and_one_eq_iff]
  cases a.getLsbD 0 <;> cases b.getLsbD 0 <;> decide

theorem C02_ne (a b : Store) : ne a b = true ↔ den a ≠ den b := by
  have := C02_eq a b
  unfold ne; unfold eq at this
  rw [bne_iff_ne]
  rw [beq_iff_eq] at this
  exact not_congr this

theorem C02_iszero (a : Store) : iszero a = true ↔ den a = 0 := by
  unfold iszero den
  rw [beq_iff_eq, and_one_eq_zero]
  cases a.getLsbD 0 <;> decide

/-- construction from any int gives its parity -/
theorem C02_ofInt (v : Int) : den (ofInt v) = (v : ZMod 2) := by
  have hb : (BitVec.ofInt 32 v).getLsbD 0 = decide (v % 2 = 1) := by
    rw [BitVec.getLsbD, BitVec.toNat_ofInt, Nat.testBit_zero]
    have : ((v % ((2 ^ 32 : Nat) : Int)).toNat % 2 = 1) ↔ v % 2 = 1 := by
      norm_num; omega
    simp only [this]
  unfold den ofInt
  rw [hb]
  rcases Int.emod_two_eq_zero_or_one v with h | h
  · simp only [h]
    rw [(ZMod.intCast_zmod_eq_zero_iff_dvd v 2).2 (Int.dvd_of_emod_eq_zero h)]
    rfl
  · simp only [h]
    have e : (v : ZMod 2) = ((1 : Int) : ZMod 2) := (ZMod.intCast_eq_intCast_iff' v 1 2).2 (by push_cast; omega)
    rw [e]; simp

/-- `==(int)` is exact -/
theorem C02_eqInt (a : Store) (b : BitVec 32) : eqInt a b = true ↔ den a = den b := C02_eq a b

/-- `!=(int)` is not the negation of `==(int)` (the right hand side is not masked): 1 == 3 and 1 != 3. -/
theorem C02_neInt_inconsistent : eqInt 1#32 3#32 = true ∧ neInt 1#32 3#32 = true := by decide

/-- `!=(int)` is exact as long as the argument is 0 or 1, the only arguments the library itself passes. -/
theorem C02_neInt_zero_one (a : Store) (b : BitVec 32) (hb : b = 0#32 ∨ b = 1#32) :
    neInt a b = true ↔ den a ≠ den b := by
  have hb' : b &&& 1#32 = b := by rcases hb with rfl | rfl <;> decide
  have := C02_ne a b
  unfold ne at this; rw [hb'] at this
  exact this

/-- `operator=(int)` has no effect on the object. -/
theorem C02_assignInt_noop (a : Store) (b : BitVec 32) : assignInt a b = a := rfl
theorem C02_assignInt_wrong : den (assignInt 0#32 1#32) ≠ den 1#32 := by decide

example : den (add 3#32 6#32) = 1 ∧ den 6#32 = 0 ∧ den 3#32 = 1 := by decide

end Mod2

/-! ## C05: Rational -/

namespace Rational

/-- lowest terms with positive denominator -/
def Norm (a : Rational) : Prop := 0 < a.d ∧ Int.gcd a.n a.d = 1

/-- the rational number denoted by a stored pair -/
def den (a : Rational) : ℚ := (a.n : ℚ) / (a.d : ℚ)

/-- Building a rational with nonzero denominator succeeds, normalises, and keeps the value. -/
theorem C05_mk (n d : Int) (hd : d ≠ 0) :
    ∃ r, mk2 n d = .ok r ∧ Norm r ∧ den r = (n : ℚ) / (d : ℚ) := by
  unfold mk2 reduce
  have hg : (0 : Int) < Int.gcd n d := by
    exact_mod_cast Int.gcd_pos_of_ne_zero_right n hd
  have hg0 : ((Int.gcd n d : Nat) : Int) ≠ 0 := by omega
  simp only
  rw [if_neg hg0]
  refine ⟨_, rfl, ?_⟩
  obtain ⟨n', hn'⟩ := Int.gcd_dvd_left n d
  obtain ⟨d', hd'⟩ := Int.gcd_dvd_right n d
  set g : Int := ((Int.gcd n d : Nat) : Int) with hgdef
  have e1 : n.tdiv g = n' := by
    conv_lhs => rw [hn']
    exact Int.mul_tdiv_cancel_left _ hg0
  have e2 : d.tdiv g = d' := by
    conv_lhs => rw [hd']
    exact Int.mul_tdiv_cancel_left _ hg0
  have hcop : Int.gcd n' d' = 1 := by
    have h1 : Int.gcd (g * n') (g * d') = Int.gcd n d := by rw [← hn', ← hd']
    rw [Int.gcd_mul_left] at h1
    have h2 : g.natAbs = Int.gcd n d := by rw [hgdef]; simp
    rw [h2] at h1
    have h3 : 0 < Int.gcd n d := by omega
    exact Nat.eq_of_mul_eq_mul_left h3 (by omega)
  have hd'0 : d' ≠ 0 := by rintro rfl; simp at hd'; exact hd hd'
  rw [e1, e2]
  have hval : (n : ℚ) / d = (n' : ℚ) / d' := by
    have a1 : (n : ℚ) = (g : ℚ) * n' := by exact_mod_cast hn'
    have a2 : (d : ℚ) = (g : ℚ) * d' := by exact_mod_cast hd'
    rw [a1, a2]
    have : (g : ℚ) ≠ 0 := by exact_mod_cast hg0
    exact mul_div_mul_left _ _ this
  rcases lt_or_gt_of_ne hd'0 with hneg | hpos
  · have hdneg : d < 0 := by rw [hd']; exact mul_neg_of_pos_of_neg hg hneg
    have hs : sgn d = -1 := by unfold sgn; rw [if_neg (by omega), if_pos hdneg]; rfl
    rw [hs]
    refine ⟨⟨by simp only; omega, ?_⟩, ?_⟩
    · simp only [neg_mul, one_mul, Int.gcd_neg, Int.neg_gcd]; exact hcop
    · unfold den; simp only [neg_mul, one_mul]; push_cast; rw [neg_div_neg_eq, hval]
  · have hdpos : 0 < d := by rw [hd']; exact mul_pos hg hpos
    have hs : sgn d = 1 := by unfold sgn; rw [if_pos hdpos, if_neg (by omega)]; rfl
    rw [hs]
    refine ⟨⟨by simp only; omega, ?_⟩, ?_⟩
    · simp only [one_mul]; exact hcop
    · unfold den; simp only [one_mul]; rw [hval]

theorem C05_ofInt (n : Int) : Norm (ofInt n) ∧ den (ofInt n) = (n : ℚ) := by
  constructor
  · exact ⟨by simp [ofInt], by simp [ofInt]⟩
  · simp [den, ofInt]

theorem C05_add (a b : Rational) (ha : Norm a) (hb : Norm b) :
    ∃ r, add a b = .ok r ∧ Norm r ∧ den r = den a + den b := by
  have h1 := ha.1; have h2 := hb.1
  obtain ⟨r, hr, hn, hv⟩ := C05_mk (a.n * b.d + b.n * a.d) (a.d * b.d) (mul_ne_zero (by omega) (by omega))
  refine ⟨r, hr, hn, ?_⟩
  have q1 : (a.d : ℚ) ≠ 0 := by exact_mod_cast (by omega : a.d ≠ 0)
  have q2 : (b.d : ℚ) ≠ 0 := by exact_mod_cast (by omega : b.d ≠ 0)
  rw [hv]; unfold den; push_cast; field_simp

theorem C05_sub (a b : Rational) (ha : Norm a) (hb : Norm b) :
    ∃ r, sub a b = .ok r ∧ Norm r ∧ den r = den a - den b := by
  have h1 := ha.1; have h2 := hb.1
  obtain ⟨r, hr, hn, hv⟩ := C05_mk (a.n * b.d - b.n * a.d) (a.d * b.d) (mul_ne_zero (by omega) (by omega))
  refine ⟨r, hr, hn, ?_⟩
  have q1 : (a.d : ℚ) ≠ 0 := by exact_mod_cast (by omega : a.d ≠ 0)
  have q2 : (b.d : ℚ) ≠ 0 := by exact_mod_cast (by omega : b.d ≠ 0)
  rw [hv]; unfold den; push_cast; field_simp

theorem C05_neg (a : Rational) (ha : Norm a) :
    ∃ r, neg a = .ok r ∧ Norm r ∧ den r = - den a := by
  have h1 := ha.1
  obtain ⟨r, hr, hn, hv⟩ := C05_mk (-a.n) a.d (by omega)
  exact ⟨r, hr, hn, by rw [hv]; unfold den; push_cast; rw [neg_div]⟩

theorem C05_mul (a b : Rational) (ha : Norm a) (hb : Norm b) :
    ∃ r, mul a b = .ok r ∧ Norm r ∧ den r = den a * den b := by
  have h1 := ha.1; have h2 := hb.1
  obtain ⟨r, hr, hn, hv⟩ := C05_mk (a.n * b.n) (a.d * b.d) (mul_ne_zero (by omega) (by omega))
  refine ⟨r, hr, hn, ?_⟩
  rw [hv]; unfold den; push_cast; rw [div_mul_div_comm]

theorem den_eq_zero (a : Rational) (ha : Norm a) : den a = 0 ↔ a.n = 0 := by
  have h1 := ha.1
  have q1 : (a.d : ℚ) ≠ 0 := by exact_mod_cast (by omega : a.d ≠ 0)
  unfold den
  rw [div_eq_zero_iff]
  constructor
  · rintro (h | h)
    · exact_mod_cast h
    · exact absurd h q1
  · intro h; left; exact_mod_cast h

/-- division throws exactly for a zero divisor, otherwise it is exact -/
theorem C05_div (a b : Rational) (ha : Norm a) (hb : Norm b) :
    (den b = 0 → div a b = .error .thrown) ∧
    (den b ≠ 0 → ∃ r, div a b = .ok r ∧ Norm r ∧ den r = den a / den b) := by
  have h1 := ha.1; have h2 := hb.1
  constructor
  · intro h; unfold div; rw [if_pos ((den_eq_zero b hb).1 h)]
  · intro h
    have hbn : b.n ≠ 0 := fun h' => h ((den_eq_zero b hb).2 h')
    obtain ⟨r, hr, hn, hv⟩ := C05_mk (a.n * b.d) (a.d * b.n) (mul_ne_zero (by omega) hbn)
    refine ⟨r, by unfold div; rw [if_neg hbn]; exact hr, hn, ?_⟩
    rw [hv]; unfold den; push_cast; rw [div_div_div_eq]

theorem C05_inv (a : Rational) (ha : Norm a) :
    (den a = 0 → inv a = .error .thrown) ∧
    (den a ≠ 0 → ∃ r, inv a = .ok r ∧ Norm r ∧ den r = (den a)⁻¹) := by
  constructor
  · intro h; unfold inv; rw [if_pos ((den_eq_zero a ha).1 h)]
  · intro h
    have hbn : a.n ≠ 0 := fun h' => h ((den_eq_zero a ha).2 h')
    obtain ⟨r, hr, hn, hv⟩ := C05_mk a.d a.n hbn
    refine ⟨r, by unfold inv; rw [if_neg hbn]; exact hr, hn, ?_⟩
    rw [hv]; unfold den; rw [inv_div]

/-- structural `==` decides equality of values -/
theorem C05_eq (a b : Rational) (ha : Norm a) (hb : Norm b) : eq a b = true ↔ den a = den b := by
  have h1 := ha.1; have h2 := hb.1
  constructor
  · intro h
    unfold eq at h
    simp only [Bool.and_eq_true, beq_iff_eq] at h
    unfold den; rw [h.1, h.2]
  · intro h
    unfold den at h
    have ca : a.n.natAbs.Coprime a.d.natAbs := ha.2
    have cb : b.n.natAbs.Coprime b.d.natAbs := hb.2
    have := Rat.div_int_inj h1 h2 ca cb h
    unfold eq; simp [this.1, this.2]

/-- `<` decides the order of values -/
theorem C05_lt (a b : Rational) (ha : Norm a) (hb : Norm b) : lt a b = true ↔ den a < den b := by
  have h1 : (0:ℚ) < a.d := by exact_mod_cast ha.1
  have h2 : (0:ℚ) < b.d := by exact_mod_cast hb.1
  unfold lt den
  rw [decide_eq_true_iff, div_lt_div_iff₀ h1 h2]
  exact_mod_cast Iff.rfl

theorem C05_iszero (a : Rational) (ha : Norm a) : iszero a = true ↔ den a = 0 := by
  rw [den_eq_zero a ha]; simp [iszero]

/-- `0/0` is undefined behaviour and `n/0` (n ≠ 0) silently becomes the invalid `0/0`: the guard `d ≠ 0` of
`C05_mk` is necessary. -/
theorem C05_mk_zero_den : mk2 0 0 = .error .ub ∧ mk2 3 0 = .ok ⟨0, 0⟩ := by decide

example : mk2 6 (-4) = .ok ⟨-3, 2⟩ ∧ Norm ⟨-3, 2⟩ := ⟨by decide, by decide, by decide⟩
example : div ⟨1, 2⟩ ⟨-3, 4⟩ = .ok ⟨-2, 3⟩ := by decide

end Rational

end BATS
