import Verif.Proofs.Kunneth1

set_option linter.unusedSectionVars false
set_option linter.unusedVariables false
set_option linter.unusedSimpArgs false

/-! # Tensor products of complexes -/

namespace BATS
open Matrix Module Kronecker

variable {F : Type} [Field F]
variable {T U : Type} [Fintype T] [DecidableEq T] [Fintype U] [DecidableEq U] {deg : T → Nat} {d : Matrix T T F} {deg₂ : U → Nat} {d₂ : Matrix U U F}

/-- the sign operator -/
def signs (F : Type) [Field F] {T : Type} [DecidableEq T] (deg : T → Nat) : Matrix T T F := Matrix.diagonal (fun t => (-1 : F) ^ deg t)

theorem signs_sq : signs F deg * signs F deg = 1 := by
  unfold signs
  rw [diagonal_mul_diagonal]
  have : (fun t => (-1 : F) ^ deg t * (-1) ^ deg t) = fun _ => 1 := by
    ext t; rw [← pow_add]; exact Even.neg_one_pow ⟨deg t, rfl⟩
  rw [this, diagonal_one]

theorem signs_hom : Hom deg deg 0 (signs F deg) := by
  intro s t h
  by_cases e : s = t
  · subst e; simp
  · unfold signs at h; rw [diagonal_apply_ne _ e] at h; exact absurd rfl h

theorem signs_comm {T' : Type} [Fintype T'] [DecidableEq T'] {deg' : T' → Nat} {c : ℤ} {A : Matrix T T' F} (h : Hom deg deg' c A) (hc : c = 1 ∨ c = -1) :
    signs F deg * A = - (A * signs F deg') := by
  unfold signs
  ext s t
  rw [diagonal_mul, Matrix.neg_apply, mul_diagonal]
  by_cases h0 : A s t = 0
  · rw [h0]; simp
  · have := h s t h0
    rcases hc with rfl | rfl
    · have e : deg s = deg' t + 1 := by omega
      rw [e, pow_succ]; ring
    · have e : deg' t = deg s + 1 := by omega
      rw [e, pow_succ]; ring

theorem signs_comm0 {T' : Type} [Fintype T'] [DecidableEq T'] {deg' : T' → Nat} {A : Matrix T T' F} (h : Hom deg deg' 0 A) :
    signs F deg * A = A * signs F deg' := by
  unfold signs
  ext s t
  rw [diagonal_mul, mul_diagonal]
  by_cases h0 : A s t = 0
  · rw [h0]; simp
  · have := h s t h0
    have e : deg s = deg' t := by omega
    rw [e]; ring

/-- the differential of the tensor product: `d (x ⊗ y) = dx ⊗ y + (-1)^{|x|} x ⊗ dy` -/
def tensorD (deg : T → Nat) (d : Matrix T T F) (d₂ : Matrix U U F) : Matrix (T × U) (T × U) F := d ⊗ₖ (1 : Matrix U U F) + signs F deg ⊗ₖ d₂

/-- the degree of `x ⊗ y` -/
def tensorDeg (deg : T → Nat) (deg₂ : U → Nat) (x : T × U) : Nat := deg x.1 + deg₂ x.2

theorem hom_kron {T' U' : Type} {deg' : T' → Nat} {deg₂' : U' → Nat} {a b : ℤ} {A : Matrix T T' F} {B : Matrix U U' F} (hA : Hom deg deg' a A) (hB : Hom deg₂ deg₂' b B) :
    Hom (tensorDeg deg deg₂) (tensorDeg deg' deg₂') (a + b) (A ⊗ₖ B) := by
  rintro ⟨s, u⟩ ⟨t, v⟩ h
  rw [kronecker_apply] at h
  have h1 := hA s t (left_ne_zero_of_mul h)
  have h2 := hB u v (right_ne_zero_of_mul h)
  unfold tensorDeg
  push_cast
  omega

theorem neg_kron {T' U' : Type} (A : Matrix T T' F) (B : Matrix U U' F) : (-A) ⊗ₖ B = -(A ⊗ₖ B) := by
  ext ⟨a, b⟩ ⟨c, e⟩; simp [kronecker_apply]

theorem sub_kron {T' U' : Type} (A A' : Matrix T T' F) (B : Matrix U U' F) : (A - A') ⊗ₖ B = A ⊗ₖ B - A' ⊗ₖ B := by
  ext ⟨a, b⟩ ⟨c, e⟩; simp [kronecker_apply, sub_mul]

theorem kron_sub {T' U' : Type} (A : Matrix T T' F) (B B' : Matrix U U' F) : A ⊗ₖ (B - B') = A ⊗ₖ B - A ⊗ₖ B' := by
  ext ⟨a, b⟩ ⟨c, e⟩; simp [kronecker_apply, mul_sub]

theorem GradedComplex.tensor (h1 : GradedComplex deg d) (h2 : GradedComplex deg₂ d₂) : GradedComplex (tensorDeg deg deg₂) (tensorD deg d d₂) := by
  have hh : Hom (tensorDeg deg deg₂) (tensorDeg deg deg₂) (-1) (tensorD deg d d₂) :=
    ((hom_kron h1.hom Hom.one).cast (by norm_num)).add ((hom_kron signs_hom h2.hom).cast (by norm_num))
  constructor
  · intro s t h
    have := hh s t h
    omega
  · unfold tensorD
    rw [Matrix.mul_add, Matrix.add_mul, Matrix.add_mul, ← mul_kronecker_mul, ← mul_kronecker_mul, ← mul_kronecker_mul, ← mul_kronecker_mul,
      h1.sq, h2.sq, zero_kronecker, kronecker_zero, signs_comm h1.hom (Or.inr rfl), neg_kron, Matrix.mul_one, Matrix.one_mul]
    abel

/-- the tensor product of contractions -/
def Contraction.tensor {T' U' : Type} [Fintype T'] [DecidableEq T'] [Fintype U'] [DecidableEq U'] {deg' : T' → Nat} {deg₂' : U' → Nat}
    (h1 : GradedComplex deg d) (h2 : GradedComplex deg₂ d₂) (c : Contraction deg d deg') (e : Contraction deg₂ d₂ deg₂') :
    Contraction (tensorDeg deg deg₂) (tensorD deg d d₂) (tensorDeg deg' deg₂') where
  p := c.p ⊗ₖ e.p
  i := c.i ⊗ₖ e.i
  h := c.h ⊗ₖ (1 : Matrix U U F) + (signs F deg * (c.i * c.p)) ⊗ₖ e.h
  hp := (hom_kron c.hp e.hp).cast (by norm_num)
  hi := (hom_kron c.hi e.hi).cast (by norm_num)
  hh := ((hom_kron c.hh Hom.one).cast (by norm_num)).add ((hom_kron (signs_hom.mul (c.hi.mul c.hp)) e.hh).cast (by norm_num))
  pi := by rw [← mul_kronecker_mul, c.pi, e.pi, one_kronecker_one]
  eq := by
    unfold tensorD
    have k1 : d * (signs F deg * (c.i * c.p)) = 0 := by
      have := signs_comm h1.hom (Or.inr rfl)
      have e1 : d * signs F deg = - (signs F deg * d) := by rw [this, neg_neg]
      rw [← Matrix.mul_assoc, e1, Matrix.neg_mul, Matrix.mul_assoc, ← Matrix.mul_assoc d, c.di, Matrix.zero_mul, Matrix.mul_zero, neg_zero]
    have k2 : signs F deg * (c.i * c.p) * d = 0 := by
      rw [Matrix.mul_assoc, Matrix.mul_assoc, c.pd, Matrix.mul_zero, Matrix.mul_zero]
    have k3 : signs F deg * c.h = - (c.h * signs F deg) := signs_comm c.hh (Or.inl rfl)
    have k4 : signs F deg * (signs F deg * (c.i * c.p)) = c.i * c.p := by
      rw [← Matrix.mul_assoc, signs_sq, Matrix.one_mul]
    have hπ : Hom deg deg 0 (c.i * c.p) := (c.hi.mul c.hp).cast (by norm_num)
    have k5 : signs F deg * (c.i * c.p) * signs F deg = c.i * c.p := by
      rw [signs_comm0 hπ, Matrix.mul_assoc, signs_sq, Matrix.mul_one]
    have k6 := c.eq
    have k7 := e.eq
    have k8 : (d * c.h) ⊗ₖ (1 : Matrix U U F) + (c.h * d) ⊗ₖ (1 : Matrix U U F) = (1 : Matrix T T F) ⊗ₖ (1 : Matrix U U F) - (c.i * c.p) ⊗ₖ (1 : Matrix U U F) := by
      rw [← add_kronecker, k6, sub_kron]
    have k9 : (c.i * c.p) ⊗ₖ (d₂ * e.h) + (c.i * c.p) ⊗ₖ (e.h * d₂) = (c.i * c.p) ⊗ₖ (1 : Matrix U U F) - (c.i * c.p) ⊗ₖ (e.i * e.p) := by
      rw [← kronecker_add, k7, kron_sub]
    rw [Matrix.mul_add, Matrix.add_mul, Matrix.add_mul, Matrix.mul_add, Matrix.add_mul, Matrix.add_mul]
    simp only [← mul_kronecker_mul, Matrix.mul_one, Matrix.one_mul]
    rw [k1, k2, k3, k4, k5, zero_kronecker, neg_kron]
    rw [show (c.i * c.p) ⊗ₖ (e.i * e.p) = (c.i * c.p) ⊗ₖ (1 : Matrix U U F) - ((c.i * c.p) ⊗ₖ (d₂ * e.h) + (c.i * c.p) ⊗ₖ (e.h * d₂)) by rw [k9]; abel]
    rw [show (c.i * c.p) ⊗ₖ (1 : Matrix U U F) = 1 - ((d * c.h) ⊗ₖ (1 : Matrix U U F) + (c.h * d) ⊗ₖ (1 : Matrix U U F)) by rw [k8, one_kronecker_one]; abel]
    abel
  di := by
    unfold tensorD
    rw [Matrix.add_mul, ← mul_kronecker_mul, ← mul_kronecker_mul, c.di, e.di, zero_kronecker, kronecker_zero, add_zero]
  pd := by
    unfold tensorD
    rw [Matrix.mul_add, ← mul_kronecker_mul, ← mul_kronecker_mul, c.pd, e.pd, zero_kronecker, kronecker_zero, add_zero]

theorem card_tensor {T' U' : Type} [Fintype T'] [DecidableEq T'] [Fintype U'] [DecidableEq U'] (a : T' → Nat) (b : U' → Nat) (n : Nat) :
    Fintype.card {x : T' × U' // tensorDeg a b x = n} = ∑ ij ∈ Finset.antidiagonal n, Fintype.card {t // a t = ij.1} * Fintype.card {u // b u = ij.2} := by
  classical
  simp only [Fintype.card_subtype]
  rw [show (Finset.univ.filter (fun x : T' × U' => tensorDeg a b x = n)) =
    (Finset.antidiagonal n).biUnion (fun ij => (Finset.univ.filter (fun t => a t = ij.1)) ×ˢ (Finset.univ.filter (fun u => b u = ij.2))) by
    ext ⟨t, u⟩
    simp only [Finset.mem_filter, Finset.mem_univ, true_and, Finset.mem_biUnion, Finset.mem_antidiagonal, Finset.mem_product, tensorDeg]
    constructor
    · intro h
      have h' : a t + b u = n := (Finset.mem_filter.1 h).2
      exact ⟨(a t, b u), h', by simp, by simp⟩
    · rintro ⟨⟨i, j⟩, h, h1, h2⟩
      have h1' : a t = i := by simpa using h1
      have h2' : b u = j := by simpa using h2
      have : a t + b u = n := by omega
      exact Finset.mem_filter.2 ⟨Finset.mem_univ _, this⟩]
  rw [Finset.card_biUnion]
  · simp only [Finset.card_product]
  · rintro ⟨i, j⟩ _ ⟨i', j'⟩ _ hne
    rw [Function.onFun, Finset.disjoint_left]
    rintro ⟨t, u⟩ h1 h2
    simp only [Finset.mem_product, Finset.mem_filter, Finset.mem_univ, true_and] at h1 h2
    apply hne
    rw [← h1.1, ← h1.2, h2.1, h2.2]

/-- the Künneth formula -/
theorem kunneth (h1 : GradedComplex deg d) (h2 : GradedComplex deg₂ d₂) (n : Nat) :
    gBetti (tensorDeg deg deg₂) (tensorD deg d d₂) n = ∑ ij ∈ Finset.antidiagonal n, gBetti deg d ij.1 * gBetti deg₂ d₂ ij.2 := by
  obtain ⟨T', i1, i2, deg', ⟨c⟩⟩ := h1.exists_contraction
  obtain ⟨U', j1, j2, deg₂', ⟨e⟩⟩ := h2.exists_contraction
  rw [(c.tensor h1 h2 e).betti (h1.tensor h2), card_tensor]
  apply Finset.sum_congr rfl
  intro ij _
  rw [c.betti h1, e.betti h2]

end BATS
