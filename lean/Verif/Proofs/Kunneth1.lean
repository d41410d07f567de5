import Verif.Spec.Graded
import Mathlib.LinearAlgebra.Matrix.Kronecker
import Mathlib.LinearAlgebra.Basis.VectorSpace
import Mathlib.LinearAlgebra.FiniteDimensional.Defs
import Mathlib.LinearAlgebra.Dimension.Constructions
import Mathlib.Algebra.Order.Antidiag.Prod
import Mathlib.Tactic.NoncommRing

set_option linter.unusedSectionVars false
set_option linter.unusedVariables false
set_option linter.unusedSimpArgs false

/-! # The Künneth formula for finite complexes over a field -/

namespace BATS
open Matrix Module

variable {F : Type} [Field F]

/-- entries vanish unless the degrees differ by `c` -/
def Hom {T T' : Type} (deg : T → Nat) (deg' : T' → Nat) (c : ℤ) (A : Matrix T T' F) : Prop := ∀ s t, A s t ≠ 0 → (deg s : ℤ) = deg' t + c

section hom
variable {T T' T'' : Type} [Fintype T'] {deg : T → Nat} {deg' : T' → Nat} {deg'' : T'' → Nat} {a b : ℤ}

theorem Hom.mul {A : Matrix T T' F} {B : Matrix T' T'' F} (hA : Hom deg deg' a A) (hB : Hom deg' deg'' b B) : Hom deg deg'' (a + b) (A * B) := by
  intro s t h
  rw [mul_apply] at h
  obtain ⟨u, _, hu⟩ := Finset.exists_ne_zero_of_sum_ne_zero h
  have h1 := hA s u (left_ne_zero_of_mul hu)
  have h2 := hB u t (right_ne_zero_of_mul hu)
  omega

theorem Hom.add {A B : Matrix T T' F} (hA : Hom deg deg' a A) (hB : Hom deg deg' a B) : Hom deg deg' a (A + B) := by
  intro s t h
  by_cases h1 : A s t = 0
  · apply hB
    intro h2; apply h; rw [Matrix.add_apply, h1, h2, add_zero]
  · exact hA s t h1

theorem Hom.sub {A B : Matrix T T' F} (hA : Hom deg deg' a A) (hB : Hom deg deg' a B) : Hom deg deg' a (A - B) := by
  intro s t h
  by_cases h1 : A s t = 0
  · apply hB
    intro h2; apply h; rw [Matrix.sub_apply, h1, h2, sub_zero]
  · exact hA s t h1

theorem Hom.one {T : Type} [DecidableEq T] {deg : T → Nat} : Hom deg deg 0 (1 : Matrix T T F) := by
  intro s t h
  by_cases e : s = t
  · subst e; simp
  · rw [one_apply_ne e] at h; exact absurd rfl h

theorem Hom.cast {A : Matrix T T' F} (hA : Hom deg deg' a A) (e : a = b) : Hom deg deg' b A := e ▸ hA

end hom

/-- a homotopy equivalence with a complex with zero differential -/
structure Contraction {T T' : Type} [Fintype T] [DecidableEq T] [Fintype T'] [DecidableEq T'] (deg : T → Nat) (d : Matrix T T F) (deg' : T' → Nat) where
  p : Matrix T' T F
  i : Matrix T T' F
  h : Matrix T T F
  hp : Hom deg' deg 0 p
  hi : Hom deg deg' 0 i
  hh : Hom deg deg 1 h
  pi : p * i = 1
  eq : d * h + h * d = 1 - i * p
  di : d * i = 0
  pd : p * d = 0

theorem inDeg_mulVec {T T' : Type} [Fintype T'] {deg : T → Nat} {deg' : T' → Nat} {c : ℤ} {A : Matrix T T' F} (hA : Hom deg deg' c A) {n m : Nat} (e : (n : ℤ) = m + c)
    {x : T' → F} (hx : x ∈ inDeg F deg' m) : A *ᵥ x ∈ inDeg F deg n := by
  intro t ht
  apply Finset.sum_eq_zero
  intro u _
  by_cases hu : deg' u = m
  · have : A t u = 0 := by
      by_contra hne
      have := hA t u hne
      omega
    show A t u * x u = 0
    rw [this, zero_mul]
  · show A t u * x u = 0
    rw [hx u hu, mul_zero]

/-- the chains of degree `n` have the dimension of the basis elements of degree `n` -/
theorem finrank_inDeg {T : Type} [Fintype T] (deg : T → Nat) (n : Nat) : finrank F (inDeg F deg n) = Fintype.card {t // deg t = n} := by
  classical
  have e : (inDeg F deg n) ≃ₗ[F] ({t // deg t = n} → F) :=
    { toFun := fun x t => x.1 t.1
      map_add' := fun _ _ => rfl
      map_smul' := fun _ _ => rfl
      invFun := fun y => ⟨fun t => if h : deg t = n then y ⟨t, h⟩ else 0, fun t ht => dif_neg ht⟩
      left_inv := by
        intro x
        ext t
        by_cases h : deg t = n
        · simp [h]
        · simp [h, x.2 t h]
      right_inv := by
        intro y
        ext t
        simp [t.2] }
  rw [e.finrank_eq, finrank_pi]

section
variable {T : Type} [Fintype T] [DecidableEq T] {deg : T → Nat} {d : Matrix T T F}

theorem GradedComplex.hom (h : GradedComplex deg d) : Hom deg deg (-1) d := by
  intro s t hne
  have := h.homog s t hne
  omega

/-- homology from a contraction -/
theorem Contraction.betti {T' : Type} [Fintype T'] [DecidableEq T'] {deg' : T' → Nat} (hd : GradedComplex deg d) (c : Contraction deg d deg') (n : Nat) :
    gBetti deg d n = Fintype.card {t // deg' t = n} := by
  rw [← finrank_inDeg (F := F) deg' n]
  unfold gBetti
  let φ : gCycles deg d n →ₗ[F] inDeg F deg' n :=
    { toFun := fun x => ⟨c.p *ᵥ x.1, inDeg_mulVec c.hp (by simp) x.2.1⟩
      map_add' := fun x y => Subtype.ext (mulVec_add _ _ _)
      map_smul' := fun r x => Subtype.ext (mulVec_smul _ _ _) }
  have hφ : ∀ x, (φ x).1 = c.p *ᵥ x.1 := fun _ => rfl
  have hsurj : Function.Surjective φ := by
    intro y
    refine ⟨⟨c.i *ᵥ y.1, inDeg_mulVec c.hi (by simp) y.2, ?_⟩, ?_⟩
    · show _ ∈ LinearMap.ker _
      rw [LinearMap.mem_ker, mulVecLin_apply, mulVec_mulVec, c.di, zero_mulVec]
    · apply Subtype.ext
      rw [hφ, mulVec_mulVec, c.pi, one_mulVec]
  have hker : LinearMap.ker φ = (gBoundaries deg d n).submoduleOf (gCycles deg d n) := by
    ext x
    rw [LinearMap.mem_ker]
    constructor
    · intro h0
      have h1 : c.p *ᵥ x.1 = 0 := by rw [← hφ, h0]; rfl
      have hdx : d *ᵥ x.1 = 0 := by
        have : x.1 ∈ LinearMap.ker d.mulVecLin := x.2.2
        rwa [LinearMap.mem_ker, mulVecLin_apply] at this
      refine ⟨c.h *ᵥ x.1, inDeg_mulVec c.hh (by push_cast; rfl) x.2.1, ?_⟩
      have := congrArg (fun M => M *ᵥ x.1) c.eq
      simp only [add_mulVec, sub_mulVec, ← mulVec_mulVec, hdx, h1, mulVec_zero, one_mulVec, add_zero, sub_zero] at this
      exact this
    · rintro ⟨y, hy, e⟩
      apply Subtype.ext
      rw [hφ]
      have e' : d *ᵥ y = x.1 := e
      rw [← e', mulVec_mulVec, c.pd, zero_mulVec]; rfl
  rw [← hker]
  exact (φ.quotKerEquivOfSurjective hsurj).finrank_eq

/-! ### existence of a contraction -/

theorem exists_ginv (d : Matrix T T F) : ∃ g : Matrix T T F, d * g * d = d := by
  obtain ⟨s, hs⟩ := LinearMap.exists_rightInverse_of_surjective d.mulVecLin.rangeRestrict (LinearMap.range_rangeRestrict _)
  obtain ⟨q, hq⟩ := LinearMap.exists_leftInverse_of_injective (LinearMap.range d.mulVecLin).subtype (Submodule.ker_subtype _)
  refine ⟨LinearMap.toMatrix' (s ∘ₗ q), ?_⟩
  apply Matrix.ext_of_mulVec_single
  intro j
  rw [← mulVec_mulVec, ← mulVec_mulVec]
  rw [LinearMap.toMatrix'_mulVec]
  have h1 : q (d *ᵥ Pi.single j 1) = ⟨d *ᵥ Pi.single j 1, ⟨Pi.single j 1, rfl⟩⟩ := by
    have := LinearMap.congr_fun hq ⟨d *ᵥ Pi.single j 1, ⟨Pi.single j 1, rfl⟩⟩
    exact this
  have h2 := LinearMap.congr_fun hs ⟨d *ᵥ Pi.single j 1, ⟨Pi.single j 1, rfl⟩⟩
  rw [LinearMap.comp_apply, h1]
  have := congrArg Subtype.val h2
  exact this

theorem exists_graded_ginv (hd : GradedComplex deg d) : ∃ g : Matrix T T F, Hom deg deg 1 g ∧ d * g * d = d := by
  obtain ⟨g, hg⟩ := exists_ginv d
  refine ⟨Matrix.of fun s t => if deg s = deg t + 1 then g s t else 0, ?_, ?_⟩
  · intro s t h
    by_cases e : deg s = deg t + 1
    · omega
    · rw [of_apply, if_neg e] at h; exact absurd rfl h
  · conv_rhs => rw [← hg]
    ext s t
    rw [mul_apply, mul_apply]
    by_cases hst : deg t = deg s + 1
    · apply Finset.sum_congr rfl
      intro v _
      by_cases hv : d v t = 0
      · rw [hv, mul_zero, mul_zero]
      · congr 1
        rw [mul_apply, mul_apply]
        apply Finset.sum_congr rfl
        intro u _
        by_cases hu : d s u = 0
        · rw [hu, zero_mul, zero_mul]
        · have := hd.homog _ _ hv
          have := hd.homog _ _ hu
          rw [of_apply, if_pos (by omega)]
    · have hgs : ∑ j, (d * g) s j * d j t = d s t := by
        have := congrFun (congrFun hg s) t
        rwa [mul_apply] at this
      rw [hgs]
      have : d s t = 0 := by
        by_contra hne; exact hst (hd.homog _ _ hne)
      rw [this]
      apply Finset.sum_eq_zero
      intro v _
      by_cases hv : d v t = 0
      · rw [hv, mul_zero]
      · rw [mul_apply, Finset.sum_eq_zero, zero_mul]
        intro u _
        by_cases hu : d s u = 0
        · rw [hu, zero_mul]
        · have := hd.homog _ _ hv
          have := hd.homog _ _ hu
          rw [of_apply, if_neg (by omega), mul_zero]

theorem ring_split {R : Type} [Ring R] {d h : R} (h2 : d * d = 0) (hd : d * h * d = d) :
    ∃ k, (k = h * d * h * (1 - h * d)) ∧ d * (1 - d * k - k * d) = 0 ∧ (1 - d * k - k * d) * d = 0 ∧ (1 - d * k - k * d) * (1 - d * k - k * d) = 1 - d * k - k * d := by
  refine ⟨_, rfl, ?_⟩
  obtain ⟨k, hk⟩ : ∃ k, k = h * d * h * (1 - h * d) := ⟨_, rfl⟩
  rw [← hk]
  have e1 : d * k = d * h * (1 - h * d) := by
    rw [hk]
    calc d * (h * d * h * (1 - h * d)) = (d * h * d) * h * (1 - h * d) := by noncomm_ring
      _ = _ := by rw [hd]
  have e2 : k * d = h * d := by
    rw [hk]
    calc h * d * h * (1 - h * d) * d = h * (d * h * d) - h * d * h * h * (d * d) := by noncomm_ring
      _ = _ := by rw [hd, h2, mul_zero, sub_zero]
  have a1 : d * (1 - d * k - k * d) = 0 := by
    calc d * (1 - d * k - k * d) = d - d * d * k - d * (k * d) := by noncomm_ring
      _ = 0 := by rw [h2, e2, ← mul_assoc, hd]; simp
  have a2 : (1 - d * k - k * d) * d = 0 := by
    calc (1 - d * k - k * d) * d = d - d * (k * d) - k * (d * d) := by noncomm_ring
      _ = 0 := by rw [h2, e2, ← mul_assoc, hd]; simp
  refine ⟨a1, a2, ?_⟩
  have a3 : (1 - d * k - k * d) * (k * d) = 0 := by
    rw [e1, e2]
    calc (1 - d * h * (1 - h * d) - h * d) * (h * d) = h * d - d * h * h * d + d * h * h * (d * h * d) - h * (d * h * d) := by noncomm_ring
      _ = 0 := by rw [hd]; simp
  calc (1 - d * k - k * d) * (1 - d * k - k * d) = (1 - d * k - k * d) - (1 - d * k - k * d) * d * k - (1 - d * k - k * d) * (k * d) := by noncomm_ring
    _ = _ := by rw [a2, a3]; simp

/-- factorisation of a graded idempotent -/
theorem exists_factor {π : Matrix T T F} (hπ : Hom deg deg 0 π) (hid : π * π = π) :
    ∃ (T' : Type) (_ : Fintype T') (_ : DecidableEq T') (deg' : T' → Nat) (p : Matrix T' T F) (i : Matrix T T' F), Hom deg' deg 0 p ∧ Hom deg deg' 0 i ∧
      p * i = 1 ∧ i * p = π ∧ (∀ (U : Type) [Fintype U] (M : Matrix T' U F), i * M = 0 → M = 0) ∧ ∃ a : T' → T, ∀ t s, i t s = π t (a s) := by
  classical
  obtain ⟨κ, a, ha, hsp, hli⟩ := exists_linearIndependent' F (fun t : T => (fun s => π s t : T → F))
  have : Fintype κ := Fintype.ofInjective a ha
  have hco : ∀ t, ∃ c : κ → F, ∑ s, c s • (fun u => π u (a s)) = fun u => π u t := by
    intro t
    have : (fun u => π u t) ∈ Submodule.span F (Set.range ((fun t : T => (fun s => π s t : T → F)) ∘ a)) := by
      rw [hsp]; exact Submodule.subset_span ⟨t, rfl⟩
    rw [Submodule.mem_span_range_iff_exists_fun] at this
    exact this
  choose c hc using hco
  have hc' : ∀ t u, ∑ s, c t s * π u (a s) = π u t := by
    intro t u
    have := congrFun (hc t) u
    simpa using this
  let i : Matrix T κ F := Matrix.of fun t s => π t (a s)
  let p : Matrix κ T F := Matrix.of fun s t => if deg (a s) = deg t then c t s else 0
  have hi : Hom deg (fun s => deg (a s)) 0 i := fun t s h => hπ t (a s) h
  have hp : Hom (fun s => deg (a s)) deg 0 p := by
    intro s t h
    by_cases e : deg (a s) = deg t
    · show ((deg (a s) : Nat) : ℤ) = _; omega
    · exfalso; apply h; show (if deg (a s) = deg t then c t s else 0) = 0; rw [if_neg e]
  have hip : i * p = π := by
    ext u t
    rw [mul_apply]
    show ∑ s, π u (a s) * (if deg (a s) = deg t then c t s else 0) = π u t
    by_cases hut : deg u = deg t
    · rw [← hc' t u]
      apply Finset.sum_congr rfl
      intro s _
      by_cases h0 : π u (a s) = 0
      · rw [h0, zero_mul, mul_zero]
      · have := hπ _ _ h0
        rw [if_pos (by omega), mul_comm]
    · have : π u t = 0 := by
        by_contra hne
        have := hπ _ _ hne
        omega
      rw [this]
      apply Finset.sum_eq_zero
      intro s _
      by_cases h0 : π u (a s) = 0
      · rw [h0, zero_mul]
      · have := hπ _ _ h0
        rw [if_neg (by omega), mul_zero]
  have hinj : ∀ (U : Type) [Fintype U] (M : Matrix κ U F), i * M = 0 → M = 0 := by
    intro U _ M hM
    ext s u
    rw [Fintype.linearIndependent_iff] at hli
    refine hli (fun s => M s u) ?_ s
    ext t
    have := congrFun (congrFun hM t) u
    rw [mul_apply] at this
    simp only [Finset.sum_apply, Pi.smul_apply, Function.comp_apply, smul_eq_mul, Pi.zero_apply]
    rw [← show ∑ j, i t j * M j u = 0 from this]
    apply Finset.sum_congr rfl
    intro s _
    rw [mul_comm]; rfl
  have hπi : π * i = i := by
    ext u s
    rw [mul_apply]
    have := congrFun (congrFun hid u) (a s)
    rw [mul_apply] at this
    exact this
  refine ⟨κ, inferInstance, inferInstance, fun s => deg (a s), p, i, hp, hi, ?_, hip, hinj, a, fun _ _ => rfl⟩
  have : i * (p * i - 1) = 0 := by rw [Matrix.mul_sub, ← Matrix.mul_assoc, hip, hπi, Matrix.mul_one, sub_self]
  exact sub_eq_zero.1 (hinj κ _ this)

theorem GradedComplex.exists_contraction (hd : GradedComplex deg d) :
    ∃ (T' : Type) (_ : Fintype T') (_ : DecidableEq T') (deg' : T' → Nat), Nonempty (Contraction deg d deg') := by
  obtain ⟨g, g1, g2⟩ := exists_graded_ginv hd
  obtain ⟨k, hk, k1, k2, k3⟩ := ring_split hd.sq g2
  have hgd : Hom deg deg 0 (g * d) := (g1.mul hd.hom).cast (by norm_num)
  have hk1 : Hom deg deg 1 k := by
    rw [hk]
    exact (((hgd.mul g1).mul (Hom.one.sub hgd))).cast (by norm_num)
  have hπ : Hom deg deg 0 (1 - d * k - k * d) :=
    (Hom.one.sub ((hd.hom.mul hk1).cast (by norm_num))).sub ((hk1.mul hd.hom).cast (by norm_num))
  obtain ⟨T', i1, i2, deg', p, i, h1, h2, h3, h4, h5, a, h6⟩ := exists_factor hπ k3
  refine ⟨T', i1, i2, deg', ⟨⟨p, i, k, h1, h2, hk1, h3, by rw [h4]; abel, ?_, ?_⟩⟩⟩
  · ext s t
    rw [mul_apply]
    have := congrFun (congrFun k1 s) (a t)
    rw [mul_apply] at this
    simp only [h6]
    exact this
  · apply h5
    rw [← Matrix.mul_assoc, h4, k2]

end
end BATS
