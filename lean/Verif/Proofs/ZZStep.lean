import Verif.Proofs.ZZBars
import Verif.Proofs.ZZLevel
import Verif.Proofs.FactLEUP4

set_option linter.unusedSectionVars false
set_option linter.unusedSimpArgs false
set_option linter.unusedVariables false

/-! # Zigzag: extending an interval decomposition over one arrow -/

namespace BATS
namespace Zigzag
open Reduction Matrix BATS.Fact

variable {F : Type} [Field F] [DecidableEq F]

/-! ### moving triangular matrices through a pivot matrix -/

/-- nonzero pattern as a 0/1 matrix -/
noncomputable def pat {m n : Nat} (E : Matrix (Fin m) (Fin n) F) : Matrix (Fin m) (Fin n) F := by
  classical exact Matrix.of fun i j => if E i j ≠ 0 then 1 else 0

theorem pat_ne {m n : Nat} {E : Matrix (Fin m) (Fin n) F} {i : Fin m} {j : Fin n} (h : E i j ≠ 0) : pat E i j = 1 := by
  unfold pat; simp [h]

theorem pat_eq {m n : Nat} {E : Matrix (Fin m) (Fin n) F} {i : Fin m} {j : Fin n} (h : E i j = 0) : pat E i j = 0 := by
  unfold pat; simp [h]

theorem mul_pat {l m n : Nat} {E : Matrix (Fin m) (Fin n) F} (hE : Monomial E) (W : Matrix (Fin l) (Fin m) F) {i : Fin l} {k : Fin m} {j : Fin n} (h : E k j ≠ 0) :
    (W * pat E) i j = W i k := by
  rw [Matrix.mul_apply, Finset.sum_eq_single k]
  · rw [pat_ne h, mul_one]
  · intro k' _ hk
    rw [pat_eq, mul_zero]
    by_contra hh
    exact hk (hE.2 k' k j hh h)
  · intro hh; exact absurd (Finset.mem_univ _) hh

theorem mul_pat_zero {l m n : Nat} {E : Matrix (Fin m) (Fin n) F} (W : Matrix (Fin l) (Fin m) F) {i : Fin l} {j : Fin n} (h : ∀ k, E k j = 0) :
    (W * pat E) i j = 0 := by
  rw [Matrix.mul_apply]
  exact Finset.sum_eq_zero (fun k _ => by rw [pat_eq (h k), mul_zero])

theorem mono_mul {l m n : Nat} {E : Matrix (Fin m) (Fin n) F} (hE : Monomial E) (T : Matrix (Fin n) (Fin l) F) {i : Fin m} {k : Fin n} (h : E i k ≠ 0) (j : Fin l) :
    (E * T) i j = E i k * T k j := by
  rw [Matrix.mul_apply, Finset.sum_eq_single k]
  · intro k' _ hk
    have : E i k' = 0 := by
      by_contra hh
      exact hk (hE.1 i k' k hh h)
    rw [this, zero_mul]
  · intro hh; exact absurd (Finset.mem_univ _) hh

theorem mono_mul_zero {l m n : Nat} {E : Matrix (Fin m) (Fin n) F} (T : Matrix (Fin n) (Fin l) F) {i : Fin m} (h : ∀ k, E i k = 0) (j : Fin l) :
    (E * T) i j = 0 := by
  rw [Matrix.mul_apply]
  exact Finset.sum_eq_zero (fun k _ => by rw [h k, zero_mul])

theorem commute_right {m n : Nat} {E : Matrix (Fin m) (Fin n) F} (hE : ShapeEU E) {W : Matrix (Fin m) (Fin m) F} (hW : UpperInv W) :
    ∃ T : Matrix (Fin n) (Fin n) F, UpperInv T ∧ E * T = W * pat E := by
  classical
  have hT : ∃ T : Matrix (Fin n) (Fin n) F, (∀ i r, E i r ≠ 0 → ∀ c, T r c = (W * pat E) i c / E i r) ∧ ∀ r, (∀ i, E i r = 0) → ∀ c, T r c = if r = c then 1 else 0 := by
    refine ⟨Matrix.of fun r c => if h : ∃ i, E i r ≠ 0 then (W * pat E) h.choose c / E h.choose r else if r = c then 1 else 0, ?_, ?_⟩
    · intro i r hir c
      have hex : ∃ i, E i r ≠ 0 := ⟨i, hir⟩
      have : hex.choose = i := hE.1.2 _ _ r hex.choose_spec hir
      rw [Matrix.of_apply, dif_pos hex, this]
    · intro r hr c
      have hex : ¬ ∃ i, E i r ≠ 0 := fun ⟨i, hi⟩ => hi (hr i)
      rw [Matrix.of_apply, dif_neg hex]
  obtain ⟨T, t1, t2⟩ := hT
  have hcol : ∀ c, (∃ i, E i c ≠ 0) ∨ ∀ i, E i c = 0 := by
    intro c
    by_cases h : ∃ i, E i c ≠ 0
    · exact Or.inl h
    · right; intro i; by_contra hh; exact h ⟨i, hh⟩
  refine ⟨T, ⟨?_, ?_⟩, ?_⟩
  · intro r c hcr
    rcases hcol r with ⟨i, hi⟩ | hr
    · rw [t1 i r hi]
      rcases hcol c with ⟨i', hi'⟩ | hc
      · rw [mul_pat hE.1 W hi']
        have : W i i' = 0 := by
          apply hW.1
          by_contra hh
          rcases lt_or_eq_of_le (not_lt.1 hh) with h1 | h1
          · obtain ⟨j, hj, hj'⟩ := hE.2 i i' c h1 hi'
            have := hE.1.1 i j r hj' hi
            rw [this] at hj; exact absurd hj (not_lt.2 (le_of_lt hcr))
          · rw [← h1] at hi'
            have := hE.1.1 i r c hi hi'
            rw [this] at hcr; exact lt_irrefl _ hcr
        rw [this, zero_div]
      · rw [mul_pat_zero W hc, zero_div]
    · rw [t2 r hr, if_neg (ne_of_gt hcr)]
  · intro r
    rcases hcol r with ⟨i, hi⟩ | hr
    · rw [t1 i r hi, mul_pat hE.1 W hi]
      exact div_ne_zero (hW.2 i) hi
    · rw [t2 r hr, if_pos rfl]; exact one_ne_zero
  · ext i c
    by_cases h : ∃ k, E i k ≠ 0
    · obtain ⟨k, hk⟩ := h
      rw [mono_mul hE.1 T hk, t1 i k hk, mul_div_cancel₀ _ hk]
    · have h0 : ∀ k, E i k = 0 := by intro k; by_contra hh; exact h ⟨k, hh⟩
      rw [mono_mul_zero T h0]
      rcases hcol c with ⟨i', hi'⟩ | hc
      · rw [mul_pat hE.1 W hi']
        symm; apply hW.1
        by_contra hh
        rcases lt_or_eq_of_le (not_lt.1 hh) with h1 | h1
        · obtain ⟨j, _, hj'⟩ := hE.2 i i' c h1 hi'
          exact hj' (h0 j)
        · rw [← h1] at hi'; exact hi' (h0 c)
      · rw [mul_pat_zero W hc]

theorem commute_left {m n : Nat} {E : Matrix (Fin m) (Fin n) F} (hE : ShapeEUhat E) {W : Matrix (Fin n) (Fin n) F} (hW : UpperInv W) :
    ∃ T : Matrix (Fin m) (Fin m) F, UpperInv T ∧ T * pat E = E * W := by
  classical
  have hT : ∃ T : Matrix (Fin m) (Fin m) F, (∀ c j, E c j ≠ 0 → ∀ r, T r c = (E * W) r j) ∧ ∀ c, (∀ j, E c j = 0) → ∀ r, T r c = if r = c then 1 else 0 := by
    refine ⟨Matrix.of fun r c => if h : ∃ j, E c j ≠ 0 then (E * W) r h.choose else if r = c then 1 else 0, ?_, ?_⟩
    · intro c j hcj r
      have hex : ∃ j, E c j ≠ 0 := ⟨j, hcj⟩
      have : hex.choose = j := hE.1.1 c _ _ hex.choose_spec hcj
      rw [Matrix.of_apply, dif_pos hex, this]
    · intro c hc r
      have hex : ¬ ∃ j, E c j ≠ 0 := fun ⟨j, hj⟩ => hj (hc j)
      rw [Matrix.of_apply, dif_neg hex]
  obtain ⟨T, t1, t2⟩ := hT
  have hrow : ∀ c, (∃ j, E c j ≠ 0) ∨ ∀ j, E c j = 0 := by
    intro c
    by_cases h : ∃ j, E c j ≠ 0
    · exact Or.inl h
    · right; intro j; by_contra hh; exact h ⟨j, hh⟩
  refine ⟨T, ⟨?_, ?_⟩, ?_⟩
  · intro r c hcr
    rcases hrow c with ⟨j, hj⟩ | hc
    · rw [t1 c j hj]
      rcases hrow r with ⟨k, hk⟩ | hr
      · rw [mono_mul hE.1 W hk]
        have : W k j = 0 := by
          apply hW.1
          by_contra hh
          rcases lt_or_eq_of_le (not_lt.1 hh) with h1 | h1
          · obtain ⟨i', hi', hi2⟩ := hE.2 k j r h1 hk
            have := hE.1.2 i' c j hi2 hj
            rw [this] at hi'; exact absurd hi' (not_lt.2 (le_of_lt hcr))
          · rw [h1] at hk
            have := hE.1.2 r c j hk hj
            rw [this] at hcr; exact lt_irrefl _ hcr
        rw [this, mul_zero]
      · exact mono_mul_zero W hr j
    · rw [t2 c hc, if_neg (ne_of_gt hcr)]
  · intro c
    rcases hrow c with ⟨j, hj⟩ | hc
    · rw [t1 c j hj, mono_mul hE.1 W hj]
      exact mul_ne_zero hj (hW.2 j)
    · rw [t2 c hc, if_pos rfl]; exact one_ne_zero
  · ext r j
    by_cases h : ∃ c, E c j ≠ 0
    · obtain ⟨c, hc⟩ := h
      rw [mul_pat hE.1 T hc, t1 c j hc]
    · have h0 : ∀ c, E c j = 0 := by intro c; by_contra hh; exact h ⟨c, hh⟩
      rw [mul_pat_zero T h0]
      rcases hrow r with ⟨k, hk⟩ | hr
      · rw [mono_mul hE.1 W hk]
        have : W k j = 0 := by
          apply hW.1
          by_contra hh
          rcases lt_or_eq_of_le (not_lt.1 hh) with h1 | h1
          · obtain ⟨i', _, hi2⟩ := hE.2 k j r h1 hk
            exact hi2 (h0 i')
          · rw [h1] at hk; exact hk (h0 r)
        rw [this, mul_zero]
      · rw [mono_mul_zero W hr]

/-! ### decompositions -/

section
variable {d : Nat} {Z W : Nat → Submodule F (Fin d → F)} {dir : Nat → Bool} {N : Nat} {iv iv' : List Bar}

/-- adding one space at the end of a zigzag -/
theorem Decomposes.extend {v : Nat → Nat → Fin d → F} (h : Decomposes Z W dir N iv v) (hsame : ∀ i, i ≤ N → alive iv' i = alive iv i) (u : Nat → Fin d → F)
    (hmem : ∀ b ∈ alive iv' (N + 1), u b ∈ Z (N + 1)) (hspan : ∀ z ∈ Z (N + 1), ∃ c : Nat → F, z - ∑ b ∈ alive iv' (N + 1), c b • u b ∈ W (N + 1))
    (hind : ∀ c : Nat → F, ∑ b ∈ alive iv' (N + 1), c b • u b ∈ W (N + 1) → ∀ b ∈ alive iv' (N + 1), c b = 0)
    (hr : dir N = true → ∀ b ∈ alive iv N, v N b - (if b ∈ alive iv' (N + 1) then u b else 0) ∈ W (N + 1))
    (hl : dir N = false → ∀ b ∈ alive iv' (N + 1), u b - (if b ∈ alive iv N then v N b else 0) ∈ W N) :
    Decomposes Z W dir (N + 1) iv' (fun i => if i = N + 1 then u else v i) := by
  refine ⟨?_, ?_, ?_, ?_, ?_⟩
  · intro i hi
    by_cases e : i = N + 1
    · subst e; simp only [if_true]; exact hmem
    · simp only [if_neg e]; rw [hsame i (by omega)]; exact h.mem i (by omega)
  · intro i hi
    by_cases e : i = N + 1
    · subst e; simp only [if_true]; exact hspan
    · simp only [if_neg e]; rw [hsame i (by omega)]; exact h.span i (by omega)
  · intro i hi
    by_cases e : i = N + 1
    · subst e; simp only [if_true]; exact hind
    · simp only [if_neg e]; rw [hsame i (by omega)]; exact h.indep i (by omega)
  · intro i hi hd
    have e : i ≠ N + 1 := by omega
    by_cases e2 : i = N
    · subst e2
      simp only [if_neg e, if_true]
      rw [hsame i (le_refl _)]; exact hr hd
    · have e3 : i + 1 ≠ N + 1 := by omega
      simp only [if_neg e, if_neg e3]
      rw [hsame i (by omega), hsame (i + 1) (by omega)]
      exact h.right i (by omega) hd
  · intro i hi hd
    have e : i ≠ N + 1 := by omega
    by_cases e2 : i = N
    · subst e2
      simp only [if_neg e, if_true]
      rw [hsame i (le_refl _)]; exact hl hd
    · have e3 : i + 1 ≠ N + 1 := by omega
      simp only [if_neg e, if_neg e3]
      rw [hsame i (by omega), hsame (i + 1) (by omega)]
      exact h.left i (by omega) hd

/-- sums over the bars which are alive -/
theorem sum_alive {A : Finset Nat} {n : Nat} {β : Nat → Nat} (hal : ∀ b, b ∈ A ↔ ∃ a, a < n ∧ β a = b) (hinj : ∀ a a', a < n → a' < n → β a = β a' → a = a')
    {V : Type} [AddCommMonoid V] (f : Nat → V) : ∑ b ∈ A, f b = ∑ a : Fin n, f (β a) := by
  symm
  apply Finset.sum_bij (fun (a : Fin n) _ => β a)
  · intro a _; exact (hal _).2 ⟨a, a.2, rfl⟩
  · intro a _ a' _ e; exact Fin.ext (hinj a a' a.2 a'.2 e)
  · intro b hb
    obtain ⟨a, ha, e⟩ := (hal b).1 hb
    exact ⟨⟨a, ha⟩, Finset.mem_univ _, e⟩
  · intro a _; rfl

/-- the generators after an invertible change of basis, attached to the bars -/
theorem alive_basis {Z W : Submodule F (Fin d → F)} {n : Nat} {gens : Fin n → Fin d → F} (hG : GensBasis Z W gens) {C D : Matrix (Fin n) (Fin n) F} (hCD : C * D = 1)
    {A : Finset Nat} {β : Nat → Nat} (hal : ∀ b, b ∈ A ↔ ∃ a, a < n ∧ β a = b) (hinj : ∀ a a', a < n → a' < n → β a = β a' → a = a') {u : Nat → Fin d → F}
    (hu : ∀ a : Fin n, u (β a) = ∑ g, C g a • gens g) :
    (∀ b ∈ A, u b ∈ Z) ∧ (∀ z ∈ Z, ∃ c : Nat → F, z - ∑ b ∈ A, c b • u b ∈ W) ∧ ∀ c : Nat → F, ∑ b ∈ A, c b • u b ∈ W → ∀ b ∈ A, c b = 0 := by
  classical
  have hsum : ∀ c : Nat → F, ∑ b ∈ A, c b • u b = ∑ g, (C *ᵥ fun a : Fin n => c (β a)) g • gens g := by
    intro c
    rw [sum_alive hal hinj]
    simp only [hu, Finset.smul_sum, smul_smul, Matrix.mulVec, dotProduct, Finset.sum_smul]
    rw [Finset.sum_comm]
    refine Finset.sum_congr rfl (fun g _ => Finset.sum_congr rfl (fun a _ => ?_))
    rw [mul_comm]
  refine ⟨?_, ?_, ?_⟩
  · intro b hb
    obtain ⟨a, ha, rfl⟩ := (hal b).1 hb
    rw [hu ⟨a, ha⟩]
    exact Z.sum_mem (fun g _ => Z.smul_mem _ (hG.mem g))
  · intro z hz
    obtain ⟨c, hc⟩ := hG.span z hz
    have hex : ∃ c' : Nat → F, ∀ a : Fin n, c' (β a) = (D *ᵥ c) a := by
      refine ⟨fun b => if h : ∃ a : Fin n, β a = b then (D *ᵥ c) h.choose else 0, ?_⟩
      intro a
      have h : ∃ a' : Fin n, β a' = β a := ⟨a, rfl⟩
      have : h.choose = a := Fin.ext (hinj _ _ h.choose.2 a.2 h.choose_spec)
      show (if h : ∃ a' : Fin n, β a' = β a then (D *ᵥ c) h.choose else 0) = _
      rw [dif_pos h, this]
    obtain ⟨c', hc'⟩ := hex
    refine ⟨c', ?_⟩
    rw [hsum]
    have : (C *ᵥ fun a : Fin n => c' (β a)) = c := by
      have e : (fun a : Fin n => c' (β a)) = D *ᵥ c := funext hc'
      rw [e, Matrix.mulVec_mulVec, hCD, Matrix.one_mulVec]
    rw [this]; exact hc
  · intro c hc b hb
    rw [hsum] at hc
    have h0 := hG.indep _ hc
    obtain ⟨a, ha, rfl⟩ := (hal b).1 hb
    have h1 : D *ᵥ (C *ᵥ fun a : Fin n => c (β a)) = 0 := by rw [h0, Matrix.mulVec_zero]
    rw [Matrix.mulVec_mulVec, mul_eq_one_comm.1 hCD, Matrix.one_mulVec] at h1
    exact congrFun h1 ⟨a, ha⟩

/-- the zigzag up to time `N` decomposes with prescribed vectors at the last time, for every upper triangular change of basis -/
def Fam (Z W : Nat → Submodule F (Fin d → F)) (dir : Nat → Bool) (N : Nat) (iv : List Bar) {n : Nat} (gens : Fin n → Fin d → F) (C : Matrix (Fin n) (Fin n) F) (β : Nat → Nat) : Prop :=
  ∀ X : Matrix (Fin n) (Fin n) F, UpperInv X → ∃ v, Decomposes Z W dir N iv v ∧ ∀ a : Fin n, v N (β a) = ∑ g, (C * X) g a • gens g

/-- the bars before and after an arrow; `Q t r ≠ 0`: position `t` afterwards continues position `r` -/
structure Trans {n n' : Nat} (Q : Matrix (Fin n') (Fin n) F) (N : Nat) (iv iv' : List Bar) (β β' : Nat → Nat) : Prop where
  same : ∀ i, i ≤ N → alive iv' i = alive iv i
  alive0 : ∀ b, b ∈ alive iv N ↔ ∃ a, a < n ∧ β a = b
  inj0 : ∀ a a', a < n → a' < n → β a = β a' → a = a'
  alive1 : ∀ b, b ∈ alive iv' (N + 1) ↔ ∃ a, a < n' ∧ β' a = b
  inj1 : ∀ a a', a < n' → a' < n' → β' a = β' a' → a = a'
  old : ∀ (t : Fin n') (r : Fin n), Q t r ≠ 0 → β' t = β r
  new : ∀ t : Fin n', (∀ r, Q t r = 0) → β' t ∉ alive iv N

variable {n n' : Nat} {β β' : Nat → Nat}

theorem Trans.back {Q : Matrix (Fin n') (Fin n) F} (h : Trans Q N iv iv' β β') {t : Fin n'} (ht : β' t ∈ alive iv N) : ∃ r, Q t r ≠ 0 ∧ β' t = β r := by
  by_cases hh : ∃ r, Q t r ≠ 0
  · obtain ⟨r, hr⟩ := hh; exact ⟨r, hr, h.old t r hr⟩
  · exact absurd ht (h.new t (by intro r; by_contra h2; exact hh ⟨r, h2⟩))

theorem Trans.fwd {Q : Matrix (Fin n') (Fin n) F} (h : Trans Q N iv iv' β β') {r : Fin n} (hr : β r ∈ alive iv' (N + 1)) : ∃ t, Q t r ≠ 0 ∧ β' t = β r := by
  obtain ⟨t, ht, e⟩ := (h.alive1 _).1 hr
  obtain ⟨r', h1, h2⟩ := h.back (t := ⟨t, ht⟩) (by show β' t ∈ _; rw [e]; exact (h.alive0 _).2 ⟨r, r.2, rfl⟩)
  have : r' = r := Fin.ext (h.inj0 _ _ r'.2 r.2 (by rw [← h2]; exact e))
  subst this
  exact ⟨_, h1, h2⟩

theorem upper_inv_exists {n : Nat} {X : Matrix (Fin n) (Fin n) F} (h : UpperInv X) : ∃ Y, X * Y = 1 := by
  classical
  obtain ⟨u, hu⟩ := h.isUnit
  exact ⟨↑u⁻¹, by rw [← hu]; exact u.mul_inv⟩

theorem combine {d n n' : Nat} {W : Submodule F (Fin d → F)} {gens : Fin n → Fin d → F} {gens' : Fin n' → Fin d → F} {A : Matrix (Fin n') (Fin n) F}
    (hA : ∀ a, gens a - ∑ b, A b a • gens' b ∈ W) (y : Fin n → F) : ∑ g, y g • gens g - ∑ b, (A *ᵥ y) b • gens' b ∈ W := by
  have : ∑ g, y g • gens g - ∑ b, (A *ᵥ y) b • gens' b = ∑ g, y g • (gens g - ∑ b, A b g • gens' b) := by
    simp only [smul_sub, Finset.sum_sub_distrib, Finset.smul_sum, smul_smul, Matrix.mulVec, dotProduct, Finset.sum_smul]
    congr 1
    rw [Finset.sum_comm]
    refine Finset.sum_congr rfl (fun g _ => Finset.sum_congr rfl (fun a _ => ?_))
    rw [mul_comm]
  rw [this]
  exact W.sum_mem (fun g _ => W.smul_mem _ (hA g))

theorem attach (hinj : ∀ a a', a < n' → a' < n' → β' a = β' a' → a = a') (f : Fin n' → Fin d → F) : ∃ u : Nat → Fin d → F, ∀ a : Fin n', u (β' a) = f a := by
  classical
  refine ⟨fun b => if h : ∃ a : Fin n', β' a = b then f h.choose else 0, ?_⟩
  intro a
  have h : ∃ a' : Fin n', β' a' = β' a := ⟨a, rfl⟩
  have : h.choose = a := Fin.ext (hinj _ _ h.choose.2 a.2 h.choose_spec)
  show (if h : ∃ a' : Fin n', β' a' = β' a then f h.choose else 0) = _
  rw [dif_pos h, this]

/-- a step to the right -/
theorem fam_entry {gens : Fin n → Fin d → F} {gens' : Fin n' → Fin d → F} {C U : Matrix (Fin n) (Fin n) F} {C' D' : Matrix (Fin n') (Fin n') F} {E A : Matrix (Fin n') (Fin n) F}
    (hf : Fam Z W dir N iv gens C β) (hdir : dir N = true) (hG : GensBasis (Z (N + 1)) (W (N + 1)) gens') (hA : ∀ a, gens a - ∑ b, A b a • gens' b ∈ W (N + 1))
    (hAC : A * C = C' * E * U) (hE : ShapeEU E) (hU : UpperInv U) (hC' : C' * D' = 1) (hT : Trans E N iv iv' β β') : Fam Z W dir (N + 1) iv' gens' C' β' := by
  intro X hX
  obtain ⟨T, t1, t2⟩ := commute_right hE hX
  obtain ⟨Ui, hUi⟩ := upper_inv_exists hU
  obtain ⟨Xi, hXi⟩ := upper_inv_exists hX
  obtain ⟨v, hv, hvN⟩ := hf (Ui * T) (UpperInv.mul (UpperInv.inverse hU hUi) t1)
  obtain ⟨u, hu⟩ := attach hT.inj1 (fun a => ∑ g, (C' * X) g a • gens' g)
  obtain ⟨b1, b2, b3⟩ := alive_basis hG (C := C' * X) (D := Xi * D') (by rw [Matrix.mul_assoc, ← Matrix.mul_assoc X, hXi, Matrix.one_mul, hC']) hT.alive1 hT.inj1 hu
  refine ⟨_, hv.extend hT.same u b1 b2 b3 ?_ ?_, fun a => by rw [if_pos rfl]; exact hu a⟩
  · intro _ b hb
    obtain ⟨a, ha, rfl⟩ := (hT.alive0 b).1 hb
    have key : A * (C * (Ui * T)) = C' * X * pat E := by
      rw [← Matrix.mul_assoc, hAC, Matrix.mul_assoc (C' * E), ← Matrix.mul_assoc U, hUi, Matrix.one_mul, Matrix.mul_assoc, t2, Matrix.mul_assoc]
    have hcomb := combine hA (fun g => (C * (Ui * T)) g ⟨a, ha⟩)
    have hvec : (A *ᵥ fun g => (C * (Ui * T)) g ⟨a, ha⟩) = fun b => (C' * X * pat E) b ⟨a, ha⟩ := by rw [← key]; rfl
    rw [hvec, ← hvN ⟨a, ha⟩] at hcomb
    have : (if β a ∈ alive iv' (N + 1) then u (β a) else 0) = ∑ b, (C' * X * pat E) b ⟨a, ha⟩ • gens' b := by
      by_cases h : β a ∈ alive iv' (N + 1)
      · obtain ⟨t, h1, h2⟩ := hT.fwd (r := ⟨a, ha⟩) h
        have h2 : β' t = β a := h2
        rw [if_pos h, ← h2, hu t]
        exact Finset.sum_congr rfl (fun b _ => by rw [mul_pat hE.1 _ h1])
      · rw [if_neg h]
        symm
        apply Finset.sum_eq_zero
        intro b _
        rw [mul_pat_zero, zero_smul]
        intro t
        by_contra h3
        apply h
        rw [hT.alive1]
        exact ⟨t, t.2, hT.old t ⟨a, ha⟩ h3⟩
    rw [this]; exact hcomb
  · intro h; rw [hdir] at h; cases h

/-- a step to the left -/
theorem fam_exit {gens : Fin n → Fin d → F} {gens' : Fin n' → Fin d → F} {C D U : Matrix (Fin n) (Fin n) F} {C' D' : Matrix (Fin n') (Fin n') F} {E A : Matrix (Fin n) (Fin n') F}
    (hf : Fam Z W dir N iv gens C β) (hdir : dir N = false) (hG : GensBasis (Z (N + 1)) (W (N + 1)) gens') (hA : ∀ a, gens' a - ∑ b, A b a • gens b ∈ W N)
    (hCD : C * D = 1) (hDA : D * A = U * E * D') (hE : ShapeEUhat E) (hU : UpperInv U) (hC' : C' * D' = 1) (hT : Trans Eᵀ N iv iv' β β') :
    Fam Z W dir (N + 1) iv' gens' C' β' := by
  intro X hX
  obtain ⟨T, t1, t2⟩ := commute_left hE hX
  obtain ⟨Xi, hXi⟩ := upper_inv_exists hX
  obtain ⟨v, hv, hvN⟩ := hf (U * T) (UpperInv.mul hU t1)
  obtain ⟨u, hu⟩ := attach hT.inj1 (fun a => ∑ g, (C' * X) g a • gens' g)
  obtain ⟨b1, b2, b3⟩ := alive_basis hG (C := C' * X) (D := Xi * D') (by rw [Matrix.mul_assoc, ← Matrix.mul_assoc X, hXi, Matrix.one_mul, hC']) hT.alive1 hT.inj1 hu
  refine ⟨_, hv.extend hT.same u b1 b2 b3 ?_ ?_, fun a => by rw [if_pos rfl]; exact hu a⟩
  · intro h; rw [hdir] at h; cases h
  · intro _ b hb
    obtain ⟨a, ha, rfl⟩ := (hT.alive1 b).1 hb
    have hDC' : D' * C' = 1 := mul_eq_one_comm.1 hC'
    have key : A * (C' * X) = C * (U * T) * pat E := by
      have h1 : A = C * (U * E * D') := by rw [← hDA, ← Matrix.mul_assoc, hCD, Matrix.one_mul]
      calc A * (C' * X) = C * (U * E * D') * (C' * X) := by rw [← h1]
        _ = C * (U * (E * (D' * C' * X))) := by simp only [Matrix.mul_assoc]
        _ = C * (U * (E * X)) := by rw [hDC', Matrix.one_mul]
        _ = C * (U * T) * pat E := by rw [← t2]; simp only [Matrix.mul_assoc]
    have hcomb := combine hA (fun g => (C' * X) g ⟨a, ha⟩)
    have hvec : (A *ᵥ fun g => (C' * X) g ⟨a, ha⟩) = fun b => (C * (U * T) * pat E) b ⟨a, ha⟩ := by rw [← key]; rfl
    rw [hvec, ← hu ⟨a, ha⟩] at hcomb
    have : (if β' a ∈ alive iv N then v N (β' a) else 0) = ∑ b, (C * (U * T) * pat E) b ⟨a, ha⟩ • gens b := by
      by_cases h : β' a ∈ alive iv N
      · obtain ⟨r, h1, h2⟩ := hT.back (t := ⟨a, ha⟩) h
        have h2 : β' a = β r := h2
        rw [if_pos h, h2, hvN r]
        exact Finset.sum_congr rfl (fun b _ => by rw [mul_pat hE.1 _ h1])
      · rw [if_neg h]
        symm
        apply Finset.sum_eq_zero
        intro b _
        rw [mul_pat_zero, zero_smul]
        intro t
        by_contra h3
        apply h
        rw [hT.alive0]
        exact ⟨t, t.2, (hT.old ⟨a, ha⟩ t h3).symm⟩
    rw [this]; exact hcomb

/-- a step which does not change the space -/
theorem fam_skip {gens : Fin n → Fin d → F} {C : Matrix (Fin n) (Fin n) F} (hf : Fam Z W dir N iv gens C β) (hends : EndsOK N iv) (hZ : Z (N + 1) = Z N) (hW : W (N + 1) = W N) :
    Fam Z W dir (N + 1) iv gens C β := by
  intro X hX
  obtain ⟨v, hv, hvN⟩ := hf X hX
  have hal : alive iv (N + 1) = alive iv N := by
    ext b
    rw [mem_alive, mem_alive]
    constructor
    · rintro ⟨x, hx, hA⟩
      have hx2 := hends x (List.mem_of_getElem? hx)
      exact ⟨x, hx, hx2.1, fun s hs => by have := hA.2 s hs; omega⟩
    · rintro ⟨x, hx, hA⟩
      have hx2 := hends x (List.mem_of_getElem? hx)
      exact ⟨x, hx, by omega, fun s hs => by have := hA.2 s hs; have := (hx2.2 s hs).2; omega⟩
  refine ⟨_, hv.extend (iv' := iv) (fun _ _ => rfl) (v N) ?_ ?_ ?_ ?_ ?_, fun a => by rw [if_pos rfl]; exact hvN a⟩
  · rw [hal, hZ]; exact hv.mem N (le_refl _)
  · rw [hal, hZ, hW]; exact hv.span N (le_refl _)
  · rw [hal, hW]; exact hv.indep N (le_refl _)
  · intro _ b hb; rw [hal, if_pos hb, sub_self]; exact (W (N + 1)).zero_mem
  · intro _ b hb; rw [hal] at hb; rw [if_pos hb, sub_self]; exact (W N).zero_mem

end

end Zigzag
end BATS
