import Verif.Proofs.Kunneth2
import Verif.Proofs.Tensor2
import Verif.Proofs.RelativeLin

set_option linter.unusedSectionVars false
set_option linter.unusedVariables false
set_option linter.unusedSimpArgs false

/-! # Stored chain complexes as graded complexes -/

namespace BATS
open Matrix Module

variable {F : Type} [Field F] [DecidableEq F]

section link
variable {T : Type} [Fintype T] [DecidableEq T] {deg : T → Nat} {d : Matrix T T F} {C : List (CMat F)}

/-- chains of the stored complex as chains of the graded complex -/
def embDeg {m : Nat} (φ : {t // deg t = m} ≃ Fin (cdim C m)) : (Fin (cdim C m) → F) →ₗ[F] (T → F) where
  toFun x t := if h : deg t = m then x (φ ⟨t, h⟩) else 0
  map_add' x y := by ext t; by_cases h : deg t = m <;> simp [h]
  map_smul' r x := by ext t; by_cases h : deg t = m <;> simp [h]

theorem embDeg_of {m : Nat} (φ : {t // deg t = m} ≃ Fin (cdim C m)) (x : Fin (cdim C m) → F) {t : T} (h : deg t = m) : embDeg φ x t = x (φ ⟨t, h⟩) := dif_pos h

theorem embDeg_inj {m : Nat} (φ : {t // deg t = m} ≃ Fin (cdim C m)) : Function.Injective (embDeg (F := F) φ) := by
  intro x y h
  ext i
  have := congrFun h (φ.symm i).1
  rw [embDeg_of φ x (φ.symm i).2, embDeg_of φ y (φ.symm i).2] at this
  simpa using this

theorem embDeg_range {m : Nat} (φ : {t // deg t = m} ≃ Fin (cdim C m)) : LinearMap.range (embDeg (F := F) φ) = inDeg F deg m := by
  ext y
  constructor
  · rintro ⟨x, rfl⟩ t ht
    exact dif_neg ht
  · intro hy
    refine ⟨fun i => y (φ.symm i).1, ?_⟩
    ext t
    by_cases h : deg t = m
    · rw [embDeg_of φ _ h]; simp
    · rw [hy t h]; exact dif_neg h

theorem embDeg_bdry (hd : ∀ s t, d s t ≠ 0 → deg t = deg s + 1) {m : Nat} (φ : {t // deg t = m} ≃ Fin (cdim C m)) (ψ : {t // deg t = m + 1} ≃ Fin (cdim C (m + 1)))
    (he : ∀ s t, ent C (m + 1) (φ s) (ψ t) = d s.1 t.1) (x : Fin (cdim C (m + 1)) → F) : embDeg φ (bdryUp C m *ᵥ x) = d *ᵥ embDeg ψ x := by
  classical
  ext s
  show _ = ∑ t, d s t * embDeg ψ x t
  by_cases h : deg s = m
  · rw [embDeg_of φ _ h]
    show ∑ j, bdryUp C m (φ ⟨s, h⟩) j * x j = _
    rw [← ψ.sum_comp]
    have e1 : ∀ t : {t // deg t = m + 1}, bdryUp C m (φ ⟨s, h⟩) (ψ t) * x (ψ t) = d s t.1 * embDeg ψ x t.1 := by
      intro t
      rw [embDeg_of ψ x t.2, ← he ⟨s, h⟩ t]
      rfl
    rw [Finset.sum_congr rfl (fun t _ => e1 t)]
    symm
    rw [← Finset.sum_subset (Finset.subset_univ (Finset.univ.filter (fun t => deg t = m + 1)))]
    · exact Finset.sum_subtype _ (fun t => by simp) _
    · intro t _ ht
      have : deg t ≠ m + 1 := by intro hc; exact ht (Finset.mem_filter.2 ⟨Finset.mem_univ _, hc⟩)
      rw [show embDeg ψ x t = 0 from dif_neg this, mul_zero]
  · rw [show embDeg φ (bdryUp C m *ᵥ x) s = 0 from dif_neg h]
    symm
    apply Finset.sum_eq_zero
    intro t _
    by_cases h0 : d s t = 0
    · rw [h0, zero_mul]
    · have := hd s t h0
      rw [show embDeg ψ x t = 0 from dif_neg (by omega), mul_zero]

/-- consecutive boundary maps compose to zero when the graded differential does -/
theorem link_sq (h : GradedComplex deg d) {m : Nat} (φ : {t // deg t = m} ≃ Fin (cdim C m)) (ψ : {t // deg t = m + 1} ≃ Fin (cdim C (m + 1)))
    (χ : {t // deg t = m + 1 + 1} ≃ Fin (cdim C (m + 1 + 1)))
    (he : ∀ s t, ent C (m + 1) (φ s) (ψ t) = d s.1 t.1) (he' : ∀ s t, ent C (m + 1 + 1) (ψ s) (χ t) = d s.1 t.1) : bdryUp C m * bdryUp C (m + 1) = 0 := by
  have : ∀ x, (bdryUp C m * bdryUp C (m + 1)) *ᵥ x = 0 := by
    intro x
    rw [← mulVec_mulVec]
    apply embDeg_inj φ
    rw [embDeg_bdry h.homog φ ψ he, embDeg_bdry h.homog ψ χ he', mulVec_mulVec, h.sq, zero_mulVec, map_zero]
  ext i j
  have := congrFun (this (Pi.single j 1)) i
  rw [mulVec_single_one] at this
  exact this

/-- the Betti number of the stored complex is the one of the graded complex -/
theorem betti_link (h : GradedComplex deg d) (hC : IsChainComplex C) (z : ZeroBdry0 C) {n : Nat} (φ : ∀ m, m ≤ n + 1 → ({t // deg t = m} ≃ Fin (cdim C m)))
    (he : ∀ m (h1 : m ≤ n + 1) (h2 : m + 1 ≤ n + 1) s t, ent C (m + 1) (φ m h1 s) (φ (m + 1) h2 t) = d s.1 t.1) : bettiNumber C n = gBetti deg d n := by
  obtain ⟨E, hE⟩ : ∃ E, E = embDeg (F := F) (φ n (by omega)) := ⟨_, rfl⟩
  have hinj : Function.Injective E := by rw [hE]; exact embDeg_inj _
  have hb : (boundaries C n).map E = gBoundaries deg d n := by
    unfold boundaries gBoundaries
    rw [← embDeg_range (φ (n + 1) (le_refl _)), ← LinearMap.range_comp, ← LinearMap.range_comp]
    congr 1
    apply LinearMap.ext
    intro x
    show E (bdryUp C n *ᵥ x) = d *ᵥ _
    rw [hE]
    exact embDeg_bdry h.homog _ _ (he n _ _) x
  have hc : (cycles C n).map E = gCycles deg d n := by
    unfold cycles gCycles
    rw [← embDeg_range (φ n (by omega))]
    cases n with
    | zero =>
      have e1 : LinearMap.ker (bdry C 0).mulVecLin = ⊤ := by
        have : bdry C 0 = 0 := by
          ext i j
          show coef ((C.getD 0 ⟨0, []⟩).cols.getD j []) i = 0
          rw [col_zero z j.2]; rfl
        rw [this]; simp
      rw [e1, Submodule.map_top, ← hE, left_eq_inf]
      rintro _ ⟨x, rfl⟩
      rw [LinearMap.mem_ker]
      show d *ᵥ _ = 0
      ext s
      apply Finset.sum_eq_zero
      intro t _
      show d s t * E x t = 0
      by_cases h0 : d s t = 0
      · rw [h0, zero_mul]
      · have := h.homog s t h0
        rw [hE, show embDeg (φ 0 (by omega)) x t = 0 from dif_neg (by omega), mul_zero]
    | succ m =>
      rw [← hE]
      have key : ∀ x, bdry C (m + 1) *ᵥ x = 0 ↔ d *ᵥ E x = 0 := by
        intro x
        rw [hE, ← embDeg_bdry h.homog (φ m (by omega)) _ (he m _ _)]
        constructor
        · intro hx
          rw [show bdryUp C m *ᵥ x = 0 from hx, map_zero]
        · intro hx
          have h0 : bdryUp C m *ᵥ x = 0 := embDeg_inj (φ m (by omega)) (by rw [map_zero]; exact hx)
          exact h0
      ext y
      constructor
      · rintro ⟨x, hx, rfl⟩
        exact ⟨⟨x, rfl⟩, (key x).1 hx⟩
      · rintro ⟨⟨x, rfl⟩, hx⟩
        exact ⟨x, (key x).2 hx, rfl⟩
  have hle : boundaries C n ≤ cycles C n := by
    rintro _ ⟨x, rfl⟩
    show bdry C n *ᵥ (bdryUp C n *ᵥ x) = 0
    rw [mulVec_mulVec, hC.sq' n, zero_mulVec]
  have hle' : gBoundaries deg d n ≤ gCycles deg d n := by rw [← hb, ← hc]; exact Submodule.map_mono hle
  have f1 := finrank_quot hle
  have f2 := finrank_quot hle'
  have f3 : finrank F (gBoundaries deg d n) = finrank F (boundaries C n) := by
    rw [← hb]; exact LinearEquiv.finrank_eq (Submodule.equivMapOfInjective E hinj _).symm
  have f4 : finrank F (gCycles deg d n) = finrank F (cycles C n) := by
    rw [← hc]; exact LinearEquiv.finrank_eq (Submodule.equivMapOfInjective E hinj _).symm
  have g1 : bettiNumber C n + finrank F (boundaries C n) = finrank F (cycles C n) := f1
  have g2 : gBetti deg d n + finrank F (gBoundaries deg d n) = finrank F (gCycles deg d n) := f2
  omega

end link

/-! ### the graded complex of a stored complex -/

/-- all cells of a stored complex -/
abbrev Tot (A : List (CMat F)) : Type := (k : Fin A.length) × Fin (cdim A k)

/-- dimension of a cell -/
def totDeg (A : List (CMat F)) (t : Tot A) : Nat := t.1

/-- all boundary matrices together -/
def totD (A : List (CMat F)) : Matrix (Tot A) (Tot A) F := fun s t => if s.1.val + 1 = t.1.val then ent A t.1 s.2 t.2 else 0

theorem tot_ext {A : List (CMat F)} {s t : Tot A} (h1 : s.1.val = t.1.val) (h2 : s.2.val = t.2.val) : s = t := by
  obtain ⟨k, a⟩ := s
  obtain ⟨l, b⟩ := t
  have : k = l := Fin.ext h1
  subst this
  have : a = b := Fin.ext h2
  rw [this]

/-- cells of dimension `m` -/
def totEquiv (A : List (CMat F)) (m : Nat) : {t : Tot A // totDeg A t = m} ≃ Fin (cdim A m) where
  toFun t := ⟨t.1.2, by
    have h := t.1.2.2
    have e : t.1.1.val = m := t.2
    exact lt_of_lt_of_eq h (congrArg (cdim A) e)⟩
  invFun a := ⟨⟨⟨m, by
    by_contra hc
    have h1 := a.2
    have h2 : cdim A m = 0 := cdim_big (by omega)
    omega⟩, a⟩, rfl⟩
  left_inv t := by
    apply Subtype.ext
    apply tot_ext
    · exact t.2.symm
    · rfl
  right_inv a := rfl

theorem tot_ent (A : List (CMat F)) (m : Nat) (s : {t : Tot A // totDeg A t = m}) (t : {t : Tot A // totDeg A t = m + 1}) :
    ent A (m + 1) (totEquiv A m s) (totEquiv A (m + 1) t) = totD A s.1 t.1 := by
  have e1 : s.1.1.val = m := s.2
  have e2 : t.1.1.val = m + 1 := t.2
  unfold totD
  rw [if_pos (by omega)]
  exact congrArg (fun k => ent A k s.1.2.val t.1.2.val) e2.symm

theorem tot_graded {A : List (CMat F)} (hA : IsChainComplex A) : GradedComplex (totDeg A) (totD A) := by
  have hom : ∀ s t, totD A s t ≠ 0 → totDeg A t = totDeg A s + 1 := by
    intro s t h
    unfold totD at h
    split at h
    · rename_i e; exact e.symm
    · exact absurd rfl h
  refine ⟨hom, ?_⟩
  ext s u
  show ∑ t, totD A s t * totD A t u = 0
  by_cases hsu : s.1.val + 1 + 1 = u.1.val
  · have hl : s.1.val + 1 < A.length := by have := u.1.2; omega
    rw [Fintype.sum_sigma, Finset.sum_eq_single ⟨s.1.val + 1, hl⟩]
    · have h := hA.sq' (s.1.val + 1)
      have hu : u.2.val < cdim A (s.1.val + 1 + 1) := by
        have := u.2.2
        exact lt_of_lt_of_eq this (congrArg (cdim A) hsu.symm)
      have h := congrFun (congrFun h s.2) ⟨u.2.val, hu⟩
      refine Eq.trans ?_ h
      show _ = ∑ b, bdry A (s.1.val + 1) s.2 b * bdryUp A (s.1.val + 1) b ⟨u.2.val, hu⟩
      apply Finset.sum_congr rfl
      intro b _
      unfold totD
      dsimp only
      rw [if_pos rfl, if_pos hsu]
      exact congrArg (fun k => ent A (s.1.val + 1) s.2.val b.val * ent A k b.val u.2.val) hsu.symm
    · intro k _ hk
      apply Finset.sum_eq_zero
      intro b _
      have : totD A s ⟨k, b⟩ = 0 := if_neg (fun hc => hk (Fin.ext hc.symm))
      rw [this, zero_mul]
    · intro hc; exact absurd (Finset.mem_univ _) hc
  · apply Finset.sum_eq_zero
    intro t _
    by_cases h0 : totD A s t = 0
    · rw [h0, zero_mul]
    · by_cases h1 : totD A t u = 0
      · rw [h1, mul_zero]
      · exfalso
        have a1 : t.1.val = s.1.val + 1 := hom s t h0
        have a2 : u.1.val = t.1.val + 1 := hom t u h1
        omega

/-- the Betti numbers of a stored complex -/
theorem betti_tot {A : List (CMat F)} (hA : IsChainComplex A) (z : ZeroBdry0 A) (n : Nat) : bettiNumber A n = gBetti (totDeg A) (totD A) n :=
  betti_link (tot_graded hA) hA z (fun m _ => totEquiv A m) (fun m _ _ s t => tot_ent A m s t)

end BATS
