import Verif.Proofs.DG2

set_option linter.unusedSectionVars false
set_option linter.unusedVariables false
set_option linter.unusedSimpArgs false

/-! # Betti numbers of DG vector spaces -/

namespace BATS
namespace DG
open Reduction Matrix

variable {F : Type} [Field F] [DecidableEq F]

theorem card_of_list {n : Nat} {L : List Nat} (hs : L.Pairwise (· < ·)) (P : Fin n → Prop) [DecidablePred P]
    (h : ∀ j, j ∈ L ↔ ∃ hj : j < n, P ⟨j, hj⟩) : L.length = (Finset.univ.filter P).card := by
  have hnd : L.Nodup := hs.imp (fun h => ne_of_lt h)
  rw [← List.toFinset_card_of_nodup hnd]
  symm
  apply Finset.card_bij (fun (j : Fin n) _ => j.val)
  · intro j hj
    rw [List.mem_toFinset, h]
    exact ⟨j.2, (Finset.mem_filter.1 hj).2⟩
  · intro a _ b _ hab; exact Fin.ext hab
  · intro j hj
    rw [List.mem_toFinset, h] at hj
    obtain ⟨hlt, he⟩ := hj
    exact ⟨⟨j, hlt⟩, by simp [he], rfl⟩

/-- `hdim(k)` in terms of ranks -/
theorem DGTab.hdim {co : Bool} {e N : Nat} {d : Nat → Nat} {D : List (CMat F)} (hD : DShapes co e N d D) {X : RedDG F} (h : DGTab co e N d D X)
    (hsq : ∀ l, l < N → fac co e d D l * facUp co d D l = 0) {k : Nat} (hk : k < N) :
    ∃ b, X.hdim k = .ok b ∧ b + (facUp co d D k).rank + (fac co e d D k).rank = d k := by
  classical
  refine ⟨(X.I.getD (idx co k) []).length, ?_, ?_⟩
  · unfold RedDG.hdim
    rw [h.deg]
    have : (if DG.deg co = -1 then k else k + 1) = idx co k := by cases co <;> rfl
    rw [this, rd_getD [] (by rw [h.lenI]; cases co <;> simp [idx] <;> omega)]; rfl
  · have h0 := h.lev k (by omega)
    have h1 := h.lev (k + 1) (by omega)
    cases co with
    | false =>
      have r0 : HasRed (fac false e d D k) := hasRed_of_shape h0.shapeM
      have r1 : HasRed (facUp false d D k) := hasRed_of_shape h1.shapeM
      have := card_essential r0 r1 (hsq k hk)
      rw [Fintype.card_fin] at this
      have : (X.I.getD (idx false k) []).length = (Finset.univ.filter (Essential (fac false e d D k) (facUp false d D k))).card := by
        apply card_of_list (h.sorted k hk)
        intro j
        rw [h.inds k hk j]
        constructor
        · rintro ⟨hj, a, b⟩
          exact ⟨hj, (h0.col_nil_iff ⟨j, hj⟩).1 a, (h1.p2c_none_iff ⟨j, hj⟩).1 b⟩
        · rintro ⟨hj, a, b⟩
          exact ⟨hj, (h0.col_nil_iff ⟨j, hj⟩).2 a, (h1.p2c_none_iff ⟨j, hj⟩).2 b⟩
      omega
    | true =>
      have r0 : HasRed (fac true e d D k)ᵀ := hasRed_of_shape h0.shapeM
      have r1 : HasRed (facUp true d D k)ᵀ := hasRed_of_shape h1.shapeM
      have hz : (facUp true d D k)ᵀ * (fac true e d D k)ᵀ = 0 := by
        rw [← Matrix.transpose_mul, hsq k hk, Matrix.transpose_zero]
      have := card_essential r1 r0 hz
      rw [Fintype.card_fin, Matrix.rank_transpose, Matrix.rank_transpose] at this
      have : (X.I.getD (idx true k) []).length = (Finset.univ.filter (Essential (facUp true d D k)ᵀ (fac true e d D k)ᵀ)).card := by
        apply card_of_list (h.sorted k hk)
        intro j
        rw [h.inds k hk j]
        constructor
        · rintro ⟨hj, a, b⟩
          exact ⟨hj, (h1.col_nil_iff ⟨j, hj⟩).1 a, (h0.p2c_none_iff ⟨j, hj⟩).1 b⟩
        · rintro ⟨hj, a, b⟩
          exact ⟨hj, (h1.col_nil_iff ⟨j, hj⟩).2 a, (h0.p2c_none_iff ⟨j, hj⟩).2 b⟩
      omega

/-- ranks of the differentials -/
theorem DGSorted.rank_up {co : Bool} {e : Nat} {B : List (CMat F)} {σ : Nat → Nat → Nat} (hσ : SigOK (cdim B) σ)
    {D : List (CMat F)} (h : DGSorted co e B σ D) (k : Nat) : (facUp co (cdim B) D k).rank = (bdryUp B k).rank := by
  obtain ⟨g, hg⟩ := hσ (k + 1)
  obtain ⟨f, hf⟩ := hσ k
  rw [h.fac_succ k hf hg, Matrix.rank_submatrix]

theorem rank_no_rows {n : Nat} {m : Nat} (hm : m = 0) (M : Matrix (Fin m) (Fin n) F) : M.rank = 0 := by
  subst hm
  have : M = 0 := by ext i j; exact absurd i.2 (Nat.not_lt_zero _)
  rw [this, Matrix.rank_zero]

/-- the zeroth differential of the specification: nothing, or the augmentation -/
noncomputable def rank0 (e : Nat) (B : List (CMat F)) (k : Nat) : Nat :=
  match k with
  | 0 => if e = 0 then 0 else (augMat B).rank
  | k + 1 => (bdryUp B k).rank

theorem DGSorted.rank_fac {co : Bool} {e : Nat} (he : e = 0 ∨ e = 1) {B : List (CMat F)} {σ : Nat → Nat → Nat} (hσ : SigOK (cdim B) σ)
    {D : List (CMat F)} (h : DGSorted co e B σ D) (k : Nat) : (fac co e (cdim B) D k).rank = rank0 e B k := by
  cases k with
  | zero =>
    unfold rank0
    rcases he with rfl | rfl
    · rw [if_pos rfl]; exact rank_no_rows rfl _
    · rw [if_neg one_ne_zero]
      congr 1
      ext i j
      exact h.zero i j i.2 j.2
  | succ k => exact h.rank_up hσ k

/-- the whole computation, in terms of ranks -/
theorem dg_hdim (v : DGVariant) (co b : Bool) {B : List (CMat F)} (hB : IsChainComplex B) (ha : b = true → Augmentable B) :
    ∃ C X, DGVS.ofComplex (deg co) b B = .ok C ∧ v.reduce C = .ok X ∧ ∀ k, k < B.length →
      ∃ n, X.hdim k = .ok n ∧ n + (bdryUp B k).rank + rank0 (aug b) B k = cdim B k := by
  obtain ⟨D, h1, h2⟩ := ofComplex_spec co b hB
  have haug : AugOK (aug b) B := by
    cases b with
    | false => exact Or.inl rfl
    | true => exact Or.inr (ha rfl)
  have hsq := fun l (_ : l < B.length) => h2.sq hB haug (sigOK_id _) l
  have hN : 1 ≤ B.length := by
    have := hB.ne
    cases B with
    | nil => exact absurd rfl this
    | cons _ _ => simp
  obtain ⟨X, x1, x2⟩ := v.spec co hN h2.sh (chain_chainList co h2.sh hsq)
  refine ⟨_, X, h1, x1, fun k hk => ?_⟩
  obtain ⟨n, n1, n2⟩ := x2.hdim h2.sh hsq hk
  rw [h2.rank_up (sigOK_id _), h2.rank_fac (by cases b <;> simp [aug]) (sigOK_id _)] at n2
  exact ⟨n, n1, n2⟩

/-! ### the four groups -/

theorem zeroBdry_zero {B : List (CMat F)} (h0 : ZeroBdry0 B) : bdry B 0 = 0 := by
  ext i j
  show coef ((B.getD 0 ⟨0, []⟩).cols.getD j []) i = 0
  have : (B.getD 0 ⟨0, []⟩).cols.getD j [] = [] := by
    rcases h : (B.getD 0 ⟨0, []⟩).cols[j.val]? with _ | c
    · rw [List.getD_eq_getElem?_getD, h]; rfl
    · rw [List.getD_eq_getElem?_getD, h]; exact h0 c (List.mem_of_getElem? h)
  rw [this]; rfl

theorem finrank_hom {B : List (CMat F)} (hB : IsChainComplex B) (h0 : ZeroBdry0 B) (k : Nat) :
    Module.finrank F (Homology B k) + (bdryUp B k).rank + rank0 0 B k = cdim B k := by
  have := finrank_homology (bdry B k) (bdryUp B k) (hB.sq' k)
  rw [Fintype.card_fin] at this
  have e : (bdry B k).rank = rank0 0 B k := by
    cases k with
    | zero => rw [zeroBdry_zero h0, Matrix.rank_zero]; rfl
    | succ k => rfl
  rw [← e]; exact this

theorem finrank_coh {B : List (CMat F)} (hB : IsChainComplex B) (h0 : ZeroBdry0 B) (k : Nat) :
    Module.finrank F (Cohomology B k) + (bdryUp B k).rank + rank0 0 B k = cdim B k := by
  have := finrank_homology (bdryUp B k)ᵀ (bdry B k)ᵀ (by rw [← Matrix.transpose_mul, hB.sq' k, Matrix.transpose_zero])
  rw [Fintype.card_fin, Matrix.rank_transpose, Matrix.rank_transpose] at this
  have e : (bdry B k).rank = rank0 0 B k := by
    cases k with
    | zero => rw [zeroBdry_zero h0, Matrix.rank_zero]; rfl
    | succ k => rfl
  rw [← e]
  unfold Cohomology cocycles coboundaries
  omega

theorem aug_sq {B : List (CMat F)} (ha : Augmentable B) : augMat B * bdryUp B 0 = 0 := by
  ext i j
  show ∑ m, augMat B i m * bdryUp B 0 m j = 0
  simp only [augMat, Matrix.of_apply, one_mul]
  exact ha j

theorem finrank_rhom {B : List (CMat F)} (hB : IsChainComplex B) (ha : Augmentable B) (k : Nat) :
    Module.finrank F (ReducedHomology B k) + (bdryUp B k).rank + rank0 1 B k = cdim B k := by
  cases k with
  | zero =>
    have := finrank_homology (augMat B) (bdryUp B 0) (aug_sq ha)
    rw [Fintype.card_fin] at this
    exact this
  | succ k =>
    have := finrank_homology (bdry B (k + 1)) (bdryUp B (k + 1)) (hB.sq' (k + 1))
    rw [Fintype.card_fin] at this
    exact this

theorem finrank_rcoh {B : List (CMat F)} (hB : IsChainComplex B) (ha : Augmentable B) (k : Nat) :
    Module.finrank F (ReducedCohomology B k) + (bdryUp B k).rank + rank0 1 B k = cdim B k := by
  cases k with
  | zero =>
    have := finrank_homology (bdryUp B 0)ᵀ (augMat B)ᵀ (by rw [← Matrix.transpose_mul, aug_sq ha, Matrix.transpose_zero])
    rw [Fintype.card_fin, Matrix.rank_transpose, Matrix.rank_transpose] at this
    have h2 : rank0 1 B 0 = (augMat B).rank := rfl
    rw [h2]
    have h3 : ∀ {a b c d : Nat}, a + b + c = d → a + c + b = d := by intro a b c d h; omega
    exact h3 this
  | succ k =>
    have := finrank_homology (bdryUp B (k + 1))ᵀ (bdry B (k + 1))ᵀ (by rw [← Matrix.transpose_mul, hB.sq' (k + 1), Matrix.transpose_zero])
    rw [Fintype.card_fin, Matrix.rank_transpose, Matrix.rank_transpose] at this
    have h2 : rank0 1 B (k + 1) = (bdry B (k + 1)).rank := rfl
    rw [h2]
    have h3 : ∀ {a b c d : Nat}, a + b + c = d → a + c + b = d := by intro a b c d h; omega
    exact h3 this

theorem rank_augMat {B : List (CMat F)} (h : 0 < cdim B 0) : (augMat B).rank = 1 := by
  apply le_antisymm
  · have := Matrix.rank_le_card_height (augMat B)
    simpa using this
  · rw [Nat.one_le_iff_ne_zero]
    intro h0
    have h1 : LinearMap.range (augMat B).mulVecLin = ⊥ := Submodule.finrank_eq_zero.1 h0
    have h2 : (augMat B) *ᵥ (Pi.single ⟨0, h⟩ 1) ∈ LinearMap.range (augMat B).mulVecLin := ⟨_, rfl⟩
    rw [h1, Submodule.mem_bot, Matrix.mulVec_single_one] at h2
    have := congrFun h2 0
    simp [augMat] at this

end DG
end BATS
