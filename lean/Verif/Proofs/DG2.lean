import Verif.Proofs.DG
import Verif.Spec.DG
import Verif.Props.Homology

set_option linter.unusedSectionVars false
set_option linter.unusedVariables false
set_option linter.unusedSimpArgs false

/-! # Differential graded vector spaces: reduction -/

namespace BATS
namespace DG
open Reduction Matrix

variable {F : Type} [Field F] [DecidableEq F]

/-! ### the differentials as matrices, faces in rows and cofaces in columns -/

/-- the `l`-th differential, faces × cofaces -/
def fac (co : Bool) (e : Nat) (d : Nat → Nat) (D : List (CMat F)) (l : Nat) : Matrix (Fin (rr e d l)) (Fin (d l)) F :=
  Matrix.of fun a b => dent co D l a b

/-- the `(l+1)`-st differential -/
def facUp (co : Bool) (d : Nat → Nat) (D : List (CMat F)) (l : Nat) : Matrix (Fin (d l)) (Fin (d (l + 1))) F :=
  Matrix.of fun a b => dent co D (l + 1) a b

/-- the stored `l`-th differential -/
def dmat (co : Bool) (e : Nat) (d : Nat → Nat) (D : List (CMat F)) (l : Nat) : Matrix (Fin (dr co e d l)) (Fin (dc co e d l)) F :=
  (D.getD l ⟨0, []⟩).mat (dr co e d l) (dc co e d l)

theorem dmat_false (e : Nat) (d : Nat → Nat) (D : List (CMat F)) (l : Nat) : dmat false e d D l = fac false e d D l := by
  ext i j; rfl

theorem dmat_true (e : Nat) (d : Nat → Nat) (D : List (CMat F)) (l : Nat) : dmat true e d D l = (fac true e d D l)ᵀ := by
  ext i j; rfl

theorem DShapes.hasRed {co : Bool} {e N : Nat} {d : Nat → Nat} {D : List (CMat F)} (h : DShapes co e N d D) {l : Nat} (hl : l ≤ N) :
    HasRed (dmat co e d D l) := hasRed_of_shape (h.shape l (by omega))

/-- the orders `σ` are permutations -/
def SigOK (d : Nat → Nat) (σ : Nat → Nat → Nat) : Prop := ∀ k, ∃ f : Fin (d k) ≃ Fin (d k), ∀ i : Fin (d k), (f i).val = σ k i

theorem sigOK_id (d : Nat → Nat) : SigOK d (fun _ i => i) := fun k => ⟨Equiv.refl _, fun i => rfl⟩

theorem sigOK_of_perm {N : Nat} {d : Nat → Nat} (h0 : ∀ k, N ≤ k → d k = 0) {ps : List (List Nat)}
    (hp : ∀ k, k < N → IsPermOf (d k) (ps.getD k [])) : SigOK d (fun k i => (ps.getD k []).getD i 0) := by
  intro k
  by_cases hk : k < N
  · have hsig : ∀ i, i < d k → (ps.getD k []).getD i 0 < d k := sigma_getD _ _ (hp k hk)
    have hbij : Function.Bijective (fun i : Fin (d k) => (⟨(ps.getD k []).getD i 0, hsig i i.2⟩ : Fin (d k))) := by
      rw [← Finite.injective_iff_bijective]
      intro i j hij
      have := congrArg Fin.val hij
      exact Fin.ext (getD_inj _ _ (hp k hk) i j i.2 j.2 this)
    exact ⟨Equiv.ofBijective _ hbij, fun i => rfl⟩
  · have := h0 k (by omega)
    exact ⟨Equiv.refl _, fun i => absurd i.2 (by omega)⟩

theorem DGSorted.fac_succ {co : Bool} {e : Nat} {B : List (CMat F)} {σ : Nat → Nat → Nat} {D : List (CMat F)} (h : DGSorted co e B σ D) (k : Nat)
    {f : Fin (cdim B k) ≃ Fin (cdim B k)} (hf : ∀ i, (f i).val = σ k i) {g : Fin (cdim B (k + 1)) ≃ Fin (cdim B (k + 1))} (hg : ∀ i, (g i).val = σ (k + 1) i) :
    facUp co (cdim B) D k = (bdryUp B k).submatrix f g := by
  ext i j
  have hk : k + 1 < B.length := by
    by_contra hc
    have := cdim_of_ge (B := B) (k := k + 1) (by omega)
    exact absurd j.2 (by omega)
  show dent co D (k + 1) i j = ent B (k + 1) (f i) (g j)
  rw [h.succ k i j hk i.2 j.2, hf, hg]

/-- needed for the differentials to compose to zero -/
def AugOK (e : Nat) (B : List (CMat F)) : Prop := e = 0 ∨ Augmentable B

theorem DGSorted.sq {co : Bool} {e : Nat} {B : List (CMat F)} (hB : IsChainComplex B) (ha : AugOK e B) {σ : Nat → Nat → Nat} (hσ : SigOK (cdim B) σ)
    {D : List (CMat F)} (h : DGSorted co e B σ D) (l : Nat) :
    fac co e (cdim B) D l * facUp co (cdim B) D l = 0 := by
  obtain ⟨g, hg⟩ := hσ (l + 1)
  obtain ⟨f, hf⟩ := hσ l
  have e1 := h.fac_succ l hf hg
  cases l with
  | zero =>
    rcases ha with rfl | ha
    · ext i j; exact absurd i.2 (Nat.not_lt_zero _)
    · ext i j
      show ∑ m, fac co e (cdim B) D 0 i m * facUp co (cdim B) D 0 m j = 0
      rw [e1]
      have : ∀ m : Fin (cdim B 0), fac co e (cdim B) D 0 i m = 1 := fun m => h.zero i m i.2 m.2
      simp only [this, one_mul, submatrix_apply]
      rw [Equiv.sum_comp f (fun m => bdryUp B 0 m (g j))]
      exact ha (g j)
  | succ k =>
    obtain ⟨f0, hf0⟩ := hσ k
    have e0 := h.fac_succ k hf0 hf
    show facUp co (cdim B) D k * facUp co (cdim B) D (k + 1) = 0
    rw [e0, e1]
    have := hB.sq' (k + 1)
    have e2 : (bdryUp B k).submatrix f0 f * (bdryUp B (k + 1)).submatrix f g = (bdryUp B k * bdryUp B (k + 1)).submatrix f0 g :=
      Matrix.submatrix_mul_equiv _ _ _ _ _
    rw [e2]
    have e3 : bdryUp B k * bdryUp B (k + 1) = 0 := this
    rw [e3]; rfl

/-! ### lists of differentials -/

theorem reduceAll_ok : ∀ (D : List (CMat F)), (∀ M ∈ D, M.OK) → ∃ rs, RedCpx.reduceAll D = .ok rs ∧ LevelsOK D rs
  | [], _ => ⟨[], rfl, List.Forall₂.nil⟩
  | M :: D, h => by
    obtain ⟨R, p, hr, hl⟩ := reduceStd_level (h M (by simp))
    obtain ⟨rs, hrs, hl2⟩ := reduceAll_ok D (fun N hN => h N (by simp [hN]))
    refine ⟨(R, p) :: rs, ?_, List.Forall₂.cons hl hl2⟩
    unfold RedCpx.reduceAll
    rw [hr, hrs]; rfl

theorem reduceAllU_ok : ∀ (D : List (CMat F)), (∀ M ∈ D, M.OK) → ∃ rs, RedCpx.reduceAllU D = .ok rs ∧ LevelsUOK D rs
  | [], _ => ⟨[], rfl, List.Forall₂.nil⟩
  | M :: D, h => by
    obtain ⟨r, hr, hl⟩ := reduceStdU_level (M := M) (m := M.nrow) (n := M.cols.length) ⟨h M (by simp), rfl, rfl⟩
    obtain ⟨rs, hrs, hl2⟩ := reduceAllU_ok D (fun N hN => h N (by simp [hN]))
    refine ⟨r :: rs, ?_, List.Forall₂.cons hl hl2⟩
    unfold RedCpx.reduceAllU
    rw [hr, hrs]; rfl

theorem compAll_ok {D : List (CMat F)} (hne : D ≠ []) (h : ChainList D) : ∃ rs, RedDG.compAll D = .ok rs ∧ LevelsOK D rs := by
  cases D with
  | nil => exact absurd rfl hne
  | cons M D =>
    obtain ⟨R, p, hr, hl⟩ := reduceStd_level h.head.ok
    obtain ⟨rs, _, hls, hrs⟩ := compLoopU_spec D M R p h hl
    have hls' := hls.levels
    refine ⟨(R, p) :: rs.map (fun r : CMat F × CMat F × P2C => ((r.1, r.2.2) : CMat F × P2C)), ?_, List.Forall₂.cons hl hls'⟩
    unfold RedDG.compAll
    simp only
    rw [hr]; simp only [bind_ok]; rw [hrs]; rfl

theorem DShapes.ok {co : Bool} {e N : Nat} {d : Nat → Nat} {D : List (CMat F)} (h : DShapes co e N d D) : ∀ M ∈ D, M.OK := by
  intro M hM
  obtain ⟨k, hk, rfl⟩ := List.mem_iff_getElem.1 hM
  have := (h.shape k (by rw [← h.len]; exact hk)).ok
  rw [getD_eq_get _ hk] at this
  exact this

/-- the differentials in the order in which consecutive ones compose -/
def chain (co : Bool) (D : List (CMat F)) : List (CMat F) := if co then D.reverse else D

theorem getD_reverse {α : Type} (l : List α) (d : α) (k : Nat) (hk : k < l.length) : l.reverse.getD k d = l.getD (l.length - 1 - k) d := by
  rw [List.getD_eq_getElem?_getD, List.getElem?_reverse hk, ← List.getD_eq_getElem?_getD]

theorem chain_chainList (co : Bool) {e N : Nat} {d : Nat → Nat} {D : List (CMat F)} (h : DShapes co e N d D)
    (hsq : ∀ l, l < N → fac co e d D l * facUp co d D l = 0) : ChainList (chain co D) := by
  have hl := h.len
  cases co with
  | false =>
    apply chainList_of_index
    · intro k hk; exact (h.shape k (by simp only [chain, Bool.false_eq_true, if_false] at hk; omega)).ok
    · intro k hk
      simp only [chain, Bool.false_eq_true, if_false] at hk ⊢
      have s0 := h.shape k (by omega)
      have s1 := h.shape (k + 1) (by omega)
      refine ⟨s1.nrow.trans s0.ncol.symm, ?_⟩
      have := hsq k (by omega)
      rw [s0.nrow, s0.ncol, s1.ncol]
      exact this
  | true =>
    have hlr : (chain true D).length = N + 1 := by simp [chain, hl]
    have hg : ∀ k, k < N + 1 → (chain true D).getD k ⟨0, []⟩ = D.getD (N - k) ⟨0, []⟩ := by
      intro k hk
      show D.reverse.getD k _ = _
      rw [getD_reverse _ _ _ (by omega)]
      congr 1; omega
    apply chainList_of_index
    · intro k hk
      rw [hg k (by omega)]; exact (h.shape (N - k) (by omega)).ok
    · intro k hk
      rw [hg k (by omega), hg (k + 1) (by omega)]
      obtain ⟨l, hl'⟩ : ∃ l, N - k = l + 1 := ⟨N - k - 1, by omega⟩
      have hl2 : N - (k + 1) = l := by omega
      rw [hl', hl2]
      have s0 := h.shape l (by omega)
      have s1 := h.shape (l + 1) (by omega)
      refine ⟨s0.nrow.trans s1.ncol.symm, ?_⟩
      have := hsq l (by omega)
      rw [s1.nrow, s1.ncol, s0.ncol]
      have h2 := congrArg Matrix.transpose this
      rw [Matrix.transpose_mul, Matrix.transpose_zero] at h2
      exact h2

/-! ### `set_indices` -/

theorem zipExtract_spec : ∀ (Rs : List (CMat F)) (ps : List P2C), Rs.length ≤ ps.length →
    (∀ k, k < Rs.length → (Rs.getD k ⟨0, []⟩).cols.length ≤ (ps.getD k []).length) →
    ∃ I, RedDG.zipExtract Rs ps = .ok I ∧ I.length = Rs.length ∧
      ∀ k, k < Rs.length → (I.getD k []).Pairwise (· < ·) ∧
        ∀ j, j ∈ I.getD k [] ↔ j < (Rs.getD k ⟨0, []⟩).cols.length ∧ (Rs.getD k ⟨0, []⟩).cols.getD j [] = [] ∧ (ps.getD k []).getD j none = none
  | [], ps, _, _ => ⟨[], by cases ps <;> rfl, rfl, by intro k hk; simp at hk⟩
  | R :: Rs, [], hl, _ => by simp at hl
  | R :: Rs, p :: ps, hl, hb => by
    have h0 := hb 0 (by simp)
    simp only [List.getD_cons_zero] at h0
    obtain ⟨i, hi, his, him⟩ := basisIndsLoop_spec p R.cols 0 (by omega)
    obtain ⟨I, hI, hIl, hIm⟩ := zipExtract_spec Rs ps (by simpa using hl) (by intro k hk; have := hb (k + 1) (by simpa using hk); simpa using this)
    refine ⟨i :: I, ?_, by simp [hIl], ?_⟩
    · unfold RedDG.zipExtract extractBasisIndices
      rw [hi, hI]; rfl
    · intro k hk
      cases k with
      | zero =>
        refine ⟨his, fun j => ?_⟩
        have := him j
        simp only [List.getD_cons_zero]
        rw [this]; simp
      | succ k =>
        have := hIm k (by simpa using hk)
        simp only [List.getD_cons_succ] at this ⊢
        exact this

/-- index of the differential whose columns are the basis of dimension `k` -/
def idx (co : Bool) (k : Nat) : Nat := if co then k + 1 else k
/-- index of the differential whose rows are the basis of dimension `k` -/
def oth (co : Bool) (k : Nat) : Nat := if co then k else k + 1

/-- the reduction of a DG vector space with `N` dimensions -/
structure DGTab (co : Bool) (e N : Nat) (d : Nat → Nat) (D : List (CMat F)) (X : RedDG F) : Prop where
  deg : X.degree = deg co
  lenR : X.R.length = N + 1
  lenP : X.p2c.length = N + 1
  lenI : X.I.length = N + 1
  lev : ∀ l, l ≤ N → LevelOK (dr co e d l) (dc co e d l) (D.getD l ⟨0, []⟩) (X.R.getD l ⟨0, []⟩) (X.p2c.getD l [])
  sorted : ∀ k, k < N → (X.I.getD (idx co k) []).Pairwise (· < ·)
  inds : ∀ k, k < N → ∀ j, j ∈ X.I.getD (idx co k) [] ↔ j < d k ∧ (X.R.getD (idx co k) ⟨0, []⟩).cols.getD j [] = [] ∧
    (X.p2c.getD (oth co k) []).getD j none = none

theorem getD_dropLast {α : Type} (l : List α) (d : α) (k : Nat) (hk : k < l.length - 1) : l.dropLast.getD k d = l.getD k d := by
  rw [List.getD_eq_getElem?_getD, List.getD_eq_getElem?_getD, List.getElem?_dropLast, if_pos hk]

theorem getD_tail {α : Type} (l : List α) (d : α) (k : Nat) : l.tail.getD k d = l.getD (k + 1) d := by
  cases l with
  | nil => rfl
  | cons a l => rfl

theorem setIndices_ok (co : Bool) {e N : Nat} (hN : 1 ≤ N) {d : Nat → Nat} {D R : List (CMat F)} {ps : List P2C} (lenR : R.length = N + 1) (lenP : ps.length = N + 1)
    (lev : ∀ l, l ≤ N → LevelOK (dr co e d l) (dc co e d l) (D.getD l ⟨0, []⟩) (R.getD l ⟨0, []⟩) (ps.getD l [])) (U : List (CMat F)) :
    ∃ I, RedDG.setIndices (deg co) R ps = .ok I ∧ DGTab co e N d D ⟨deg co, U, R, I, ps⟩ := by
  unfold RedDG.setIndices
  rw [if_neg (by omega)]
  cases co with
  | false =>
    have hR : ∀ k, k < N → R.dropLast.getD k ⟨0, []⟩ = R.getD k ⟨0, []⟩ := fun k hk => getD_dropLast _ _ _ (by omega)
    have hP : ∀ k, ps.tail.getD k [] = ps.getD (k + 1) [] := fun k => getD_tail _ _ _
    obtain ⟨I, i1, i2, i3⟩ := zipExtract_spec R.dropLast ps.tail (by simp [lenR, lenP]) (by
      intro k hk
      rw [List.length_dropLast, lenR] at hk
      rw [hR k (by omega), hP, (lev k (by omega)).shapeR.ncol, (lev (k + 1) (by omega)).table.len]
      exact le_refl _)
    rw [List.length_dropLast, lenR, Nat.add_sub_cancel] at i2 i3
    have hg : ∀ t k, k < N → (I ++ [t]).getD k [] = I.getD k [] := by
      intro t k hk
      rw [List.getD_eq_getElem?_getD, List.getElem?_append_left (by omega), ← List.getD_eq_getElem?_getD]
    refine ⟨I ++ [extractBasisIndicesTop (R.getD (R.length - 2) ⟨0, []⟩)], ?_, rfl, lenR, lenP, by simp [i2], lev, ?_, ?_⟩
    · simp only [deg, Bool.false_eq_true, if_false, if_true]
      rw [i1, bind_ok, rd_getD ⟨0, []⟩ (by omega), bind_ok]; rfl
    · intro k hk
      simp only [idx, Bool.false_eq_true, if_false]
      rw [hg _ k hk]; exact (i3 k hk).1
    · intro k hk j
      simp only [idx, oth, Bool.false_eq_true, if_false]
      rw [hg _ k hk, (i3 k hk).2 j, hR k hk, hP, (lev k (by omega)).shapeR.ncol]
      rfl
  | true =>
    have hR : ∀ k, R.tail.getD k ⟨0, []⟩ = R.getD (k + 1) ⟨0, []⟩ := fun k => getD_tail _ _ _
    obtain ⟨I, i1, i2, i3⟩ := zipExtract_spec R.tail ps (by simp [lenR, lenP]) (by
      intro k hk
      rw [List.length_tail, lenR] at hk
      rw [hR k, (lev k (by omega)).table.len, (lev (k + 1) (by omega)).shapeR.ncol]
      exact le_refl _)
    rw [List.length_tail, lenR, Nat.add_sub_cancel] at i2 i3
    refine ⟨[] :: I, ?_, rfl, lenR, lenP, by simp [i2], lev, ?_, ?_⟩
    · simp only [deg, if_true]
      rw [if_neg (by decide), i1]; rfl
    · intro k hk
      simp only [idx, if_true]
      exact (i3 k hk).1
    · intro k hk j
      simp only [idx, oth, if_true]
      show j ∈ I.getD k [] ↔ _
      rw [(i3 k hk).2 j, hR k, (lev (k + 1) (by omega)).shapeR.ncol]
      rfl

/-! ### the constructors -/

theorem levels_index {co : Bool} {e N : Nat} {d : Nat → Nat} {D : List (CMat F)} (h : DShapes co e N d D) {rs : List (CMat F × P2C)} (hl : LevelsOK D rs)
    {l : Nat} (hlN : l ≤ N) :
    LevelOK (dr co e d l) (dc co e d l) (D.getD l ⟨0, []⟩) ((rs.map (·.1)).getD l ⟨0, []⟩) ((rs.map (·.2)).getD l []) := by
  have hlen := hl.length_eq
  have hD := h.len
  have hk : l < D.length := by omega
  have hk' : l < rs.length := by omega
  have h1 := (List.forall₂_iff_get.1 hl).2 l hk hk'
  have e1 : D.getD l ⟨0, []⟩ = D.get ⟨l, hk⟩ := by simp [hk]
  have e2 : (rs.map (·.1)).getD l ⟨0, []⟩ = (rs.get ⟨l, hk'⟩).1 := by simp [hk']
  have e3 : (rs.map (·.2)).getD l [] = (rs.get ⟨l, hk'⟩).2 := by simp [hk']
  have s := h.shape l (by omega)
  rw [← e1, s.nrow, s.ncol] at h1
  rw [e2, e3]; exact h1

theorem assemble_ok {co : Bool} {e N : Nat} (hN : 1 ≤ N) {d : Nat → Nat} {D : List (CMat F)} (h : DShapes co e N d D) {rs : List (CMat F × P2C)} (hl : LevelsOK D rs) :
    ∃ X, RedDG.assemble (deg co) rs = .ok X ∧ DGTab co e N d D X := by
  have hlen := hl.length_eq
  have hD := h.len
  obtain ⟨I, hI, ht⟩ := setIndices_ok co hN (R := rs.map (·.1)) (ps := rs.map (·.2)) (by simp; omega) (by simp; omega) (fun l hlN => levels_index h hl hlN) []
  exact ⟨_, by unfold RedDG.assemble; rw [hI]; rfl, ht⟩

/-- the reduction keeps a basis -/
structure DGBasis (co : Bool) (e N : Nat) (d : Nat → Nat) (D : List (CMat F)) (X : RedDG F) : Prop where
  tab : DGTab co e N d D X
  lenU : X.U.length = N + 1
  fac : ∀ l, l ≤ N → FactorOK (dr co e d l) (dc co e d l) (D.getD l ⟨0, []⟩) (X.R.getD l ⟨0, []⟩) (X.U.getD l ⟨0, []⟩)

theorem assembleU_ok {co : Bool} {e N : Nat} (hN : 1 ≤ N) {d : Nat → Nat} {D : List (CMat F)} (h : DShapes co e N d D) {rs : List (CMat F × CMat F × P2C)} (hl : LevelsUOK D rs) :
    ∃ X, RedDG.assembleU (deg co) rs = .ok X ∧ DGBasis co e N d D X := by
  have hlen := hl.length_eq
  have hD := h.len
  obtain ⟨I, hI, ht⟩ := setIndices_ok co hN (R := rs.map (·.1)) (ps := rs.map (·.2.2)) (by simp; omega) (by simp; omega) (fun l hlN => by
    have := levels_index h hl.levels hlN
    simpa [List.map_map, Function.comp_def] using this) (rs.map (·.2.1))
  refine ⟨_, by unfold RedDG.assembleU; rw [hI]; rfl, ht, by simp; omega, fun l hlN => ?_⟩
  have hk : l < D.length := by omega
  have hk' : l < rs.length := by omega
  have h1 := (List.forall₂_iff_get.1 hl).2 l hk hk'
  have e1 : D.getD l ⟨0, []⟩ = D.get ⟨l, hk⟩ := by simp [hk]
  have e2 : (rs.map (·.1)).getD l ⟨0, []⟩ = (rs.get ⟨l, hk'⟩).1 := by simp [hk']
  have e3 : (rs.map (·.2.1)).getD l ⟨0, []⟩ = (rs.get ⟨l, hk'⟩).2.1 := by simp [hk']
  have s := h.shape l (by omega)
  rw [← e1, s.nrow, s.ncol] at h1
  show FactorOK _ _ _ ((rs.map (·.1)).getD l ⟨0, []⟩) ((rs.map (·.2.1)).getD l ⟨0, []⟩)
  rw [e2, e3]; exact h1.2

/-- the five constructors of `ReducedDGVectorSpace` with the standard algorithm -/
inductive DGVariant where
  | standard | noBasis | clearing | clearingBasis | compression
  deriving DecidableEq

/-- the constructor selected by the flags -/
def DGVariant.reduce : DGVariant → DGVS F → Res (RedDG F)
  | .standard => RedDG.mkStd
  | .noBasis => RedDG.mkNoBasis
  | .clearing => RedDG.mkClearing
  | .clearingBasis => RedDG.mkClearingU
  | .compression => RedDG.mkCompression

/-- the constructor keeps a basis -/
def DGVariant.withBasis (v : DGVariant) : Prop := v = .standard ∨ v = .clearingBasis

theorem ChainList.unrev {co : Bool} {D : List (CMat F)} (hne : D ≠ []) : chain co D ≠ [] := by
  cases co <;> simpa [chain] using hne

theorem DGVariant.basis (v : DGVariant) (hv : v.withBasis) (co : Bool) {e N : Nat} (hN : 1 ≤ N) {d : Nat → Nat} {D : List (CMat F)} (h : DShapes co e N d D) (hc : ChainList (chain co D)) :
    ∃ X, v.reduce ⟨deg co, D⟩ = .ok X ∧ DGBasis co e N d D X := by
  have hne : D ≠ [] := by
    intro h0; have := h.len; rw [h0] at this; simp at this
  rcases hv with rfl | rfl
  · obtain ⟨rs, h1, h2⟩ := reduceAllU_ok D h.ok
    obtain ⟨X, x1, x2⟩ := assembleU_ok hN h h2
    exact ⟨X, by show RedDG.mkStd _ = _; unfold RedDG.mkStd; simp only; rw [h1]; exact x1, x2⟩
  · obtain ⟨rs, h1, h2⟩ := clearAllU_spec (chain co D) (ChainList.unrev hne) hc
    cases co with
    | false =>
      obtain ⟨X, x1, x2⟩ := assembleU_ok hN h (rs := rs) h2
      refine ⟨X, ?_, x2⟩
      show RedDG.mkClearingU _ = _
      unfold RedDG.mkClearingU
      rw [if_pos (show deg false = -1 from rfl)]
      have h1' : RedCpx.clearAllU D = .ok rs := h1
      rw [h1']; exact x1
    | true =>
      have h3 : LevelsUOK D rs.reverse := by
        have := List.forall₂_reverse_iff.2 h2
        simpa [chain, LevelsUOK] using this
      obtain ⟨X, x1, x2⟩ := assembleU_ok hN h h3
      refine ⟨X, ?_, x2⟩
      show RedDG.mkClearingU _ = _
      unfold RedDG.mkClearingU
      rw [if_neg (by simp [deg])]
      have h1' : RedCpx.clearAllU D.reverse = .ok rs := h1
      rw [h1']; exact x1

theorem DGVariant.spec (v : DGVariant) (co : Bool) {e N : Nat} (hN : 1 ≤ N) {d : Nat → Nat} {D : List (CMat F)} (h : DShapes co e N d D) (hc : ChainList (chain co D)) :
    ∃ X, v.reduce ⟨deg co, D⟩ = .ok X ∧ DGTab co e N d D X := by
  have hne : D ≠ [] := by
    intro h0; have := h.len; rw [h0] at this; simp at this
  cases v with
  | standard => obtain ⟨X, h1, h2⟩ := DGVariant.basis .standard (Or.inl rfl) co hN h hc; exact ⟨X, h1, h2.tab⟩
  | clearingBasis => obtain ⟨X, h1, h2⟩ := DGVariant.basis .clearingBasis (Or.inr rfl) co hN h hc; exact ⟨X, h1, h2.tab⟩
  | noBasis =>
    obtain ⟨rs, h1, h2⟩ := reduceAll_ok D h.ok
    obtain ⟨X, x1, x2⟩ := assemble_ok hN h h2
    exact ⟨X, by show RedDG.mkNoBasis _ = _; unfold RedDG.mkNoBasis; simp only; rw [h1]; exact x1, x2⟩
  | clearing =>
    obtain ⟨rs, h1, h2⟩ := clearAll_spec (chain co D) (ChainList.unrev hne) hc
    cases co with
    | false =>
      obtain ⟨X, x1, x2⟩ := assemble_ok hN h (rs := rs) h2
      refine ⟨X, ?_, x2⟩
      show RedDG.mkClearing _ = _
      unfold RedDG.mkClearing
      rw [if_pos (show deg false = -1 from rfl)]
      have h1' : RedCpx.clearAll D = .ok rs := h1
      rw [h1']; exact x1
    | true =>
      have h3 : LevelsOK D rs.reverse := by
        have := List.forall₂_reverse_iff.2 h2
        simpa [chain, LevelsOK] using this
      obtain ⟨X, x1, x2⟩ := assemble_ok hN h h3
      refine ⟨X, ?_, x2⟩
      show RedDG.mkClearing _ = _
      unfold RedDG.mkClearing
      rw [if_neg (by simp [deg])]
      have h1' : RedCpx.clearAll D.reverse = .ok rs := h1
      rw [h1']; exact x1
  | compression =>
    obtain ⟨rs, h1, h2⟩ := compAll_ok (ChainList.unrev (co := co) hne) hc
    cases co with
    | false =>
      obtain ⟨X, x1, x2⟩ := assemble_ok hN h (rs := rs) h2
      refine ⟨X, ?_, x2⟩
      show RedDG.mkCompression _ = _
      unfold RedDG.mkCompression
      rw [if_pos (show deg false = -1 from rfl)]
      have h1' : RedDG.compAll D = .ok rs := h1
      rw [h1']; exact x1
    | true =>
      have h3 : LevelsOK D rs.reverse := by
        have := List.forall₂_reverse_iff.2 h2
        simpa [chain, LevelsOK] using this
      obtain ⟨X, x1, x2⟩ := assemble_ok hN h h3
      refine ⟨X, ?_, x2⟩
      show RedDG.mkCompression _ = _
      unfold RedDG.mkCompression
      rw [if_neg (by simp [deg])]
      have h1' : RedDG.compAll D.reverse = .ok rs := h1
      rw [h1']; exact x1

end DG
end BATS
