import Verif.Spec.Homology
import Verif.Model.Complex
import Verif.Proofs.ReduceMat
import Verif.Proofs.Homology

set_option linter.unusedSectionVars false
set_option linter.unusedSimpArgs false
set_option linter.unusedVariables false

namespace BATS
open Matrix Reduction

variable {F : Type} [Field F] [DecidableEq F]

/-- one dimension of a correctly reduced complex -/
structure LevelOK (m n : Nat) (M R : CMat F) (p : P2C) : Prop where
  shapeM : M.Shape m n
  shapeR : R.Shape m n
  table : IsPivotTable (R.mat m n) p
  piv : ∀ i j, Low (R.mat m n) i j ↔ IsPivot (M.mat m n) i j

theorem LevelOK.col_nil_iff {m n : Nat} {M R : CMat F} {p : P2C} (h : LevelOK m n M R p) (j : Fin n) :
    R.cols.getD j [] = [] ↔ ∀ i, ¬ IsPivot (M.mat m n) i j := by
  simp only [← h.piv]
  rw [← col_eq_zero_iff]
  have hR : ColsOK m R.cols := by have := h.shapeR.ok; rw [CMat.OK, h.shapeR.nrow] at this; exact this
  have hj := hR.getD j
  rw [hj.1.eq_nil_iff]
  constructor
  · intro h0; funext i; exact h0 i
  · intro h0 i
    by_cases hi : i < m
    · exact congrFun h0 ⟨i, hi⟩
    · exact hj.2.coef_eq_zero (by omega)

theorem LevelOK.p2c_none_iff {m n : Nat} {M R : CMat F} {p : P2C} (h : LevelOK m n M R p) (i : Fin m) :
    p.getD i none = none ↔ ∀ j, ¬ IsPivot (M.mat m n) i j := by
  simp only [← h.piv, ← h.table.iff]
  have hl : i.val < p.length := by rw [h.table.len]; exact i.2
  have hg : p[i.val]? = some (p.getD i none) := by simp [hl]
  constructor
  · intro h0 j hj
    rw [hg, h0] at hj; cases hj
  · intro h0
    cases hp : p.getD i none with
    | none => rfl
    | some k =>
      rw [hp] at hg
      exact absurd hg (h0 ⟨k, h.table.bound _ _ hg⟩)

theorem LevelOK.p2c_some_iff {m n : Nat} {M R : CMat F} {p : P2C} (h : LevelOK m n M R p) (i : Fin m) (j : Fin n) :
    p.getD i none = some j.val ↔ IsPivot (M.mat m n) i j := by
  rw [← h.piv, ← h.table.iff]
  have hl : i.val < p.length := by rw [h.table.len]; exact i.2
  simp [hl]

theorem hasRed_of_shape {m n : Nat} {M : CMat F} (hM : M.Shape m n) : HasRed (M.mat m n) := by
  obtain ⟨R, p, V, _, _, hV, he, ht⟩ := reduceStd_spec hM
  exact ⟨V, hV.upperInv, by rw [← he]; exact ht.reduced⟩

/-- any factorisation `R = M V` with a correct table is a correct level -/
theorem levelOK_of_factor {m n : Nat} {M R : CMat F} {p : P2C} (hM : M.Shape m n) (hR : R.Shape m n)
    {V : Matrix (Fin n) (Fin n) F} (hV : UpperInv V) (he : R.mat m n = M.mat m n * V)
    (ht : IsPivotTable (R.mat m n) p) : LevelOK m n M R p :=
  ⟨hM, hR, ht, fun i j => low_iff_isPivot hV ht.reduced he.symm i j⟩

/-- the table of a matrix is unique -/
theorem LevelOK.p2c_unique {m n : Nat} {M R R' : CMat F} {p p' : P2C} (h : LevelOK m n M R p)
    (h' : LevelOK m n M R' p') : p = p' := by
  apply List.ext_getElem?
  intro i
  by_cases hi : i < m
  · have h1 : i < p.length := by rw [h.table.len]; exact hi
    have h2 : i < p'.length := by rw [h'.table.len]; exact hi
    have g1 : p[i]? = some (p.getD i none) := by simp [h1]
    have g2 : p'[i]? = some (p'.getD i none) := by simp [h2]
    rw [g1, g2]
    congr 1
    cases hp : p.getD i none with
    | none =>
      have := (h.p2c_none_iff ⟨i, hi⟩).1 hp
      exact ((h'.p2c_none_iff ⟨i, hi⟩).2 this).symm
    | some k =>
      have hk : k < n := h.table.bound i k (by rw [g1, hp])
      have := (h.p2c_some_iff ⟨i, hi⟩ ⟨k, hk⟩).1 hp
      exact ((h'.p2c_some_iff ⟨i, hi⟩ ⟨k, hk⟩).2 this).symm
  · have h1 : ¬ i < p.length := by rw [h.table.len]; exact hi
    have h2 : ¬ i < p'.length := by rw [h'.table.len]; exact hi
    rw [List.getElem?_eq_none (by omega), List.getElem?_eq_none (by omega)]

/-! ### chain complexes as lists -/

/-- consecutive boundary matrices fit and compose to zero -/
def Conf (M M' : CMat F) : Prop :=
  M'.nrow = M.cols.length ∧ M.mat M.nrow M.cols.length * M'.mat M.cols.length M'.cols.length = 0

/-- recursive form of `IsChainComplex` -/
def ChainList : List (CMat F) → Prop
  | [] => True
  | [B] => B.OK
  | B :: B' :: Bs => B.OK ∧ Conf B B' ∧ ChainList (B' :: Bs)

theorem ChainList.head {B : CMat F} {Bs} (h : ChainList (B :: Bs)) : B.Shape B.nrow B.cols.length := by
  cases Bs with
  | nil => exact ⟨h, rfl, rfl⟩
  | cons _ _ => exact ⟨h.1, rfl, rfl⟩

theorem chainList_of_index : ∀ (B : List (CMat F)), (∀ k, k < B.length → (B.getD k ⟨0, []⟩).OK) →
    (∀ k, k + 1 < B.length → Conf (B.getD k ⟨0, []⟩) (B.getD (k + 1) ⟨0, []⟩)) → ChainList B
  | [], _, _ => trivial
  | [B], h, _ => by have := h 0 (by simp); exact this
  | B :: B' :: Bs, h, h' => by
    refine ⟨by simpa using h 0 (by simp), by simpa using h' 0 (by simp), ?_⟩
    apply chainList_of_index
    · intro k hk; simpa using h (k + 1) (by simpa using hk)
    · intro k hk; simpa using h' (k + 1) (by simpa using hk)

theorem IsChainComplex.nrow {B : List (CMat F)} (h : IsChainComplex B) {k : Nat} (hk : k < B.length) :
    (B.getD k ⟨0, []⟩).nrow = rdim B k := (h.shape k hk).nrow

theorem IsChainComplex.chainList {B : List (CMat F)} (h : IsChainComplex B) : ChainList B := by
  apply chainList_of_index
  · intro k hk; exact (h.shape k hk).ok
  · intro k hk
    refine ⟨(h.shape (k + 1) hk).nrow, ?_⟩
    have := h.sq k hk
    rw [h.nrow (by omega)]
    exact this

/-- correct reduction of every dimension -/
def LevelsOK (B : List (CMat F)) (rs : List (CMat F × P2C)) : Prop :=
  List.Forall₂ (fun M r => LevelOK M.nrow M.cols.length M r.1 r.2) B rs

theorem LevelsOK.index {B : List (CMat F)} {rs : List (CMat F × P2C)} (hB : IsChainComplex B) (h : LevelsOK B rs) {k : Nat}
    (hk : k < B.length) :
    LevelOK (rdim B k) (cdim B k) (B.getD k ⟨0, []⟩) ((rs.map (·.1)).getD k ⟨0, []⟩) ((rs.map (·.2)).getD k []) := by
  have hlen := h.length_eq
  have hk' : k < rs.length := by omega
  have h1 := (List.forall₂_iff_get.1 h).2 k hk hk'
  have e1 : B.getD k ⟨0, []⟩ = B.get ⟨k, hk⟩ := by simp [hk]
  have e2 : (rs.map (·.1)).getD k ⟨0, []⟩ = (rs.get ⟨k, hk'⟩).1 := by simp [hk']
  have e3 : (rs.map (·.2)).getD k [] = (rs.get ⟨k, hk'⟩).2 := by simp [hk']
  rw [← hB.nrow hk]
  unfold cdim
  rw [e1, e2, e3]
  exact h1

theorem reduceStd_level {M : CMat F} (hM : M.OK) :
    ∃ R p, reduceStd M = .ok (R, p) ∧ LevelOK M.nrow M.cols.length M R p := by
  have hs : M.Shape M.nrow M.cols.length := ⟨hM, rfl, rfl⟩
  obtain ⟨R, p, V, h, hR, hV, he, ht⟩ := reduceStd_spec hs
  exact ⟨R, p, h, levelOK_of_factor hs hR hV.upperInv he ht⟩

theorem reduceAll_spec : ∀ (B : List (CMat F)), ChainList B → ∃ rs, RedCpx.reduceAll B = .ok rs ∧ LevelsOK B rs
  | [], _ => ⟨[], rfl, List.Forall₂.nil⟩
  | B :: Bs, h => by
    obtain ⟨R, p, hr, hl⟩ := reduceStd_level h.head.ok
    have ht : ChainList Bs := by
      cases Bs with
      | nil => trivial
      | cons _ _ => exact h.2.2
    obtain ⟨rs, hrs, hl2⟩ := reduceAll_spec Bs ht
    refine ⟨(R, p) :: rs, ?_, List.Forall₂.cons hl hl2⟩
    unfold RedCpx.reduceAll
    rw [hr, hrs]; rfl

/-! ### set_indices -/

theorem basisIndsLoop_spec (p : P2C) : ∀ (cs : List (SVec F)) (j0 : Nat), j0 + cs.length ≤ p.length →
    ∃ r, basisIndsLoop p j0 cs = .ok r ∧ r.Pairwise (· < ·) ∧
      ∀ j, j ∈ r ↔ j0 ≤ j ∧ j < j0 + cs.length ∧ cs.getD (j - j0) [] = [] ∧ p.getD j none = none := by
  intro cs
  induction cs with
  | nil =>
    intro j0 _
    refine ⟨[], rfl, List.Pairwise.nil, ?_⟩
    intro j; simp; omega
  | cons c cs ih =>
    intro j0 hl
    simp only [List.length_cons] at hl
    obtain ⟨r, hr, hs, hm⟩ := ih (j0 + 1) (by omega)
    have hlt : ∀ j ∈ r, j0 < j := by
      intro j hj; have := ((hm j).1 hj).1; omega
    have hshift : ∀ j, j0 + 1 ≤ j → (c :: cs).getD (j - j0) [] = cs.getD (j - (j0 + 1)) [] := by
      intro j hj
      have : j - j0 = (j - (j0 + 1)) + 1 := by omega
      rw [this]; rfl
    unfold basisIndsLoop
    by_cases hc : c.length = 0
    · rw [if_pos hc, rd_getD none (by omega)]
      simp only [bind_ok, hr]
      have hcn : c = [] := List.length_eq_zero_iff.1 hc
      cases hp : p.getD j0 none with
      | none =>
        refine ⟨j0 :: r, rfl, List.pairwise_cons.2 ⟨hlt, hs⟩, ?_⟩
        intro j
        rw [List.mem_cons, hm j]
        constructor
        · rintro (rfl | ⟨h1, h2, h3, h4⟩)
          · refine ⟨le_refl _, by simp, by simp [hcn], hp⟩
          · refine ⟨by omega, by simp; omega, by rw [hshift j h1]; exact h3, h4⟩
        · rintro ⟨h1, h2, h3, h4⟩
          by_cases e : j = j0
          · exact Or.inl e
          · right
            refine ⟨by omega, by simp at h2; omega, by rw [← hshift j (by omega)]; exact h3, h4⟩
      | some k =>
        refine ⟨r, rfl, hs, ?_⟩
        intro j
        rw [hm j]
        constructor
        · rintro ⟨h1, h2, h3, h4⟩
          refine ⟨by omega, by simp; omega, by rw [hshift j h1]; exact h3, h4⟩
        · rintro ⟨h1, h2, h3, h4⟩
          by_cases e : j = j0
          · subst e; rw [hp] at h4; cases h4
          · refine ⟨by omega, by simp at h2; omega, by rw [← hshift j (by omega)]; exact h3, h4⟩
    · rw [if_neg hc, hr]
      refine ⟨r, rfl, hs, ?_⟩
      intro j
      rw [hm j]
      constructor
      · rintro ⟨h1, h2, h3, h4⟩
        refine ⟨by omega, by simp; omega, by rw [hshift j h1]; exact h3, h4⟩
      · rintro ⟨h1, h2, h3, h4⟩
        by_cases e : j = j0
        · subst e
          simp at h3; exact absurd (by rw [h3]; rfl) hc
        · refine ⟨by omega, by simp at h2; omega, by rw [← hshift j (by omega)]; exact h3, h4⟩

theorem basisIndsTopLoop_spec : ∀ (cs : List (SVec F)) (j0 : Nat),
    (basisIndsTopLoop j0 cs).Pairwise (· < ·) ∧
      ∀ j, j ∈ basisIndsTopLoop j0 cs ↔ j0 ≤ j ∧ j < j0 + cs.length ∧ cs.getD (j - j0) [] = [] := by
  intro cs
  induction cs with
  | nil =>
    intro j0
    refine ⟨List.Pairwise.nil, ?_⟩
    intro j; simp [basisIndsTopLoop]
  | cons c cs ih =>
    intro j0
    obtain ⟨hs, hm⟩ := ih (j0 + 1)
    have hlt : ∀ j ∈ basisIndsTopLoop (j0 + 1) cs, j0 < j := by
      intro j hj; have := ((hm j).1 hj).1; omega
    have hshift : ∀ j, j0 + 1 ≤ j → (c :: cs).getD (j - j0) [] = cs.getD (j - (j0 + 1)) [] := by
      intro j hj
      have : j - j0 = (j - (j0 + 1)) + 1 := by omega
      rw [this]; rfl
    unfold basisIndsTopLoop
    by_cases hc : c.length = 0
    · rw [if_pos hc]
      have hcn : c = [] := List.length_eq_zero_iff.1 hc
      refine ⟨List.pairwise_cons.2 ⟨hlt, hs⟩, ?_⟩
      intro j
      rw [List.mem_cons, hm j]
      constructor
      · rintro (rfl | ⟨h1, h2, h3⟩)
        · refine ⟨le_refl _, by simp, by simp [hcn]⟩
        · refine ⟨by omega, by simp; omega, by rw [hshift j h1]; exact h3⟩
      · rintro ⟨h1, h2, h3⟩
        by_cases e : j = j0
        · exact Or.inl e
        · right
          refine ⟨by omega, by simp at h2; omega, by rw [← hshift j (by omega)]; exact h3⟩
    · rw [if_neg hc]
      refine ⟨hs, ?_⟩
      intro j
      rw [hm j]
      constructor
      · rintro ⟨h1, h2, h3⟩
        refine ⟨by omega, by simp; omega, by rw [hshift j h1]; exact h3⟩
      · rintro ⟨h1, h2, h3⟩
        by_cases e : j = j0
        · subst e
          simp at h3; exact absurd (by rw [h3]; rfl) hc
        · refine ⟨by omega, by simp at h2; omega, by rw [← hshift j (by omega)]; exact h3⟩

/-- what `set_indices` computes, in terms of `R` and the tables -/
theorem setIndices_spec : ∀ (Rs : List (CMat F)) (ps : List P2C), Rs ≠ [] → ps.length = Rs.length →
    (∀ k, k + 1 < Rs.length → (Rs.getD k ⟨0, []⟩).cols.length ≤ (ps.getD (k + 1) []).length) →
    ∃ I, RedCpx.setIndices Rs ps = .ok I ∧ I.length = Rs.length ∧
      ∀ k, k < Rs.length → (I.getD k []).Pairwise (· < ·) ∧
        ∀ j, j ∈ I.getD k [] ↔ j < (Rs.getD k ⟨0, []⟩).cols.length ∧ (Rs.getD k ⟨0, []⟩).cols.getD j [] = [] ∧
          (k + 1 < Rs.length → (ps.getD (k + 1) []).getD j none = none)
  | [], _, h, _, _ => absurd rfl h
  | [R], ps, _, hl, _ => by
    refine ⟨[extractBasisIndicesTop R], by unfold RedCpx.setIndices; rfl, rfl, ?_⟩
    intro k hk
    have : k = 0 := by simpa using hk
    subst this
    have := basisIndsTopLoop_spec R.cols 0
    refine ⟨this.1, fun j => ?_⟩
    have h2 := this.2 j
    simp only [extractBasisIndicesTop, List.getD_cons_zero] at h2 ⊢
    rw [h2]; simp
  | R :: R' :: Rs, [], _, hl, _ => by simp at hl
  | R :: R' :: Rs, [p], _, hl, _ => by simp at hl
  | R :: R' :: Rs, p :: p' :: ps, _, hl, hb => by
    have h0 := hb 0 (by simp)
    simp only [List.getD_cons_zero, List.getD_cons_succ] at h0
    obtain ⟨i, hi, his, him⟩ := basisIndsLoop_spec p' R.cols 0 (by omega)
    obtain ⟨I, hI, hIl, hIm⟩ := setIndices_spec (R' :: Rs) (p' :: ps) (by simp) (by simpa using hl)
      (by intro k hk; have := hb (k + 1) (by simpa using hk); simpa using this)
    refine ⟨i :: I, ?_, by simp [hIl], ?_⟩
    · unfold RedCpx.setIndices extractBasisIndices
      rw [hi, hI]; rfl
    · intro k hk
      cases k with
      | zero =>
        refine ⟨his, fun j => ?_⟩
        have := him j
        simp only [List.getD_cons_zero, List.getD_cons_succ]
        rw [this]; simp
      | succ k =>
        have := hIm k (by simpa using hk)
        simp only [List.getD_cons_succ, List.length_cons] at this ⊢
        refine ⟨this.1, fun j => ?_⟩
        rw [this.2 j]; simp

/-! ### essential indices and Betti numbers -/

theorem cdim_of_ge {B : List (CMat F)} {k : Nat} (h : B.length ≤ k) : cdim B k = 0 := by
  unfold cdim; simp [List.getD, List.getElem?_eq_none h]

theorem IsChainComplex.hasRed {B : List (CMat F)} (h : IsChainComplex B) (k : Nat) : HasRed (bdry B k) := by
  by_cases hk : k < B.length
  · exact hasRed_of_shape (h.shape k hk)
  · have h0 : cdim B k = 0 := cdim_of_ge (by omega)
    refine ⟨1, upperInv_one, ?_⟩
    intro i j
    exact absurd j.2 (by omega)

theorem IsChainComplex.hasRedUp {B : List (CMat F)} (h : IsChainComplex B) (k : Nat) : HasRed (bdryUp B k) :=
  h.hasRed (k + 1)

theorem IsChainComplex.sq' {B : List (CMat F)} (h : IsChainComplex B) (k : Nat) : bdry B k * bdryUp B k = 0 := by
  by_cases hk : k + 1 < B.length
  · exact h.sq k hk
  · have h0 : cdim B (k + 1) = 0 := cdim_of_ge (by omega)
    ext i j
    exact absurd j.2 (by omega)

/-- the reduced complex `C` holds the pivot tables and the essential indices of `B` -/
structure TabOK (B : List (CMat F)) (C : RedCpx F) : Prop where
  lenR : C.R.length = B.length
  lenP : C.p2c.length = B.length
  lenI : C.I.length = B.length
  lev : ∀ k, k < B.length →
    LevelOK (rdim B k) (cdim B k) (B.getD k ⟨0, []⟩) (C.R.getD k ⟨0, []⟩) (C.p2c.getD k [])
  sorted : ∀ k, k < B.length → (C.I.getD k []).Pairwise (· < ·)
  inds : ∀ k, k < B.length → ∀ j,
    j ∈ C.I.getD k [] ↔ ∃ h : j < cdim B k, Essential (bdry B k) (bdryUp B k) ⟨j, h⟩

theorem tabOK_of_levels {B : List (CMat F)} (hB : IsChainComplex B) (Us Rs : List (CMat F)) (ps : List P2C)
    (lR : Rs.length = B.length) (lP : ps.length = B.length)
    (lev : ∀ k, k < B.length → LevelOK (rdim B k) (cdim B k) (B.getD k ⟨0, []⟩) (Rs.getD k ⟨0, []⟩) (ps.getD k [])) :
    ∃ I, RedCpx.setIndices Rs ps = .ok I ∧ TabOK B ⟨Us, Rs, I, ps⟩ := by
  obtain ⟨I, hI, hIl, hIm⟩ := setIndices_spec Rs ps
    (by intro h; rw [h] at lR; exact hB.ne (List.length_eq_zero_iff.1 lR.symm)) (by omega)
    (by
      intro k hk
      rw [(lev k (by omega)).shapeR.ncol, (lev (k + 1) (by omega)).table.len]
      exact le_refl _)
  refine ⟨I, hI, lR, lP, by simp [hIl, lR], lev, fun k hk => (hIm k (by omega)).1, ?_⟩
  intro k hk j
  rw [(hIm k (by omega)).2 j, (lev k hk).shapeR.ncol]
  constructor
  · rintro ⟨h1, h2, h3⟩
    refine ⟨h1, ((lev k hk).col_nil_iff ⟨j, h1⟩).1 h2, ?_⟩
    intro j'
    by_cases hk1 : k + 1 < B.length
    · have := h3 (by omega)
      exact ((lev (k + 1) hk1).p2c_none_iff ⟨j, h1⟩).1 this j'
    · have h0 : cdim B (k + 1) = 0 := cdim_of_ge (by omega)
      exact absurd j'.2 (by omega)
  · rintro ⟨h1, h2, h3⟩
    refine ⟨h1, ((lev k hk).col_nil_iff ⟨j, h1⟩).2 h2, ?_⟩
    intro hk1
    exact ((lev (k + 1) (by omega)).p2c_none_iff ⟨j, h1⟩).2 h3

theorem assemble_spec {B : List (CMat F)} (hB : IsChainComplex B) {rs : List (CMat F × P2C)} (h : LevelsOK B rs) :
    ∃ C, RedCpx.assemble rs = .ok C ∧ TabOK B C ∧ C.R = rs.map (·.1) := by
  have hl := h.length_eq
  obtain ⟨I, hI, ht⟩ := tabOK_of_levels hB [] (rs.map (·.1)) (rs.map (·.2)) (by simp [hl]) (by simp [hl])
    (fun k hk => h.index hB hk)
  refine ⟨⟨[], rs.map (·.1), I, rs.map (·.2)⟩, ?_, ht, rfl⟩
  unfold RedCpx.assemble
  rw [hI]; rfl

theorem assembleU_spec {B : List (CMat F)} (hB : IsChainComplex B) {rs : List (CMat F × CMat F × P2C)}
    (h : LevelsOK B (rs.map (fun r => (r.1, r.2.2)))) :
    ∃ C, RedCpx.assembleU rs = .ok C ∧ TabOK B C ∧ C.R = rs.map (·.1) ∧ C.U = rs.map (·.2.1) := by
  have hl := h.length_eq
  simp only [List.length_map] at hl
  obtain ⟨I, hI, ht⟩ := tabOK_of_levels hB (rs.map (·.2.1)) (rs.map (·.1)) (rs.map (·.2.2)) (by simp [hl]) (by simp [hl])
    (fun k hk => by
      have := h.index hB hk
      simpa [List.map_map, Function.comp_def] using this)
  refine ⟨⟨rs.map (·.2.1), rs.map (·.1), I, rs.map (·.2.2)⟩, ?_, ht, rfl, rfl⟩
  unfold RedCpx.assembleU
  rw [hI]; rfl

theorem TabOK.betti {B : List (CMat F)} (hB : IsChainComplex B) {C : RedCpx F} (h : TabOK B C) {k : Nat}
    (hk : k < B.length) : (C.I.getD k []).length = bettiNumber B k := by
  classical
  have hnd : (C.I.getD k []).Nodup := (h.sorted k hk).imp (fun h => ne_of_lt h)
  rw [← List.toFinset_card_of_nodup hnd]
  unfold bettiNumber
  have h1 := card_essential_eq (hB.hasRed k) (hB.hasRedUp k) (hB.sq' k)
  unfold Homology cycles boundaries
  rw [← h1]
  symm
  apply Finset.card_bij (fun (j : Fin (cdim B k)) _ => j.val)
  · intro j hj
    rw [List.mem_toFinset, h.inds k hk]
    exact ⟨j.2, (Finset.mem_filter.1 hj).2⟩
  · intro a _ b _ hab; exact Fin.ext hab
  · intro j hj
    rw [List.mem_toFinset, h.inds k hk] at hj
    obtain ⟨hlt, he⟩ := hj
    exact ⟨⟨j, hlt⟩, by simp; exact he, rfl⟩

theorem TabOK.unique {B : List (CMat F)} {C C' : RedCpx F} (h : TabOK B C) (h' : TabOK B C') :
    C.p2c = C'.p2c ∧ C.I = C'.I := by
  constructor
  · apply List.ext_getElem (by rw [h.lenP, h'.lenP])
    intro k h1 h2
    have hk : k < B.length := by rw [← h.lenP]; exact h1
    have := (h.lev k hk).p2c_unique (h'.lev k hk)
    simpa [h1, h2] using this
  · apply List.ext_getElem (by rw [h.lenI, h'.lenI])
    intro k h1 h2
    have hk : k < B.length := by rw [← h.lenI]; exact h1
    have e : C.I.getD k [] = C'.I.getD k [] := by
      apply List.Perm.eq_of_pairwise (le := fun a b => a < b)
      · intro a b _ _ h1 h2; omega
      · exact h.sorted k hk
      · exact h'.sorted k hk
      · apply (List.perm_ext_iff_of_nodup ((h.sorted k hk).imp (fun h => ne_of_lt h))
          ((h'.sorted k hk).imp (fun h => ne_of_lt h))).2
        intro a
        rw [h.inds k hk, h'.inds k hk]
    simpa [h1, h2] using e

end BATS
