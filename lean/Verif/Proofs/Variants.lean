import Verif.Proofs.Complex

set_option linter.unusedSectionVars false
set_option linter.unusedSimpArgs false
set_option linter.unusedVariables false

/-! Clearing and compression, with and without basis. -/

namespace BATS
open Matrix Reduction

variable {F : Type} [Field F] [DecidableEq F]

theorem upperInv_of_low {n : Nat} {W : Matrix (Fin n) (Fin n) F} (h : ∀ i, VLow (W.col i) i) : UpperInv W :=
  ⟨fun i j hij => (h j).2 i hij, fun i => (h i).1⟩

/-! ### clearing indices -/

theorem mem_clearingIndsFrom : ∀ (p : P2C) (i0 i : Nat),
    i ∈ clearingIndsFrom i0 p ↔ i0 ≤ i ∧ i < i0 + p.length ∧ p.getD (i - i0) none ≠ none
  | [], i0, i => by simp [clearingIndsFrom]
  | none :: p, i0, i => by
    rw [clearingIndsFrom, mem_clearingIndsFrom p (i0 + 1) i]
    constructor
    · rintro ⟨h1, h2, h3⟩
      refine ⟨by omega, by simp; omega, ?_⟩
      have : i - i0 = (i - (i0 + 1)) + 1 := by omega
      rw [this]; exact h3
    · rintro ⟨h1, h2, h3⟩
      have hne : i ≠ i0 := by rintro rfl; simp at h3
      have : i - i0 = (i - (i0 + 1)) + 1 := by omega
      rw [this] at h3
      exact ⟨by omega, by simp at h2; omega, h3⟩
  | some k :: p, i0, i => by
    rw [clearingIndsFrom, List.mem_cons, mem_clearingIndsFrom p (i0 + 1) i]
    constructor
    · rintro (rfl | ⟨h1, h2, h3⟩)
      · refine ⟨le_refl _, by simp, by simp⟩
      · refine ⟨by omega, by simp; omega, ?_⟩
        have : i - i0 = (i - (i0 + 1)) + 1 := by omega
        rw [this]; exact h3
    · rintro ⟨h1, h2, h3⟩
      by_cases hne : i = i0
      · exact Or.inl hne
      · right
        have : i - i0 = (i - (i0 + 1)) + 1 := by omega
        rw [this] at h3
        exact ⟨by omega, by simp at h2; omega, h3⟩

theorem clearColsLoop_spec : ∀ (is : List Nat) (cols : List (SVec F)), (∀ i ∈ is, i < cols.length) →
    ∃ cols', clearColsLoop is cols = .ok cols' ∧ cols'.length = cols.length ∧
      ∀ j, cols'.getD j [] = if j ∈ is then [] else cols.getD j []
  | [], cols, _ => ⟨cols, rfl, rfl, by simp⟩
  | i :: is, cols, h => by
    have hi := h i (by simp)
    obtain ⟨cols', h1, h2, h3⟩ := clearColsLoop_spec is (cols.set i []) (by
      intro k hk; rw [List.length_set]; exact h k (by simp [hk]))
    refine ⟨cols', ?_, by rw [h2, List.length_set], ?_⟩
    · unfold clearColsLoop; rw [wr_ok _ hi]; exact h1
    · intro j
      rw [h3 j, getD_set _ _ hi]
      by_cases hj : j ∈ is
      · simp [hj]
      · by_cases hij : i = j
        · subst hij; simp
        · have : ¬ j = i := fun e => hij e.symm
          simp [hj, hij, this]

theorem colsOK_of_getD {m : Nat} {cols : List (SVec F)} (h : ∀ j, j < cols.length → VecOK (cols.getD j []) ∧ Below m (cols.getD j [])) :
    ColsOK m cols := by
  intro c hc
  obtain ⟨j, hj, rfl⟩ := List.mem_iff_getElem.1 hc
  have := h j hj
  simpa [hj] using this

/-- replacing the columns at pivot rows of the next boundary by zero is an invertible triangular operation -/
theorem clearing_level {n n2 : Nat} {M M2 R2 : CMat F} {p2 : P2C} {m : Nat} (hM : M.Shape m n)
    (hDD : M.mat m n * M2.mat n n2 = 0) (h2 : LevelOK n n2 M2 R2 p2) :
    ∃ R p, reduceClearing M (getClearingInds p2) = .ok (R, p) ∧ LevelOK m n M R p := by
  classical
  have hlen : p2.length = n := h2.table.len
  have hlt : ∀ i ∈ getClearingInds p2, i < M.cols.length := by
    intro i hi
    have := (mem_clearingIndsFrom p2 0 i).1 hi
    rw [hM.ncol]; omega
  obtain ⟨cols', hc, hcl, hcm⟩ := clearColsLoop_spec (getClearingInds p2) M.cols hlt
  have hMcols : ColsOK M.nrow M.cols := hM.ok
  have hS : (⟨M.nrow, cols'⟩ : CMat F).Shape m n := by
    refine ⟨colsOK_of_getD ?_, hM.nrow, by rw [← hM.ncol]; exact hcl⟩
    intro j _
    show VecOK (cols'.getD j []) ∧ Below M.nrow (cols'.getD j [])
    rw [hcm j]
    split
    · exact ⟨vecOK_nil, below_nil _⟩
    · exact hMcols.getD j
  obtain ⟨R, p, V, hr, hRs, hV, he, ht⟩ := reduceStd_spec hS
  have hpiv : ∀ i : Fin n, i.val ∈ getClearingInds p2 ↔ ∃ j, IsPivot (M2.mat n n2) i j := by
    intro i
    unfold getClearingInds
    rw [mem_clearingIndsFrom]
    have := h2.p2c_none_iff i
    simp only [Nat.sub_zero, zero_le, true_and, zero_add, ne_eq, this, hlen, i.2, not_forall, not_not]
  have hz : ∀ i : Fin n, (∃ j, IsPivot (M2.mat n n2) i j) → ∃ z, M.mat m n *ᵥ z = 0 ∧ VLow z i := by
    rintro i ⟨j, ⟨x, _, hx⟩, _⟩
    exact ⟨_, by rw [mulVec_mulVec, hDD, zero_mulVec], hx⟩
  let W : Matrix (Fin n) (Fin n) F := Matrix.of fun a i =>
    if h : ∃ j, IsPivot (M2.mat n n2) i j then (hz i h).choose a else (1 : Matrix (Fin n) (Fin n) F) a i
  have hWcol : ∀ i, W.col i = if h : ∃ j, IsPivot (M2.mat n n2) i j then (hz i h).choose else (1 : Matrix (Fin n) (Fin n) F).col i := by
    intro i; funext a; simp only [Matrix.col_apply, W, Matrix.of_apply]; split <;> rfl
  have hW : UpperInv W := by
    apply upperInv_of_low
    intro i
    rw [hWcol]
    split
    · rename_i h; exact (hz i h).choose_spec.2
    · exact low_col.1 ⟨upperInv_one.2 i, fun i' h => upperInv_one.1 i' i h⟩
  have hMW : (⟨M.nrow, cols'⟩ : CMat F).mat m n = M.mat m n * W := by
    ext a i
    have : (M.mat m n * W) a i = (M.mat m n *ᵥ (W.col i)) a := rfl
    rw [this, hWcol]
    show coef (cols'.getD i []) a = _
    rw [hcm i]
    by_cases h : ∃ j, IsPivot (M2.mat n n2) i j
    · rw [if_pos ((hpiv i).2 h), dif_pos h, (hz i h).choose_spec.1]; rfl
    · rw [if_neg (fun h' => h ((hpiv i).1 h')), dif_neg h]
      have e : M.mat m n *ᵥ (1 : Matrix (Fin n) (Fin n) F).col i = (M.mat m n * (1 : Matrix (Fin n) (Fin n) F)).col i := rfl
      rw [e, Matrix.mul_one]; rfl
  refine ⟨R, p, ?_, levelOK_of_factor hM hRs (hW.mul hV.upperInv) (by rw [he, hMW, Matrix.mul_assoc]) ht⟩
  unfold reduceClearing
  rw [hc]; exact hr

theorem clearAll_spec : ∀ (B : List (CMat F)), B ≠ [] → ChainList B →
    ∃ rs, RedCpx.clearAll B = .ok rs ∧ LevelsOK B rs
  | [], h, _ => absurd rfl h
  | [B], _, h => by
    obtain ⟨R, p, hr, hl⟩ := reduceStd_level (F := F) (M := B) h
    refine ⟨[(R, p)], ?_, List.Forall₂.cons hl List.Forall₂.nil⟩
    unfold RedCpx.clearAll; rw [hr]; rfl
  | B :: B' :: Bs, _, h => by
    obtain ⟨rs, hrs, hl⟩ := clearAll_spec (B' :: Bs) (by simp) h.2.2
    cases hl with
    | cons h1 h2 =>
      rename_i r1 rs'
      obtain ⟨R1, p1⟩ := r1
      obtain ⟨R, p, hr, hlv⟩ := clearing_level (h.head) h.2.1.2 (by have := h1; rw [h.2.1.1] at this; exact this)
      refine ⟨(R, p) :: (R1, p1) :: rs', ?_, List.Forall₂.cons hlv (List.Forall₂.cons h1 h2)⟩
      unfold RedCpx.clearAll
      rw [hrs]
      simp only [bind_ok]
      rw [hr]; rfl

/-! ### basis -/

/-- `U` is a triangular invertible basis with `M U = R` -/
structure FactorOK (m n : Nat) (M R U : CMat F) : Prop where
  shape : U.Shape n n
  upper : UpperInv (U.mat n n)
  eq : M.mat m n * U.mat n n = R.mat m n

/-- correct level with basis, for a triple as returned by the reduction -/
def LevelUOK (m n : Nat) (M : CMat F) (r : CMat F × CMat F × P2C) : Prop :=
  LevelOK m n M r.1 r.2.2 ∧ FactorOK m n M r.1 r.2.1

def LevelsUOK (B : List (CMat F)) (rs : List (CMat F × CMat F × P2C)) : Prop :=
  List.Forall₂ (fun M r => LevelUOK M.nrow M.cols.length M r) B rs

theorem LevelsUOK.levels {B : List (CMat F)} {rs} (h : LevelsUOK B rs) :
    LevelsOK B (rs.map (fun r => (r.1, r.2.2))) := by
  unfold LevelsOK
  rw [List.forall₂_map_right_iff]
  exact h.imp (fun M r h => h.1)

theorem LevelsUOK.factor {B : List (CMat F)} {rs} (hB : IsChainComplex B) (h : LevelsUOK B rs) {k : Nat} (hk : k < B.length) :
    FactorOK (rdim B k) (cdim B k) (B.getD k ⟨0, []⟩) ((rs.map (·.1)).getD k ⟨0, []⟩) ((rs.map (·.2.1)).getD k ⟨0, []⟩) := by
  have hlen := h.length_eq
  have hk' : k < rs.length := by omega
  have h1 := (List.forall₂_iff_get.1 h).2 k hk hk'
  have e1 : B.getD k ⟨0, []⟩ = B.get ⟨k, hk⟩ := by simp [hk]
  have e2 : (rs.map (·.1)).getD k ⟨0, []⟩ = (rs.get ⟨k, hk'⟩).1 := by simp [hk']
  have e3 : (rs.map (·.2.1)).getD k ⟨0, []⟩ = (rs.get ⟨k, hk'⟩).2.1 := by simp [hk']
  rw [← hB.nrow hk]
  unfold cdim
  rw [e1, e2, e3]
  exact h1.2

theorem reduceStdU_level {m n : Nat} {M : CMat F} (hM : M.Shape m n) :
    ∃ r, reduceStdU M (CMat.identity n) = .ok r ∧ LevelUOK m n M r := by
  obtain ⟨R, U', p, V, h, hR, hU, hV, h1, h2, h3⟩ := reduceStdU_spec hM (shape_identity (F := F) n)
  rw [mat_identity, one_mul] at h2
  exact ⟨(R, U', p), h, levelOK_of_factor hM hR hV.upperInv h1 h3, hU, by rw [h2]; exact hV.upperInv, by rw [h1, h2]⟩

theorem reduceAllU_spec : ∀ (B : List (CMat F)), ChainList B → ∃ rs, RedCpx.reduceAllU B = .ok rs ∧ LevelsUOK B rs
  | [], _ => ⟨[], rfl, List.Forall₂.nil⟩
  | B :: Bs, h => by
    obtain ⟨r, hr, hl⟩ := reduceStdU_level h.head
    have ht : ChainList Bs := by
      cases Bs with
      | nil => trivial
      | cons _ _ => exact h.2.2
    obtain ⟨rs, hrs, hl2⟩ := reduceAllU_spec Bs ht
    refine ⟨r :: rs, ?_, List.Forall₂.cons hl hl2⟩
    unfold RedCpx.reduceAllU
    rw [hr, hrs]; rfl

theorem clearBasisLoop_spec (Rcols : List (SVec F)) : ∀ (p : P2C) (i0 : Nat) (cols ucols : List (SVec F)),
    i0 + p.length ≤ cols.length → ucols.length = cols.length →
    (∀ i j : Nat, p[i]? = some (some j) → j < Rcols.length) →
    ∃ cols' ucols', clearBasisLoop Rcols i0 p cols ucols = .ok (cols', ucols') ∧
      cols'.length = cols.length ∧ ucols'.length = cols.length ∧
      (∀ i, cols'.getD i [] = if i0 ≤ i ∧ p.getD (i - i0) none ≠ none then [] else cols.getD i []) ∧
      (∀ i, ucols'.getD i [] = if i0 ≤ i then
          (match p.getD (i - i0) none with | some j => Rcols.getD j [] | none => ucols.getD i []) else ucols.getD i [])
  | [], i0, cols, ucols, _, hu, _ => ⟨cols, ucols, rfl, rfl, hu, by simp, by simp⟩
  | none :: p, i0, cols, ucols, hl, hu, hb => by
    obtain ⟨cols', ucols', h1, h2, h3, h4, h5⟩ := clearBasisLoop_spec Rcols p (i0 + 1) cols ucols
      (by simp at hl; omega) hu (fun i j h => hb (i + 1) j (by simpa using h))
    refine ⟨cols', ucols', by unfold clearBasisLoop; exact h1, h2, h3, ?_, ?_⟩
    · intro i
      rw [h4]
      rcases Nat.lt_trichotomy i i0 with h | h | h
      · rw [if_neg (by omega), if_neg (by omega)]
      · subst h; rw [if_neg (by omega), if_neg (by simp)]
      · have e : i - i0 = (i - (i0 + 1)) + 1 := by omega
        rw [e]
        have a1 : i0 + 1 ≤ i := h
        have a2 : i0 ≤ i := by omega
        simp [a1, a2]
    · intro i
      rw [h5]
      rcases Nat.lt_trichotomy i i0 with h | h | h
      · rw [if_neg (by omega), if_neg (by omega)]
      · subst h; rw [if_neg (by omega), if_pos (by omega)]; simp
      · have e : i - i0 = (i - (i0 + 1)) + 1 := by omega
        rw [e]
        have a1 : i0 + 1 ≤ i := h
        have a2 : i0 ≤ i := by omega
        simp [a1, a2]
  | some j :: p, i0, cols, ucols, hl, hu, hb => by
    have hj : j < Rcols.length := hb 0 j rfl
    have hi : i0 < cols.length := by simp at hl; omega
    have hi' : i0 < ucols.length := by omega
    obtain ⟨cols', ucols', h1, h2, h3, h4, h5⟩ := clearBasisLoop_spec Rcols p (i0 + 1) (cols.set i0 [])
      (ucols.set i0 (Rcols.getD j []))
      (by simp at hl ⊢; omega) (by simp [hu]) (fun i j h => hb (i + 1) j (by simpa using h))
    rw [List.length_set] at h2 h3
    refine ⟨cols', ucols', ?_, h2, h3, ?_, ?_⟩
    · unfold clearBasisLoop
      rw [wr_ok _ hi, rd_getD [] hj]
      simp only [bind_ok]
      rw [wr_ok _ hi']
      simp only [bind_ok]
      exact h1
    · intro i
      rw [h4, getD_set _ _ hi]
      rcases Nat.lt_trichotomy i i0 with h | h | h
      · rw [if_neg (by omega), if_neg (by omega), if_neg (by omega)]
      · subst h; simp
      · have e : i - i0 = (i - (i0 + 1)) + 1 := by omega
        rw [e]
        have a1 : i0 + 1 ≤ i := h
        have a2 : i0 ≤ i := by omega
        have a3 : ¬ i0 = i := by omega
        simp [a1, a2, a3]
    · intro i
      rw [h5, getD_set _ _ hi']
      rcases Nat.lt_trichotomy i i0 with h | h | h
      · rw [if_neg (by omega), if_neg (by omega), if_neg (by omega)]
      · subst h; simp
      · have e : i - i0 = (i - (i0 + 1)) + 1 := by omega
        rw [e]
        have a1 : i0 + 1 ≤ i := h
        have a2 : i0 ≤ i := by omega
        have a3 : ¬ i0 = i := by omega
        simp [a1, a2, a3]

theorem clearing_levelU {n n2 m : Nat} {M M2 : CMat F} {r2 : CMat F × CMat F × P2C} (hM : M.Shape m n)
    (hDD : M.mat m n * M2.mat n n2 = 0) (h2 : LevelUOK n n2 M2 r2) :
    ∃ r, reduceClearingU M (CMat.identity n) r2.1 r2.2.2 = .ok r ∧ LevelUOK m n M r := by
  classical
  obtain ⟨R2, U2, p2⟩ := r2
  obtain ⟨h2, hf⟩ := h2
  simp only at h2 hf
  have hlen : p2.length = n := h2.table.len
  have hidl : (CMat.identity (F := F) n).cols.length = M.cols.length := by rw [hM.ncol]; simp [CMat.identity]
  obtain ⟨cols', ucols', hrun, hcl, hul, hcm, hum⟩ := clearBasisLoop_spec R2.cols p2 0 M.cols (CMat.identity (F := F) n).cols
    (by rw [hM.ncol, hlen]; omega) hidl (fun i j h => by rw [h2.shapeR.ncol]; exact h2.table.bound i j h)
  have hMcols : ColsOK M.nrow M.cols := hM.ok
  have hS : (⟨M.nrow, cols'⟩ : CMat F).Shape m n := by
    refine ⟨colsOK_of_getD ?_, hM.nrow, by rw [← hM.ncol]; exact hcl⟩
    intro j _
    show VecOK (cols'.getD j []) ∧ Below M.nrow (cols'.getD j [])
    rw [hcm j]
    split
    · exact ⟨vecOK_nil, below_nil _⟩
    · exact hMcols.getD j
  have hR2 : ColsOK n R2.cols := by have := h2.shapeR.ok; rw [CMat.OK, h2.shapeR.nrow] at this; exact this
  have hSU : (⟨n, ucols'⟩ : CMat F).Shape n n := by
    refine ⟨colsOK_of_getD ?_, rfl, by rw [← hM.ncol]; exact hul⟩
    intro j _
    show VecOK (ucols'.getD j []) ∧ Below n (ucols'.getD j [])
    rw [hum j, if_pos (Nat.zero_le _)]
    split
    · exact hR2.getD _
    · exact (colsOK_identity n).getD j
  -- columns of the cleared matrix and of the initial basis
  have hcase : ∀ i : Fin n, (p2.getD i none = none ∧ cols'.getD i [] = M.cols.getD i [] ∧
        (matOf n n ucols').col i = Pi.single i 1) ∨
      ∃ j : Fin n2, Low (R2.mat n n2) i j ∧ cols'.getD i [] = [] ∧ (matOf n n ucols').col i = (R2.mat n n2).col j := by
    intro i
    cases hp : p2.getD i none with
    | none =>
      left
      refine ⟨rfl, ?_, ?_⟩
      · rw [hcm, if_neg (by simp only [Nat.sub_zero, hp]; simp)]
      · funext a
        show coef (ucols'.getD i []) a = _
        rw [hum, if_pos (Nat.zero_le _)]
        simp only [Nat.sub_zero, hp]
        have := congrFun (congrFun (mat_identity (F := F) n) a) i
        simp only [CMat.mat, matOf_apply] at this
        rw [this, Matrix.one_apply, Pi.single_apply]
    | some k =>
      right
      have hg : p2[i.val]? = some (some k) := by
        have hl : i.val < p2.length := by rw [hlen]; exact i.2
        rw [← hp]; simp [hl]
      have hk := h2.table.bound _ _ hg
      refine ⟨⟨k, hk⟩, (h2.table.iff i ⟨k, hk⟩).1 hg, ?_, ?_⟩
      · rw [hcm, if_pos ⟨Nat.zero_le _, by simp only [Nat.sub_zero, hp]; simp⟩]
      · funext a
        show coef (ucols'.getD i []) a = _
        rw [hum, if_pos (Nat.zero_le _)]
        simp only [Nat.sub_zero, hp]
        rfl
  have hW : UpperInv (matOf n n ucols') := by
    apply upperInv_of_low
    intro i
    rcases hcase i with ⟨_, _, h⟩ | ⟨j, hl, _, h⟩
    · rw [h]; exact vlow_single i
    · rw [h]; exact hl
  have hMW : (⟨M.nrow, cols'⟩ : CMat F).mat m n = M.mat m n * matOf n n ucols' := by
    ext a i
    have : (M.mat m n * matOf n n ucols') a i = (M.mat m n *ᵥ ((matOf n n ucols').col i)) a := rfl
    rw [this]
    show coef (cols'.getD i []) a = _
    rcases hcase i with ⟨_, hc, h⟩ | ⟨j, hl, hc, h⟩
    · rw [h, hc, Matrix.mulVec_single_one]; rfl
    · rw [h, hc, ← hf.eq]
      have e : M.mat m n *ᵥ (M2.mat n n2 * U2.mat n2 n2).col j = (M.mat m n * (M2.mat n n2 * U2.mat n2 n2)).col j := rfl
      rw [e, ← Matrix.mul_assoc, hDD, Matrix.zero_mul]; rfl
  obtain ⟨R, U', p, V, h, hR, hU, hV, h1, h3, h4⟩ := reduceStdU_spec hS hSU
  have hUe : U'.mat n n = matOf n n ucols' * V := h3
  refine ⟨(R, U', p), ?_, levelOK_of_factor hM hR (hW.mul hV.upperInv) (by rw [h1, hMW, Matrix.mul_assoc]) h4, hU,
    by rw [hUe]; exact hW.mul hV.upperInv, by rw [hUe, h1, hMW, Matrix.mul_assoc]⟩
  unfold reduceClearingU
  rw [hrun]
  exact h

theorem clearAllU_spec : ∀ (B : List (CMat F)), B ≠ [] → ChainList B →
    ∃ rs, RedCpx.clearAllU B = .ok rs ∧ LevelsUOK B rs
  | [], h, _ => absurd rfl h
  | [B], _, h => by
    obtain ⟨r, hr, hl⟩ := reduceStdU_level (F := F) (M := B) ⟨h, rfl, rfl⟩
    refine ⟨[r], ?_, List.Forall₂.cons hl List.Forall₂.nil⟩
    unfold RedCpx.clearAllU; rw [hr]; rfl
  | B :: B' :: Bs, _, h => by
    obtain ⟨rs, hrs, hl⟩ := clearAllU_spec (B' :: Bs) (by simp) h.2.2
    cases hl with
    | cons h1 h2 =>
      rename_i r1 rs'
      obtain ⟨r, hr, hlv⟩ := clearing_levelU (h.head) h.2.1.2 (by have := h1; rw [h.2.1.1] at this; exact this)
      refine ⟨r :: r1 :: rs', ?_, List.Forall₂.cons hlv (List.Forall₂.cons h1 h2)⟩
      unfold RedCpx.clearAllU
      rw [hrs]
      simp only [bind_ok]
      rw [hr]; rfl

/-! ### compression -/

theorem clearInds_spec (c : List Bool) : ∀ (v : SVec F), Below c.length v →
    SVec.clearInds c v = .ok (v.filter (fun p => !c.getD p.1 false))
  | [], _ => rfl
  | p :: v, h => by
    have hp : p.1 < c.length := h p (by simp)
    unfold SVec.clearInds
    rw [rd_getD false hp, clearInds_spec c v (fun q hq => h q (by simp [hq]))]
    simp only [bind_ok, pure_ok, List.filter_cons]
    cases c.getD p.1 false <;> rfl

theorem coef_filter (f : Nat → Bool) : ∀ (v : SVec F) (i : Nat),
    coef (v.filter (fun p => f p.1)) i = if f i then coef v i else 0
  | [], i => by simp [coef]
  | (k, a) :: v, i => by
    have ih := coef_filter f v i
    by_cases hk : f k = true
    · rw [List.filter_cons_of_pos (by simpa using hk), coef, coef, ih]
      by_cases e : k = i
      · subst e; simp [hk]
      · by_cases hi : f i = true <;> simp [e, hi]
    · rw [List.filter_cons_of_neg (by simpa using hk), ih, coef]
      by_cases e : k = i
      · subst e; simp [hk]
      · simp [e]

theorem mapCols_spec {f : SVec F → Res (SVec F)} {g : SVec F → SVec F} : ∀ (cols : List (SVec F)),
    (∀ c ∈ cols, f c = .ok (g c)) → CMat.mapCols f cols = .ok (cols.map g)
  | [], _ => rfl
  | c :: cs, h => by
    unfold CMat.mapCols
    rw [h c (by simp), mapCols_spec cs (fun d hd => h d (by simp [hd]))]; rfl

theorem clearRows_spec {m n : Nat} {M : CMat F} (hM : M.Shape m n) (c : List Bool) (hc : c.length = m) :
    ∃ M', CMat.clearRows c M = .ok M' ∧ M'.Shape m n ∧
      ∀ i j, M'.mat m n i j = if c.getD i.val false then 0 else M.mat m n i j := by
  let g : SVec F → SVec F := fun v => v.filter (fun p => !c.getD p.1 false)
  have hMcols : ColsOK m M.cols := by have := hM.ok; rw [CMat.OK, hM.nrow] at this; exact this
  have hmap : CMat.mapCols (SVec.clearInds c) M.cols = .ok (M.cols.map g) :=
    mapCols_spec M.cols (fun v hv => clearInds_spec c v (by rw [hc]; exact (hMcols v hv).2))
  refine ⟨⟨M.nrow, M.cols.map g⟩, ?_, ⟨?_, hM.nrow, by simp [hM.ncol]⟩, ?_⟩
  · unfold CMat.clearRows
    rw [if_neg (by rw [hc, hM.nrow]; simp), hmap]; rfl
  · intro v hv
    obtain ⟨w, hw, rfl⟩ := List.mem_map.1 hv
    have h := hM.ok w hw
    have hsub : (g w).Sublist w := List.filter_sublist
    exact ⟨⟨List.Pairwise.sublist hsub h.1.1, noZero_sublist hsub h.1.2⟩, below_sublist hsub h.2⟩
  · intro i j
    show coef ((M.cols.map g).getD j []) i = if _ then 0 else coef (M.cols.getD j []) i
    have : (M.cols.map g).getD j [] = g (M.cols.getD j []) := by
      by_cases hj : j.val < M.cols.length
      · simp [hj]
      · simp at hj; simp [List.getD, hj, g]
    rw [this]
    have h2 := coef_filter (F := F) (fun k => !c.getD k false) (M.cols.getD j []) i
    show coef ((M.cols.getD j []).filter (fun p => !c.getD p.1 false)) i = _
    rw [h2]
    cases c.getD i.val false <;> simp

/-- clearing rows that carry no cycle end does not change the pivots -/
theorem isPivot_compress {l m n : Nat} {D : Matrix (Fin l) (Fin m) F} {M M' : Matrix (Fin m) (Fin n) F} (hD : HasRed D)
    (hDM : D * M = 0) {c : Fin m → Prop} [DecidablePred c] (hc : ∀ i, c i → ∃ a, IsPivot D a i)
    (hM' : ∀ i j, M' i j = if c i then 0 else M i j) :
    (∀ x i, VLow (M' *ᵥ x) i ↔ VLow (M *ᵥ x) i) ∧ ∀ x, M' *ᵥ x = 0 ↔ M *ᵥ x = 0 := by
  have hval : ∀ x i, (M' *ᵥ x) i = if c i then 0 else (M *ᵥ x) i := by
    intro x i
    simp only [mulVec, dotProduct, hM']
    by_cases h : c i <;> simp [h]
  have key : ∀ x i, VLow (M *ᵥ x) i → VLow (M' *ᵥ x) i := by
    intro x i hx
    have hpos := cycle_low_positive hD (z := M *ᵥ x) (by rw [mulVec_mulVec, hDM, zero_mulVec]) hx
    have hnc : ¬ c i := fun h => by obtain ⟨a, ha⟩ := hc i h; exact hpos a ha
    refine ⟨by rw [hval, if_neg hnc]; exact hx.1, fun i' hi' => ?_⟩
    rw [hval, hx.2 i' hi']; simp
  have h0 : ∀ x, M *ᵥ x = 0 → M' *ᵥ x = 0 := by
    intro x hx; funext i; rw [hval, hx]; simp
  have h0' : ∀ x, M' *ᵥ x = 0 → M *ᵥ x = 0 := by
    intro x hx
    by_contra hne
    obtain ⟨i, hi⟩ := exists_vlow hne
    exact (key x i hi).ne_zero hx
  refine ⟨fun x i => ⟨fun h => ?_, key x i⟩, fun x => ⟨h0' x, h0 x⟩⟩
  have hne : M *ᵥ x ≠ 0 := fun e => h.ne_zero (h0 x e)
  obtain ⟨i', hi'⟩ := exists_vlow hne
  rw [(key x i' hi').unique h] at hi'
  exact hi'

/-- a level produced by compression: `R` factors the row-cleared matrix; zero columns still are cycles -/
structure CompFactorOK (m n : Nat) (M R U : CMat F) : Prop where
  shape : U.Shape n n
  upper : UpperInv (U.mat n n)
  zero_iff : ∀ j, (R.mat m n).col j = 0 ↔ M.mat m n *ᵥ (U.mat n n).col j = 0
  low_iff : ∀ i j, Low (R.mat m n) i j ↔ VLow (M.mat m n *ᵥ (U.mat n n).col j) i

theorem compression_inds {l m : Nat} {D R0 : CMat F} {p0 : P2C} (h0 : LevelOK l m D R0 p0) :
    (getCompressionInds R0).length = m ∧
    ∀ i : Fin m, (getCompressionInds R0).getD i false = true ↔ ∃ a, IsPivot (D.mat l m) a i := by
  have hl : (getCompressionInds R0).length = m := by simp [getCompressionInds, h0.shapeR.ncol]
  refine ⟨hl, fun i => ?_⟩
  have hi : i.val < R0.cols.length := by rw [h0.shapeR.ncol]; exact i.2
  have e : (getCompressionInds R0).getD i false = decide ((R0.cols.getD i []).length > 0) := by
    simp [getCompressionInds, hi]
  rw [e, decide_eq_true_iff]
  have h1 := h0.col_nil_iff i
  constructor
  · intro h
    by_contra hc
    push Not at hc
    rw [h1.2 hc] at h
    simp at h
  · rintro ⟨a, ha⟩
    by_contra hc
    have : R0.cols.getD i [] = [] := List.length_eq_zero_iff.1 (by omega)
    exact h1.1 this a ha

theorem compression_levelU {l m n : Nat} {D R0 M : CMat F} {p0 : P2C} (h0 : LevelOK l m D R0 p0) (hM : M.Shape m n)
    (hDM : D.mat l m * M.mat m n = 0) :
    ∃ r, reduceCompressionU M (CMat.identity n) (getCompressionInds R0) = .ok r ∧ LevelOK m n M r.1 r.2.2 ∧
      CompFactorOK m n M r.1 r.2.1 ∧
      reduceCompression M (getCompressionInds R0) = .ok (r.1, r.2.2) := by
  obtain ⟨hcl, hci⟩ := compression_inds h0
  obtain ⟨M', hM', hS, hv⟩ := clearRows_spec hM _ hcl
  have hD : HasRed (D.mat l m) := hasRed_of_shape h0.shapeM
  obtain ⟨hlow, hzero⟩ := isPivot_compress (M := M.mat m n) (M' := M'.mat m n) (c := fun i : Fin m => (getCompressionInds R0).getD i false = true) hD hDM
    (fun i h => (hci i).1 h) hv
  obtain ⟨R, U', p, V, h, hR, hU, hV, h1, h2, h3⟩ := reduceStdU_spec hS (shape_identity (F := F) n)
  rw [mat_identity, one_mul] at h2
  have hcol : ∀ j, (R.mat m n).col j = M'.mat m n *ᵥ (U'.mat n n).col j := by
    intro j; rw [h1, ← h2]; rfl
  refine ⟨(R, U', p), ?_, ⟨hM, hR, h3, ?_⟩, ⟨hU, by rw [h2]; exact hV.upperInv, ?_, ?_⟩, ?_⟩
  · unfold reduceCompressionU; rw [hM']; exact h
  · intro i j
    rw [low_iff_isPivot hV.upperInv h3.reduced h1.symm i j]
    unfold IsPivot
    simp only [hlow]
  · intro j; rw [hcol, hzero]
  · intro i j; rw [low_col, hcol, hlow]
  · unfold reduceCompression
    rw [hM']
    simp only [bind_ok]
    rw [← reduceStdU_proj M' (CMat.identity n) (by rw [hS.ncol]; simp [CMat.identity]), h]; rfl

def LevelsCOK (B : List (CMat F)) (rs : List (CMat F × CMat F × P2C)) : Prop :=
  List.Forall₂ (fun M r => LevelOK M.nrow M.cols.length M r.1 r.2.2 ∧ CompFactorOK M.nrow M.cols.length M r.1 r.2.1) B rs

theorem LevelsCOK.levels {B : List (CMat F)} {rs} (h : LevelsCOK B rs) :
    LevelsOK B (rs.map (fun r => (r.1, r.2.2))) := by
  unfold LevelsOK
  rw [List.forall₂_map_right_iff]
  exact h.imp (fun M r h => h.1)

theorem LevelsCOK.factor {B : List (CMat F)} {rs} (hB : IsChainComplex B) (h : LevelsCOK B rs) {k : Nat} (hk : k < B.length) :
    CompFactorOK (rdim B k) (cdim B k) (B.getD k ⟨0, []⟩) ((rs.map (·.1)).getD k ⟨0, []⟩) ((rs.map (·.2.1)).getD k ⟨0, []⟩) := by
  have hlen := h.length_eq
  have hk' : k < rs.length := by omega
  have h1 := (List.forall₂_iff_get.1 h).2 k hk hk'
  have e1 : B.getD k ⟨0, []⟩ = B.get ⟨k, hk⟩ := by simp [hk]
  have e2 : (rs.map (·.1)).getD k ⟨0, []⟩ = (rs.get ⟨k, hk'⟩).1 := by simp [hk']
  have e3 : (rs.map (·.2.1)).getD k ⟨0, []⟩ = (rs.get ⟨k, hk'⟩).2.1 := by simp [hk']
  rw [← hB.nrow hk]
  unfold cdim
  rw [e1, e2, e3]
  exact h1.2

theorem compLoopU_spec : ∀ (Bs : List (CMat F)) (D R0 : CMat F) (p0 : P2C), ChainList (D :: Bs) →
    LevelOK D.nrow D.cols.length D R0 p0 →
    ∃ rs, RedCpx.compLoopU (getCompressionInds R0) Bs = .ok rs ∧ LevelsCOK Bs rs ∧
      RedCpx.compLoop (getCompressionInds R0) Bs = .ok (rs.map (fun r => (r.1, r.2.2)))
  | [], D, R0, p0, _, _ => ⟨[], rfl, List.Forall₂.nil, rfl⟩
  | B :: Bs, D, R0, p0, h, h0 => by
    have hB : B.Shape D.cols.length B.cols.length := by
      have := h.2.2.head; rw [h.2.1.1] at this; exact this
    obtain ⟨r, hr, hl, hf, hr'⟩ := compression_levelU h0 hB h.2.1.2
    rw [← h.2.1.1] at hl hf
    obtain ⟨rs, hrs, hls, hrs'⟩ := compLoopU_spec Bs B r.1 r.2.2 h.2.2 hl
    refine ⟨r :: rs, ?_, List.Forall₂.cons ⟨hl, hf⟩ hls, ?_⟩
    · unfold RedCpx.compLoopU; rw [hr]; simp only [bind_ok]; rw [hrs]; rfl
    · unfold RedCpx.compLoop; rw [hr']; simp only [bind_ok]; rw [hrs']; rfl

theorem FactorOK.comp {m n : Nat} {M R U : CMat F} (h : FactorOK m n M R U) : CompFactorOK m n M R U := by
  have hcol : ∀ j, (R.mat m n).col j = M.mat m n *ᵥ (U.mat n n).col j := by
    intro j; rw [← h.eq]; rfl
  exact ⟨h.shape, h.upper, fun j => by rw [hcol], fun i j => by rw [low_col, hcol]⟩

/-! ### the constructors -/

theorem mkNoBasis_spec {B : List (CMat F)} (hB : IsChainComplex B) :
    ∃ C, RedCpx.mkNoBasis B = .ok C ∧ TabOK B C := by
  obtain ⟨rs, hrs, hl⟩ := reduceAll_spec B hB.chainList
  obtain ⟨C, hC, ht, _⟩ := assemble_spec hB hl
  exact ⟨C, by unfold RedCpx.mkNoBasis; rw [hrs]; exact hC, ht⟩

theorem mkClearing_spec {B : List (CMat F)} (hB : IsChainComplex B) :
    ∃ C, RedCpx.mkClearing B = .ok C ∧ TabOK B C := by
  obtain ⟨rs, hrs, hl⟩ := clearAll_spec B hB.ne hB.chainList
  obtain ⟨C, hC, ht, _⟩ := assemble_spec hB hl
  exact ⟨C, by unfold RedCpx.mkClearing; rw [hrs]; exact hC, ht⟩

/-- a reduced complex with basis: `B_k U_k = R_k` -/
structure BasisOK (B : List (CMat F)) (C : RedCpx F) : Prop where
  tab : TabOK B C
  lenU : C.U.length = B.length
  fac : ∀ k, k < B.length → FactorOK (rdim B k) (cdim B k) (B.getD k ⟨0, []⟩) (C.R.getD k ⟨0, []⟩) (C.U.getD k ⟨0, []⟩)

/-- a reduced complex with basis as returned by compression -/
structure CompBasisOK (B : List (CMat F)) (C : RedCpx F) : Prop where
  tab : TabOK B C
  lenU : C.U.length = B.length
  fac : ∀ k, k < B.length → CompFactorOK (rdim B k) (cdim B k) (B.getD k ⟨0, []⟩) (C.R.getD k ⟨0, []⟩) (C.U.getD k ⟨0, []⟩)

theorem BasisOK.comp {B : List (CMat F)} {C : RedCpx F} (h : BasisOK B C) : CompBasisOK B C :=
  ⟨h.tab, h.lenU, fun k hk => (h.fac k hk).comp⟩

theorem basisOK_of_levels {B : List (CMat F)} (hB : IsChainComplex B) {rs} (hl : LevelsUOK B rs) :
    ∃ C, RedCpx.assembleU rs = .ok C ∧ BasisOK B C := by
  obtain ⟨C, hC, ht, hR, hU⟩ := assembleU_spec hB hl.levels
  refine ⟨C, hC, ht, ?_, ?_⟩
  · rw [hU, List.length_map]; exact hl.length_eq.symm
  · intro k hk; rw [hR, hU]; exact hl.factor hB hk

theorem mkStd_spec {B : List (CMat F)} (hB : IsChainComplex B) :
    ∃ C, RedCpx.mkStd B = .ok C ∧ BasisOK B C := by
  obtain ⟨rs, hrs, hl⟩ := reduceAllU_spec B hB.chainList
  obtain ⟨C, hC, ht⟩ := basisOK_of_levels hB hl
  exact ⟨C, by unfold RedCpx.mkStd; rw [hrs]; exact hC, ht⟩

theorem mkClearingU_spec {B : List (CMat F)} (hB : IsChainComplex B) :
    ∃ C, RedCpx.mkClearingU B = .ok C ∧ BasisOK B C := by
  obtain ⟨rs, hrs, hl⟩ := clearAllU_spec B hB.ne hB.chainList
  obtain ⟨C, hC, ht⟩ := basisOK_of_levels hB hl
  exact ⟨C, by unfold RedCpx.mkClearingU; rw [hrs]; exact hC, ht⟩

theorem mkCompression_both {B : List (CMat F)} (hB : IsChainComplex B) :
    ∃ C C', RedCpx.mkCompressionU B = .ok C ∧ CompBasisOK B C ∧
      RedCpx.mkCompression B = .ok C' ∧ TabOK B C' := by
  cases hBe : B with
  | nil => exact absurd hBe hB.ne
  | cons D Bs =>
    have hcl := hB.chainList
    rw [hBe] at hcl
    obtain ⟨r, hr, hl⟩ := reduceStdU_level hcl.head
    obtain ⟨rs, hrs, hls, hrs'⟩ := compLoopU_spec Bs D r.1 r.2.2 hcl hl.1
    have hlev : LevelsCOK (D :: Bs) (r :: rs) := List.Forall₂.cons ⟨hl.1, hl.2.comp⟩ hls
    rw [hBe] at hB
    obtain ⟨C, hC, ht, hR, hU⟩ := assembleU_spec hB hlev.levels
    obtain ⟨C', hC', ht', _⟩ := assemble_spec hB hlev.levels
    refine ⟨C, C', ?_, ⟨ht, ?_, ?_⟩, ?_, ht'⟩
    · unfold RedCpx.mkCompressionU
      simp only
      rw [hr]; simp only [bind_ok]; rw [hrs]; exact hC
    · rw [hU, List.length_map]; exact hlev.length_eq.symm
    · intro k hk; rw [hR, hU]; exact hlev.factor hB hk
    · unfold RedCpx.mkCompression
      simp only
      have : reduceStd D = .ok (r.1, r.2.2) := by
        rw [← reduceStdU_proj D (CMat.identity D.cols.length) (by simp [CMat.identity]), hr]; rfl
      rw [this]; simp only [bind_ok]; rw [hrs']; exact hC'

end BATS
