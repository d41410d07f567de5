import Verif.Model.Cochain
import Verif.Proofs.Variants
import Verif.Proofs.DG3
import Verif.Proofs.DG

set_option linter.unusedSectionVars false
set_option linter.unusedVariables false
set_option linter.unusedSimpArgs false

/-! # Cochain complexes -/

namespace BATS
open Matrix Reduction

variable {F : Type} [Field F] [DecidableEq F]

theorem cochain_dual {B : List (CMat F)} (hB : IsChainComplex B) :
    ∃ T, Cochain.ofComplex B = .ok T ∧ T.length = B.length ∧
      ∀ k, k < B.length → (T.getD k ⟨0, []⟩).Shape (cdim B k) (rdim B k) ∧ (T.getD k ⟨0, []⟩).mat (cdim B k) (rdim B k) = (bdry B k)ᵀ := by
  obtain ⟨T, h1, h2, h3⟩ := DG.transposeAll_spec B (by
    intro M hM
    obtain ⟨k, hk, rfl⟩ := List.mem_iff_getElem.1 hM
    have := (hB.shape k hk).ok
    rw [List.getD_eq_getElem?_getD, List.getElem?_eq_getElem hk] at this
    exact this)
  refine ⟨T, h1, h2, ?_⟩
  intro k hk
  obtain ⟨a, b⟩ := h3 k hk
  rw [hB.nrow hk] at a b
  refine ⟨a, ?_⟩
  ext i j
  exact b j i j.isLt i.isLt

/-- consecutive coboundary matrices fit and compose to zero -/
def CoConf (T T' : CMat F) : Prop :=
  T'.cols.length = T.nrow ∧ T'.mat T'.nrow T.nrow * T.mat T.nrow T.cols.length = 0

def CoList : List (CMat F) → Prop
  | [] => True
  | [T] => T.OK
  | T :: T' :: Ts => T.OK ∧ CoConf T T' ∧ CoList (T' :: Ts)

theorem CoList.head {T : CMat F} {Ts} (h : CoList (T :: Ts)) : T.Shape T.nrow T.cols.length := by
  cases Ts with
  | nil => exact ⟨h, rfl, rfl⟩
  | cons _ _ => exact ⟨h.1, rfl, rfl⟩

theorem CoList.tail {T : CMat F} {Ts} (h : CoList (T :: Ts)) : CoList Ts := by
  cases Ts with
  | nil => trivial
  | cons _ _ => exact h.2.2

theorem coList_of_index : ∀ (T : List (CMat F)), (∀ k, k < T.length → (T.getD k ⟨0, []⟩).OK) →
    (∀ k, k + 1 < T.length → CoConf (T.getD k ⟨0, []⟩) (T.getD (k + 1) ⟨0, []⟩)) → CoList T
  | [], _, _ => trivial
  | [T], h, _ => by have := h 0 (by simp); exact this
  | T :: T' :: Ts, h, h' => by
    refine ⟨by simpa using h 0 (by simp), by simpa using h' 0 (by simp), ?_⟩
    apply coList_of_index
    · intro k hk; simpa using h (k + 1) (by simpa using hk)
    · intro k hk; simpa using h' (k + 1) (by simpa using hk)

theorem cochain_coList {B T : List (CMat F)} (hB : IsChainComplex B) (hl : T.length = B.length)
    (hT : ∀ k, k < B.length → (T.getD k ⟨0, []⟩).Shape (cdim B k) (rdim B k) ∧ (T.getD k ⟨0, []⟩).mat (cdim B k) (rdim B k) = (bdry B k)ᵀ) : CoList T := by
  apply coList_of_index
  · intro k hk; exact (hT k (by omega)).1.ok
  · intro k hk
    obtain ⟨a1, a2⟩ := hT k (by omega)
    obtain ⟨b1, b2⟩ := hT (k + 1) (by omega)
    refine ⟨by rw [b1.ncol, a1.nrow]; rfl, ?_⟩
    have hsq := hB.sq k (by omega)
    have hsq' : (bdryUp B k)ᵀ * (bdry B k)ᵀ = 0 := by rw [← Matrix.transpose_mul, hsq, Matrix.transpose_zero]
    rw [a1.nrow, a1.ncol, b1.nrow]
    rw [a2]
    have b3 : (T.getD (k + 1) ⟨0, []⟩).mat (cdim B (k + 1)) (cdim B k) = (bdryUp B k)ᵀ := b2
    rw [b3]
    exact hsq'

theorem reduceStd_levelS {m n : Nat} {M : CMat F} (hM : M.Shape m n) : ∃ R p, reduceStd M = .ok (R, p) ∧ LevelOK m n M R p := by
  obtain ⟨R, p, V, h, hR, hV, he, ht⟩ := reduceStd_spec hM
  exact ⟨R, p, h, levelOK_of_factor hM hR hV.upperInv he ht⟩

theorem coReduceAll : ∀ (T : List (CMat F)), CoList T → ∃ rs, RedCpx.reduceAll T = .ok rs ∧ LevelsOK T rs
  | [], _ => ⟨[], rfl, List.Forall₂.nil⟩
  | T :: Ts, h => by
    obtain ⟨R, p, hr, hl⟩ := reduceStd_level h.head.ok
    obtain ⟨rs, hrs, hl2⟩ := coReduceAll Ts h.tail
    refine ⟨(R, p) :: rs, ?_, List.Forall₂.cons hl hl2⟩
    unfold RedCpx.reduceAll
    rw [hr, hrs]; rfl

theorem coReduceAllU : ∀ (T : List (CMat F)), CoList T → ∃ rs, RedCpx.reduceAllU T = .ok rs ∧ LevelsUOK T rs
  | [], _ => ⟨[], rfl, List.Forall₂.nil⟩
  | T :: Ts, h => by
    obtain ⟨r, hr, hl⟩ := reduceStdU_level h.head
    obtain ⟨rs, hrs, hl2⟩ := coReduceAllU Ts h.tail
    refine ⟨r :: rs, ?_, List.Forall₂.cons hl hl2⟩
    unfold RedCpx.reduceAllU
    rw [hr, hrs]; rfl

theorem clearLoop_spec : ∀ (Ts : List (CMat F)) (D R0 : CMat F) (p0 : P2C), CoList (D :: Ts) → LevelOK D.nrow D.cols.length D R0 p0 →
    ∃ rs, Cochain.clearLoop (getClearingInds p0) Ts = .ok rs ∧ LevelsOK Ts rs
  | [], _, _, _, _, _ => ⟨[], rfl, List.Forall₂.nil⟩
  | T :: Ts, D, R0, p0, h, h0 => by
    obtain ⟨e1, e2⟩ := h.2.1
    have hT : T.Shape T.nrow D.nrow := by rw [← e1]; exact h.tail.head
    obtain ⟨R, p, hr, hl⟩ := clearing_level hT e2 h0
    have hl' : LevelOK T.nrow T.cols.length T R p := by rw [e1]; exact hl
    obtain ⟨rs, hrs, hl2⟩ := clearLoop_spec Ts T R p h.tail hl'
    refine ⟨(R, p) :: rs, ?_, List.Forall₂.cons hl' hl2⟩
    rw [Cochain.clearLoop, hr, bind_ok, hrs]; rfl

theorem clearingInds_none {p : P2C} (h : ∀ e ∈ p, e = none) : getClearingInds p = [] := by
  rw [List.eq_nil_iff_forall_not_mem]
  intro i hi
  unfold getClearingInds at hi
  obtain ⟨_, h2, h3⟩ := (mem_clearingIndsFrom p 0 i).1 hi
  apply h3
  rw [List.getD_eq_getElem?_getD, Nat.sub_zero, List.getElem?_eq_getElem (by omega)]
  exact h _ (List.getElem_mem _)

theorem reduceClearing_nil (M : CMat F) : reduceClearing M [] = reduceStd M := by
  unfold reduceClearing
  rfl

theorem compDown_spec : ∀ (T : List (CMat F)), T ≠ [] → CoList T → ∃ rs, Cochain.compDown T = .ok rs ∧ LevelsOK T rs
  | [], h, _ => absurd rfl h
  | [T], _, h => by
    obtain ⟨R, p, hr, hl⟩ := reduceStd_level (F := F) (M := T) h
    refine ⟨[(R, p)], ?_, List.Forall₂.cons hl List.Forall₂.nil⟩
    unfold Cochain.compDown
    rw [hr]; rfl
  | T :: T' :: Ts, _, h => by
    obtain ⟨rs, hrs, hl⟩ := compDown_spec (T' :: Ts) (by simp) h.tail
    cases hl with
    | cons h1 hl2 =>
      rename_i r1 rest
      obtain ⟨e1, e2⟩ := h.2.1
      have h1' : LevelOK T'.nrow T.nrow T' r1.1 r1.2 := by rw [← e1]; exact h1
      obtain ⟨r, k1, k2, k3, k4⟩ := compression_levelU h1' h.head e2
      refine ⟨(r.1, r.2.2) :: r1 :: rest, ?_, List.Forall₂.cons k2 (List.Forall₂.cons h1 hl2)⟩
      rw [Cochain.compDown, hrs, bind_ok]
      · show (do
          let r ← reduceCompression T (getCompressionInds r1.1)
          pure (r :: r1 :: rest) : Res _) = _
        rw [k4]; rfl
      · simp

/-! ### exact behaviour of `set_indices` -/

theorem basisInds_ok (p : P2C) : ∀ (cs : List (SVec F)) (j0 : Nat), (∀ j, j < cs.length → cs.getD j [] = [] → j0 + j < p.length) →
    ∃ r, basisIndsLoop p j0 cs = .ok r ∧ r.Pairwise (· < ·) ∧
      ∀ j, j ∈ r ↔ j0 ≤ j ∧ j < j0 + cs.length ∧ cs.getD (j - j0) [] = [] ∧ p.getD j none = none := by
  intro cs
  induction cs with
  | nil => intro j0 _; exact ⟨[], rfl, .nil, by intro j; simp; omega⟩
  | cons c cs ih =>
    intro j0 h
    obtain ⟨r, h1, h2, h3⟩ := ih (j0 + 1) (by
      intro j hj hc
      have := h (j + 1) (by simpa using hj) (by simpa using hc)
      omega)
    have hsh : ∀ j, j0 < j → (c :: cs).getD (j - j0) [] = cs.getD (j - (j0 + 1)) [] := by
      intro j hj
      obtain ⟨d, rfl⟩ : ∃ d, j = j0 + 1 + d := ⟨j - (j0 + 1), by omega⟩
      rw [show j0 + 1 + d - j0 = d + 1 by omega, show j0 + 1 + d - (j0 + 1) = d by omega, List.getD_cons_succ]
    rw [basisIndsLoop]
    by_cases hc : c.length = 0
    · rw [if_pos hc]
      have hc' : c = [] := List.length_eq_zero_iff.1 hc
      have hlt := h 0 (by simp) (by simpa using hc')
      rw [Nat.add_zero] at hlt
      have hrd : rd p j0 = .ok (p.getD j0 none) := by
        unfold rd; rw [List.getElem?_eq_getElem hlt, List.getD_eq_getElem?_getD, List.getElem?_eq_getElem hlt]; rfl
      rw [hrd, bind_ok, h1, bind_ok]
      cases hp : p.getD j0 none with
      | none =>
        refine ⟨j0 :: r, rfl, ?_, ?_⟩
        · rw [List.pairwise_cons]
          exact ⟨fun j hj => by have := ((h3 j).1 hj).1; omega, h2⟩
        · intro j
          rw [List.mem_cons, h3]
          by_cases e : j = j0
          · subst e
            refine ⟨fun _ => ⟨le_refl _, by simp, by rw [Nat.sub_self, hc']; rfl, hp⟩, fun _ => Or.inl rfl⟩
          · constructor
            · rintro (rfl | ⟨a, b, c1, d⟩)
              · exact absurd rfl e
              · exact ⟨by omega, by simp; omega, by rw [hsh j (by omega)]; exact c1, d⟩
            · rintro ⟨a, b, c1, d⟩
              right
              simp only [List.length_cons] at b
              exact ⟨by omega, by omega, by rw [← hsh j (by omega)]; exact c1, d⟩
      | some k =>
        refine ⟨r, rfl, h2, ?_⟩
        intro j
        rw [h3]
        by_cases e : j = j0
        · subst e
          rw [hp]; simp
        · constructor
          · rintro ⟨a, b, c1, d⟩
            exact ⟨by omega, by simp; omega, by rw [hsh j (by omega)]; exact c1, d⟩
          · rintro ⟨a, b, c1, d⟩
            simp only [List.length_cons] at b
            exact ⟨by omega, by omega, by rw [← hsh j (by omega)]; exact c1, d⟩
    · rw [if_neg hc]
      refine ⟨r, h1, h2, ?_⟩
      intro j
      rw [h3]
      by_cases e : j = j0
      · subst e
        simp
        intro h5; rw [h5] at hc; simp at hc
      · constructor
        · rintro ⟨a, b, c1, d⟩
          exact ⟨by omega, by simp; omega, by rw [hsh j (by omega)]; exact c1, d⟩
        · rintro ⟨a, b, c1, d⟩
          simp only [List.length_cons] at b
          exact ⟨by omega, by omega, by rw [← hsh j (by omega)]; exact c1, d⟩

theorem basisInds_err (p : P2C) : ∀ (cs : List (SVec F)) (j0 j : Nat), j < cs.length → cs.getD j [] = [] → p.length ≤ j0 + j →
    basisIndsLoop p j0 cs = .error .ub := by
  intro cs
  induction cs with
  | nil => intro j0 j hj; simp at hj
  | cons c cs ih =>
    intro j0 j hj hc hp
    rw [basisIndsLoop]
    by_cases hl : j0 < p.length
    · have hj0 : j ≠ 0 := by intro e; subst e; omega
      obtain ⟨j', rfl⟩ : ∃ j', j = j' + 1 := ⟨j - 1, by omega⟩
      have := ih (j0 + 1) j' (by simpa using hj) (by simpa using hc) (by omega)
      split
      · have hrd : rd p j0 = .ok (p.getD j0 none) := by
          unfold rd; rw [List.getElem?_eq_getElem hl, List.getD_eq_getElem?_getD, List.getElem?_eq_getElem hl]; rfl
        rw [hrd, bind_ok, this]; rfl
      · exact this
    · split
      · have hrd : rd p j0 = .error .ub := by unfold rd; rw [List.getElem?_eq_none (by omega)]
        rw [hrd]; rfl
      · rename_i hne
        have hj0 : j ≠ 0 := by
          intro e; subst e
          simp at hc; subst hc; simp at hne
        obtain ⟨j', rfl⟩ : ∃ j', j = j' + 1 := ⟨j - 1, by omega⟩
        exact ih (j0 + 1) j' (by simpa using hj) (by simpa using hc) (by omega)

/-- the condition under which all table lookups are inside of the tables -/
def LookupOK (Rs : List (CMat F)) (ps : List P2C) : Prop :=
  ∀ k, k + 1 < Rs.length → ∀ j, j < (Rs.getD k ⟨0, []⟩).cols.length → (Rs.getD k ⟨0, []⟩).cols.getD j [] = [] → j < (ps.getD (k + 1) []).length

theorem setIndices_ok : ∀ (Rs : List (CMat F)) (ps : List P2C), Rs ≠ [] → ps.length = Rs.length → LookupOK Rs ps →
    ∃ I, RedCpx.setIndices Rs ps = .ok I ∧ I.length = Rs.length ∧
      ∀ k, k < Rs.length → (I.getD k []).Pairwise (· < ·) ∧
        ∀ j, j ∈ I.getD k [] ↔ j < (Rs.getD k ⟨0, []⟩).cols.length ∧ (Rs.getD k ⟨0, []⟩).cols.getD j [] = [] ∧
          (k + 1 < Rs.length → (ps.getD (k + 1) []).getD j none = none)
  | [], _, h, _, _ => absurd rfl h
  | [R], ps, _, hl, _ => by
    refine ⟨[extractBasisIndicesTop R], by unfold RedCpx.setIndices; rfl, rfl, ?_⟩
    intro k hk
    have : k = 0 := by simpa using hk
    subst this
    have := basisIndsTopLoop_spec R.cols 0
    refine ⟨this.1, fun j => ?_⟩
    have h2 := this.2 j
    simp only [extractBasisIndicesTop, List.getD_cons_zero] at h2 ⊢
    rw [h2]; simp
  | R :: R' :: Rs, [], _, hl, _ => by simp at hl
  | R :: R' :: Rs, [p], _, hl, _ => by simp at hl
  | R :: R' :: Rs, p :: p' :: ps, _, hl, hb => by
    have h0 := hb 0 (by simp)
    simp only [List.getD_cons_zero, List.getD_cons_succ] at h0
    obtain ⟨i, hi, his, him⟩ := basisInds_ok p' R.cols 0 (by intro j hj hc; have := h0 j hj hc; omega)
    obtain ⟨I, hI, hIl, hIm⟩ := setIndices_ok (R' :: Rs) (p' :: ps) (by simp) (by simpa using hl)
      (by intro k hk; have := hb (k + 1) (by simpa using hk); simpa using this)
    refine ⟨i :: I, ?_, by simp [hIl], ?_⟩
    · unfold RedCpx.setIndices extractBasisIndices
      rw [hi, hI]; rfl
    · intro k hk
      cases k with
      | zero =>
        refine ⟨his, fun j => ?_⟩
        have := him j
        simp only [List.getD_cons_zero, List.getD_cons_succ]
        rw [this]; simp
      | succ k =>
        have := hIm k (by simpa using hk)
        simp only [List.getD_cons_succ, List.length_cons] at this ⊢
        refine ⟨this.1, fun j => ?_⟩
        rw [this.2 j]; simp

theorem setIndices_err : ∀ (Rs : List (CMat F)) (ps : List P2C), ps.length = Rs.length → ¬ LookupOK Rs ps → RedCpx.setIndices Rs ps = .error .ub
  | [], _, _, _ => rfl
  | [R], ps, hl, h => by
    exfalso; apply h
    intro k hk; simp at hk
  | R :: R' :: Rs, [], hl, _ => by simp at hl
  | R :: R' :: Rs, [p], hl, _ => by simp at hl
  | R :: R' :: Rs, p :: p' :: ps, hl, h => by
    unfold RedCpx.setIndices extractBasisIndices
    by_cases h0 : ∀ j, j < R.cols.length → R.cols.getD j [] = [] → 0 + j < p'.length
    · obtain ⟨i, hi, _, _⟩ := basisInds_ok p' R.cols 0 h0
      rw [hi, bind_ok, setIndices_err (R' :: Rs) (p' :: ps) (by simpa using hl)]
      · rfl
      · intro h2
        apply h
        intro k hk
        cases k with
        | zero => simpa using h0
        | succ k => simpa using h2 k (by simpa using hk)
    · push Not at h0
      obtain ⟨j, hj, hc, hp⟩ := h0
      rw [basisInds_err p' R.cols 0 j hj hc hp]; rfl

/-- every constructor computes correct levels and then `set_indices` -/
theorem cochain_levels (v : Cochain.Variant) {B T : List (CMat F)} (hB : IsChainComplex B) (h0 : ZeroBdry0 B) (hl : T.length = B.length)
    (hT : ∀ k, k < B.length → (T.getD k ⟨0, []⟩).Shape (cdim B k) (rdim B k) ∧ (T.getD k ⟨0, []⟩).mat (cdim B k) (rdim B k) = (bdry B k)ᵀ) :
    ∃ Us rs, LevelsOK T rs ∧ (v = .std → ∃ rs', LevelsUOK T rs' ∧ Us = rs'.map (·.2.1) ∧ rs.map (·.1) = rs'.map (·.1)) ∧
      v.reduce T = (do
        let I ← RedCpx.setIndices (rs.map (·.1)) (rs.map (·.2))
        pure (⟨Us, rs.map (·.1), I, rs.map (·.2)⟩ : RedCpx F)) := by
  have hco := cochain_coList hB hl hT
  have hne : T ≠ [] := by
    intro e; subst e
    exact hB.ne (List.length_eq_zero_iff.1 hl.symm)
  cases v with
  | std =>
    obtain ⟨rs, h1, h2⟩ := coReduceAllU T hco
    refine ⟨rs.map (·.2.1), rs.map (fun r => (r.1, r.2.2)), h2.levels, fun _ => ⟨rs, h2, rfl, by rw [List.map_map]; rfl⟩, ?_⟩
    show RedCpx.mkStd T = _
    unfold RedCpx.mkStd
    rw [h1, bind_ok]
    unfold RedCpx.assembleU
    rw [List.map_map, List.map_map]
    rfl
  | noBasis =>
    obtain ⟨rs, h1, h2⟩ := coReduceAll T hco
    refine ⟨[], rs, h2, by simp, ?_⟩
    show RedCpx.mkNoBasis T = _
    unfold RedCpx.mkNoBasis
    rw [h1, bind_ok]
    rfl
  | clearing =>
    show ∃ Us rs, LevelsOK T rs ∧ _ ∧ Cochain.mkClearing T = _
    match T, hne with
    | T0 :: Ts, _ =>
      obtain ⟨R, p, hr, hlv⟩ := reduceStd_level hco.head.ok
      have hpos : 0 < B.length := by rw [← hl]; simp
      obtain ⟨s1, s2⟩ := hT 0 hpos
      rw [List.getD_cons_zero] at s1 s2
      have hz : bdry B 0 = 0 := DG.zeroBdry_zero h0
      have hmat : T0.mat T0.nrow T0.cols.length = 0 := by
        rw [s1.nrow, s1.ncol, s2, hz, Matrix.transpose_zero]
      have hp : ∀ e ∈ p, e = none := by
        intro e he
        obtain ⟨i, hi, rfl⟩ := List.mem_iff_getElem.1 he
        have hi' : i < T0.nrow := by rw [← hlv.table.len]; exact hi
        have := (hlv.p2c_none_iff ⟨i, hi'⟩).2 (by
          intro j hj
          obtain ⟨x, _, hx⟩ := hj.1
          rw [hmat, zero_mulVec] at hx
          exact hx.1 rfl)
        rw [List.getD_eq_getElem?_getD, List.getElem?_eq_getElem hi] at this
        exact this
      obtain ⟨rs, h1, h2⟩ := clearLoop_spec Ts T0 R p hco hlv
      refine ⟨[], (R, p) :: rs, List.Forall₂.cons hlv h2, by simp, ?_⟩
      have e1 : Cochain.clearLoop (getClearingInds p) (T0 :: Ts) = .ok ((R, p) :: rs) := by
        rw [Cochain.clearLoop, clearingInds_none hp, reduceClearing_nil, hr, bind_ok]
        rw [h1, bind_ok]; rfl
      show (do
        let r0 ← reduceStd T0
        let rs ← Cochain.clearLoop (getClearingInds r0.2) (T0 :: Ts)
        RedCpx.assemble rs : Res _) = _
      rw [hr, bind_ok, e1, bind_ok]
      rfl
  | compression =>
    obtain ⟨rs, h1, h2⟩ := compDown_spec T hne hco
    refine ⟨[], rs, h2, by simp, ?_⟩
    show Cochain.mkCompression T = _
    unfold Cochain.mkCompression
    rw [h1, bind_ok]
    rfl

/-- a level by index -/
theorem levels_at {B T : List (CMat F)} {rs : List (CMat F × P2C)} (hl : T.length = B.length)
    (hT : ∀ k, k < B.length → (T.getD k ⟨0, []⟩).Shape (cdim B k) (rdim B k) ∧ (T.getD k ⟨0, []⟩).mat (cdim B k) (rdim B k) = (bdry B k)ᵀ)
    (h : LevelsOK T rs) {k : Nat} (hk : k < B.length) :
    LevelOK (cdim B k) (rdim B k) (T.getD k ⟨0, []⟩) ((rs.map (·.1)).getD k ⟨0, []⟩) ((rs.map (·.2)).getD k []) := by
  have hlen := h.length_eq
  have hk1 : k < T.length := by omega
  have hk' : k < rs.length := by omega
  have h1 := (List.forall₂_iff_get.1 h).2 k hk1 hk'
  have e1 : T.getD k ⟨0, []⟩ = T.get ⟨k, hk1⟩ := by simp [hk1]
  have e2 : (rs.map (·.1)).getD k ⟨0, []⟩ = (rs.get ⟨k, hk'⟩).1 := by simp [hk']
  have e3 : (rs.map (·.2)).getD k [] = (rs.get ⟨k, hk'⟩).2 := by simp [hk']
  obtain ⟨s1, _⟩ := hT k hk
  rw [e1] at s1
  rw [e1, e2, e3]
  have := h1
  rw [s1.nrow, s1.ncol] at this
  exact this

theorem filter_length_fin {n : Nat} {cols : List (SVec F)} (h : cols.length = n) :
    (cols.filter (fun c => !c.isEmpty)).length = (Finset.univ.filter (fun j : Fin n => (!(cols.getD j []).isEmpty) = true)).card := by
  subst h
  have h1 : cols = (List.finRange cols.length).map (fun j : Fin cols.length => cols.getD j.val []) := by
    apply List.ext_getElem (by simp)
    intro i hi _
    simp [hi]
  conv_lhs => rw [h1]
  rw [List.filter_map, List.length_map, ← List.toFinset_card_of_nodup ((List.nodup_finRange _).filter _)]
  congr 1
  ext j
  simp

theorem finrank_coh_rank {B : List (CMat F)} (hB : IsChainComplex B) (k : Nat) :
    Module.finrank F (Cohomology B k) + (bdryUp B k).rank + (bdry B k).rank = cdim B k := by
  have := finrank_homology (bdryUp B k)ᵀ (bdry B k)ᵀ (by rw [← Matrix.transpose_mul, hB.sq' k, Matrix.transpose_zero])
  rw [Fintype.card_fin, Matrix.rank_transpose, Matrix.rank_transpose] at this
  unfold Cohomology cocycles coboundaries
  omega

end BATS
