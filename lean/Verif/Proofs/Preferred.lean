import Verif.Model.Induced
import Verif.Proofs.HomBasis
import Verif.Proofs.Solve
import Verif.Proofs.Perm

set_option linter.unusedSectionVars false
set_option linter.unusedSimpArgs false
set_option linter.unusedVariables false

/-! # Preferred representatives -/

namespace BATS
open Matrix Reduction

variable {F : Type} [Field F] [DecidableEq F]

theorem takeWhile_self {α : Type} {p : α → Bool} : ∀ {l : List α}, (∀ a ∈ l, p a = true) → l.takeWhile p = l
  | [], _ => rfl
  | a :: l, h => by rw [List.takeWhile_cons_of_pos (h a (by simp)), takeWhile_self (fun b hb => h b (List.mem_cons_of_mem _ hb))]

/-- number of entries with index below `s` -/
def cnt (y : SVec F) (s : Nat) : Nat := (y.takeWhile (fun p => decide (p.1 < s))).length

theorem cnt_cons (p : Nat × F) (y : SVec F) (s : Nat) : cnt (p :: y) s = if p.1 < s then cnt y s + 1 else 0 := by
  unfold cnt
  by_cases h : p.1 < s
  · rw [List.takeWhile_cons_of_pos (by simpa using h), if_pos h, List.length_cons]
  · rw [List.takeWhile_cons_of_neg (by simpa using h), if_neg h]; rfl

theorem cnt_zero {y : SVec F} (hy : Sorted y) {s : Nat} (h : cnt y s = 0) : ∀ q ∈ y, s ≤ q.1 := by
  cases y with
  | nil => intro q hq; simp at hq
  | cons p y =>
    rw [cnt_cons] at h
    have hp : ¬ p.1 < s := by intro hp; rw [if_pos hp] at h; omega
    intro q hq
    rcases List.mem_cons.1 hq with rfl | hq
    · omega
    · have := hy.head q hq; omega

theorem cnt_succ {s m : Nat} : ∀ {y : SVec F} {m : Nat}, Sorted y → cnt y s = m + 1 →
    ∃ e, y[m]? = some e ∧ e.1 < s ∧ cnt y e.1 = m ∧ ∀ q ∈ y, q.1 < s → q.1 ≤ e.1 := by
  intro y
  induction y with
  | nil => intro m _ h; simp [cnt] at h
  | cons p y ih =>
    intro m hy h
    rw [cnt_cons] at h
    by_cases hp : p.1 < s
    · rw [if_pos hp] at h
      have h' : cnt y s = m := by omega
      cases m with
      | zero =>
        refine ⟨p, rfl, hp, by rw [cnt_cons, if_neg (by omega)], ?_⟩
        intro q hq hqs
        rcases List.mem_cons.1 hq with rfl | hq
        · exact le_rfl
        · have := cnt_zero hy.tail h' q hq; omega
      | succ m =>
        obtain ⟨e, h1, h2, h3, h4⟩ := ih hy.tail h'
        have hpe := hy.head e (List.mem_of_getElem? h1)
        refine ⟨e, by simpa using h1, h2, by rw [cnt_cons, if_pos hpe, h3], ?_⟩
        intro q hq hqs
        rcases List.mem_cons.1 hq with rfl | hq
        · omega
        · exact h4 q hq hqs
    · rw [if_neg hp] at h; omega

theorem cnt_all {n : Nat} : ∀ {y : SVec F}, Below n y → cnt y n = y.length
  | [], _ => rfl
  | p :: y, h => by
    rw [cnt_cons, if_pos (below_cons.1 h).1, cnt_all (below_cons.1 h).2, List.length_cons]

theorem Sorted.length_le {n : Nat} {y : SVec F} (hs : Sorted y) (hb : Below n y) : y.length ≤ n := by
  have h1 : (y.map Prod.fst).Nodup := by
    rw [sorted_iff_fst] at hs
    exact hs.imp (fun h => ne_of_lt h)
  have h2 : (y.map Prod.fst).toFinset ⊆ Finset.range n := by
    intro i hi
    rw [List.mem_toFinset, List.mem_map] at hi
    obtain ⟨p, hp, rfl⟩ := hi
    exact Finset.mem_range.2 (hb p hp)
  have := Finset.card_le_card h2
  rw [List.toFinset_card_of_nodup h1, List.length_map, Finset.card_range] at this
  exact this

theorem ubBefore_eq (y : SVec F) {j : Nat} (hj : 0 < j) : RedCpx.ubBefore y j = cnt y j := by
  unfold RedCpx.ubBefore cnt
  rw [if_neg (by omega)]
  congr 2
  funext p
  rw [decide_eq_decide]; omega

theorem vecOf_lastnz {n : Nat} {v : SVec F} (hv : VecOK v) (hb : Below n v) {i : Fin n} (h : VLow (vecOf n v) i) :
    SVec.lastnz v = .ok (i.1, coef v i.1) := by
  have hne : v ≠ [] := by rintro rfl; exact h.1 rfl
  rw [lastnz_ok hne]
  have hlt : (v.getLast hne).1 < n := hb _ (List.getLast_mem hne)
  have hl : VLow (vecOf n v) ⟨(v.getLast hne).1, hlt⟩ := by
    constructor
    · show coef v (v.getLast hne).1 ≠ 0
      rw [hv.1.coef_getLast hne]; exact hv.2 _ (List.getLast_mem hne)
    · intro i' hi'
      exact hv.1.coef_gt_getLast hne hi'
  have e := h.unique hl
  have e1 : i.1 = (v.getLast hne).1 := congrArg Fin.val e
  rw [e1, hv.1.coef_getLast hne]

/-- data of one dimension: the basis `U` of the `k`-chains, the reduced boundary matrix `R` with pivot table `p` -/
structure PrefData (C : RedCpx F) (k n n2 : Nat) (U R : CMat F) (p : P2C) (W : Submodule F (Fin n → F)) : Prop where
  getU : rd C.U k = .ok U
  shapeU : U.Shape n n
  upper : UpperInv (U.mat n n)
  shapeR : R.Shape n n2
  table : IsPivotTable (R.mat n n2) p
  bdry : ∀ i : Fin n2, (R.mat n n2).col i ∈ W

variable {C : RedCpx F} {k n n2 : Nat} {U R : CMat F} {p : P2C} {W : Submodule F (Fin n → F)}

/-- no entry is at a pivot -/
def NoPiv (p : P2C) (y : SVec F) (s : Nat) : Prop := ∀ q ∈ y, s ≤ q.1 → p[q.1]? = some none

theorem prefLoop_skip (C : RedCpx F) (k : Nat) (R : CMat F) (p : P2C) {y : SVec F} (h : NoPiv p y 0) : ∀ (pos fuel : Nat), pos ≤ y.length →
    pos ≤ fuel → C.prefLoop k R p fuel y pos = .ok y
  | 0, fuel, _, _ => by cases fuel <;> rfl
  | pos + 1, 0, _, h2 => by omega
  | pos + 1, fuel + 1, h1, h2 => by
    rw [RedCpx.prefLoop, rd_ok (by omega : pos < y.length), bind_ok, rd_some (h _ (List.getElem_mem _) (by omega)), bind_ok]
    exact prefLoop_skip C k R p h pos fuel (by omega) (by omega)

theorem prefLoop_spec (hD : PrefData C k n n2 U R p W) : ∀ (s : Nat) (y : SVec F) (pos fuel : Nat), s ≤ n → VecOK y → Below n y →
    pos = cnt y s → NoPiv p y s → s + n + 1 ≤ fuel →
    ∃ y', C.prefLoop k R p fuel y pos = .ok y' ∧ VecOK y' ∧ Below n y' ∧ NoPiv p y' 0 ∧
      U.mat n n *ᵥ vecOf n y - U.mat n n *ᵥ vecOf n y' ∈ W := by
  intro s
  induction s using Nat.strong_induction_on with
  | _ s ih =>
    intro y pos fuel hs hy hb hpos hnp hfuel
    obtain ⟨fuel, rfl⟩ : ∃ f, fuel = f + 1 := ⟨fuel - 1, by omega⟩
    cases pos with
    | zero =>
      refine ⟨y, rfl, hy, hb, ?_, by rw [sub_self]; exact W.zero_mem⟩
      intro q hq _
      exact hnp q hq (cnt_zero hy.1 hpos.symm q hq)
    | succ m =>
      obtain ⟨e, h1, h2, h3, h4⟩ := cnt_succ (m := m) hy.1 hpos.symm
      have hem := List.mem_of_getElem? h1
      have hen := hb e hem
      have hpl : e.1 < p.length := by rw [hD.table.len]; exact hen
      have hnp' : NoPiv p y (e.1 + 1) := by
        intro q hq hle
        by_cases hqs : q.1 < s
        · have := h4 q hq hqs; omega
        · exact hnp q hq (by omega)
      rw [RedCpx.prefLoop, rd_some h1, bind_ok, rd_ok hpl, bind_ok]
      rcases hpe : p[e.1] with _ | i
      · refine ih e.1 h2 y m fuel (by omega) hy hb h3.symm ?_ (by omega)
        intro q hq hle
        by_cases hqe : q.1 = e.1
        · rw [hqe, List.getElem?_eq_getElem hpl, hpe]
        · exact hnp' q hq (by omega)
      · have hg : p[e.1]? = some (some i) := by rw [List.getElem?_eq_getElem hpl, hpe]
        have hi := hD.table.bound _ _ hg
        have hlow : Low (R.mat n n2) ⟨e.1, hen⟩ ⟨i, hi⟩ := (hD.table.iff ⟨e.1, hen⟩ ⟨i, hi⟩).1 hg
        have hil : i < R.cols.length := by rw [hD.shapeR.ncol]; exact hi
        have hcol := hD.shapeR.colsOK.getD i
        obtain ⟨b, b1, b2, b3, b4⟩ := uSolve_spec hD.shapeU hD.upper hcol.1 hcol.2
        have hbl : VLow (vecOf n b) ⟨e.1, hen⟩ := by
          rw [← hD.upper.vlow_iff, b4]
          exact hlow
        have hlast := vecOf_lastnz b2 b3 hbl
        have hbne : coef b e.1 ≠ 0 := hbl.1
        have hcoefe : coef y e.1 = e.2 := coef_of_mem hy.1 hem
        simp only []
        rw [hD.getU, bind_ok, rd_getD [] hil, bind_ok, b1, bind_ok, hlast, bind_ok]
        rw [show CMat.fdiv e.2 (coef b e.1) = .ok (e.2 / coef b e.1) by unfold CMat.fdiv; rw [if_neg hbne], bind_ok]
        generalize hy2 : SVec.axpy (-(e.2 / coef b e.1)) b y = y2
        have v2 : VecOK y2 := by rw [← hy2]; exact vecOK_axpy _ b2 hy
        have l2 : Below n y2 := by rw [← hy2]; exact below_axpy _ b3 hb
        have c2 : ∀ j, coef y2 j = coef y j + -(e.2 / coef b e.1) * coef b j := by intro j; rw [← hy2, coef_axpy]
        have hW : U.mat n n *ᵥ vecOf n y - U.mat n n *ᵥ vecOf n y2 ∈ W := by
          have : U.mat n n *ᵥ vecOf n y - U.mat n n *ᵥ vecOf n y2 = (e.2 / coef b e.1) • (R.mat n n2).col ⟨i, hi⟩ := by
            have e1 : vecOf n y - vecOf n y2 = (e.2 / coef b e.1) • vecOf n b := by
              funext j
              simp only [Pi.sub_apply, vecOf, Pi.smul_apply, smul_eq_mul, c2]
              ring
            rw [← mulVec_sub, e1, mulVec_smul]
            congr 1
          rw [this]
          exact W.smul_mem _ (hD.bdry _)
        have hnp2 : NoPiv p y2 e.1 := by
          intro q hq hle
          have hq0 : coef y2 q.1 ≠ 0 := by rw [coef_of_mem (k := q.1) (a := q.2) v2.1 hq]; exact v2.2 q hq
          have hbq : ∀ j, e.1 < j → coef b j = 0 := by
            intro j hj
            by_cases hjn : j < n
            · exact hbl.2 ⟨j, hjn⟩ hj
            · exact b3.coef_eq_zero (by omega)
          by_cases hqe : q.1 = e.1
          · exfalso
            apply hq0
            rw [hqe, c2, hcoefe]
            field_simp
            ring
          · rw [c2, hbq q.1 (by omega), mul_zero, add_zero] at hq0
            obtain ⟨a, ha⟩ := exists_mem_of_coef_ne hq0
            exact hnp' (q.1, a) ha (by show e.1 + 1 ≤ q.1; omega)
        by_cases he0 : e.1 = 0
        · refine ⟨y2, ?_, v2, l2, by rw [← he0]; exact hnp2, hW⟩
          have hlen := v2.1.length_le l2
          refine prefLoop_skip C k R p (by rw [← he0]; exact hnp2) _ _ ?_ ?_
          · unfold RedCpx.ubBefore; rw [if_pos he0]
          · unfold RedCpx.ubBefore; rw [if_pos he0]; omega
        · obtain ⟨y', g1, g2, g3, g4, g5⟩ := ih e.1 h2 y2 (RedCpx.ubBefore y2 e.1) fuel (by omega) v2 l2
            (ubBefore_eq y2 (by omega)) hnp2 (by omega)
          refine ⟨y', g1, g2, g3, g4, ?_⟩
          have := W.add_mem hW g5
          rwa [sub_add_sub_cancel] at this

/-! ### dimension by dimension -/

variable {B : List (CMat F)}

theorem BasisOK.prefData (h : BasisOK B C) {k : Nat} (hk : k + 1 < B.length) :
    PrefData C k (cdim B k) (cdim B (k + 1)) (C.U.getD k ⟨0, []⟩) (C.R.getD (k + 1) ⟨0, []⟩) (C.p2c.getD (k + 1) []) (boundaries B k) := by
  have hf := h.fac k (by omega)
  have hl := h.tab.lev (k + 1) hk
  refine ⟨rd_getD _ (by rw [h.lenU]; omega), hf.shape, hf.upper, hl.shapeR, hl.table, ?_⟩
  intro i
  have he := (h.fac (k + 1) hk).eq
  refine ⟨((C.U.getD (k + 1) ⟨0, []⟩).mat (cdim B (k + 1)) (cdim B (k + 1))).col i, ?_⟩
  rw [mulVecLin_apply]
  have : ((C.R.getD (k + 1) ⟨0, []⟩).mat (cdim B k) (cdim B (k + 1))) = bdryUp B k * (C.U.getD (k + 1) ⟨0, []⟩).mat (cdim B (k + 1)) (cdim B (k + 1)) := he.symm
  rw [this, ← Matrix.mulVec_single_one, ← Matrix.mulVec_single_one, mulVec_mulVec]

/-- no nonzero coordinate at a pivot of the next boundary matrix -/
def Canonical (B : List (CMat F)) (k : Nat) (y : SVec F) : Prop := ∀ i : Fin (cdim B k), coef y i ≠ 0 → ∀ j, ¬ IsPivot (bdryUp B k) i j

theorem noPiv_canonical (hB : IsChainComplex B) (h : TabOK B C) {k : Nat} (hk : k + 1 < B.length) {y : SVec F}
    (hn : NoPiv (C.p2c.getD (k + 1) []) y 0) : Canonical B k y := by
  intro i hi j hp
  obtain ⟨a, ha⟩ := exists_mem_of_coef_ne hi
  have h1 := hn _ ha (by omega)
  have hl := h.lev (k + 1) hk
  have := (hl.p2c_none_iff i).1 (by rw [List.getD_eq_getElem?_getD, h1]; rfl)
  exact this j hp

theorem boundaries_top (hB : IsChainComplex B) {k : Nat} (hk : B.length ≤ k + 1) : boundaries B k = ⊥ := by
  rw [eq_bot_iff]
  rintro z ⟨x, rfl⟩
  have : IsEmpty (Fin (cdim B (k + 1))) := by rw [cdim_of_ge hk]; infer_instance
  have : x = 0 := Subsingleton.elim _ _
  rw [this, map_zero]; exact Submodule.zero_mem _

/-- `find_preferred_representative` in the homology revealing basis -/
theorem findPref_spec (hB : IsChainComplex B) (h : BasisOK B C) {k : Nat} (hk : k < B.length) {y : SVec F} (hy : VecOK y) (hb : Below (cdim B k) y) :
    ∃ y', C.findPreferredRepresentative y k = .ok y' ∧ VecOK y' ∧ Below (cdim B k) y' ∧ Canonical B k y' ∧
      ((C.U.getD k ⟨0, []⟩).mat (cdim B k) (cdim B k)) *ᵥ vecOf (cdim B k) y - ((C.U.getD k ⟨0, []⟩).mat (cdim B k) (cdim B k)) *ᵥ vecOf (cdim B k) y' ∈ boundaries B k := by
  unfold RedCpx.findPreferredRepresentative RedCpx.maxdim
  rw [h.tab.lenR]
  by_cases hm : k = B.length - 1
  · rw [if_pos hm]
    refine ⟨y, rfl, hy, hb, ?_, by rw [sub_self]; exact Submodule.zero_mem _⟩
    intro i _ j
    have := j.2
    have e := cdim_of_ge (B := B) (k := k + 1) (by omega)
    omega
  · rw [if_neg hm]
    have hk1 : k + 1 < B.length := by omega
    have hD := h.prefData hk1
    have hnr : (C.R.getD (k + 1) ⟨0, []⟩).nrow = cdim B k := hD.shapeR.nrow
    obtain ⟨y', g1, g2, g3, g4, g5⟩ := prefLoop_spec hD (cdim B k) y _ (2 * cdim B k + 2) le_rfl hy hb rfl
      (by intro q hq hle; have := hb q hq; omega) (by omega)
    refine ⟨y', ?_, g2, g3, noPiv_canonical hB h.tab hk1 g4, g5⟩
    rw [rd_getD ⟨0, []⟩ (by rw [h.tab.lenR]; exact hk1), bind_ok, rd_getD [] (by rw [h.tab.lenP]; exact hk1), bind_ok, hnr]
    have e : (y.takeWhile (fun q => decide (q.1 ≤ cdim B k))).length = cnt y (cdim B k) := by
      unfold cnt
      congr 1
      have a : y.takeWhile (fun q => decide (q.1 ≤ cdim B k)) = y := by
        apply takeWhile_self; intro q hq; have := hb q hq; simp; omega
      have b : y.takeWhile (fun q => decide (q.1 < cdim B k)) = y := by
        apply takeWhile_self; intro q hq; have := hb q hq; simpa using this
      rw [a, b]
    rw [e]; exact g1

/-- two canonical vectors whose images differ by a boundary are equal -/
theorem canonical_unique (hB : IsChainComplex B) (h : BasisOK B C) {k : Nat} (hk : k < B.length) {y y' : SVec F} (hy : VecOK y) (hb : Below (cdim B k) y)
    (hy' : VecOK y') (hb' : Below (cdim B k) y') (hc : Canonical B k y) (hc' : Canonical B k y')
    (hd : ((C.U.getD k ⟨0, []⟩).mat (cdim B k) (cdim B k)) *ᵥ vecOf (cdim B k) y - ((C.U.getD k ⟨0, []⟩).mat (cdim B k) (cdim B k)) *ᵥ vecOf (cdim B k) y' ∈ boundaries B k) :
    y = y' := by
  have hup := (h.fac k hk).upper
  have hz : vecOf (cdim B k) y - vecOf (cdim B k) y' = 0 := by
    by_contra hne
    obtain ⟨q, hq⟩ := exists_vlow hne
    have hq2 := hup.vlow hq
    rw [mulVec_sub] at hq2
    obtain ⟨x, hx⟩ := hd
    rw [mulVecLin_apply] at hx
    rw [← hx] at hq2
    obtain ⟨j, hj⟩ := boundary_low_pivot (hB.hasRedUp k) hq2
    have h1 : coef y q = 0 := by by_contra h; exact hc q h j hj
    have h2 : coef y' q = 0 := by by_contra h; exact hc' q h j hj
    apply hq.1
    show coef y q - coef y' q = 0
    rw [h1, h2, sub_zero]
  apply hy.ext hy'
  intro i
  by_cases hi : i < cdim B k
  · have := congrFun hz ⟨i, hi⟩
    exact sub_eq_zero.1 this
  · rw [hb.coef_eq_zero (by omega), hb'.coef_eq_zero (by omega)]

/-- `chain_preferred_representative` -/
theorem chainPref_spec (hB : IsChainComplex B) (h : BasisOK B C) {k : Nat} (hk : k < B.length) {c : SVec F} (hc : VecOK c) (hb : Below (cdim B k) c) :
    ∃ r y, C.chainPreferredRepresentative c k = .ok r ∧ VecOK r ∧ Below (cdim B k) r ∧ VecOK y ∧ Below (cdim B k) y ∧ Canonical B k y ∧
      vecOf (cdim B k) r = ((C.U.getD k ⟨0, []⟩).mat (cdim B k) (cdim B k)) *ᵥ vecOf (cdim B k) y ∧
      vecOf (cdim B k) c - vecOf (cdim B k) r ∈ boundaries B k := by
  have hf := h.fac k hk
  have hgU : rd C.U k = .ok (C.U.getD k ⟨0, []⟩) := rd_getD _ (by rw [h.lenU]; exact hk)
  obtain ⟨x, x1, x2, x3, x4⟩ := uSolve_spec hf.shape hf.upper hc hb
  obtain ⟨y, y1, y2, y3, y4, y5⟩ := findPref_spec hB h hk x2 x3
  obtain ⟨r, r1, r2, r3, r4⟩ := gemv_spec hf.shape y3
  refine ⟨r, y, ?_, r2, r3, y2, y3, y4, r4, ?_⟩
  · unfold RedCpx.chainPreferredRepresentative RedCpx.toHomBasis RedCpx.fromHomBasis
    rw [hgU, bind_ok, x1, bind_ok, y1, bind_ok, bind_ok, r1]
  · have e1 : vecOf (cdim B k) r = ((C.U.getD k ⟨0, []⟩).mat (cdim B k) (cdim B k)) *ᵥ vecOf (cdim B k) y := r4
    have e2 : ((C.U.getD k ⟨0, []⟩).mat (cdim B k) (cdim B k)) *ᵥ vecOf (cdim B k) x = vecOf (cdim B k) c := x4
    rw [e1, ← e2]; exact y5

end BATS
