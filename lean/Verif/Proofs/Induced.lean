import Verif.Spec.Induced
import Verif.Proofs.Preferred

set_option linter.unusedSectionVars false
set_option linter.unusedSimpArgs false
set_option linter.unusedVariables false

/-! # Induced maps on homology -/

namespace BATS
open Matrix Reduction

variable {F : Type} [Field F] [DecidableEq F]

/-! ### selecting coordinates -/

theorem selectLoop_spec : ∀ (ss : List Nat) (v : SVec F) (ct : Nat), ss.Pairwise (· < ·) → VecOK v →
    VecOK (SVec.selectLoop ss v ct) ∧ (∀ q ∈ SVec.selectLoop ss v ct, ct ≤ q.1 ∧ q.1 < ct + ss.length) ∧
      ∀ t (h : t < ss.length), coef (SVec.selectLoop ss v ct) (ct + t) = coef v ss[t] := by
  intro ss v ct
  induction ss, v, ct using SVec.selectLoop.induct with
  | case1 v ct => intro _ _; rw [SVec.selectLoop]; exact ⟨vecOK_nil, by simp, by simp⟩
  | case2 s ss ct => intro _ _; rw [SVec.selectLoop]; exact ⟨vecOK_nil, by simp, by intro t h; rfl⟩
  | case3 s ss i a v ct hlt ih =>
    intro hs hv
    rw [SVec.selectLoop, if_pos hlt]
    obtain ⟨h1, h2, h3⟩ := ih (List.pairwise_cons.1 hs).2 hv
    refine ⟨h1, fun q hq => by have := h2 q hq; rw [List.length_cons]; omega, ?_⟩
    intro t ht
    cases t with
    | zero =>
      rw [coef_eq_zero_of_notMem (fun q hq => by have := h2 q hq; omega)]
      rw [List.getElem_cons_zero, coef_eq_zero_of_notMem]
      intro q hq
      rcases List.mem_cons.1 hq with rfl | hq
      · exact (ne_of_lt hlt).symm
      · have := hv.1.head q hq; simp only [] at this; omega
    | succ t =>
      rw [List.getElem_cons_succ, ← h3 t (by rw [List.length_cons] at ht; omega)]
      congr 1; omega
  | case4 ss i a v ct hlt ih =>
    intro hs hv
    rw [SVec.selectLoop, if_neg hlt, if_pos rfl]
    have hv' : VecOK v := ⟨hv.1.tail, fun q hq => hv.2 q (List.mem_cons_of_mem _ hq)⟩
    obtain ⟨h1, h2, h3⟩ := ih (List.pairwise_cons.1 hs).2 hv'
    refine ⟨⟨?_, ?_⟩, ?_, ?_⟩
    · exact sorted_cons.2 ⟨fun q hq => by have := h2 q hq; show ct < q.1; omega, h1.1⟩
    · intro q hq
      rcases List.mem_cons.1 hq with rfl | hq
      · exact hv.2 (i, a) (by simp)
      · exact h1.2 q hq
    · intro q hq
      rw [List.length_cons]
      rcases List.mem_cons.1 hq with rfl | hq
      · simp
      · have := h2 q hq; omega
    · intro t ht
      cases t with
      | zero =>
        rw [List.getElem_cons_zero, coef_cons, coef_cons, if_pos (by rfl), if_pos rfl]
        rw [coef_eq_zero_of_notMem (fun q hq => by have := h2 q hq; omega),
          coef_eq_zero_of_notMem (fun q hq => by have := hv.1.head q hq; simp only [] at this; omega)]
      | succ t =>
        have ht' : t < ss.length := by rw [List.length_cons] at ht; omega
        have hlt' := (List.pairwise_cons.1 hs).1 ss[t] (List.getElem_mem _)
        rw [List.getElem_cons_succ, coef_cons, coef_cons, if_neg (by omega), if_neg (by omega), ← h3 t ht']
        congr 2; omega
  | case5 s ss i a v ct h1 h2 ih =>
    intro hs hv
    rw [SVec.selectLoop, if_neg h1, if_neg h2]
    have hv' : VecOK v := ⟨hv.1.tail, fun q hq => hv.2 q (List.mem_cons_of_mem _ hq)⟩
    obtain ⟨g1, g2, g3⟩ := ih hs hv'
    refine ⟨g1, g2, ?_⟩
    intro t ht
    rw [g3 t ht, coef_cons, if_neg, zero_add]
    have : s ≤ (s :: ss)[t] := by
      cases t with
      | zero => simp
      | succ t => exact le_of_lt ((List.pairwise_cons.1 hs).1 _ (by rw [List.getElem_cons_succ]; exact List.getElem_mem _))
    omega

theorem select_spec {v : SVec F} (hv : VecOK v) {ss : List Nat} (hs : ss.Pairwise (· < ·)) :
    VecOK (SVec.select v ss) ∧ Below ss.length (SVec.select v ss) ∧ ∀ t (h : t < ss.length), coef (SVec.select v ss) t = coef v ss[t] := by
  obtain ⟨h1, h2, h3⟩ := selectLoop_spec ss v 0 hs hv
  refine ⟨h1, fun q hq => by have := h2 q hq; omega, fun t h => ?_⟩
  rw [← h3 t h, zero_add]; rfl

/-! ### canonical coordinates of cycles -/

variable {B B' B'' : List (CMat F)} {C D E : RedCpx F}

theorem boundaries_le_cycles (hB : IsChainComplex B) (k : Nat) : boundaries B k ≤ cycles B k := by
  rintro z ⟨x, rfl⟩
  unfold cycles
  rw [LinearMap.mem_ker, mulVecLin_apply, mulVecLin_apply, mulVec_mulVec, hB.sq' k, zero_mulVec]

/-- the `g`-th stored generator of dimension `k` -/
def gen (C : RedCpx F) (k g : Nat) : SVec F := (C.U.getD k ⟨0, []⟩).cols.getD ((C.I.getD k []).getD g 0) []

theorem BasisOK.getGen (h : BasisOK B C) {k : Nat} (hk : k < B.length) {g : Nat} (hg : g < (C.I.getD k []).length) :
    C.getPreferredRepresentative g k = .ok (gen C k g) := by
  unfold RedCpx.getPreferredRepresentative gen
  have hm : (C.I.getD k []).getD g 0 ∈ C.I.getD k [] := by
    rw [List.getD_eq_getElem?_getD (l := C.I.getD k []), List.getElem?_eq_getElem hg]; exact List.getElem_mem _
  have := ((h.tab.inds k hk _).1 hm).1
  rw [rd_getD [] (by rw [h.tab.lenI]; exact hk), bind_ok, rd_getD 0 hg, bind_ok, rd_getD ⟨0, []⟩ (by rw [h.lenU]; exact hk), bind_ok]
  exact rd_getD [] (by rw [(h.fac k hk).shape.ncol]; exact this)

/-- the coordinates of a canonical cycle are at essential indices -/
theorem canonical_cycle (hB : IsChainComplex B) (h : BasisOK B C) {k : Nat} (hk : k < B.length) {y : SVec F} (hc : Canonical B k y)
    (hz : ((C.U.getD k ⟨0, []⟩).mat (cdim B k) (cdim B k)) *ᵥ vecOf (cdim B k) y ∈ cycles B k) (i : Fin (cdim B k)) (hi : coef y i ≠ 0) :
    i.1 ∈ C.I.getD k [] := by
  rw [h.tab.inds k hk]
  refine ⟨i.2, ?_, hc i hi⟩
  have hf := h.fac k hk
  have hl := h.tab.lev k hk
  unfold cycles at hz
  rw [LinearMap.mem_ker, mulVecLin_apply, mulVec_mulVec] at hz
  have he : bdry B k * (C.U.getD k ⟨0, []⟩).mat (cdim B k) (cdim B k) = (C.R.getD k ⟨0, []⟩).mat (rdim B k) (cdim B k) := hf.eq
  rw [he] at hz
  have hred : Reduced ((C.R.getD k ⟨0, []⟩).mat (rdim B k) (cdim B k)) := hl.table.reduced
  rcases hred.mulVec_cases (vecOf (cdim B k) y) with ⟨_, h2⟩ | ⟨a, b, _, _, h2⟩
  · have h3 := h2 i hi
    rw [col_eq_zero_iff] at h3
    intro a ha
    exact h3 a ((hl.piv a i).2 ha)
  · exact absurd hz h2.ne_zero

/-- a canonical cycle is the combination of the stored generators with the selected coordinates -/
theorem canonical_combination (hB : IsChainComplex B) (h : BasisOK B C) {k : Nat} (hk : k < B.length) {y : SVec F} (hy : VecOK y)
    (hb : Below (cdim B k) y) (hc : Canonical B k y)
    (hz : ((C.U.getD k ⟨0, []⟩).mat (cdim B k) (cdim B k)) *ᵥ vecOf (cdim B k) y ∈ cycles B k) :
    ((C.U.getD k ⟨0, []⟩).mat (cdim B k) (cdim B k)) *ᵥ vecOf (cdim B k) y
      = ∑ g : Fin (bettiNumber B k), coef (SVec.select y (C.I.getD k [])) g • vecOf (cdim B k) (gen C k g) := by
  have hbt := h.tab.betti hB hk
  obtain ⟨s1, s2, s3⟩ := select_spec hy (h.tab.sorted k hk)
  have hlt : ∀ g : Fin (bettiNumber B k), g.1 < (C.I.getD k []).length := fun g => by rw [hbt]; exact g.2
  have hmem : ∀ g : Fin (bettiNumber B k), (C.I.getD k [])[g.1]'(hlt g) ∈ C.I.getD k [] := fun g => List.getElem_mem _
  let e : Fin (bettiNumber B k) → Fin (cdim B k) := fun g => ⟨(C.I.getD k [])[g.1]'(hlt g), ((h.tab.inds k hk _).1 (hmem g)).1⟩
  have hnd : (C.I.getD k []).Nodup := (h.tab.sorted k hk).imp (fun h => ne_of_lt h)
  have he : Function.Injective e := by
    intro g g' hgg
    have h1 : (C.I.getD k [])[g.1]'(hlt g) = (C.I.getD k [])[g'.1]'(hlt g') := congrArg Fin.val hgg
    exact Fin.ext ((hnd.getElem_inj_iff).1 h1)
  funext i
  rw [mulVec, dotProduct, Finset.sum_apply]
  rw [← Finset.sum_subset (s₁ := Finset.univ.image e) (Finset.subset_univ _)]
  · rw [Finset.sum_image (fun a _ b _ hab => he hab)]
    apply Finset.sum_congr rfl
    intro g _
    rw [Pi.smul_apply, smul_eq_mul, mul_comm, s3 g (hlt g)]
    have : gen C k g = (C.U.getD k ⟨0, []⟩).cols.getD ((C.I.getD k [])[g.1]'(hlt g)) [] := by
      unfold gen
      rw [List.getD_eq_getElem?_getD (l := C.I.getD k []), List.getElem?_eq_getElem (hlt g)]; rfl
    rw [this]; rfl
  · intro j _ hj
    have : coef y j = 0 := by
      by_contra hne
      have hm := canonical_cycle hB h hk hc hz j hne
      obtain ⟨g, hg, hgj⟩ := List.mem_iff_getElem.1 hm
      exact hj (Finset.mem_image.2 ⟨⟨g, by rw [← hbt]; exact hg⟩, Finset.mem_univ _, Fin.ext hgj⟩)
    show _ * coef y j = 0
    rw [this, mul_zero]

theorem canonical_zero (hB : IsChainComplex B) (h : BasisOK B C) {k : Nat} (hk : k < B.length) {y : SVec F} (hy : VecOK y) (hb : Below (cdim B k) y)
    (hc : Canonical B k y) (hd : ((C.U.getD k ⟨0, []⟩).mat (cdim B k) (cdim B k)) *ᵥ vecOf (cdim B k) y ∈ boundaries B k) : y = [] := by
  refine canonical_unique hB h hk hy hb vecOK_nil (below_nil _) hc (fun i hi => absurd rfl hi) ?_
  have : vecOf (cdim B k) ([] : SVec F) = 0 := rfl
  rw [this, mulVec_zero, sub_zero]; exact hd

/-! ### the induced map -/

/-- one column: image of a cycle in canonical coordinates -/
theorem induced_column (hB' : IsChainComplex B') (hD : BasisOK B' D) {k n : Nat} (hk : k < B'.length) {f : CMat F} (hf : f.Shape (cdim B' k) n)
    {g : SVec F} (hg : Below n g) (hcyc : f.mat (cdim B' k) n *ᵥ vecOf n g ∈ cycles B' k) :
    ∃ w x y, CMat.gemv f g = .ok w ∧ CMat.uSolve (D.U.getD k ⟨0, []⟩) w = .ok x ∧ D.findPreferredRepresentative x k = .ok y ∧
      VecOK (SVec.select y (D.I.getD k [])) ∧ Below (bettiNumber B' k) (SVec.select y (D.I.getD k [])) ∧
      f.mat (cdim B' k) n *ᵥ vecOf n g - ∑ h : Fin (bettiNumber B' k), coef (SVec.select y (D.I.getD k [])) h • vecOf (cdim B' k) (gen D k h)
        ∈ boundaries B' k := by
  have hfac := hD.fac k hk
  obtain ⟨w, w1, w2, w3, w4⟩ := gemv_spec hf hg
  obtain ⟨x, x1, x2, x3, x4⟩ := uSolve_spec hfac.shape hfac.upper w2 w3
  obtain ⟨y, y1, y2, y3, y4, y5⟩ := findPref_spec hB' hD hk x2 x3
  have e1 : vecOf (cdim B' k) w = f.mat (cdim B' k) n *ᵥ vecOf n g := w4
  have e2 : ((D.U.getD k ⟨0, []⟩).mat (cdim B' k) (cdim B' k)) *ᵥ vecOf (cdim B' k) x = vecOf (cdim B' k) w := x4
  rw [e2, e1] at y5
  have hz : ((D.U.getD k ⟨0, []⟩).mat (cdim B' k) (cdim B' k)) *ᵥ vecOf (cdim B' k) y ∈ cycles B' k := by
    have := (cycles B' k).sub_mem hcyc (boundaries_le_cycles hB' k y5)
    rwa [sub_sub_cancel] at this
  obtain ⟨s1, s2, s3⟩ := select_spec y2 (hD.tab.sorted k hk)
  refine ⟨w, x, y, w1, x1, y1, s1, by rw [← hD.tab.betti hB' hk]; exact s2, ?_⟩
  rw [← canonical_combination hB' hD hk y2 y3 y4 hz]
  exact y5

theorem inducedLoop_spec (hB' : IsChainComplex B') (hC : BasisOK B C) (hD : BasisOK B' D) {k : Nat} (hk : k < B.length) (hk' : k < B'.length) {f : CMat F}
    (hf : f.Shape (cdim B' k) (cdim B k)) (hcyc : ∀ z ∈ cycles B k, f.mat (cdim B' k) (cdim B k) *ᵥ z ∈ cycles B' k) : ∀ (is : List Nat),
    (∀ i ∈ is, i < cdim B k ∧ vecOf (cdim B k) ((C.U.getD k ⟨0, []⟩).cols.getD i []) ∈ cycles B k) →
    ∃ cols, inducedLoop f C D k is = .ok cols ∧ cols.length = is.length ∧ ColsOK (bettiNumber B' k) cols ∧
      ∀ t, t < is.length →
        f.mat (cdim B' k) (cdim B k) *ᵥ vecOf (cdim B k) ((C.U.getD k ⟨0, []⟩).cols.getD (is.getD t 0) [])
          - ∑ h : Fin (bettiNumber B' k), coef (cols.getD t []) h • vecOf (cdim B' k) (gen D k h) ∈ boundaries B' k
  | [], _ => ⟨[], rfl, rfl, by intro c hc; simp at hc, by simp⟩
  | i :: is, h => by
    obtain ⟨cols, c1, c2, c3, c4⟩ := inducedLoop_spec hB' hC hD hk hk' hf hcyc is (fun j hj => h j (List.mem_cons_of_mem _ hj))
    obtain ⟨hi, hzi⟩ := h i (by simp)
    have hU := (hC.fac k hk).shape
    have hg := hU.colsOK.getD i
    obtain ⟨w, x, y, g1, g2, g3, g4, g5, g6⟩ := induced_column hB' hD hk' hf hg.2 (hcyc _ hzi)
    refine ⟨SVec.select y (D.I.getD k []) :: cols, ?_, by rw [List.length_cons, List.length_cons, c2], ?_, ?_⟩
    · rw [inducedLoop, rd_getD ⟨0, []⟩ (by rw [hC.lenU]; exact hk), bind_ok, rd_getD [] (by rw [hU.ncol]; exact hi), bind_ok, g1, bind_ok,
        rd_getD ⟨0, []⟩ (by rw [hD.lenU]; exact hk'), bind_ok, g2, bind_ok, g3, bind_ok, rd_getD [] (by rw [hD.tab.lenI]; exact hk'), bind_ok,
        c1, bind_ok]
      rfl
    · intro c hc
      rcases List.mem_cons.1 hc with rfl | hc
      · exact ⟨g4, g5⟩
      · exact c3 c hc
    · intro t ht
      cases t with
      | zero => exact g6
      | succ t => exact c4 t (by rw [List.length_cons] at ht; omega)

theorem IsChainMap.boundaries {f : List (CMat F)} (hf : IsChainMap f B B') (k : Nat) {z} (hz : z ∈ boundaries B k) :
    cmap f B B' k *ᵥ z ∈ boundaries B' k := by
  obtain ⟨x, rfl⟩ := hz
  refine ⟨cmap f B B' (k + 1) *ᵥ x, ?_⟩
  rw [mulVecLin_apply, mulVecLin_apply, mulVec_mulVec, mulVec_mulVec, hf.comm]

theorem IsChainMap.cycles {f : List (CMat F)} (hf : IsChainMap f B B') (k : Nat) {z} (hz : z ∈ cycles B k) :
    cmap f B B' k *ᵥ z ∈ cycles B' k := by
  cases k with
  | zero => exact hf.zero z hz
  | succ k =>
    unfold BATS.cycles at hz ⊢
    rw [LinearMap.mem_ker, mulVecLin_apply] at hz ⊢
    have h1 : bdryUp B k *ᵥ z = 0 := hz
    show bdryUp B' k *ᵥ (cmap f B B' (k + 1) *ᵥ z) = 0
    rw [mulVec_mulVec, hf.comm, ← mulVec_mulVec, h1, mulVec_zero]

theorem BasisOK.gen_unique (hB : IsChainComplex B) (h : BasisOK B C) {k : Nat} (hk : k < B.length) :
    (∀ g : Fin (bettiNumber B k), VecOK (gen C k g) ∧ Below (cdim B k) (gen C k g) ∧ vecOf (cdim B k) (gen C k g) ∈ cycles B k) ∧
    ∀ z ∈ cycles B k, ∃! c : Fin (bettiNumber B k) → F, z - ∑ g, c g • vecOf (cdim B k) (gen C k g) ∈ boundaries B k := by
  obtain ⟨rep, h1, h2, h3⟩ := h.comp.representatives hB hk
  have e : rep = fun g : Fin (bettiNumber B k) => gen C k g := by
    funext g
    have := h1 g
    rw [h.getGen hk (by rw [h.tab.betti hB hk]; exact g.2)] at this
    injection this with this
    exact this.symm
  rw [e] at h2 h3
  exact ⟨h2, h3⟩

/-- the matrix of the map induced by a chain map, column by column -/
theorem inducedMap_spec (hB : IsChainComplex B) (hB' : IsChainComplex B') (hC : BasisOK B C) (hD : BasisOK B' D) {f : List (CMat F)} (hf : IsChainMap f B B')
    {k : Nat} (hk : k < B.length) (hk' : k < B'.length) :
    ∃ M, inducedMap f C D k = .ok M ∧ M.Shape (bettiNumber B' k) (bettiNumber B k) ∧
      ∀ g : Fin (bettiNumber B k), cmap f B B' k *ᵥ vecOf (cdim B k) (gen C k g)
        - ∑ h : Fin (bettiNumber B' k), M.mat (bettiNumber B' k) (bettiNumber B k) h g • vecOf (cdim B' k) (gen D k h) ∈ boundaries B' k := by
  obtain ⟨hl, hs⟩ := hf.shape k hk hk'
  have hbt := hC.tab.betti hB hk
  have hgu := hC.gen_unique hB hk
  have hmem : ∀ i ∈ C.I.getD k [], i < cdim B k ∧ vecOf (cdim B k) ((C.U.getD k ⟨0, []⟩).cols.getD i []) ∈ cycles B k := by
    intro i hi
    refine ⟨((hC.tab.inds k hk i).1 hi).1, ?_⟩
    obtain ⟨g, hg, rfl⟩ := List.mem_iff_getElem.1 hi
    have := (hgu.1 ⟨g, by rw [← hbt]; exact hg⟩).2.2
    unfold gen at this
    simp only [] at this
    rw [List.getD_eq_getElem?_getD (l := C.I.getD k []), List.getElem?_eq_getElem hg] at this
    exact this
  obtain ⟨cols, c1, c2, c3, c4⟩ := inducedLoop_spec hB' hC hD hk hk' hs (fun z hz => hf.cycles k hz) _ hmem
  refine ⟨⟨bettiNumber B' k, cols⟩, ?_, ⟨c3, rfl, by rw [c2, hbt]⟩, ?_⟩
  · unfold inducedMap
    rw [rd_getD ⟨0, []⟩ hl, bind_ok, rd_getD ⟨0, []⟩ (by rw [hC.lenU]; exact hk), bind_ok, rd_getD ⟨0, []⟩ (by rw [hD.lenU]; exact hk'), bind_ok]
    have e1 := hs.ncol
    have e2 := (hC.fac k hk).shape.nrow
    have e3 := hs.nrow
    have e4 := (hD.fac k hk').shape.ncol
    rw [if_neg (by rintro (h | h) <;> apply h <;> omega)]
    rw [rd_getD [] (by rw [hC.tab.lenI]; exact hk), bind_ok, rd_getD [] (by rw [hD.tab.lenI]; exact hk'), bind_ok, c1, bind_ok,
      hD.tab.betti hB' hk']
    rfl
  · intro g
    exact c4 g (by rw [hbt]; exact g.2)

/-- the same, for every cycle: coordinates of a class go to coordinates of the image class -/
theorem induced_class {f : List (CMat F)} (hf : IsChainMap f B B') {k : Nat} {M : CMat F}
    (hM : ∀ g : Fin (bettiNumber B k), cmap f B B' k *ᵥ vecOf (cdim B k) (gen C k g)
        - ∑ h : Fin (bettiNumber B' k), M.mat (bettiNumber B' k) (bettiNumber B k) h g • vecOf (cdim B' k) (gen D k h) ∈ boundaries B' k)
    {z : Fin (cdim B k) → F} {c : Fin (bettiNumber B k) → F} (hz : z - ∑ g, c g • vecOf (cdim B k) (gen C k g) ∈ boundaries B k) :
    cmap f B B' k *ᵥ z - ∑ h, (M.mat (bettiNumber B' k) (bettiNumber B k) *ᵥ c) h • vecOf (cdim B' k) (gen D k h) ∈ boundaries B' k := by
  have h1 := hf.boundaries k hz
  have h2 : ∑ g, c g • (cmap f B B' k *ᵥ vecOf (cdim B k) (gen C k g)
      - ∑ h : Fin (bettiNumber B' k), M.mat (bettiNumber B' k) (bettiNumber B k) h g • vecOf (cdim B' k) (gen D k h)) ∈ boundaries B' k :=
    Submodule.sum_mem _ (fun g _ => Submodule.smul_mem _ _ (hM g))
  have h3 := Submodule.add_mem _ h1 h2
  have e : cmap f B B' k *ᵥ (z - ∑ g, c g • vecOf (cdim B k) (gen C k g))
      + ∑ g, c g • (cmap f B B' k *ᵥ vecOf (cdim B k) (gen C k g)
      - ∑ h : Fin (bettiNumber B' k), M.mat (bettiNumber B' k) (bettiNumber B k) h g • vecOf (cdim B' k) (gen D k h))
      = cmap f B B' k *ᵥ z - ∑ h, (M.mat (bettiNumber B' k) (bettiNumber B k) *ᵥ c) h • vecOf (cdim B' k) (gen D k h) := by
    have e1 : cmap f B B' k *ᵥ (∑ g, c g • vecOf (cdim B k) (gen C k g)) = ∑ g, c g • (cmap f B B' k *ᵥ vecOf (cdim B k) (gen C k g)) := by
      rw [← mulVecLin_apply, map_sum]
      apply Finset.sum_congr rfl; intro g _
      rw [map_smul, mulVecLin_apply]
    have e2 : ∑ h, (M.mat (bettiNumber B' k) (bettiNumber B k) *ᵥ c) h • vecOf (cdim B' k) (gen D k h)
        = ∑ g, c g • ∑ h : Fin (bettiNumber B' k), M.mat (bettiNumber B' k) (bettiNumber B k) h g • vecOf (cdim B' k) (gen D k h) := by
      simp only [mulVec, dotProduct, Finset.sum_smul, Finset.smul_sum, smul_smul]
      rw [Finset.sum_comm]
      apply Finset.sum_congr rfl; intro g _
      apply Finset.sum_congr rfl; intro h _
      rw [mul_comm]
    rw [mulVec_sub, e1, e2]
    simp only [smul_sub, Finset.sum_sub_distrib]
    abel
  rw [e] at h3; exact h3

/-- uniqueness of the matrix -/
theorem induced_unique (hB' : IsChainComplex B') (hD : BasisOK B' D) {k : Nat} (hk' : k < B'.length) {n : Nat} {M M' : CMat F}
    (hM : M.Shape (bettiNumber B' k) n) (hM' : M'.Shape (bettiNumber B' k) n) {w : Fin n → Fin (cdim B' k) → F} (hw : ∀ g, w g ∈ cycles B' k)
    (h : ∀ g : Fin n, w g - ∑ h : Fin (bettiNumber B' k), M.mat (bettiNumber B' k) n h g • vecOf (cdim B' k) (gen D k h) ∈ boundaries B' k)
    (h' : ∀ g : Fin n, w g - ∑ h : Fin (bettiNumber B' k), M'.mat (bettiNumber B' k) n h g • vecOf (cdim B' k) (gen D k h) ∈ boundaries B' k) :
    M = M' := by
  apply hM.ext hM'
  ext a g
  exact congrFun (((hD.gen_unique hB' hk').2 (w g) (hw g)).unique (h g) (h' g)) a

end BATS
