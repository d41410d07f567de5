import Verif.Proofs.Induced
import Verif.Props.Homology
import Verif.Proofs.SVecOps
import Verif.Props.Linalg

set_option linter.unusedSectionVars false
set_option linter.unusedVariables false

/-! # C39, C40: preferred representatives and induced maps (include/homology/basis.hpp, include/homology/induced_map.hpp)

`cycles`, `boundaries` are in `Verif/Spec/Homology.lean`, `cmap`, `IsChainMap` in `Verif/Spec/Induced.lean`. -/

namespace BATS
open Matrix Reduction

variable {F : Type} [Field F] [DecidableEq F]

/-- a reduction which stores the change of basis and does not compress -/
def Variant.withBasis (v : Variant) : Prop := v = .standard ∨ v = .clearingBasis

theorem Variant.basisOK {v : Variant} (hv : v.withBasis) {B : List (CMat F)} (hB : IsChainComplex B) {C : RedCpx F} (h : v.reduce B = .ok C) : BasisOK B C := by
  rcases hv with rfl | rfl
  · obtain ⟨C', h', hC⟩ := mkStd_spec hB
    have : Variant.standard.reduce B = .ok C' := h'
    rw [h] at this; injection this with this; rw [this]; exact hC
  · obtain ⟨C', h', hC⟩ := mkClearingU_spec hB
    have : Variant.clearingBasis.reduce B = .ok C' := h'
    rw [h] at this; injection this with this; rw [this]; exact hC

/-- the statement of C39 for any reduced complex with a basis -/
theorem canonical_of_basis {B : List (CMat F)} (hB : IsChainComplex B) {C : RedCpx F} (h : BasisOK B C)
    {k : Nat} (hk : k < B.length) {c : SVec F} (hc : VecOK c) (hb : Below (cdim B k) c) :
    ∃ r, C.chainPreferredRepresentative c k = .ok r ∧ VecOK r ∧ Below (cdim B k) r ∧
      vecOf (cdim B k) c - vecOf (cdim B k) r ∈ boundaries B k ∧
      (r = [] ↔ vecOf (cdim B k) c ∈ boundaries B k) ∧
      C.chainPreferredRepresentative r k = .ok r ∧
      ∀ c', VecOK c' → Below (cdim B k) c' →
        (C.chainPreferredRepresentative c' k = .ok r ↔ vecOf (cdim B k) c - vecOf (cdim B k) c' ∈ boundaries B k) := by
  obtain ⟨r, y, r1, r2, r3, y1, y2, y3, e, hd⟩ := chainPref_spec hB h hk hc hb
  have key : ∀ c', VecOK c' → Below (cdim B k) c' →
        (C.chainPreferredRepresentative c' k = .ok r ↔ vecOf (cdim B k) c - vecOf (cdim B k) c' ∈ boundaries B k) := by
    intro c' hc' hb'
    obtain ⟨r', y', r1', r2', r3', y1', y2', y3', e', hd'⟩ := chainPref_spec hB h hk hc' hb'
    constructor
    · intro hr
      rw [r1'] at hr; injection hr with hr
      rw [hr] at hd'
      have := (boundaries B k).sub_mem hd hd'
      rwa [sub_sub_sub_cancel_right] at this
    · intro hcc
      have hy : y = y' := by
        refine canonical_unique hB h hk y1 y2 y1' y2' y3 y3' ?_
        rw [← e, ← e']
        have := (boundaries B k).sub_mem ((boundaries B k).add_mem hcc hd') hd
        have e3 : vecOf (cdim B k) c - vecOf (cdim B k) c' + (vecOf (cdim B k) c' - vecOf (cdim B k) r') - (vecOf (cdim B k) c - vecOf (cdim B k) r)
          = vecOf (cdim B k) r - vecOf (cdim B k) r' := by abel
        rwa [e3] at this
      have hr : r = r' := by
        apply r2.ext r2'
        intro i
        by_cases hi : i < cdim B k
        · have : vecOf (cdim B k) r = vecOf (cdim B k) r' := by rw [e, e', hy]
          exact congrFun this ⟨i, hi⟩
        · rw [r3.coef_eq_zero (by omega), r3'.coef_eq_zero (by omega)]
      rw [r1', hr]
  refine ⟨r, r1, r2, r3, hd, ?_, (key r r2 r3).2 hd, key⟩
  constructor
  · intro hr
    rw [hr] at hd
    have h0 : vecOf (cdim B k) ([] : SVec F) = 0 := rfl
    rwa [h0, sub_zero] at hd
  · intro hcb
    have h1 := (boundaries B k).sub_mem hcb hd
    rw [sub_sub_cancel, e] at h1
    have hy := canonical_zero hB h hk y1 y2 y3 h1
    rw [hy] at e
    apply r2.ext vecOK_nil
    intro i
    by_cases hi : i < cdim B k
    · have h0 : vecOf (cdim B k) ([] : SVec F) = 0 := rfl
      rw [h0, mulVec_zero] at e
      exact congrFun e ⟨i, hi⟩
    · rw [r3.coef_eq_zero (by omega)]; rfl

/-- C39: the preferred representative of a chain exists, is homologous to it, is the same for two chains exactly if they
differ by a boundary, is empty exactly for boundaries, and is its own preferred representative. -/
theorem C39_canonical (v : Variant) (hv : v.withBasis) {B : List (CMat F)} (hB : IsChainComplex B) {C : RedCpx F} (hC : v.reduce B = .ok C)
    {k : Nat} (hk : k < B.length) {c : SVec F} (hc : VecOK c) (hb : Below (cdim B k) c) :
    ∃ r, C.chainPreferredRepresentative c k = .ok r ∧ VecOK r ∧ Below (cdim B k) r ∧
      vecOf (cdim B k) c - vecOf (cdim B k) r ∈ boundaries B k ∧
      (r = [] ↔ vecOf (cdim B k) c ∈ boundaries B k) ∧
      C.chainPreferredRepresentative r k = .ok r ∧
      ∀ c', VecOK c' → Below (cdim B k) c' →
        (C.chainPreferredRepresentative c' k = .ok r ↔ vecOf (cdim B k) c - vecOf (cdim B k) c' ∈ boundaries B k) := by
  exact canonical_of_basis hB (Variant.basisOK hv hB hC) hk hc hb

/-- C39: the preferred representative of a cycle is a cycle, namely the unique combination of the stored representatives in its class. -/
theorem C39_combination (v : Variant) (hv : v.withBasis) {B : List (CMat F)} (hB : IsChainComplex B) {C : RedCpx F} (hC : v.reduce B = .ok C)
    {k : Nat} (hk : k < B.length) {c : SVec F} (hc : VecOK c) (hb : Below (cdim B k) c) (hz : vecOf (cdim B k) c ∈ cycles B k) :
    ∃ r b, C.chainPreferredRepresentative c k = .ok r ∧ C.hdim k = .ok b ∧ ∃ (rep : Fin b → SVec F) (a : Fin b → F),
      (∀ g, C.getPreferredRepresentative g.val k = .ok (rep g)) ∧ vecOf (cdim B k) r = ∑ g, a g • vecOf (cdim B k) (rep g) ∧
      vecOf (cdim B k) r ∈ cycles B k := by
  have h := Variant.basisOK hv hB hC
  obtain ⟨r, y, r1, r2, r3, y1, y2, y3, e, hd⟩ := chainPref_spec hB h hk hc hb
  have hr : vecOf (cdim B k) r ∈ cycles B k := by
    have := (cycles B k).sub_mem hz (boundaries_le_cycles hB k hd)
    rwa [sub_sub_cancel] at this
  refine ⟨r, _, r1, h.tab.hdim hB hk, fun g => gen C k g, fun g => coef (SVec.select y (C.I.getD k [])) g, ?_, ?_, hr⟩
  · intro g
    exact h.getGen hk (by rw [h.tab.betti hB hk]; exact g.2)
  · rw [e]
    exact canonical_combination hB h hk y1 y2 y3 (by rw [← e]; exact hr)

example : Variant.standard.withBasis ∧ IsChainComplex circleQ ∧
    (Variant.standard.reduce circleQ).bind (fun C => C.chainPreferredRepresentative [(0, 2), (2, 1)] 0) = .ok [(0, 3)] ∧
    (Variant.clearingBasis.reduce triangleQ).bind (fun C => C.chainPreferredRepresentative [(0, 1), (1, -1), (2, 1)] 1) = .ok [] :=
  ⟨Or.inl rfl, circleQ_complex, by decide +kernel, by decide +kernel⟩

/-- C39: after a reduction with compression the answer is not homologous to the input: the boundary of the solid triangle is sent to a
chain which is not a cycle. -/
theorem C39_compression_wrong : IsChainComplex triangleQ ∧
    (Variant.compressionBasis.reduce triangleQ).bind (fun C => C.chainPreferredRepresentative [(0, 1), (1, -1), (2, 1)] 1) = .ok [(0, 1), (1, -1)] ∧
    (∀ i : Fin 3, coef ([(0, 1), (1, -1), (2, 1)] : SVec ℚ) i = ent triangleQ 2 i 0) ∧
    (bdry triangleQ 1 *ᵥ vecOf 3 [(0, 1), (1, -1)]) ⟨1, by decide⟩ ≠ 0 :=
  ⟨triangleQ_complex, by decide +kernel, by decide +kernel, by decide +kernel⟩

/-- C40: for a chain map `f : B → B'` the call returns a matrix of shape `hdim' × hdim` which represents the map on homology in the
stored bases: whenever the class of the chain `z` has coordinates `c`, the class of `f z` has coordinates `M c`. -/
theorem C40_induced (v w : Variant) (hv : v.withBasis) (hw : w.withBasis) {B B' : List (CMat F)} (hB : IsChainComplex B) (hB' : IsChainComplex B')
    {C D : RedCpx F} (hC : v.reduce B = .ok C) (hD : w.reduce B' = .ok D) {f : List (CMat F)} (hf : IsChainMap f B B')
    {k : Nat} (hk : k < B.length) (hk' : k < B'.length) :
    ∃ (M : CMat F) (b b' : Nat) (rep : Fin b → SVec F) (rep' : Fin b' → SVec F),
      inducedMap f C D k = .ok M ∧ M.Shape b' b ∧ C.hdim k = .ok b ∧ D.hdim k = .ok b' ∧
      (∀ g, C.getPreferredRepresentative g.val k = .ok (rep g)) ∧ (∀ h, D.getPreferredRepresentative h.val k = .ok (rep' h)) ∧
      ∀ (z : Fin (cdim B k) → F) (c : Fin b → F), z - ∑ g, c g • vecOf (cdim B k) (rep g) ∈ boundaries B k →
        cmap f B B' k *ᵥ z - ∑ h, (M.mat b' b *ᵥ c) h • vecOf (cdim B' k) (rep' h) ∈ boundaries B' k := by
  have h := Variant.basisOK hv hB hC
  have h' := Variant.basisOK hw hB' hD
  obtain ⟨M, m1, m2, m3⟩ := inducedMap_spec hB hB' h h' hf hk hk'
  refine ⟨M, bettiNumber B k, bettiNumber B' k, fun g => gen C k g, fun g => gen D k g, m1, m2, h.tab.hdim hB hk, h'.tab.hdim hB' hk', ?_, ?_, ?_⟩
  · intro g; exact h.getGen hk (by rw [h.tab.betti hB hk]; exact g.2)
  · intro g; exact h'.getGen hk' (by rw [h'.tab.betti hB' hk']; exact g.2)
  · intro z c hz
    exact induced_class hf m3 hz

/-- the identity chain map of `B` -/
def identityMap (B : List (CMat F)) : List (CMat F) := (List.range B.length).map (fun k => CMat.identity (cdim B k))

theorem cmap_identityMap (B : List (CMat F)) (k : Nat) : cmap (identityMap B) B B k = 1 := by
  by_cases hk : k < B.length
  · have : (identityMap B).getD k ⟨0, []⟩ = CMat.identity (cdim B k) := by
      unfold identityMap
      rw [List.getD_eq_getElem?_getD, List.getElem?_map, List.getElem?_range hk]; rfl
    unfold cmap
    rw [this]
    exact mat_identity (cdim B k)
  · have h0 := cdim_of_ge (B := B) (k := k) (by omega)
    ext i
    exact absurd i.2 (by omega)

theorem identityMap_chainMap {B : List (CMat F)} : IsChainMap (identityMap B) B B := by
  refine ⟨?_, ?_, ?_⟩
  · intro k hk _
    refine ⟨by unfold identityMap; rw [List.length_map, List.length_range]; exact hk, ?_⟩
    have : (identityMap B).getD k ⟨0, []⟩ = CMat.identity (cdim B k) := by
      unfold identityMap
      rw [List.getD_eq_getElem?_getD, List.getElem?_map, List.getElem?_range hk]; rfl
    rw [this]; exact shape_identity _
  · intro k; rw [cmap_identityMap, cmap_identityMap, Matrix.mul_one, Matrix.one_mul]
  · intro z hz; rw [cmap_identityMap, one_mulVec]; exact hz

/-- the identity induces the identity, for any valid reduction -/
theorem identity_basis {B : List (CMat F)} (hB : IsChainComplex B) {C : RedCpx F} (h : BasisOK B C)
    {k : Nat} (hk : k < B.length) : inducedMap (identityMap B) C C k = .ok (CMat.identity (bettiNumber B k)) := by
  obtain ⟨M, m1, m2, m3⟩ := inducedMap_spec hB hB h h identityMap_chainMap hk hk
  rw [m1]
  congr 1
  have hg := (h.gen_unique hB hk).1
  refine induced_unique hB h hk m2 (shape_identity _) (w := fun g => vecOf (cdim B k) (gen C k g)) (fun g => (hg g).2.2) ?_ ?_
  · intro g
    have := m3 g
    rwa [cmap_identityMap, one_mulVec] at this
  · intro g
    rw [mat_identity]
    have : ∑ h : Fin (bettiNumber B k), (1 : Matrix (Fin (bettiNumber B k)) (Fin (bettiNumber B k)) F) h g • vecOf (cdim B k) (gen C k h)
        = vecOf (cdim B k) (gen C k g) := by
      rw [Finset.sum_eq_single g]
      · rw [Matrix.one_apply_eq, one_smul]
      · intro b _ hb; rw [Matrix.one_apply_ne hb, zero_smul]
      · intro hn; exact absurd (Finset.mem_univ _) hn
    rw [this, sub_self]; exact Submodule.zero_mem _

/-- C40: the identity induces the identity. -/
theorem C40_identity (v : Variant) (hv : v.withBasis) {B : List (CMat F)} (hB : IsChainComplex B) {C : RedCpx F} (hC : v.reduce B = .ok C)
    {k : Nat} (hk : k < B.length) : ∃ b, C.hdim k = .ok b ∧ inducedMap (identityMap B) C C k = .ok (CMat.identity b) := by
  have h := Variant.basisOK hv hB hC
  exact ⟨_, h.tab.hdim hB hk, identity_basis hB h hk⟩

/-- composition induces composition, for any valid reductions -/
theorem composition_basis {B B' B'' : List (CMat F)} (hB : IsChainComplex B) (hB' : IsChainComplex B') (hB'' : IsChainComplex B'') {C D E : RedCpx F}
    (h : BasisOK B C) (h' : BasisOK B' D) (h'' : BasisOK B'' E) {f g gf : List (CMat F)} (hf : IsChainMap f B B') (hg : IsChainMap g B' B'')
    (hs : ∀ k, k < B.length → k < B''.length → k < gf.length ∧ (gf.getD k ⟨0, []⟩).Shape (cdim B'' k) (cdim B k))
    (hgf : ∀ k, cmap gf B B'' k = cmap g B' B'' k * cmap f B B' k)
    {k : Nat} (hk : k < B.length) (hk' : k < B'.length) (hk'' : k < B''.length) :
    ∃ M N P, inducedMap f C D k = .ok M ∧ inducedMap g D E k = .ok N ∧ CMat.gemm N M = .ok P ∧ inducedMap gf C E k = .ok P := by
  have hcm : IsChainMap gf B B'' := by
    refine ⟨hs, ?_, ?_⟩
    · intro k
      rw [hgf, hgf, ← Matrix.mul_assoc, hg.comm, Matrix.mul_assoc, hf.comm, Matrix.mul_assoc]
    · intro z hz
      rw [hgf, ← mulVec_mulVec]
      exact hg.zero _ (hf.zero z hz)
  obtain ⟨M, m1, m2, m3⟩ := inducedMap_spec hB hB' h h' hf hk hk'
  obtain ⟨N, n1, n2, n3⟩ := inducedMap_spec hB' hB'' h' h'' hg hk' hk''
  obtain ⟨Q, q1, q2, q3⟩ := inducedMap_spec hB hB'' h h'' hcm hk hk''
  obtain ⟨P, p1, p2, p3⟩ := gemm_spec n2 m2
  refine ⟨M, N, P, m1, n1, p1, ?_⟩
  rw [q1]
  congr 1
  have hgen := (h.gen_unique hB hk).1
  refine induced_unique hB'' h'' hk'' q2 p2 (w := fun a => cmap gf B B'' k *ᵥ vecOf (cdim B k) (gen C k a)) (fun a => hcm.cycles k (hgen a).2.2) q3 ?_
  intro a
  have := induced_class hg n3 (c := fun b => M.mat (bettiNumber B' k) (bettiNumber B k) b a) (m3 a)
  rw [mulVec_mulVec, ← hgf] at this
  rw [p3]
  exact this

/-- C40: composition induces composition: if `gf` is the composite of the chain maps `f` and `g` in every dimension, its induced matrix is the
product computed by the library from the two induced matrices. -/
theorem C40_composition (v w u : Variant) (hv : v.withBasis) (hw : w.withBasis) (hu : u.withBasis) {B B' B'' : List (CMat F)} (hB : IsChainComplex B)
    (hB' : IsChainComplex B') (hB'' : IsChainComplex B'') {C D E : RedCpx F} (hC : v.reduce B = .ok C) (hD : w.reduce B' = .ok D)
    (hE : u.reduce B'' = .ok E) {f g gf : List (CMat F)} (hf : IsChainMap f B B') (hg : IsChainMap g B' B'')
    (hs : ∀ k, k < B.length → k < B''.length → k < gf.length ∧ (gf.getD k ⟨0, []⟩).Shape (cdim B'' k) (cdim B k))
    (hgf : ∀ k, cmap gf B B'' k = cmap g B' B'' k * cmap f B B' k)
    {k : Nat} (hk : k < B.length) (hk' : k < B'.length) (hk'' : k < B''.length) :
    ∃ M N P, inducedMap f C D k = .ok M ∧ inducedMap g D E k = .ok N ∧ CMat.gemm N M = .ok P ∧ inducedMap gf C E k = .ok P := by
  exact composition_basis hB hB' hB'' (Variant.basisOK hv hB hC) (Variant.basisOK hw hB' hD) (Variant.basisOK hu hB'' hE) hf hg hs hgf hk hk' hk''

/-- C40: two chain maps whose difference sends cycles to boundaries (in particular, chain homotopic maps) induce the same matrix. -/
theorem C40_homotopic (v w : Variant) (hv : v.withBasis) (hw : w.withBasis) {B B' : List (CMat F)} (hB : IsChainComplex B) (hB' : IsChainComplex B')
    {C D : RedCpx F} (hC : v.reduce B = .ok C) (hD : w.reduce B' = .ok D) {f f' : List (CMat F)} (hf : IsChainMap f B B') (hf' : IsChainMap f' B B')
    {k : Nat} (hk : k < B.length) (hk' : k < B'.length)
    (hd : ∀ z ∈ cycles B k, cmap f B B' k *ᵥ z - cmap f' B B' k *ᵥ z ∈ boundaries B' k) :
    inducedMap f C D k = inducedMap f' C D k := by
  have h := Variant.basisOK hv hB hC
  have h' := Variant.basisOK hw hB' hD
  obtain ⟨M, m1, m2, m3⟩ := inducedMap_spec hB hB' h h' hf hk hk'
  obtain ⟨N, n1, n2, n3⟩ := inducedMap_spec hB hB' h h' hf' hk hk'
  rw [m1, n1]
  congr 1
  have hgen := (h.gen_unique hB hk).1
  refine induced_unique hB' h' hk' m2 n2 (w := fun a => cmap f B B' k *ᵥ vecOf (cdim B k) (gen C k a)) (fun a => hf.cycles k (hgen a).2.2) m3 ?_
  intro a
  have := (boundaries B' k).add_mem (hd _ (hgen a).2.2) (n3 a)
  rwa [sub_add_sub_cancel] at this

/-- C40: a chain map whose matrix does not fit the two complexes is rejected. -/
theorem C40_mismatch (v w : Variant) (hv : v.withBasis) (hw : w.withBasis) {B B' : List (CMat F)} (hB : IsChainComplex B) (hB' : IsChainComplex B')
    {C D : RedCpx F} (hC : v.reduce B = .ok C) (hD : w.reduce B' = .ok D) {f : List (CMat F)} {k : Nat} (hk : k < B.length) (hk' : k < B'.length)
    {m : CMat F} (hm : f[k]? = some m) (hne : m.cols.length ≠ cdim B k ∨ m.nrow ≠ cdim B' k) : inducedMap f C D k = .error .thrown := by
  have h := Variant.basisOK hv hB hC
  have h' := Variant.basisOK hw hB' hD
  unfold inducedMap
  rw [rd_some hm, bind_ok, rd_getD ⟨0, []⟩ (by rw [h.lenU]; exact hk), bind_ok, rd_getD ⟨0, []⟩ (by rw [h'.lenU]; exact hk'), bind_ok,
    (h.fac k hk).shape.nrow, (h'.fac k hk').shape.ncol, if_pos hne]

/-- the rotation of the hollow triangle `0 ↦ 1 ↦ 2 ↦ 0` as a chain map -/
def rotationQ : List (CMat ℚ) := [⟨3, [[(1, 1)], [(2, 1)], [(0, 1)]]⟩, ⟨3, [[(2, 1)], [(0, -1)], [(1, -1)]]⟩]

theorem rotationQ_chainMap : IsChainMap rotationQ circleQ circleQ := by
  refine ⟨?_, ?_, ?_⟩
  · intro k hk _
    have : k < 2 := hk
    interval_cases k <;> decide +kernel
  · intro k
    cases k with
    | zero => decide +kernel
    | succ k => ext i j; exact absurd j.2 (by have := cdim_of_ge (B := circleQ) (k := k + 1 + 1) (by show 2 ≤ _; omega); omega)
  · intro z hz
    unfold cycles
    rw [LinearMap.mem_ker, mulVecLin_apply]
    have : bdry circleQ 0 = 0 := by decide +kernel
    rw [this, zero_mulVec]

example : IsChainComplex circleQ ∧ IsChainMap rotationQ circleQ circleQ ∧
    (Variant.standard.reduce circleQ).bind (fun C => inducedMap rotationQ C C 1) = .ok ⟨1, [[(0, 1)]]⟩ ∧
    (Variant.standard.reduce circleQ).bind (fun C => inducedMap rotationQ C C 0) = .ok ⟨1, [[(0, 1)]]⟩ ∧
    (Variant.standard.reduce circleQ).bind (fun C => inducedMap (identityMap circleQ) C C 1) = .ok ⟨1, [[(0, 1)]]⟩ :=
  ⟨circleQ_complex, rotationQ_chainMap, by decide +kernel, by decide +kernel, by decide +kernel⟩

end BATS
