import Verif.Proofs.Cochain
import Verif.Proofs.Examples
import Verif.Props.Homology
import Verif.Spec.DG
import Verif.Props.DG

set_option linter.unusedSectionVars false
set_option linter.unusedVariables false
set_option linter.unusedSimpArgs false

/-! # C78: cochain complexes (include/chain/cochain_complex.hpp, include/homology/cohom_basis.hpp) -/

namespace BATS
open Matrix Reduction

variable {F : Type} [Field F] [DecidableEq F]

/-- C78: `CochainComplex(X)` stores the transposed boundary matrices, so consecutive coboundary maps compose to zero. -/
theorem C78_dual {B : List (CMat F)} (hB : IsChainComplex B) :
    ∃ T, Cochain.ofComplex B = .ok T ∧ T.length = B.length ∧
      (∀ k, k < B.length → (T.getD k ⟨0, []⟩).Shape (cdim B k) (rdim B k) ∧
        ∀ i j, i < cdim B k → j < rdim B k → ent T k i j = ent B k j i) ∧
      ∀ k, k + 1 < B.length → (T.getD (k + 1) ⟨0, []⟩).mat (cdim B (k + 1)) (cdim B k) * (T.getD k ⟨0, []⟩).mat (cdim B k) (rdim B k) = 0 := by
  obtain ⟨T, h1, h2, h3⟩ := cochain_dual hB
  refine ⟨T, h1, h2, ?_, ?_⟩
  · intro k hk
    refine ⟨(h3 k hk).1, ?_⟩
    intro i j hi hj
    exact congrFun (congrFun (h3 k hk).2 ⟨i, hi⟩) ⟨j, hj⟩
  · intro k hk
    have e1 : (T.getD (k + 1) ⟨0, []⟩).mat (cdim B (k + 1)) (cdim B k) = (bdryUp B k)ᵀ := (h3 (k + 1) hk).2
    rw [(h3 k (by omega)).2, e1, ← Matrix.transpose_mul, hB.sq k hk, Matrix.transpose_zero]

/-- all table lookups of `set_indices` are inside of the tables: a column of `δ_k : C^{k-1} → C^k` without pivot has an index below the number of `(k+1)`-cells -/
def CoInRange (B : List (CMat F)) : Prop :=
  ∀ k, k + 1 < B.length → ∀ j : Fin (rdim B k), (∀ i, ¬ IsPivot (bdry B k)ᵀ i j) → j.val < cdim B (k + 1)

/-- what `hdim(k)` counts: columns of `δ_k` (cells of dimension `k - 1`) without pivot which, read as indices of `(k+1)`-cells, are not rows of pivots of `δ_{k+1}` -/
def CoCount (B : List (CMat F)) (k : Nat) (j : Fin (rdim B k)) : Prop :=
  (∀ i, ¬ IsPivot (bdry B k)ᵀ i j) ∧
    (k + 1 < B.length → ∀ (hj : j.val < cdim B (k + 1)) (l : Fin (rdim B (k + 1))), ¬ IsPivot (bdry B (k + 1))ᵀ ⟨j.val, hj⟩ l)

/-- C78: exact result of every constructor of `ReducedCochainComplex`: it succeeds exactly if all lookups are in range (otherwise a table is read out of
bounds), and then `hdim(k)` is the number of indices described by `CoCount`. -/
theorem C78_hdim_exact (v : Cochain.Variant) {B : List (CMat F)} (hB : IsChainComplex B) (h0 : ZeroBdry0 B) :
    ∃ T, Cochain.ofComplex B = .ok T ∧ (¬ CoInRange B → v.reduce T = .error .ub) ∧
      (CoInRange B → ∃ X, v.reduce T = .ok X ∧ ∀ k, k < B.length → X.hdim k = .ok (Nat.card {j : Fin (rdim B k) // CoCount B k j})) := by
  obtain ⟨T, h1, h2, h3⟩ := cochain_dual hB
  obtain ⟨Us, rs, g1, _, g2⟩ := cochain_levels v hB h0 h2 h3
  have hlen := g1.length_eq
  have hlv : ∀ k, k < B.length → LevelOK (cdim B k) (rdim B k) (T.getD k ⟨0, []⟩) ((rs.map (fun r : CMat F × P2C => r.1)).getD k ⟨0, []⟩) ((rs.map (fun r : CMat F × P2C => r.2)).getD k []) :=
    fun k hk => levels_at h2 h3 g1 hk
  have hnil : ∀ k (hk : k < B.length) (j : Fin (rdim B k)), ((rs.map (fun r : CMat F × P2C => r.1)).getD k ⟨0, []⟩).cols.getD j [] = [] ↔ ∀ i, ¬ IsPivot (bdry B k)ᵀ i j := by
    intro k hk j
    rw [← (h3 k hk).2]
    exact (hlv k hk).col_nil_iff j
  have hlook : LookupOK (rs.map (fun r : CMat F × P2C => r.1)) (rs.map (fun r : CMat F × P2C => r.2)) ↔ CoInRange B := by
    unfold LookupOK CoInRange
    rw [List.length_map]
    constructor
    · intro h k hk j hj
      have hk' : k < B.length := by omega
      have := h k (by omega) j.val (by rw [(hlv k hk').shapeR.ncol]; exact j.isLt) ((hnil k hk' j).2 hj)
      rw [(hlv (k + 1) hk).table.len] at this
      exact this
    · intro h k hk j hj hc
      have hk1 : k + 1 < B.length := by omega
      have hk' : k < B.length := by omega
      rw [(hlv k hk').shapeR.ncol] at hj
      rw [(hlv (k + 1) hk1).table.len]
      exact h k hk1 ⟨j, hj⟩ ((hnil k hk' ⟨j, hj⟩).1 hc)
  refine ⟨T, h1, ?_, ?_⟩
  · intro hn
    rw [g2, setIndices_err _ _ (by simp) (fun h => hn (hlook.1 h))]
    rfl
  · intro hy
    obtain ⟨I, i1, i2, i3⟩ := setIndices_ok (rs.map (fun r : CMat F × P2C => r.1)) (rs.map (fun r : CMat F × P2C => r.2)) (by
      intro e
      rw [List.map_eq_nil_iff] at e
      rw [e] at hlen
      exact hB.ne (List.length_eq_zero_iff.1 (by rw [← h2, hlen]; rfl))) (by simp) (hlook.2 hy)
    refine ⟨_, by rw [g2, i1]; rfl, ?_⟩
    intro k hk
    have hkI : k < I.length := by rw [i2, List.length_map]; omega
    obtain ⟨j1, j2⟩ := i3 k (by rw [List.length_map]; omega)
    unfold RedCpx.hdim
    have hrd : rd I k = .ok (I.getD k []) := by
      unfold rd; rw [List.getElem?_eq_getElem hkI, List.getD_eq_getElem?_getD, List.getElem?_eq_getElem hkI]; rfl
    show (do
      let i ← rd I k
      pure i.length : Res Nat) = _
    rw [hrd, bind_ok]
    show Except.ok _ = _
    congr 1
    classical
    rw [Nat.card_eq_fintype_card, Fintype.card_subtype]
    have hnd : (I.getD k []).Nodup := j1.imp (fun h => Nat.ne_of_lt h)
    rw [← List.toFinset_card_of_nodup hnd]
    symm
    apply Finset.card_bij (fun j _ => j.val)
    · intro j hj
      rw [Finset.mem_filter] at hj
      rw [List.mem_toFinset, j2]
      refine ⟨by rw [(hlv k hk).shapeR.ncol]; exact j.isLt, (hnil k hk j).2 hj.2.1, ?_⟩
      intro hk1
      rw [List.length_map] at hk1
      have hk1' : k + 1 < B.length := by omega
      have hjr := hy k hk1' j hj.2.1
      refine ((hlv (k + 1) hk1').p2c_none_iff ⟨j.val, hjr⟩).2 ?_
      rw [(h3 (k + 1) hk1').2]
      exact hj.2.2 hk1' hjr
    · intro a _ b _ e; exact Fin.ext e
    · intro j hj
      rw [List.mem_toFinset, j2] at hj
      obtain ⟨a, b, c⟩ := hj
      rw [(hlv k hk).shapeR.ncol] at a
      refine ⟨⟨j, a⟩, ?_, rfl⟩
      rw [Finset.mem_filter]
      refine ⟨Finset.mem_univ _, (hnil k hk ⟨j, a⟩).1 b, ?_⟩
      intro hk1 hjr
      have := ((hlv (k + 1) hk1).p2c_none_iff ⟨j, hjr⟩).1 (c (by rw [List.length_map]; omega))
      rw [(h3 (k + 1) hk1).2] at this
      exact this

/-- C78: in the top dimension `hdim` is the dimension of the space of cocycles one dimension lower: (number of `(d-1)`-cells) - (rank of `∂_d`). -/
theorem C78_top (v : Cochain.Variant) {B : List (CMat F)} (hB : IsChainComplex B) (h0 : ZeroBdry0 B) (hr : CoInRange B) {d : Nat} (hd : B.length = d + 1) :
    ∃ T X n, Cochain.ofComplex B = .ok T ∧ v.reduce T = .ok X ∧ X.hdim d = .ok n ∧ n + (bdry B d).rank = rdim B d := by
  classical
  obtain ⟨T, h1, _, h2⟩ := C78_hdim_exact v hB h0
  obtain ⟨X, h3, h4⟩ := h2 hr
  refine ⟨T, X, _, h1, h3, h4 d (by omega), ?_⟩
  obtain ⟨T', e1, e2, e3⟩ := cochain_dual hB
  have hred : HasRed (bdry B d)ᵀ := by
    rw [← (e3 d (by omega)).2]
    exact hasRed_of_shape (e3 d (by omega)).1
  rw [← Matrix.rank_transpose, ← card_pivotCols hred, Nat.card_eq_fintype_card, Fintype.card_subtype]
  have : (Finset.univ.filter (fun j => CoCount B d j)) = Finset.univ.filter (fun j => ¬ ∃ i, IsPivot (bdry B d)ᵀ i j) := by
    ext j
    rw [Finset.mem_filter, Finset.mem_filter, not_exists]
    exact ⟨fun h => ⟨h.1, h.2.1⟩, fun h => ⟨h.1, h.2, fun hk => absurd hk (by omega)⟩⟩
  rw [this, add_comm, Finset.card_filter_add_card_filter_not, Finset.card_univ, Fintype.card_fin]

/-- C78: if the columns of `∂_1` sum to zero (every edge has a head and a tail), there are triangles, and fewer of them than vertices, the constructor reads out of bounds. -/
theorem C78_fewer_triangles (v : Cochain.Variant) {B : List (CMat F)} (hB : IsChainComplex B) (h0 : ZeroBdry0 B) (ha : Augmentable B) (hd : 3 ≤ B.length)
    (hlt : cdim B 2 < cdim B 0) : ∃ T, Cochain.ofComplex B = .ok T ∧ v.reduce T = .error .ub := by
  obtain ⟨T, h1, h2, _⟩ := C78_hdim_exact v hB h0
  refine ⟨T, h1, h2 ?_⟩
  intro hr
  obtain ⟨T', e1, e2, e3⟩ := cochain_dual hB
  have hred : HasRed (bdryUp B 0)ᵀ := by
    have := hasRed_of_shape (e3 1 (by omega)).1
    rw [(e3 1 (by omega)).2] at this
    exact this
  have hz : (bdryUp B 0)ᵀ *ᵥ (fun _ => (1 : F)) = 0 := by
    funext j
    have := ha j
    rw [Matrix.mulVec, dotProduct]
    simp only [mul_one]
    exact this
  have hlast : VLow (fun _ : Fin (cdim B 0) => (1 : F)) ⟨cdim B 0 - 1, by omega⟩ := by
    refine ⟨one_ne_zero, ?_⟩
    intro i hi
    have : cdim B 0 - 1 < i.val := hi
    have := i.isLt
    omega
  have hnp := cycle_low_positive hred hz hlast
  have := hr 1 (by omega) ⟨cdim B 0 - 1, by show cdim B 0 - 1 < cdim B 0; omega⟩ hnp
  have h5 : cdim B 0 - 1 < cdim B 2 := this
  omega

/-- C78: what the stored matrices do determine: with `z(k)` the number of nonzero columns of the reduced `δ_k`, `dim H^k = (number of k-cells) - z(k) - z(k+1)`;
with the basis `R_k = δ_k U_k`, `U_k` upper triangular and invertible. -/
theorem C78_ranks (v : Cochain.Variant) {B : List (CMat F)} (hB : IsChainComplex B) (h0 : ZeroBdry0 B) (hr : CoInRange B) :
    ∃ T X, Cochain.ofComplex B = .ok T ∧ v.reduce T = .ok X ∧ X.R.length = B.length ∧
      (∀ k, k < B.length → Module.finrank F (Cohomology B k) + ((X.R.getD k ⟨0, []⟩).cols.filter (fun c => !c.isEmpty)).length +
        ((X.R.getD (k + 1) ⟨0, []⟩).cols.filter (fun c => !c.isEmpty)).length = cdim B k) ∧
      (v = .std → ∀ k, k < B.length → ∃ V : Matrix (Fin (rdim B k)) (Fin (rdim B k)) F, (X.U.getD k ⟨0, []⟩).mat (rdim B k) (rdim B k) = V ∧ UpperInv V ∧
        (X.R.getD k ⟨0, []⟩).mat (cdim B k) (rdim B k) = (bdry B k)ᵀ * V) := by
  classical
  obtain ⟨T, h1, h2, h3⟩ := cochain_dual hB
  obtain ⟨Us, rs, g1, g3, g2⟩ := cochain_levels v hB h0 h2 h3
  obtain ⟨T', e1, _, e2⟩ := C78_hdim_exact v hB h0
  have hTT : T' = T := by rw [h1] at e1; injection e1 with e; exact e.symm
  subst hTT
  obtain ⟨X, x1, _⟩ := e2 hr
  have hlen := g1.length_eq
  have hX : X.R = rs.map (·.1) ∧ X.U = Us := by
    rw [g2] at x1
    cases hI : RedCpx.setIndices (rs.map (fun r : CMat F × P2C => r.1)) (rs.map (fun r : CMat F × P2C => r.2)) with
    | error e => rw [hI] at x1; cases x1
    | ok I =>
      rw [hI] at x1
      have : (⟨Us, rs.map (·.1), I, rs.map (·.2)⟩ : RedCpx F) = X := by injection x1
      rw [← this]
      exact ⟨rfl, rfl⟩
  have hz : ∀ k, k < B.length → ((X.R.getD k ⟨0, []⟩).cols.filter (fun c => !c.isEmpty)).length = (bdry B k).rank := by
    intro k hk
    have hlv := levels_at h2 h3 g1 hk
    have hred : HasRed (bdry B k)ᵀ := by
      rw [← (h3 k hk).2]
      exact hasRed_of_shape (h3 k hk).1
    rw [hX.1, ← Matrix.rank_transpose, ← card_pivotCols hred, filter_length_fin hlv.shapeR.ncol]
    congr 1
    ext j
    simp only [Finset.mem_filter, Finset.mem_univ, true_and]
    have := hlv.col_nil_iff j
    rw [(h3 k hk).2] at this
    rw [Bool.not_eq_true', ← Bool.not_eq_true, List.isEmpty_iff, this]
    push Not
    rfl
  refine ⟨T', X, h1, x1, by rw [hX.1, List.length_map]; omega, ?_, ?_⟩
  · intro k hk
    rw [hz k hk]
    have hf := finrank_coh_rank hB k
    by_cases hk1 : k + 1 < B.length
    · rw [hz (k + 1) hk1]
      have : (bdry B (k + 1)).rank = (bdryUp B k).rank := rfl
      omega
    · have e0 : X.R.getD (k + 1) ⟨0, []⟩ = ⟨0, []⟩ := by
        rw [List.getD_eq_getElem?_getD, List.getElem?_eq_none (by rw [hX.1, List.length_map]; omega)]; rfl
      rw [e0]
      have hr0 : (bdryUp B k).rank = 0 := by
        have h1 := Matrix.rank_le_width (bdryUp B k)
        have h2 : cdim B (k + 1) = 0 := cdim_of_ge (by omega)
        omega
      show _ + _ + 0 = _
      omega
  · intro hv k hk
    obtain ⟨rs', r1, r2, r3⟩ := g3 hv
    have hl' := r1.length_eq
    have hk1 : k < T'.length := by omega
    have hk' : k < rs'.length := by omega
    have q := ((List.forall₂_iff_get.1 r1).2 k hk1 hk').2
    have a1 : T'.getD k ⟨0, []⟩ = T'.get ⟨k, hk1⟩ := by simp [hk1]
    have a2 : X.R.getD k ⟨0, []⟩ = (rs'.get ⟨k, hk'⟩).1 := by rw [hX.1, r3]; simp [hk']
    have a3 : X.U.getD k ⟨0, []⟩ = (rs'.get ⟨k, hk'⟩).2.1 := by rw [hX.2, r2]; simp [hk']
    obtain ⟨s1, s2⟩ := h3 k hk
    rw [a1] at s1 s2
    rw [a2, a3]
    have q' := q
    rw [s1.nrow, s1.ncol] at q'
    exact ⟨_, rfl, q'.upper, by rw [← q'.eq, s2]⟩

/-! ### instances -/

/-- the interval: two vertices and one edge -/
def intervalQ : List (CMat ℚ) := [⟨1, [[], []]⟩, ⟨2, [[(0, -1), (1, 1)]]⟩]
/-- the boundary of the tetrahedron -/
def tetraQ : List (CMat ℚ) := [⟨1, [[], [], [], []]⟩, ⟨4, [[(0, -1), (1, 1)], [(0, -1), (2, 1)], [(1, -1), (2, 1)], [(0, -1), (3, 1)], [(1, -1), (3, 1)], [(2, -1), (3, 1)]]⟩,
  ⟨6, [[(0, 1), (1, -1), (2, 1)], [(0, 1), (3, -1), (4, 1)], [(1, 1), (3, -1), (5, 1)], [(2, 1), (4, -1), (5, 1)]]⟩]

/-- the numbers `hdim(0), hdim(1), ..` -/
def cohomDims (v : Cochain.Variant) (B : List (CMat ℚ)) : Res (List Nat) := do
  let T ← Cochain.ofComplex B
  let X ← v.reduce T
  pure (X.I.map List.length)

theorem intervalQ_complex : IsChainComplex intervalQ := by
  apply isChainComplex_of_bool
  · decide
  · decide +kernel
  · decide +kernel
theorem tetraQ_complex : IsChainComplex tetraQ := by
  apply isChainComplex_of_bool
  · decide
  · decide +kernel
  · decide +kernel

theorem intervalQ_zero : ZeroBdry0 intervalQ := by unfold ZeroBdry0; decide
theorem tetraQ_zero : ZeroBdry0 tetraQ := by unfold ZeroBdry0; decide

/-- the numbers `hdim(k)` of the graded space `DGVectorSpace(X, +1)`, which are those of cohomology (C57) -/
def dgDims (B : List (CMat ℚ)) (k : Nat) : Res Nat := do
  let C ← DGVS.ofComplex 1 false B
  let X ← DG.DGVariant.standard.reduce C
  X.hdim k

theorem dgDims_spec {B : List (CMat ℚ)} (hB : IsChainComplex B) (h0 : ZeroBdry0 B) {k n : Nat} (hk : k < B.length) (h : dgDims B k = .ok n) :
    Module.finrank ℚ (Cohomology B k) = n := by
  obtain ⟨C, X, h1, h2, h3⟩ := C57_cohomology DG.DGVariant.standard hB h0
  unfold dgDims at h
  rw [h1, bind_ok, h2, bind_ok, h3 k hk] at h
  injection h

/-- C78: `hdim` is not the dimension of the cohomology: for the interval it is `(0, 1)` instead of `(1, 0)`, for the sphere `(1, 0, 3)` instead of `(1, 0, 1)`, with every
constructor; for a filled triangle a table is read out of bounds. -/
theorem C78_not_cohomology (v : Cochain.Variant) :
    (cohomDims v intervalQ = .ok [0, 1] ∧ Module.finrank ℚ (Cohomology intervalQ 0) = 1 ∧ Module.finrank ℚ (Cohomology intervalQ 1) = 0) ∧
    (cohomDims v tetraQ = .ok [1, 0, 3] ∧ Module.finrank ℚ (Cohomology tetraQ 0) = 1 ∧ Module.finrank ℚ (Cohomology tetraQ 1) = 0 ∧ Module.finrank ℚ (Cohomology tetraQ 2) = 1) ∧
    cohomDims v triangleQ = .error .ub := by
  refine ⟨⟨?_, ?_, ?_⟩, ⟨?_, ?_, ?_, ?_⟩, ?_⟩
  · cases v <;> decide +kernel
  · exact dgDims_spec intervalQ_complex intervalQ_zero (by decide) (by decide +kernel)
  · exact dgDims_spec intervalQ_complex intervalQ_zero (by decide) (by decide +kernel)
  · cases v <;> decide +kernel
  · exact dgDims_spec tetraQ_complex tetraQ_zero (by decide) (by decide +kernel)
  · exact dgDims_spec tetraQ_complex tetraQ_zero (by decide) (by decide +kernel)
  · exact dgDims_spec tetraQ_complex tetraQ_zero (by decide) (by decide +kernel)
  · cases v <;> decide +kernel

/-- the hypotheses of `C78_top` and `C78_ranks` hold of the boundary of the tetrahedron -/
example : IsChainComplex tetraQ ∧ ZeroBdry0 tetraQ ∧ CoInRange tetraQ := by
  refine ⟨tetraQ_complex, tetraQ_zero, ?_⟩
  by_contra h
  obtain ⟨T, h1, h2, _⟩ := C78_hdim_exact .std tetraQ_complex tetraQ_zero
  have := (C78_not_cohomology .std).2.1.1
  unfold cohomDims at this
  rw [h1, bind_ok, h2 h] at this
  cases this

/-- the hypotheses of `C78_fewer_triangles` hold of the filled triangle -/
example : Augmentable triangleQ ∧ 3 ≤ triangleQ.length ∧ cdim triangleQ 2 < cdim triangleQ 0 := ⟨triangleQ_aug, by decide, by decide⟩

end BATS
