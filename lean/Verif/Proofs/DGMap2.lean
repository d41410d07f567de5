import Verif.Proofs.DGMap1
import Verif.Proofs.ZZPref

set_option linter.unusedSectionVars false
set_option linter.unusedVariables false
set_option linter.unusedSimpArgs false

/-! # Induced maps of DG vector spaces of degree `-1`: equality with the version for complexes -/

namespace BATS
namespace DG
open Reduction Matrix

variable {F : Type} [Field F] [DecidableEq F]
variable {b : Bool} {A D : List (CMat F)} {X : RedDG F}

theorem findPref_eq (hA : IsChainComplex A) (h : DGBasis false (aug b) A.length (cdim A) D X) {k : Nat} (hk : k < A.length) {y : SVec F}
    (hy : VecOK y) (hb : Below (cdim A k) y) : X.asCpx.findPreferredRepresentative y k = (toCpx b A X).findPreferredRepresentative y k := by
  have l1 : X.asCpx.maxdim = A.length := by
    unfold RedCpx.maxdim RedDG.asCpx
    rw [h.tab.lenR]; rfl
  have l2 : (toCpx b A X).maxdim = A.length - 1 := by
    unfold RedCpx.maxdim
    simp [toCpx]
  have hR : rd X.asCpx.R (k + 1) = .ok (X.R.getD (k + 1) ⟨0, []⟩) := rd_getD _ (by show k + 1 < X.R.length; rw [h.tab.lenR]; omega)
  have hp : rd X.asCpx.p2c (k + 1) = .ok (X.p2c.getD (k + 1) []) := rd_getD _ (by show k + 1 < X.p2c.length; rw [h.tab.lenP]; omega)
  unfold RedCpx.findPreferredRepresentative
  rw [l1, l2, if_neg (by omega), hR, bind_ok, hp, bind_ok]
  by_cases hk1 : k + 1 < A.length
  · rw [if_neg (by omega)]
    have e2 : rd (toCpx b A X).R (k + 1) = .ok (X.R.getD (k + 1) ⟨0, []⟩) := by
      refine (rd_map_range hk1 _).trans ?_
      rw [if_neg (by simp)]
    have e3 : rd (toCpx b A X).p2c (k + 1) = .ok (X.p2c.getD (k + 1) []) := by
      refine (rd_map_range hk1 _).trans ?_
      rw [if_neg (by simp)]
    rw [e2, bind_ok, e3, bind_ok]
    have hU : rd X.asCpx.U k = .ok (X.U.getD k ⟨0, []⟩) := rd_getD _ (by show k < X.U.length; rw [h.lenU]; omega)
    have hU' : rd (toCpx b A X).U k = .ok (X.U.getD k ⟨0, []⟩) := rd_map_range hk _
    refine Zigzag.prefLoop_congr hU hU' ?_ _ _ _
    intro i j hij
    have ht := (h.tab.lev (k + 1) (by omega)).table
    have hj : j < (X.R.getD (k + 1) ⟨0, []⟩).cols.length := by
      rw [(h.tab.lev (k + 1) (by omega)).shapeR.ncol]
      exact ht.bound i j hij
    exact ⟨_, rd_getD [] hj, rd_getD [] hj, rfl⟩
  · rw [if_pos (by omega)]
    have hlev := h.tab.lev (k + 1) (by omega)
    have hc0 := cdim_of_ge (B := A) (k := k + 1) (by omega)
    have hnp : NoPiv (X.p2c.getD (k + 1) []) y 0 := by
      intro q hq _
      have hlt : q.1 < (X.p2c.getD (k + 1) []).length := by
        rw [hlev.table.len]; exact hb q hq
      cases hz : (X.p2c.getD (k + 1) [])[q.1] with
      | none => rw [List.getElem?_eq_getElem hlt, hz]
      | some i =>
        have := hlev.table.bound q.1 i (by rw [List.getElem?_eq_getElem hlt, hz])
        have : i < cdim A (k + 1) := this
        omega
    have hlen := Sorted.length_le hy.1 hb
    have hnr : (X.R.getD (k + 1) ⟨0, []⟩).nrow = cdim A k := hlev.shapeR.nrow
    have htw : (y.takeWhile (fun q => decide (q.1 ≤ (X.R.getD (k + 1) ⟨0, []⟩).nrow))).length ≤ y.length := (List.takeWhile_sublist _).length_le
    exact prefLoop_skip _ _ _ _ hnp _ _ htw (by rw [hnr] at htw ⊢; omega)

theorem loop_eq {b' : Bool} {A' D' : List (CMat F)} {X' : RedDG F} (hA' : IsChainComplex A') (h : DGBasis false (aug b) A.length (cdim A) D X)
    (h' : DGBasis false (aug b') A'.length (cdim A') D' X')
    {k : Nat} (hk : k < A.length) (hk' : k < A'.length) {f : CMat F} (hf : f.Shape (cdim A' k) (cdim A k)) : ∀ (is : List Nat), (∀ i ∈ is, i < cdim A k) →
    inducedLoop f X.asCpx X'.asCpx k is = inducedLoop f (toCpx b A X) (toCpx b' A' X') k is
  | [], _ => rfl
  | i :: is, hi => by
    have ih := loop_eq hA' h h' hk hk' hf is (fun j hj => hi j (List.mem_cons_of_mem _ hj))
    have hil := hi i (by simp)
    have hU : rd X.asCpx.U k = .ok (X.U.getD k ⟨0, []⟩) := rd_getD _ (by show k < X.U.length; rw [h.lenU]; omega)
    have hU1 : rd (toCpx b A X).U k = .ok (X.U.getD k ⟨0, []⟩) := rd_map_range hk _
    have hV : rd X'.asCpx.U k = .ok (X'.U.getD k ⟨0, []⟩) := rd_getD _ (by show k < X'.U.length; rw [h'.lenU]; omega)
    have hV1 : rd (toCpx b' A' X').U k = .ok (X'.U.getD k ⟨0, []⟩) := rd_map_range hk' _
    have hI : rd X'.asCpx.I k = .ok (X'.I.getD k []) := rd_getD _ (by show k < X'.I.length; rw [h'.tab.lenI]; omega)
    have hI1 : rd (toCpx b' A' X').I k = .ok (X'.I.getD k []) := rd_map_range hk' _
    have hsh := (h.fac k (by omega)).shape
    have hsh : (X.U.getD k ⟨0, []⟩).Shape (cdim A k) (cdim A k) := hsh
    have hg := hsh.colsOK.getD i
    have hfac := h'.fac k (by omega)
    obtain ⟨w, w1, w2, w3, w4⟩ := gemv_spec hf hg.2
    obtain ⟨x, x1, x2, x3, x4⟩ := uSolve_spec (n := cdim A' k) hfac.shape hfac.upper w2 w3
    have hc : rd (X.U.getD k ⟨0, []⟩).cols i = .ok ((X.U.getD k ⟨0, []⟩).cols.getD i []) := rd_getD _ (by rw [hsh.ncol]; exact hil)
    rw [inducedLoop, inducedLoop, hU, hU1, bind_ok, bind_ok, hc, bind_ok, bind_ok, w1, bind_ok, bind_ok, hV, hV1, bind_ok, bind_ok, x1, bind_ok, bind_ok,
      findPref_eq hA' h' hk' x2 x3, hI, hI1, ih]

/-- the induced map computed from the DG vector spaces is the one computed from the complexes -/
theorem dgInduced_eq {b' : Bool} {A' D' : List (CMat F)} {X' : RedDG F} (hA : IsChainComplex A) (hA' : IsChainComplex A') (h : DGBasis false (aug b) A.length (cdim A) D X)
    (h' : DGBasis false (aug b') A'.length (cdim A') D' X') {f : List (CMat F)} {k : Nat} (hk : k < A.length) (hk' : k < A'.length)
    (hf : k < f.length ∧ (f.getD k ⟨0, []⟩).Shape (cdim A' k) (cdim A k)) :
    dgInducedMap f X X' k = inducedMap f (toCpx b A X) (toCpx b' A' X') k := by
  have hd : X.degree = -1 := h.tab.deg
  have hd' : X'.degree = -1 := h'.tab.deg
  have ho : X.offset k = k := by unfold RedDG.offset; rw [if_pos hd]
  have hR : rd X.R k = .ok (X.R.getD k ⟨0, []⟩) := rd_getD _ (by rw [h.tab.lenR]; omega)
  have hR' : rd X'.R k = .ok (X'.R.getD k ⟨0, []⟩) := rd_getD _ (by rw [h'.tab.lenR]; omega)
  have hI : rd X.I k = .ok (X.I.getD k []) := rd_getD _ (by rw [h.tab.lenI]; omega)
  have hI' : rd X'.I k = .ok (X'.I.getD k []) := rd_getD _ (by rw [h'.tab.lenI]; omega)
  have hI1 : rd (toCpx b A X).I k = .ok (X.I.getD k []) := rd_map_range hk _
  have hI1' : rd (toCpx b' A' X').I k = .ok (X'.I.getD k []) := rd_map_range hk' _
  have hU1 : rd (toCpx b A X).U k = .ok (X.U.getD k ⟨0, []⟩) := rd_map_range hk _
  have hU1' : rd (toCpx b' A' X').U k = .ok (X'.U.getD k ⟨0, []⟩) := rd_map_range hk' _
  have c1 : (X.R.getD k ⟨0, []⟩).cols.length = cdim A k := (h.tab.lev k (by omega)).shapeR.ncol
  have c2 : (X'.R.getD k ⟨0, []⟩).cols.length = cdim A' k := (h'.tab.lev k (by omega)).shapeR.ncol
  have c3 : (X.U.getD k ⟨0, []⟩).nrow = cdim A k := (h.fac k (by omega)).shape.nrow
  have c4 : (X'.U.getD k ⟨0, []⟩).cols.length = cdim A' k := (h'.fac k (by omega)).shape.ncol
  have hn : X'.hdim k = .ok (X'.I.getD k []).length := by
    unfold RedDG.hdim
    rw [if_pos hd', hI']; rfl
  have hl := loop_eq hA' h h' hk hk' hf.2 (X.I.getD k []) (fun i hi => ((h.tab.inds k hk i).1 hi).1)
  unfold dgInducedMap inducedMap
  rw [if_neg (by rw [hd, hd']; simp), ho, rd_getD ⟨0, []⟩ hf.1, bind_ok, bind_ok, hR, bind_ok, hR', bind_ok, hU1, bind_ok, hU1', bind_ok, c1, c2, c3, c4,
    if_neg (by rw [hf.2.nrow, hf.2.ncol]; simp), if_neg (by rw [hf.2.nrow, hf.2.ncol]; simp), hI, hI1, bind_ok, bind_ok, hI1', bind_ok,
    hl, hn]
  cases inducedLoop (f.getD k ⟨0, []⟩) (toCpx b A X) (toCpx b' A' X') k (X.I.getD k []) <;> rfl

theorem hdim_eq (h : DGBasis false (aug b) A.length (cdim A) D X) {k : Nat} (hk : k < A.length) : X.hdim k = (toCpx b A X).hdim k := by
  have hd : X.degree = -1 := h.tab.deg
  have hI : rd X.I k = .ok (X.I.getD k []) := rd_getD _ (by rw [h.tab.lenI]; omega)
  have hI1 : rd (toCpx b A X).I k = .ok (X.I.getD k []) := rd_map_range hk _
  unfold RedDG.hdim RedCpx.hdim
  rw [if_pos hd, hI, hI1]

theorem getPref_eq (h : DGBasis false (aug b) A.length (cdim A) D X) {k : Nat} (hk : k < A.length) (j : Nat) :
    X.getPreferredRepresentative j k = (toCpx b A X).getPreferredRepresentative j k := by
  have hI : rd X.I k = .ok (X.I.getD k []) := rd_getD _ (by rw [h.tab.lenI]; omega)
  have hI1 : rd (toCpx b A X).I k = .ok (X.I.getD k []) := rd_map_range hk _
  have hU : rd X.U k = .ok (X.U.getD k ⟨0, []⟩) := rd_getD _ (by rw [h.lenU]; omega)
  have hU1 : rd (toCpx b A X).U k = .ok (X.U.getD k ⟨0, []⟩) := rd_map_range hk _
  unfold RedDG.getPreferredRepresentative RedCpx.getPreferredRepresentative
  rw [hI, hI1, hU, hU1]
  simp only [bind_ok]

/-- construction and reduction of a complex with prescribed boundary in dimension 0 -/
theorem degree0_basis (v : DGVariant) (hv : v.withBasis) (b : Bool) (hA : IsChainComplex A) (h0 : Degree0 b A) :
    ∃ D X, DGVS.ofComplex (-1) b A = .ok ⟨-1, D⟩ ∧ v.reduce ⟨-1, D⟩ = .ok X ∧ DGBasis false (aug b) A.length (cdim A) D X ∧ BasisOK A (toCpx b A X) := by
  obtain ⟨D, X, h1, h2, h3, h4, _⟩ := dg_basis v hv false b hA (augmentable_of_degree0 hA h0)
  exact ⟨D, X, h1, h2, h4, toCpx_basis hA h0 h3 h4⟩

end DG
end BATS
