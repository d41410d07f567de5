import Verif.Proofs.Pairs
import Verif.Props.Homology

set_option linter.unusedSectionVars false
set_option linter.unusedVariables false
set_option linter.unusedSimpArgs false

/-! # From a filtered complex to its bars -/

namespace BATS
open Reduction Matrix

variable {F : Type} [Field F] [DecidableEq F] {T : Type} [LinearOrder T]

theorem filtrationSortperm_getD (val : List (List T)) (k : Nat) :
    (FiltCpx.filtrationSortperm val).getD k [] = Perm.stableSortperm (val.getD k []) := by
  unfold FiltCpx.filtrationSortperm
  rw [List.getD_eq_getElem?_getD, List.getD_eq_getElem?_getD, List.getElem?_map]
  cases val[k]? <;> simp [Perm.stableSortperm]

theorem ofFiltration_spec {B : List (CMat F)} (hB : IsChainComplex B) (h2 : 2 ≤ B.length) (h0 : ZeroBdry0 B)
    {val : List (List T)} (hv : ValuesFor B val) :
    ∃ X, FiltCpx.ofFiltration val B = .ok X ∧ X.val = val ∧ X.perm = FiltCpx.filtrationSortperm val ∧
      ReindexedBy B X.C (fun k i => ((FiltCpx.filtrationSortperm val).getD k []).getD i 0) := by
  obtain ⟨B', h1, hr⟩ := ipermuteBasis_spec h2 hB.shape h0 (ps := FiltCpx.filtrationSortperm val)
    (by unfold FiltCpx.filtrationSortperm; rw [List.length_map, hv.len])
    (fun k hk => by
      rw [filtrationSortperm_getD, ← hv.lens k hk]
      exact Perm.stableSortperm_perm _)
  refine ⟨⟨val, B', FiltCpx.filtrationSortperm val⟩, ?_, rfl, rfl, hr⟩
  unfold FiltCpx.ofFiltration
  simp only [h1]; rfl

/-- everything known about the reduced sorted complex of a filtered complex -/
structure PipeOK (B : List (CMat F)) (val : List (List T)) (C : List (CMat F)) (R : RedFiltCpx T F) : Prop where
  filt : FiltOK C R
  valEq : R.val = val
  perm : R.perm = FiltCpx.filtrationSortperm val
  reidx : ReindexedBy B C (orig R)
  mono : ∀ k i i' v v', i ≤ i' → i' < cdim C k → (val.getD k [])[orig R k i]? = some v →
    (val.getD k [])[orig R k i']? = some v' → v ≤ v'

theorem sortperm_mono (data : List T) {i i' : Nat} (h : i ≤ i') (hi' : i' < data.length) {v v' : T}
    (e : data[(Perm.stableSortperm data).getD i 0]? = some v) (e' : data[(Perm.stableSortperm data).getD i' 0]? = some v') :
    v ≤ v' := by
  have hl := Perm.isPerm_length (Perm.stableSortperm_perm data)
  rcases Nat.lt_or_eq_of_le h with h | h
  · obtain ⟨u, w, hu, hw, hle⟩ := Perm.stableSortperm_sorted data h (getD_getElem? 0 (by omega)) (getD_getElem? 0 (by omega))
    rw [e] at hu; rw [e'] at hw
    cases hu; cases hw
    rcases hle with hle | hle
    · exact hle.le
    · exact hle.1.le
  · subst h; rw [e] at e'; cases e'; exact le_refl _

theorem pipeline (v : Variant) {B : List (CMat F)} (hB : IsChainComplex B) (h2 : 2 ≤ B.length) (h0 : ZeroBdry0 B)
    {val : List (List T)} (hv : ValuesFor B val) :
    ∃ C R, RedFiltCpx.ofFiltration v.reduce val B = .ok R ∧ PipeOK B val C R ∧ v.reduce C = .ok R.RC ∧
      FiltCpx.ofFiltration val B = .ok ⟨val, C, FiltCpx.filtrationSortperm val⟩ := by
  obtain ⟨X, hX, e1, e2, hr⟩ := ofFiltration_spec hB h2 h0 hv
  obtain ⟨xv, xc, xp⟩ := X
  simp only at e1 e2 hr
  subst e1 e2
  obtain ⟨RC, hRC, ht⟩ := v.spec (hr.complex hB)
  refine ⟨xc, ⟨RC, xv, FiltCpx.filtrationSortperm xv⟩, ?_, ?_, hRC, hX⟩
  · unfold RedFiltCpx.ofFiltration
    rw [hX, bind_ok]
    unfold RedFiltCpx.mk'
    rw [hRC]; rfl
  · have hvl := hv.len
    have hlen := hr.same.len
    refine ⟨⟨ht, ?_, ?_, ?_, ?_⟩, rfl, rfl, hr, ?_⟩
    · show (FiltCpx.filtrationSortperm xv).length = _
      unfold FiltCpx.filtrationSortperm; rw [List.length_map]; omega
    · intro k hk
      show IsPermOf _ ((FiltCpx.filtrationSortperm xv).getD k [])
      rw [filtrationSortperm_getD, hr.same.cdim, ← hv.lens k (by omega)]
      exact Perm.stableSortperm_perm _
    · show xv.length = _; omega
    · intro k hk
      show (xv.getD k []).length = _
      rw [hr.same.cdim, hv.lens k (by omega)]
    · intro k i i' a b hi hi' e e'
      have hk : k < xc.length := by
        by_contra hc; have := cdim_of_ge (B := xc) (k := k) (by omega); omega
      unfold orig at e e'
      simp only at e e'
      rw [filtrationSortperm_getD] at e e'
      exact sortperm_mono _ hi (by rw [hv.lens k (by omega), ← hr.same.cdim]; exact hi') e e'

namespace PipeOK
variable {B : List (CMat F)} {val : List (List T)} {C : List (CMat F)} {R : RedFiltCpx T F}

theorem cdim_eq (h : PipeOK B val C R) (k : Nat) : cdim C k = cdim B k := h.reidx.same.cdim k

/-- sublevel sets in sorted order are initial segments -/
theorem lower (h : PipeOK B val C R) (k : Nat) (s : T) :
    IsLowerSet (h.reidx.eqv k ⁻¹' sublevel B val k s) := by
  intro i i' hle hi
  obtain ⟨v, hv, hs⟩ := hi
  obtain ⟨w, hw⟩ := h.filt.val_ex i'.2
  rw [h.valEq] at hw
  exact ⟨w, hw, le_trans (h.mono k i' i w v hle i.2 hw hv) hs⟩

end PipeOK

theorem rank_block_reindex {m n m' n' : Type _} [Fintype m] [Fintype n] [Fintype m'] [Fintype n'] (D : Matrix m n F) (e : m' ≃ m) (f : n' ≃ n) (P : Set m) (Q : Set n)
    [Fintype Q] [Fintype (f ⁻¹' Q)] : (block (D.submatrix e f) (e ⁻¹' P) (f ⁻¹' Q)).rank = (block D P Q).rank := by
  have : block (D.submatrix e f) (e ⁻¹' P) (f ⁻¹' Q) =
      (block D P Q).submatrix (e.subtypeEquiv (p := fun a => a ∈ e ⁻¹' P) (q := (· ∈ P)) (fun a => Iff.rfl)) (f.subtypeEquiv (p := fun a => a ∈ f ⁻¹' Q) (q := (· ∈ Q)) (fun a => Iff.rfl)) := by
    ext i j; rfl
  rw [this, Matrix.rank_submatrix]

open Classical in
theorem PipeOK.count {B : List (CMat F)} (hB : IsChainComplex B) {val : List (List T)} {C : List (CMat F)} {R : RedFiltCpx T F}
    (h : PipeOK B val C R) (k : Nat) {s t : T} (hst : s ≤ t) :
    (Finset.univ.filter (fun i => i ∈ h.reidx.eqv k ⁻¹' sublevel B val k s ∧ (∀ i', ¬ IsPivot (bdry C k) i' i) ∧
      ∀ j ∈ h.reidx.eqv (k + 1) ⁻¹' sublevel B val (k + 1) t, ¬ IsPivot (bdryUp C k) i j)).card = persistentBetti B val k hst := by
  have hC := h.reidx.complex hB
  have h1 := pers_count (hC.hasRed k) (hC.hasRedUp k) (hC.sq' k) (h.lower k s) (h.lower (k + 1) t)
  have h2 := persistentBetti_formula B val k hst (hB.sq' k)
  have e1 := rank_block_reindex (bdry B k) (h.reidx.reqv k) (h.reidx.eqv k) Set.univ (sublevel B val k s)
  have e2 := rank_block_reindex (bdryUp B k) (h.reidx.eqv k) (h.reidx.eqv (k + 1)) Set.univ (sublevel B val (k + 1) t)
  have e3 := rank_block_reindex (bdryUp B k) (h.reidx.eqv k) (h.reidx.eqv (k + 1)) (sublevel B val k s)ᶜ (sublevel B val (k + 1) t)
  rw [← h.reidx.bdry_eq] at e1
  rw [← h.reidx.bdryUp_eq] at e2 e3
  rw [Set.preimage_univ] at e1 e2
  rw [Set.preimage_compl] at e3
  have hc : Fintype.card (h.reidx.eqv k ⁻¹' sublevel B val k s) = Fintype.card (sublevel B val k s) :=
    Fintype.card_congr ((h.reidx.eqv k).subtypeEquiv (fun _ => Iff.rfl))
  omega

end BATS
