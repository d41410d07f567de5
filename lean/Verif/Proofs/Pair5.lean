import Verif.Proofs.Pair4
import Verif.Spec.Induced
import Verif.Model.SimplicialMap

set_option linter.unusedSectionVars false
set_option linter.unusedVariables false
set_option linter.unusedSimpArgs false

/-! # Maps of pairs -/

namespace BATS
open Reduction Matrix Module

theorem SelectedBy.restr_bdry {F : Type} [Field F] [DecidableEq F] {B B' : List (CMat F)} {sel : Nat → List Nat} (h : SelectedBy B B' sel)
    (hcl : ∀ (k : Nat) (i : Fin (BATS.cdim B k)) (j : Fin (BATS.cdim B (k + 1))), j.val ∉ sel (k + 1) → bdryUp B k i j ≠ 0 → i.val ∉ sel k)
    (k : Nat) (y) : restr F (h.idx k) (bdryUp B k *ᵥ y) = bdryUp B' k *ᵥ restr F (h.idx (k + 1)) y := by
  apply restr_mulVec (h.idx_inj (k + 1)) (h.bdryUp_eq k)
  intro i j hj
  have : bdryUp B k (h.idx k i) j = 0 := by
    by_contra hne
    rw [h.range_idx] at hj
    exact hcl k _ j hj hne (List.getElem_mem _)
  rw [this, zero_mul]

namespace SCpx
variable {F : Type} [Field F] [DecidableEq F]

theorem sorted_ext {s t : List Nat} (hs : s.Pairwise (· < ·)) (ht : t.Pairwise (· < ·)) (e : ∀ x, x ∈ s ↔ x ∈ t) : s = t := by
  apply toFinset_inj_of_sorted hs ht
  ext a
  rw [List.mem_toFinset, List.mem_toFinset, e]

/-- the complement in the loop of the constructors -/
theorem complementOf_eq {X A : SCpx} {cX cA : Cells} (hX : Inv X cX) (hA : Inv A cA) {k : Nat} (hs : ∀ s ∈ cA k, s ∈ cX k) {sel : List Nat}
    (h1 : sel.Pairwise (· < ·)) (hlt : ∀ i ∈ sel, i < (cX k).length) (h2 : ∀ i (hi : i < (cX k).length), i ∈ sel ↔ (cX k)[i] ∉ cA k) :
    complementOf ((cA k).map X.findIdx) (cX k).length = .ok sel := by
  rw [findIdx_map hX hA.ok hs, complementOf_some]
  obtain ⟨c, c1, c2, c3⟩ := complement_of (cX := cX) hA.ok hs
  rw [c1]
  congr 1
  apply sorted_ext c2 h1
  intro x
  rw [c3]
  constructor
  · rintro ⟨hx, hn⟩
    rw [h2 x hx, ← mem_positions hX.ok hs hx]; exact hn
  · intro hx
    have hl := hlt x hx
    refine ⟨hl, ?_⟩
    rw [mem_positions hX.ok hs hl, ← h2 x hl]; exact hx

theorem relativeMapLevels_spec {X A Y B : SCpx} {cX cA cY cB : Cells} (hX : Inv X cX) (hA : Inv A cA) (hY : Inv Y cY) (hB : Inv B cB)
    (hXA : ∀ k, k < X.ncells.length → ∀ s ∈ cA k, s ∈ cX k) (hYB : ∀ k, k < Y.ncells.length → ∀ s ∈ cB k, s ∈ cY k)
    (hd : X.ncells.length ≤ Y.ncells.length) {sX sY : Nat → List Nat} (x1 : ∀ k, (sX k).Pairwise (· < ·)) (x2 : ∀ k, ∀ i ∈ sX k, i < (cX k).length)
    (x3 : ∀ k i (hi : i < (cX k).length), i ∈ sX k ↔ (cX k)[i] ∉ cA k) (y1 : ∀ k, (sY k).Pairwise (· < ·)) (y2 : ∀ k, ∀ i ∈ sY k, i < (cY k).length)
    (y3 : ∀ k i (hi : i < (cY k).length), i ∈ sY k ↔ (cY k)[i] ∉ cB k) :
    ∀ (Ms : List (CMat F)) (k : Nat), k + Ms.length ≤ X.ncells.length →
      (∀ l, l < Ms.length → (Ms.getD l ⟨0, []⟩).Shape (cY (k + l)).length (cX (k + l)).length) →
      ∃ Ns, relativeMapLevels X A Y B k Ms = .ok Ns ∧ Ns.length = Ms.length ∧ ∀ l, l < Ms.length →
        (Ns.getD l ⟨0, []⟩).Shape (sY (k + l)).length (sX (k + l)).length ∧
        ∀ i j (hi : i < (sY (k + l)).length) (hj : j < (sX (k + l)).length),
          ent1 (Ns.getD l ⟨0, []⟩) i j = ent1 (Ms.getD l ⟨0, []⟩) (sY (k + l))[i] (sX (k + l))[j] := by
  intro Ms
  induction Ms with
  | nil => intro k _ _; exact ⟨[], rfl, rfl, by intro l hl; simp at hl⟩
  | cons M Ms ih =>
    intro k hk hsh
    rw [List.length_cons] at hk
    obtain ⟨Ns, n1, n2, n3⟩ := ih (k + 1) (by omega) (by
      intro l hl
      have := hsh (l + 1) (by simpa using hl)
      rw [List.getD_cons_succ, show k + (l + 1) = k + 1 + l by omega] at this
      exact this)
    have hM := hsh 0 (by simp)
    rw [List.getD_cons_zero, Nat.add_zero] at hM
    obtain ⟨N, m1, m2, m3⟩ := submatrix_spec hM (rind := sY k) (cind := sX k) ((y1 k).imp (fun h => Nat.ne_of_lt h)) (y2 k) (x2 k)
    refine ⟨N :: Ns, ?_, by simp [n2], ?_⟩
    · rw [relativeMapLevels, getIndicesDim_eq hB, bind_ok, getIndicesDim_eq hA, bind_ok]
      unfold numCells
      rw [rd_some (hY.dim k (by omega)).nc, bind_ok, complementOf_eq hY hB (hYB k (by omega)) (y1 k) (y2 k) (y3 k), bind_ok,
        rd_some (hX.dim k (by omega)).nc, bind_ok, complementOf_eq hX hA (hXA k (by omega)) (x1 k) (x2 k) (x3 k), bind_ok, m1, bind_ok, n1]; rfl
    · intro l hl
      cases l with
      | zero => rw [List.getD_cons_zero, List.getD_cons_zero]; exact ⟨m2, m3⟩
      | succ l =>
        have := n3 l (by simpa using hl)
        rw [List.getD_cons_succ, List.getD_cons_succ, show k + (l + 1) = k + 1 + l by omega]
        exact this

/-- a map of pairs gives a chain map of the relative complexes -/
theorem relativeChainMap_spec {X A Y B : SCpx} {cX cA cY cB : Cells} (hX : Inv X cX) (hA : Inv A cA) (hY : Inv Y cY) (hB : Inv B cB)
    (hXn : ∀ d s, s ∈ cX d → s.Nodup) (hYn : ∀ d s, s ∈ cY d → s.Nodup)
    (hXA : ∀ k, k < X.ncells.length → ∀ s ∈ cA k, s ∈ cX k) (hYB : ∀ k, k < Y.ncells.length → ∀ s ∈ cB k, s ∈ cY k)
    (hd : X.ncells.length ≤ Y.ncells.length) {f : List (CMat Int)} (hfl : f.length = X.ncells.length) {BX BY : List (CMat F)}
    (hBX : X.chainComplex = .ok BX) (hBY : Y.chainComplex = .ok BY) (hf : IsChainMap (SMap.chainMap f : List (CMat F)) BX BY)
    (hAB : ∀ k (i : Fin (cdim BY k)) (j : Fin (cdim BX k)) (hi : i.val < (cY k).length) (hj : j.val < (cX k).length),
      cmap (SMap.chainMap f) BX BY k i j ≠ 0 → (cX k)[j.val] ∈ cA k → (cY k)[i.val] ∈ cB k) :
    ∃ (BX' BY' φ : List (CMat F)) (sX sY : Nat → List Nat), relativeChainComplex X A = .ok BX' ∧ relativeChainComplex Y B = .ok BY' ∧ relativeChainMap f X A Y B = .ok φ ∧
      IsChainMap φ BX' BY' ∧ φ.length = X.ncells.length ∧
      (∀ k, (sX k).Pairwise (· < ·)) ∧ (∀ k i, i ∈ sX k ↔ ∃ h : i < (cX k).length, (cX k)[i] ∉ cA k) ∧
      (∀ k, (sY k).Pairwise (· < ·)) ∧ (∀ k i, i ∈ sY k ↔ ∃ h : i < (cY k).length, (cY k)[i] ∉ cB k) ∧
      ∀ k, k < X.ncells.length → (φ.getD k ⟨0, []⟩).Shape (sY k).length (sX k).length ∧ ∀ i j (hi : i < (sY k).length) (hj : j < (sX k).length),
        ent1 (φ.getD k ⟨0, []⟩) i j = ent1 ((SMap.chainMap f).getD k ⟨0, []⟩) (sY k)[i] (sX k)[j] := by
  obtain ⟨BX1, BX', sX, b1, r1, hC, h0, b2, b3, b4, hS, r2, r3, r4⟩ := relative_data (F := F) hX hA hXn hXA
  obtain ⟨BY1, BY', sY, c1, q1, hD, d0, c2, c3, c4, hT, q2, q3, q4⟩ := relative_data (F := F) hY hB hYn hYB
  have e1 : BX1 = BX := by rw [hBX] at b1; exact (Except.ok.inj b1).symm
  have e2 : BY1 = BY := by rw [hBY] at c1; exact (Except.ok.inj c1).symm
  subst e1; subst e2
  have cdX := cdim_eq hX b3 b2 b4
  have cdY := cdim_eq hY c3 c2 c4
  have ltX : ∀ k, ∀ i ∈ sX k, i < (cX k).length := fun k i hi => by rw [← cdX]; exact r2.lt k i hi
  have ltY : ∀ k, ∀ i ∈ sY k, i < (cY k).length := fun k i hi => by rw [← cdY]; exact q2.lt k i hi
  have hcm : (SMap.chainMap f : List (CMat F)).length = X.ncells.length := by unfold SMap.chainMap; rw [List.length_map, hfl]
  obtain ⟨φ, p1, p2, p3⟩ := relativeMapLevels_spec hX hA hY hB hXA hYB hd r3 ltX r4 q3 ltY q4 (SMap.chainMap f : List (CMat F)) 0 (by omega) (by
    intro l hl
    have := (hf.shape l (by omega) (by omega)).2
    rw [cdX, cdY] at this
    rwa [Nat.zero_add])
  simp only [Nat.zero_add] at p3
  have hclX : ∀ (k : Nat) (i : Fin (cdim BX1 k)) (j : Fin (cdim BX1 (k + 1))), j.val ∉ sX (k + 1) → bdryUp BX1 k i j ≠ 0 → i.val ∉ sX k := by
    intro k i j hj hne
    have hi : i.val < (cX k).length := by rw [← cdX]; exact i.2
    have hj' : j.val < (cX (k + 1)).length := by rw [← cdX]; exact j.2
    have hk : k + 1 < X.ncells.length := by
      by_contra hk; rw [hX.top _ (by omega)] at hj'; simp at hj'
    rw [r4 _ _ hj', not_not] at hj
    rw [r4 _ _ hi, not_not]
    have := hS.closed k i j (by rw [positions_getD hX, if_pos hk, mem_positions hX.ok (hXA _ hk) hj']; exact hj) hne
    rwa [positions_getD hX, if_pos (by omega), mem_positions hX.ok (hXA _ (by omega)) hi] at this
  have hclY : ∀ (k : Nat) (i : Fin (cdim BY1 k)) (j : Fin (cdim BY1 (k + 1))), j.val ∉ sY (k + 1) → bdryUp BY1 k i j ≠ 0 → i.val ∉ sY k := by
    intro k i j hj hne
    have hi : i.val < (cY k).length := by rw [← cdY]; exact i.2
    have hj' : j.val < (cY (k + 1)).length := by rw [← cdY]; exact j.2
    have hk : k + 1 < Y.ncells.length := by
      by_contra hk; rw [hY.top _ (by omega)] at hj'; simp at hj'
    rw [q4 _ _ hj', not_not] at hj
    rw [q4 _ _ hi, not_not]
    have := hT.closed k i j (by rw [positions_getD hY, if_pos hk, mem_positions hY.ok (hYB _ hk) hj']; exact hj) hne
    rwa [positions_getD hY, if_pos (by omega), mem_positions hY.ok (hYB _ (by omega)) hi] at this
  have hφ : ∀ k x, restr F (q2.idx k) (cmap (SMap.chainMap f) BX1 BY1 k *ᵥ x) = cmap φ BX' BY' k *ᵥ restr F (r2.idx k) x := by
    intro k x
    apply restr_mulVec (r2.idx_inj k)
    · intro i j
      have hi : i.val < (sY k).length := by rw [← q2.cdim]; exact i.2
      have hj : j.val < (sX k).length := by rw [← r2.cdim]; exact j.2
      have hk : k < X.ncells.length := by
        by_contra hk
        have := ltX k _ (List.getElem_mem hj)
        rw [hX.top _ (by omega)] at this; simp at this
      exact (p3 k (by omega)).2 i.val j.val hi hj
    · intro i j hj
      have : cmap (SMap.chainMap f) BX1 BY1 k (q2.idx k i) j = 0 := by
        by_contra hne
        rw [r2.range_idx] at hj
        have hi' : (q2.idx k i).val < (cY k).length := by rw [← cdY]; exact (q2.idx k i).2
        have hj' : j.val < (cX k).length := by rw [← cdX]; exact j.2
        have hj2 : j.val ∉ sX k := hj
        rw [r4 k _ hj', not_not] at hj2
        have := hAB k (q2.idx k i) j hi' hj' hne hj2
        exact (q4 k _ hi').1 (List.getElem_mem _) this
      rw [this, zero_mul]
  refine ⟨BX', BY', φ, sX, sY, r1, q1, ?_, ⟨?_, ?_, ?_⟩, by rw [p2, hcm], r3, ?_, q3, ?_, ?_⟩
  · unfold relativeChainMap
    rw [getIndices_eq hA, bind_ok, getIndices_eq hB, bind_ok]; exact p1
  · intro k hk _
    rw [r2.len, b2] at hk
    refine ⟨by omega, ?_⟩
    rw [r2.cdim, q2.cdim]
    exact (p3 k (by omega)).1
  · intro k
    apply Matrix.ext_of_mulVec_single
    intro j
    rw [← mulVec_mulVec, ← mulVec_mulVec]
    obtain ⟨x, e⟩ := restr_surj (r2.idx_inj (k + 1)) (Pi.single j (1 : F))
    rw [← e, ← hφ, ← q2.restr_bdry hclY, ← r2.restr_bdry hclX, ← hφ, mulVec_mulVec, mulVec_mulVec, hf.comm]
  · intro z _
    show _ ∈ LinearMap.ker _
    rw [LinearMap.mem_ker, mulVecLin_apply, q2.bdry0, zero_mulVec]
  · intro k i
    constructor
    · intro h; exact ⟨ltX k i h, (r4 k i (ltX k i h)).1 h⟩
    · rintro ⟨h, hn⟩; exact (r4 k i h).2 hn
  · intro k i
    constructor
    · intro h; exact ⟨ltY k i h, (q4 k i (ltY k i h)).1 h⟩
    · rintro ⟨h, hn⟩; exact (q4 k i h).2 hn
  · intro k hk
    exact p3 k (by omega)

end SCpx
end BATS
