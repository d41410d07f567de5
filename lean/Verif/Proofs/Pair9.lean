import Verif.Proofs.Pair5

set_option linter.unusedSectionVars false
set_option linter.unusedVariables false
set_option linter.unusedSimpArgs false

/-! # `relative_map` -/

namespace BATS
open Reduction Matrix Module
variable {F : Type} [Field F] [DecidableEq F]

theorem complement_at {n : Nat} {ind : List Nat} (hn : ind.Nodup) (hlt : ∀ i ∈ ind, i < n) {sel : List Nat} (h1 : sel.Pairwise (· < ·))
    (h2 : ∀ x, x ∈ sel ↔ x < n ∧ x ∉ ind) : Srt.sortedComplement (ind.insertionSort (· ≤ ·)) n = .ok sel := by
  have hs : (ind.insertionSort (· ≤ ·)).Pairwise (· < ·) := by
    have a1 := List.pairwise_insertionSort (· ≤ ·) ind
    have a2 := sorted_nodup hn
    exact (a1.and a2).imp (fun h => Nat.lt_of_le_of_ne h.1 h.2)
  obtain ⟨r, r1, r2, r3⟩ := C27_sorted_complement hs (n := n) (fun x hx => hlt x ((List.mem_insertionSort _).1 hx))
  rw [r1]
  congr 1
  apply SCpx.sorted_ext r2 h1
  intro x
  rw [r3, h2, List.mem_insertionSort]

theorem relativeMap_levels {nX nY : Nat → Nat} {iX iY sX sY : Nat → List Nat} (x0 : ∀ k, (iX k).Nodup) (x1 : ∀ k, ∀ i ∈ iX k, i < nX k)
    (x2 : ∀ k, (sX k).Pairwise (· < ·)) (x3 : ∀ k x, x ∈ sX k ↔ x < nX k ∧ x ∉ iX k)
    (y0 : ∀ k, (iY k).Nodup) (y1 : ∀ k, ∀ i ∈ iY k, i < nY k) (y2 : ∀ k, (sY k).Pairwise (· < ·)) (y3 : ∀ k x, x ∈ sY k ↔ x < nY k ∧ x ∉ iY k) :
    ∀ (Ms : List (CMat F)) (is1 is2 : List (List Nat)) (k : Nat), Ms.length ≤ is1.length → Ms.length ≤ is2.length →
      (∀ l, l < Ms.length → is1.getD l [] = iY (k + l)) → (∀ l, l < Ms.length → is2.getD l [] = iX (k + l)) →
      (∀ l, l < Ms.length → (Ms.getD l ⟨0, []⟩).Shape (nY (k + l)) (nX (k + l))) →
      ∃ Ns, Cpx.relativeMap Ms is1 is2 = .ok Ns ∧ Ns.length = Ms.length ∧ ∀ l, l < Ms.length →
        (Ns.getD l ⟨0, []⟩).Shape (sY (k + l)).length (sX (k + l)).length ∧
        ∀ i j (hi : i < (sY (k + l)).length) (hj : j < (sX (k + l)).length),
          ent1 (Ns.getD l ⟨0, []⟩) i j = ent1 (Ms.getD l ⟨0, []⟩) (sY (k + l))[i] (sX (k + l))[j] := by
  intro Ms
  induction Ms with
  | nil => intro is1 is2 k _ _ _ _ _; exact ⟨[], by rw [Cpx.relativeMap], rfl, by intro l hl; simp at hl⟩
  | cons M Ms ih =>
    intro is1 is2 k l1 l2 e1 e2 hsh
    cases is1 with
    | nil => simp at l1
    | cons a is1 =>
    cases is2 with
    | nil => simp at l2
    | cons b is2 =>
    simp only [List.length_cons, Nat.add_le_add_iff_right] at l1 l2
    have ha := e1 0 (by simp)
    have hb := e2 0 (by simp)
    rw [List.getD_cons_zero, Nat.add_zero] at ha hb
    subst ha; subst hb
    obtain ⟨Ns, n1, n2, n3⟩ := ih is1 is2 (k + 1) l1 l2 (by
        intro l hl
        have := e1 (l + 1) (by simpa using hl)
        rwa [List.getD_cons_succ, show k + (l + 1) = k + 1 + l by omega] at this) (by
        intro l hl
        have := e2 (l + 1) (by simpa using hl)
        rwa [List.getD_cons_succ, show k + (l + 1) = k + 1 + l by omega] at this) (by
      intro l hl
      have := hsh (l + 1) (by simpa using hl)
      rw [List.getD_cons_succ, show k + (l + 1) = k + 1 + l by omega] at this
      exact this)
    have hM := hsh 0 (by simp)
    rw [List.getD_cons_zero, Nat.add_zero] at hM
    obtain ⟨N, m1, m2, m3⟩ := submatrix_spec hM (rind := sY k) (cind := sX k) ((y2 k).imp (fun h => Nat.ne_of_lt h))
      (fun i hi => ((y3 k i).1 hi).1) (fun i hi => ((x3 k i).1 hi).1)
    refine ⟨N :: Ns, ?_, by simp [n2], ?_⟩
    · rw [Cpx.relativeMap, hM.nrow, hM.ncol, complement_at (y0 k) (y1 k) (y2 k) (y3 k), bind_ok, complement_at (x0 k) (x1 k) (x2 k) (x3 k), bind_ok,
        m1, bind_ok, n1]; rfl
    · intro l hl
      cases l with
      | zero => rw [List.getD_cons_zero, List.getD_cons_zero]; exact ⟨m2, m3⟩
      | succ l =>
        have := n3 l (by simpa using hl)
        rw [List.getD_cons_succ, List.getD_cons_succ, show k + (l + 1) = k + 1 + l by omega]
        exact this

/-- `relative_map` of a chain map which respects the subcomplexes -/
theorem relativeMap_spec {B D f : List (CMat F)} {indB indD : List (List Nat)} (hB : IsChainComplex B) (hD : IsChainComplex D) (hB0 : ZeroBdry0 B) (hD0 : ZeroBdry0 D)
    (hSB : IsSubcomplex B indB) (hSD : IsSubcomplex D indD) (hf : IsChainMap f B D) (hl : f.length = B.length) (hd : B.length ≤ D.length)
    (hr : ∀ k (i : Fin (cdim D k)) (j : Fin (cdim B k)), j.val ∈ indB.getD k [] → cmap f B D k i j ≠ 0 → i.val ∈ indD.getD k []) :
    ∃ (B' D' φ : List (CMat F)) (sX sY : Nat → List Nat), Cpx.relativeComplex B indB = .ok B' ∧ Cpx.relativeComplex D indD = .ok D' ∧
      Cpx.relativeMap f indD indB = .ok φ ∧ IsChainMap φ B' D' ∧ φ.length = f.length ∧
      (∀ k, (sX k).Pairwise (· < ·)) ∧ (∀ k x, x ∈ sX k ↔ x < cdim B k ∧ x ∉ indB.getD k []) ∧
      (∀ k, (sY k).Pairwise (· < ·)) ∧ (∀ k x, x ∈ sY k ↔ x < cdim D k ∧ x ∉ indD.getD k []) ∧
      ∀ k, k < f.length → (φ.getD k ⟨0, []⟩).Shape (sY k).length (sX k).length ∧ ∀ i j (hi : i < (sY k).length) (hj : j < (sX k).length),
        ent1 (φ.getD k ⟨0, []⟩) i j = ent1 (f.getD k ⟨0, []⟩) (sY k)[i] (sX k)[j] := by
  obtain ⟨B', sX, r1, r2, r3, r4⟩ := relativeComplex_spec hB hB0 hSB
  obtain ⟨D', sY, q1, q2, q3, q4⟩ := relativeComplex_spec hD hD0 hSD
  obtain ⟨φ, p1, p2, p3⟩ := relativeMap_levels (nX := cdim B) (nY := cdim D) (iX := fun k => indB.getD k []) (iY := fun k => indD.getD k [])
    hSB.nodup hSB.lt r3 r4 hSD.nodup hSD.lt q3 q4 f indD indB 0 (by rw [hSD.len]; omega) (by rw [hSB.len]; omega)
    (fun l _ => by rw [Nat.zero_add]) (fun l _ => by rw [Nat.zero_add]) (fun l h => by rw [Nat.zero_add]; exact (hf.shape l (by omega) (by omega)).2)
  simp only [Nat.zero_add] at p3
  have hcl : ∀ {C : List (CMat F)} {ind : List (List Nat)} {s : Nat → List Nat} (_ : IsSubcomplex C ind) (_ : ∀ k x, x ∈ s k ↔ x < cdim C k ∧ x ∉ ind.getD k [])
      (k : Nat) (i : Fin (cdim C k)) (j : Fin (cdim C (k + 1))), j.val ∉ s (k + 1) → bdryUp C k i j ≠ 0 → i.val ∉ s k := by
    intro C ind s hS hs k i j hj hne hi
    rw [hs] at hj hi
    have : j.val ∈ ind.getD (k + 1) [] := by
      by_contra hn; exact hj ⟨j.2, hn⟩
    exact hi.2 (hS.closed k i j this hne)
  have hφ : ∀ k x, restr F (q2.idx k) (cmap f B D k *ᵥ x) = cmap φ B' D' k *ᵥ restr F (r2.idx k) x := by
    intro k x
    apply restr_mulVec (r2.idx_inj k)
    · intro i j
      have hi : i.val < (sY k).length := by rw [← q2.cdim]; exact i.2
      have hj : j.val < (sX k).length := by rw [← r2.cdim]; exact j.2
      have hk : k < f.length := by
        by_contra hk
        have := ((r4 k _).1 (List.getElem_mem hj)).1
        have e : BATS.cdim B k = 0 := by
          unfold BATS.cdim
          rw [List.getD_eq_getElem?_getD, List.getElem?_eq_none (by omega)]; rfl
        rw [e] at this
        exact Nat.not_lt_zero _ this
      exact (p3 k hk).2 i.val j.val hi hj
    · intro i j hj
      have : cmap f B D k (q2.idx k i) j = 0 := by
        by_contra hne
        rw [r2.range_idx] at hj
        have hj2 : j.val ∉ sX k := hj
        rw [r4] at hj2
        have hjl : j.val ∈ indB.getD k [] := by
          by_contra hn; exact hj2 ⟨j.2, hn⟩
        exact ((q4 k _).1 (List.getElem_mem _)).2 (hr k (q2.idx k i) j hjl hne)
      rw [this, zero_mul]
  refine ⟨B', D', φ, sX, sY, r1, q1, p1, ⟨?_, ?_, ?_⟩, p2, r3, r4, q3, q4, p3⟩
  · intro k hk _
    rw [r2.len] at hk
    refine ⟨by omega, ?_⟩
    rw [r2.cdim, q2.cdim]
    exact (p3 k (by omega)).1
  · intro k
    apply Matrix.ext_of_mulVec_single
    intro j
    rw [← mulVec_mulVec, ← mulVec_mulVec]
    obtain ⟨x, e⟩ := restr_surj (r2.idx_inj (k + 1)) (Pi.single j (1 : F))
    rw [← e, ← hφ, ← q2.restr_bdry (hcl hSD q4), ← r2.restr_bdry (hcl hSB r4), ← hφ, mulVec_mulVec, mulVec_mulVec, hf.comm]
  · intro z _
    show _ ∈ LinearMap.ker _
    rw [LinearMap.mem_ker, mulVecLin_apply, q2.bdry0, zero_mulVec]

end BATS
