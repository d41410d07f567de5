import Verif.Proofs.Pair5
import Verif.Spec.MayerVietoris
import Verif.Proofs.SimplicialMap

set_option linter.unusedSectionVars false
set_option linter.unusedVariables false
set_option linter.unusedSimpArgs false

/-! # The Mayer-Vietoris boundary -/

namespace BATS
open Reduction Matrix Module
namespace SCpx
variable {F : Type} [Field F] [DecidableEq F]

theorem orderedBoundary_single (s : List Nat) (a : F) :
    orderedBoundary F (Finsupp.single s a) = ∑ l ∈ Finset.range s.length, Finsupp.single (s.eraseIdx l) (a * (-1 : F) ^ l) := by
  unfold orderedBoundary
  rw [Finsupp.linearCombination_single, Finset.smul_sum]
  simp [Finsupp.smul_single]

theorem orderedBoundary_sq (c : List Nat →₀ F) : orderedBoundary F (orderedBoundary F c) = 0 := by
  induction c using Finsupp.induction_linear with
  | zero => simp
  | add a b ha hb => rw [map_add, map_add, ha, hb, add_zero]
  | single s a =>
    rw [orderedBoundary_single, map_sum]
    simp only [orderedBoundary_single]
    have : ∀ l ∈ Finset.range s.length, ∑ m ∈ Finset.range (s.eraseIdx l).length, Finsupp.single ((s.eraseIdx l).eraseIdx m) (a * (-1 : F) ^ l * (-1) ^ m)
        = ∑ m ∈ Finset.range (s.length - 1), Finsupp.single ((s.eraseIdx l).eraseIdx m) (a * (-1 : F) ^ l * (-1) ^ m) := by
      intro l hl
      rw [Finset.mem_range] at hl
      rw [List.length_eraseIdx_of_lt hl]
    rw [Finset.sum_congr rfl this]
    ext t
    rw [Finsupp.finsetSum_apply]
    simp only [Finsupp.finsetSum_apply, Finsupp.single_apply]
    cases hn : s.length with
    | zero => simp
    | succ n =>
      rw [Nat.add_sub_cancel]
      have := alternating_double_sum (R := F) n (fun k l => if (s.eraseIdx k).eraseIdx l = t then a else 0) (by
        intro k l hlk _
        rw [eraseIdx_eraseIdx_lt s k l hlk])
      rw [Finsupp.coe_zero, Pi.zero_apply]
      refine Eq.trans ?_ this
      apply Finset.sum_congr rfl
      intro k _
      apply Finset.sum_congr rfl
      intro l _
      split
      · ring
      · rw [mul_zero]

theorem simplexAt_eq {X : SCpx} {cells : Cells} (h : Inv X cells) {k i : Nat} (hi : i < (cells k).length) : X.simplexAt k i = (cells k)[i] := by
  unfold simplexAt
  rw [Filt.getSimplex_eq h (List.getElem?_eq_getElem hi)]

theorem chainFn_eq {X : SCpx} {cells : Cells} (h : Inv X cells) (k : Nat) {n : Nat} (hn : n = (cells k).length) (c : Fin n → F) :
    chainFn X k c = ∑ i : Fin n, Finsupp.single ((cells k)[i.val]'(by rw [← hn]; exact i.2)) (c i) := by
  unfold chainFn
  apply Finset.sum_congr rfl
  intro i _
  rw [simplexAt_eq h (by rw [← hn]; exact i.2)]

theorem chainFn_apply {X : SCpx} {cells : Cells} (h : Inv X cells) (k : Nat) {n : Nat} (hn : n = (cells k).length) (c : Fin n → F) (i : Fin n) :
    chainFn X k c ((cells k)[i.val]'(by rw [← hn]; exact i.2)) = c i := by
  rw [chainFn_eq h k hn, Finsupp.finsetSum_apply, Finset.sum_eq_single i]
  · simp
  · intro b _ hb
    rw [Finsupp.single_apply, if_neg]
    intro e
    exact hb (Fin.ext ((h.ok.nodup k).getElem_inj_iff.1 e))
  · intro h; exact absurd (Finset.mem_univ _) h

theorem chainFn_zero {X : SCpx} {cells : Cells} (h : Inv X cells) (k : Nat) {n : Nat} (hn : n = (cells k).length) (c : Fin n → F) {s : List Nat}
    (hs : s ∉ cells k) : chainFn X k c s = 0 := by
  rw [chainFn_eq h k hn, Finsupp.finsetSum_apply]
  apply Finset.sum_eq_zero
  intro i _
  rw [Finsupp.single_apply, if_neg]
  intro e
  exact hs (e ▸ List.getElem_mem _)

theorem chainFn_inj {X : SCpx} {cells : Cells} (h : Inv X cells) (k : Nat) {n : Nat} (hn : n = (cells k).length) {c d : Fin n → F}
    (e : chainFn X k c = chainFn X k d) : c = d := by
  funext i
  rw [← chainFn_apply h k hn c i, e, chainFn_apply h k hn]

theorem chainFn_surj {X : SCpx} {cells : Cells} (h : Inv X cells) (k : Nat) {n : Nat} (hn : n = (cells k).length) {f : List Nat →₀ F}
    (hf : ∀ s, f s ≠ 0 → s ∈ cells k) : ∃ c : Fin n → F, chainFn X k c = f := by
  refine ⟨fun i => f ((cells k)[i.val]'(by rw [← hn]; exact i.2)), ?_⟩
  ext s
  by_cases hs : s ∈ cells k
  · obtain ⟨i, hi, rfl⟩ := List.getElem_of_mem hs
    exact chainFn_apply h k hn _ ⟨i, by rw [hn]; exact hi⟩
  · rw [chainFn_zero h k hn _ hs]
    by_contra hne
    exact hs (hf s (fun e => hne e.symm))

theorem chainFn_add {X : SCpx} {k n : Nat} (c d : Fin n → F) : chainFn X k (c + d) = chainFn X k c + chainFn X k d := by
  unfold chainFn
  rw [← Finset.sum_add_distrib]
  apply Finset.sum_congr rfl
  intro i _
  rw [Pi.add_apply, Finsupp.single_add]

theorem chainFn_smul {X : SCpx} {k n : Nat} (a : F) (c : Fin n → F) : chainFn X k (a • c) = a • chainFn X k c := by
  unfold chainFn
  rw [Finset.smul_sum]
  apply Finset.sum_congr rfl
  intro i _
  rw [Pi.smul_apply, Finsupp.smul_single]

/-- applying a matrix, column by column -/
theorem chainFn_mulVec {X : SCpx} {k m n : Nat} (N : Matrix (Fin m) (Fin n) F) {g : Fin n → (List Nat →₀ F)}
    (hg : ∀ j, chainFn X k (fun i => N i j) = g j) (c : Fin n → F) : chainFn X k (N *ᵥ c) = ∑ j, c j • g j := by
  unfold chainFn at *
  have : ∀ i : Fin m, Finsupp.single (X.simplexAt k i.val) ((N *ᵥ c) i) = ∑ j, c j • Finsupp.single (X.simplexAt k i.val) (N i j) := by
    intro i
    show Finsupp.single _ (∑ j, N i j * c j) = _
    rw [← Finsupp.singleAddHom_apply, map_sum]
    apply Finset.sum_congr rfl
    intro j _
    rw [Finsupp.singleAddHom_apply, Finsupp.smul_single, smul_eq_mul, mul_comm]
  rw [Finset.sum_congr rfl (fun i _ => this i), Finset.sum_comm]
  apply Finset.sum_congr rfl
  intro j _
  rw [← Finset.smul_sum, hg]

/-- a column given by the indices of a family of lists -/
theorem chainFn_column {X : SCpx} {cells : Cells} (h : Inv X cells) (k : Nat) {n : Nat} (hn : n = (cells k).length) {q : Nat} (face : Nat → List Nat) (a : Nat → F)
    (hl : ∀ l, l < q → (face l).length = k + 1) :
    chainFn X k (fun i : Fin n => ∑ l ∈ Finset.range q, if X.findIdx (face l) = some i.val then a l else 0) =
      ∑ l ∈ Finset.range q, if face l ∈ cells k then Finsupp.single (face l) (a l) else 0 := by
  rw [chainFn_eq h k hn]
  have e1 : ∀ i : Fin n, Finsupp.single ((cells k)[i.val]'(by rw [← hn]; exact i.2)) (∑ l ∈ Finset.range q, if X.findIdx (face l) = some i.val then a l else 0)
      = ∑ l ∈ Finset.range q, Finsupp.single ((cells k)[i.val]'(by rw [← hn]; exact i.2)) (if X.findIdx (face l) = some i.val then a l else 0) := by
    intro i
    rw [← Finsupp.singleAddHom_apply, map_sum]; rfl
  rw [Finset.sum_congr rfl (fun i _ => e1 i), Finset.sum_comm]
  apply Finset.sum_congr rfl
  intro l hl'
  rw [Finset.mem_range] at hl'
  have hlen := hl l hl'
  have hne : face l ≠ [] := by intro e; rw [e] at hlen; simp at hlen
  have ht : ∀ i, X.findIdx (face l) = some i ↔ _ := fun i => h.trie (face l) hne i
  rw [hlen, Nat.add_sub_cancel] at ht
  by_cases hm : face l ∈ cells k
  · rw [if_pos hm]
    obtain ⟨i, hi, e⟩ := List.getElem_of_mem hm
    rw [Finset.sum_eq_single (⟨i, by rw [hn]; exact hi⟩ : Fin n)]
    · rw [if_pos ((ht i).2 (by rw [List.getElem?_eq_getElem hi, e]))]
      rw [e]
    · intro b _ hb
      rw [if_neg, Finsupp.single_zero]
      intro e'
      have e2 := (ht b.val).1 e'
      rw [List.getElem?_eq_getElem (by rw [← hn]; exact b.2)] at e2
      have e3 : (cells k)[b.val]'(by rw [← hn]; exact b.2) = (cells k)[i] := by rw [e]; exact Option.some.inj e2
      exact hb (Fin.ext ((h.ok.nodup k).getElem_inj_iff.1 e3))
    · intro h; exact absurd (Finset.mem_univ _) h
  · rw [if_neg hm]
    apply Finset.sum_eq_zero
    intro i _
    rw [if_neg, Finsupp.single_zero]
    intro e
    exact hm (List.mem_of_getElem? ((ht i.val).1 e))

/-- the boundary matrices are the boundary of ordered simplices, up to sign -/
theorem chainFn_bdry {X : SCpx} {cells : Cells} (h : Inv X cells) {B : List (CMat F)} (hc : ∀ k, cdim B k = (cells k).length)
    (hb : ∀ d, d + 1 < X.ncells.length → ∃ M, B[d + 1]? = some M ∧ BdMat cells d M) (k : Nat) (c : Fin (cdim B (k + 1)) → F) :
    chainFn X k (bdryUp B k *ᵥ c) = (-1 : F) ^ k • orderedBoundary F (chainFn X (k + 1) c) := by
  rw [chainFn_mulVec (X := X) (k := k) (bdryUp B k) (g := fun j => (-1 : F) ^ k • orderedBoundary F (Finsupp.single (X.simplexAt (k + 1) j) 1))]
  · unfold chainFn
    rw [map_sum, Finset.smul_sum]
    apply Finset.sum_congr rfl
    intro j _
    have : Finsupp.single (X.simplexAt (k + 1) j) (c j) = c j • Finsupp.single (X.simplexAt (k + 1) j) (1 : F) := by rw [Finsupp.smul_single, smul_eq_mul, mul_one]
    rw [this, map_smul, smul_comm]
  · intro j
    have hj : j.val < (cells (k + 1)).length := by rw [← hc]; exact j.2
    rw [simplexAt_eq h hj]
    have hm : (cells (k + 1))[j.val] ∈ cells (k + 1) := List.getElem_mem _
    have hlen := h.ok.len _ _ hm
    have hfl : ∀ l, l < k + 2 → ((cells (k + 1))[j.val].eraseIdx l).length = k + 1 := by
      intro l hl; rw [List.length_eraseIdx_of_lt (by omega)]; omega
    have hcol : (fun i => bdryUp B k i j) = fun i : Fin (cdim B k) => ∑ l ∈ Finset.range (k + 2),
        if X.findIdx ((cells (k + 1))[j.val].eraseIdx l) = some i.val then (-1 : F) ^ (k + l) else 0 := by
      funext i
      show ent B (k + 1) i.val j.val = _
      rw [ent_eq h hb (List.getElem?_eq_getElem hj)]
      apply Finset.sum_congr rfl
      intro l hl
      rw [Finset.mem_range] at hl
      have hf := h.ok.closed k _ hm l hl
      have hne : (cells (k + 1))[j.val].eraseIdx l ≠ [] := by intro e; have := hfl l hl; rw [e] at this; simp at this
      have := h.trie.get h.ok hne (by rw [hfl l hl, Nat.add_sub_cancel]; exact hf)
      rw [hfl l hl, Nat.add_sub_cancel] at this
      have hfi : X.findIdx ((cells (k + 1))[j.val].eraseIdx l) = some ((cells k).idxOf ((cells (k + 1))[j.val].eraseIdx l)) := this
      rw [hfi]
      simp only [Option.some.injEq]
    rw [hcol, chainFn_column h k (hc k) _ _ hfl, orderedBoundary_single, hlen, Finset.smul_sum]
    apply Finset.sum_congr rfl
    intro l hl
    rw [Finset.mem_range] at hl
    rw [if_pos (h.ok.closed k _ hm l hl), Finsupp.smul_single, smul_eq_mul, one_mul, pow_add]

theorem mvFaces_coef (Y : SCpx) (s : List Nat) (i : Nat) : ∀ (n : Nat) (c : Int),
    coef (SMap.castVec F (mvFaces Y s n c)) i = ∑ l ∈ Finset.range n, if Y.findIdx (s.eraseIdx l) = some i then (c : F) * (-1) ^ (n - 1 - l) else 0 := by
  intro n
  induction n with
  | zero => intro c; simp [mvFaces, SMap.castVec]
  | succ n ih =>
    intro c
    have hrest : coef (SMap.castVec F (mvFaces Y s n (-c))) i = ∑ l ∈ Finset.range n, if Y.findIdx (s.eraseIdx l) = some i then (c : F) * (-1) ^ (n + 1 - 1 - l) else 0 := by
      rw [ih]
      apply Finset.sum_congr rfl
      intro l hl
      rw [Finset.mem_range] at hl
      split
      · rw [show n + 1 - 1 - l = (n - 1 - l) + 1 by omega, pow_succ]; push_cast; ring
      · rfl
    rw [Finset.sum_range_succ, ← hrest, mvFaces]
    have hz : (c : F) * (-1) ^ (n + 1 - 1 - n) = c := by
      rw [show n + 1 - 1 - n = 0 by omega]; simp
    rw [hz]
    cases hfi : Y.findIdx (s.eraseIdx n) with
    | none => simp
    | some m =>
      show coef ((m, (c : F)) :: SMap.castVec F (mvFaces Y s n (-c))) i = _
      rw [coef_cons, add_comm]
      simp only [Option.some.injEq]

/-- the matrix of the Mayer-Vietoris boundary, as a linear map -/
theorem mayerVietoris_spec {A X Y : SCpx} {cA cX cY : Cells} (hA : Inv A cA) (hX : Inv X cX) (hY : Inv Y cY) {k : Nat} (hk : k + 1 < X.ncells.length)
    (hkY : k < Y.ncells.length) :
    ∃ M, mayerVietoris A X Y k = .ok M ∧ M.nrow = (cY k).length ∧ M.cols.length = (cX (k + 1)).length ∧
      ∀ (m n : Nat) (hm : m = (cY k).length) (hn : n = (cX (k + 1)).length) (c : Fin n → F),
        chainFn Y k (matOf m n (SMap.castMat M : CMat F).cols *ᵥ c) =
          (-1 : F) ^ k • ((orderedBoundary F ((chainFn X (k + 1) c).filter (· ∈ cA (k + 1)))).filter (· ∈ cY k)) := by
  classical
  refine ⟨⟨(cY k).length, (cX (k + 1)).map (fun s => if (A.findIdx s).isSome then mvFaces Y s (k + 2) (-1) else [])⟩, ?_, rfl, List.length_map _, ?_⟩
  · unfold mayerVietoris numCells
    rw [rd_some (hX.dim (k + 1) hk).nc, bind_ok, rd_some (hY.dim k hkY).nc, bind_ok, getSimplices_spec hX hk]; rfl
  · intro m n hm hn c
    rw [chainFn_mulVec (X := Y) (k := k) _ (g := fun j => (-1 : F) ^ k •
      ((orderedBoundary F ((Finsupp.single (X.simplexAt (k + 1) j) (1 : F)).filter (· ∈ cA (k + 1)))).filter (· ∈ cY k)))]
    · have e : chainFn X (k + 1) c = ∑ j, c j • Finsupp.single (X.simplexAt (k + 1) j) (1 : F) := by
        unfold chainFn
        apply Finset.sum_congr rfl
        intro j _
        rw [Finsupp.smul_single, smul_eq_mul, mul_one]
      have hf : ∀ (p : List Nat → Prop) [DecidablePred p] (f : Fin n → (List Nat →₀ F)), (∑ j, f j).filter p = ∑ j, (f j).filter p := by
        intro p _ f
        exact map_sum (Finsupp.filterAddHom p) f _
      rw [e, hf, map_sum, hf, Finset.smul_sum]
      apply Finset.sum_congr rfl
      intro j _
      rw [Finsupp.filter_smul, map_smul, Finsupp.filter_smul, smul_comm]
    · intro j
      have hj : j.val < (cX (k + 1)).length := by rw [← hn]; exact j.2
      rw [simplexAt_eq hX hj]
      have hmem : (cX (k + 1))[j.val] ∈ cX (k + 1) := List.getElem_mem _
      have hlen := hX.ok.len _ _ hmem
      have hne : (cX (k + 1))[j.val] ≠ [] := by intro e; rw [e] at hlen; simp at hlen
      have hfl : ∀ l, l < k + 2 → ((cX (k + 1))[j.val].eraseIdx l).length = k + 1 := by
        intro l hl; rw [List.length_eraseIdx_of_lt (by omega)]; omega
      have hent : ∀ i : Fin m, matOf m n (SMap.castMat (⟨(cY k).length, (cX (k + 1)).map (fun s => if (A.findIdx s).isSome then mvFaces Y s (k + 2) (-1) else [])⟩ : CMat Int) : CMat F).cols i j
          = coef (SMap.castVec F (if (A.findIdx (cX (k + 1))[j.val]).isSome then mvFaces Y (cX (k + 1))[j.val] (k + 2) (-1) else [])) i := by
        intro i
        show coef (List.getD (List.map _ (List.map _ (cX (k + 1)))) j.val []) i.val = _
        rw [List.getD_eq_getElem?_getD, List.getElem?_map, List.getElem?_map, List.getElem?_eq_getElem hj]; rfl
      have hAiff := hA.trie.isSome hne
      rw [hlen, Nat.add_sub_cancel] at hAiff
      have hAiff' : (A.findIdx (cX (k + 1))[j.val]).isSome = true ↔ (cX (k + 1))[j.val] ∈ cA (k + 1) := hAiff
      by_cases hin : (cX (k + 1))[j.val] ∈ cA (k + 1)
      · rw [Finsupp.filter_single_of_pos _ hin, orderedBoundary_single]
        have : (fun i => matOf m n (SMap.castMat (⟨(cY k).length, (cX (k + 1)).map (fun s => if (A.findIdx s).isSome then mvFaces Y s (k + 2) (-1) else [])⟩ : CMat Int) : CMat F).cols i j)
            = fun i : Fin m => ∑ l ∈ Finset.range (k + 2), if Y.findIdx ((cX (k + 1))[j.val].eraseIdx l) = some i.val then (-1 : F) ^ (k + l) else 0 := by
          funext i
          rw [hent, if_pos (hAiff'.2 hin), mvFaces_coef]
          apply Finset.sum_congr rfl
          intro l hl
          rw [Finset.mem_range] at hl
          congr 1
          have : (((-1 : Int) : F)) = -1 := by push_cast; rfl
          rw [this, ← pow_succ']
          rw [show k + 2 - 1 - l + 1 = k + 2 - l by omega]
          have h2 : k + l + (k + 2 - l) = 2 * (k + 1) := by omega
          have h3 : (-1 : F) ^ (k + l) * (-1) ^ (k + 2 - l) = 1 := by rw [← pow_add, h2, pow_mul]; simp
          have h4 : (-1 : F) ^ (k + l) * (-1) ^ (k + l) = 1 := by rw [← pow_add, ← two_mul, pow_mul]; simp
          have h5 : (-1 : F) ^ (k + l) ≠ 0 := pow_ne_zero _ (neg_ne_zero.2 one_ne_zero)
          exact mul_left_cancel₀ h5 (h3.trans h4.symm)
        rw [this, chainFn_column hY k hm _ _ hfl, hlen]
        rw [show (∑ l ∈ Finset.range (k + 1 + 1), Finsupp.single ((cX (k + 1))[j.val].eraseIdx l) ((1 : F) * (-1) ^ l)).filter (· ∈ cY k) =
          ∑ l ∈ Finset.range (k + 1 + 1), (Finsupp.single ((cX (k + 1))[j.val].eraseIdx l) ((1 : F) * (-1) ^ l)).filter (· ∈ cY k) from
            map_sum (Finsupp.filterAddHom (· ∈ cY k)) _ _, Finset.smul_sum]
        apply Finset.sum_congr rfl
        intro l _
        by_cases hy : (cX (k + 1))[j.val].eraseIdx l ∈ cY k
        · rw [if_pos hy, Finsupp.filter_single_of_pos _ hy, Finsupp.smul_single, smul_eq_mul, one_mul, pow_add]
        · rw [if_neg hy, Finsupp.filter_single_of_neg _ hy, smul_zero]
      · rw [Finsupp.filter_single_of_neg _ hin, map_zero]
        have : (fun i => matOf m n (SMap.castMat (⟨(cY k).length, (cX (k + 1)).map (fun s => if (A.findIdx s).isSome then mvFaces Y s (k + 2) (-1) else [])⟩ : CMat Int) : CMat F).cols i j)
            = 0 := by
          funext i
          rw [hent, if_neg (fun h => hin (hAiff'.1 h))]; rfl
        rw [this]
        unfold chainFn
        have hz : (Finsupp.filter (· ∈ cY k) (0 : List Nat →₀ F)) = 0 := Finsupp.filter_zero _
        rw [hz, smul_zero]
        apply Finset.sum_eq_zero
        intro i _
        rw [Pi.zero_apply, Finsupp.single_zero]

end SCpx
end BATS
