import Verif.Proofs.Pair3
import Verif.Spec.Pair

set_option linter.unusedSectionVars false
set_option linter.unusedVariables false
set_option linter.unusedSimpArgs false

/-! # Relative simplicial homology of a pair -/

namespace BATS
open Reduction Matrix Module
namespace SCpx
variable {F : Type} [Field F] [DecidableEq F]

theorem positions_getD {X : SCpx} {cX cA : Cells} (hX : Inv X cX) (k : Nat) :
    ((List.range X.ncells.length).map (positions cX cA)).getD k [] = if k < X.ncells.length then positions cX cA k else [] := by
  rw [List.getD_eq_getElem?_getD, List.getElem?_map]
  by_cases hk : k < X.ncells.length
  · rw [List.getElem?_range hk, if_pos hk]; rfl
  · rw [List.getElem?_eq_none (by simpa using hk), if_neg hk]; rfl

/-- the cells of a subcomplex form a subcomplex of the chain complex -/
theorem isSubcomplex_of {X : SCpx} {cX cA : Cells} (hX : Inv X cX) (hA : CellsOK cA) (hs : ∀ k, k < X.ncells.length → ∀ s ∈ cA k, s ∈ cX k)
    {B : List (CMat F)} (hl : B.length = X.ncells.length) (h0 : B[0]? = some (CMat.zero 1 (cX 0).length))
    (hb : ∀ d, d + 1 < X.ncells.length → ∃ M, B[d + 1]? = some M ∧ BdMat cX d M) :
    IsSubcomplex B ((List.range X.ncells.length).map (positions cX cA)) := by
  have hc := cdim_eq hX h0 hl hb
  refine ⟨by simp [hl], ?_, ?_, ?_⟩
  · intro k i hi
    rw [positions_getD hX] at hi
    rw [hc]
    by_cases hk : k < X.ncells.length
    · rw [if_pos hk] at hi; exact positions_lt (hs k hk) i hi
    · rw [if_neg hk] at hi; simp at hi
  · intro k
    rw [positions_getD hX]
    by_cases hk : k < X.ncells.length
    · rw [if_pos hk]; exact positions_nodup hA (hs k hk)
    · rw [if_neg hk]; exact List.nodup_nil
  · intro k i j hj hne
    rw [positions_getD hX] at hj ⊢
    by_cases hk : k + 1 < X.ncells.length
    · rw [if_pos hk] at hj
      rw [if_pos (by omega)]
      have hjl : j.val < (cX (k + 1)).length := by rw [← hc]; exact j.2
      have hil : i.val < (cX k).length := by rw [← hc]; exact i.2
      rw [mem_positions hX.ok (hs _ hk) hjl] at hj
      rw [mem_positions hX.ok (hs _ (by omega)) hil]
      have he : ent B (k + 1) i.val j.val ≠ 0 := hne
      rw [ent_eq hX hb (List.getElem?_eq_getElem hjl)] at he
      obtain ⟨l, h1, h2⟩ := Finset.exists_ne_zero_of_sum_ne_zero he
      rw [Finset.mem_range] at h1
      have hidx : (cX k).idxOf ((cX (k + 1))[j.val].eraseIdx l) = i.val := by
        by_contra hn
        rw [if_neg hn] at h2; exact h2 rfl
      have hf := hA.closed k _ hj l h1
      have e : (cX k)[i.val] = (cX (k + 1))[j.val].eraseIdx l := by
        have hfm := hX.ok.closed k _ (List.getElem_mem hjl) l h1
        have : (cX k)[(cX k).idxOf ((cX (k + 1))[j.val].eraseIdx l)]'(List.idxOf_lt_length_iff.2 hfm) = (cX k)[i.val] := by congr 1
        rw [List.getElem_idxOf] at this
        exact this.symm
      rw [e]; exact hf
    · rw [if_neg hk] at hj; simp at hj

/-- everything known about the chain complex of a pair -/
theorem relative_data {X A : SCpx} {cX cA : Cells} (hX : Inv X cX) (hA : Inv A cA) (hn : ∀ d s, s ∈ cX d → s.Nodup)
    (hs : ∀ k, k < X.ncells.length → ∀ s ∈ cA k, s ∈ cX k) :
    ∃ (B B' : List (CMat F)) (sel : Nat → List Nat), X.chainComplex = .ok B ∧ relativeChainComplex X A = .ok B' ∧ IsChainComplex B ∧ ZeroBdry0 B ∧
      B.length = X.ncells.length ∧ B[0]? = some (CMat.zero 1 (cX 0).length) ∧ (∀ d, d + 1 < X.ncells.length → ∃ M, B[d + 1]? = some M ∧ BdMat cX d M) ∧
      IsSubcomplex B ((List.range X.ncells.length).map (positions cX cA)) ∧
      SelectedBy B B' sel ∧ (∀ k, (sel k).Pairwise (· < ·)) ∧ ∀ k i (hi : i < (cX k).length), i ∈ sel k ↔ (cX k)[i] ∉ cA k := by
  obtain ⟨B, b1, b2, b3, b4⟩ := chainComplex_spec (F := F) hX
  have hC := isChainComplex_of hX hn b3 b2 b4
  have h0 : ZeroBdry0 B := by
    intro c hc
    rw [List.getD_eq_getElem?_getD, b3, Option.getD_some] at hc
    exact List.eq_of_mem_replicate hc
  have hS := isSubcomplex_of hX hA.ok hs b2 b3 b4
  obtain ⟨B', sel, r1, r2, r3, r4⟩ := relativeComplex_spec hC h0 hS
  rw [← relativeChainComplex_eq hX hA hs b1] at r1
  refine ⟨B, B', sel, b1, r1, hC, h0, b2, b3, b4, hS, r2, r3, ?_⟩
  intro k i hi
  have hk : k < X.ncells.length := by
    by_contra hk
    rw [hX.top k (by omega)] at hi; simp at hi
  rw [r4, positions_getD hX, if_pos hk, mem_positions hX.ok (hs k hk) hi, cdim_eq hX b3 b2 b4]
  exact ⟨fun h => h.2, fun h => ⟨hi, h⟩⟩

theorem chainsIn_eq {K L : Finset (Finset Nat)} {n : Nat} {ι : Type} [Fintype ι] [DecidableEq ι] {s : ι → Simps K n} (hr : ∀ σ, σ ∈ Set.range s ↔ σ.1 ∉ L) :
    chainsIn F K L n = supported (Set.range s)ᶜ := by
  ext c
  show (∀ σ, σ.1 ∉ L → c σ = 0) ↔ ∀ σ, σ ∉ (Set.range s)ᶜ → c σ = 0
  apply forall_congr'
  intro σ
  rw [Set.notMem_compl_iff, hr]

/-- the Betti numbers of the chain complex of a pair are the relative Betti numbers -/
theorem relative_betti {X A : SCpx} {cX cA : Cells} (hX : Inv X cX) (hA : Inv A cA) {K L : Finset (Finset Nat)} (hv : VertexSets cX K)
    (hL : ∀ σ : Finset Nat, σ ∈ K → (σ ∈ L ↔ σ.sort (· ≤ ·) ∈ setOf cA))
    (hs : ∀ k, k < X.ncells.length → ∀ s ∈ cA k, s ∈ cX k) :
    ∃ B' : List (CMat F), relativeChainComplex X A = .ok B' ∧ IsChainComplex B' ∧ B'.length = X.ncells.length ∧
      ∀ k, bettiNumber B' k = relativeBetti F K L k := by
  obtain ⟨B, B', sel, b1, r1, hC, h0, b2, b3, b4, hS, r2, r3, r4⟩ := relative_data (F := F) hX hA
    (fun d s h => (hv.sorted d s h).imp (fun h => ne_of_lt h)) hs
  have hc := cdim_eq hX b3 b2 b4
  have hmemsel : ∀ k, ∀ i : Fin (cdim B k), i.val ∈ sel k ↔ i.val ∉ ((List.range X.ncells.length).map (positions cX cA)).getD k [] := by
    intro k i
    have hi : i.val < (cX k).length := by rw [← hc]; exact i.2
    have hk : k < X.ncells.length := by
      by_contra hk
      rw [hX.top k (by omega)] at hi; simp at hi
    rw [r4 k i.val hi, positions_getD hX, if_pos hk, mem_positions hX.ok (hs k hk) hi]
  have hcl : ∀ (k : Nat) (i : Fin (cdim B k)) (j : Fin (cdim B (k + 1))), j.val ∉ sel (k + 1) → bdryUp B k i j ≠ 0 → i.val ∉ sel k := by
    intro k i j hj hne
    rw [hmemsel] at hj ⊢
    rw [not_not] at hj ⊢
    exact hS.closed k i j hj hne
  obtain ⟨hC', _⟩ := r2.rel hC h0 hcl hmemsel
  refine ⟨B', r1, hC', by rw [r2.len, b2], ?_⟩
  -- the selected simplices
  obtain ⟨s, hsdef⟩ : ∃ s : (k : Nat) → Fin (cdim B' k) → Simps K (k + 1), s = fun k i => eqv hX hv hc k (r2.idx k i) := ⟨_, rfl⟩
  have hsinj : ∀ k, Function.Injective (s k) := by
    intro k a b e
    rw [hsdef] at e
    exact r2.idx_inj k ((eqv hX hv hc k).injective e)
  have hrange : ∀ k, ∀ σ, σ ∈ Set.range (s k) ↔ σ.1 ∉ L := by
    intro k σ
    obtain ⟨i, rfl⟩ := (eqv hX hv hc k).surjective σ
    have hi : i.val < (cX k).length := by rw [← hc]; exact i.2
    have e1 : (eqv hX hv hc k i) ∈ Set.range (s k) ↔ i ∈ Set.range (r2.idx k) := by
      rw [hsdef]
      constructor
      · rintro ⟨a, ha⟩; exact ⟨a, (eqv hX hv hc k).injective ha⟩
      · rintro ⟨a, ha⟩; exact ⟨a, congrArg _ ha⟩
    rw [e1, r2.range_idx]
    show i.val ∈ sel k ↔ _
    rw [r4 k i.val hi]
    have hm : (cX k)[i.val] ∈ cX k := List.getElem_mem _
    rw [hL _ (eqv hX hv hc k i).2.1, eqv_val, sort_toFinset_of_sorted (hv.sorted k _ hm), mem_setOf (hX.ok.len k _ hm)]
  have hsgn : ∀ k : Nat, (-1 : F) ^ k ≠ 0 := fun k => pow_ne_zero _ (neg_ne_zero.2 one_ne_zero)
  have hsp : ∀ k (i : Fin (cdim B k)) (j : Fin (cdim B (k + 1))), simplicialBoundary F K (k + 1) (eqv hX hv hc k i) (eqv hX hv hc (k + 1) j) = (-1 : F) ^ k * bdryUp B k i j := by
    intro k i j
    exact congrFun (congrFun (boundary_spec_eq hX hv hc b4 k) i) j
  have hmap : ∀ k, ∀ y, restr F (s k) (simplicialBoundary F K (k + 1) *ᵥ y) = ((-1 : F) ^ k • bdryUp B' k) *ᵥ restr F (s (k + 1)) y := by
    intro k y
    apply restr_mulVec (hsinj (k + 1))
    · intro i j
      rw [hsdef]
      rw [hsp, Matrix.smul_apply, smul_eq_mul, r2.bdryUp_eq]
    · intro i σ hσ
      obtain ⟨j, rfl⟩ := (eqv hX hv hc (k + 1)).surjective σ
      have hj : j ∉ Set.range (r2.idx (k + 1)) := by
        rintro ⟨a, ha⟩
        exact hσ ⟨a, by rw [hsdef]; exact congrArg _ ha⟩
      rw [r2.range_idx] at hj
      have : simplicialBoundary F K (k + 1) (s k i) (eqv hX hv hc (k + 1) j) = 0 := by
        rw [hsdef]
        show simplicialBoundary F K (k + 1) (eqv hX hv hc k (r2.idx k i)) (eqv hX hv hc (k + 1) j) = 0
        rw [hsp]
        by_contra hne
        exact hcl k (r2.idx k i) j hj (right_ne_zero_of_mul hne) (List.getElem_mem _)
      rw [this, zero_mul]
  intro k
  have hsq : bdry B' k * ((-1 : F) ^ k • bdryUp B' k) = 0 := by
    rw [Matrix.mul_smul, hC'.sq' k, smul_zero]
  have key := finrank_rel (F := F) (hsinj k) (hsinj (k + 1)) (M' := bdry B' k) (N := simplicialBoundary F K (k + 1)) (N' := (-1 : F) ^ k • bdryUp B' k)
    hsq (Z := relativeCycles F K L k) (by
      intro x
      cases k with
      | zero =>
        rw [r2.bdry0, zero_mulVec]
        refine ⟨fun _ => rfl, fun _ => ?_⟩
        intro σ
        exfalso
        obtain ⟨σ, h1, h2⟩ := σ
        rw [Finset.card_eq_zero] at h2
        subst h2
        exact ((hv.mem ∅).1 h1).1 (by simp)
      | succ k =>
        show simplicialBoundary F K (k + 1) *ᵥ x ∈ chainsIn F K L (k + 1) ↔ bdryUp B' k *ᵥ _ = 0
        rw [chainsIn_eq (hrange k), ← ker_restr, LinearMap.mem_ker, hmap, Matrix.smul_mulVec]
        exact smul_eq_zero_iff_right (hsgn k)) (hmap k)
  rw [← chainsIn_eq (hrange k)] at key
  have hr : LinearMap.range ((-1 : F) ^ k • bdryUp B' k).mulVecLin = LinearMap.range (bdryUp B' k).mulVecLin := by
    have : ((-1 : F) ^ k • bdryUp B' k).mulVecLin = (-1 : F) ^ k • (bdryUp B' k).mulVecLin := by ext; simp [Matrix.smul_mulVec]
    rw [this, LinearMap.range_smul _ _ (hsgn k)]
  rw [hr] at key
  exact key.symm

/-- a simplex of `A` in a dimension of `X` which is not in `X`: the constructor does not return -/
theorem complementOf_none {inds : List (Option Nat)} {n : Nat} (h : none ∈ inds) : complementOf inds n = .error .thrown := by
  unfold complementOf
  rw [if_pos]
  rw [List.any_eq_true]
  exact ⟨none, h, rfl⟩

end SCpx
end BATS
