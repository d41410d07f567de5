import Verif.Proofs.SimplicialChain
import Verif.Proofs.SimplicialHist
import Verif.Proofs.Homology
import Verif.Proofs.Complex

set_option linter.unusedSectionVars false
set_option linter.unusedVariables false
set_option linter.unusedSimpArgs false

/-! # The chain complex of a simplicial complex computes simplicial homology -/

namespace BATS

open Matrix

theorem toFinset_inj_of_sorted {s t : List Nat} (hs : s.Pairwise (· < ·)) (ht : t.Pairwise (· < ·)) (e : s.toFinset = t.toFinset) : s = t := by
  have hp : s.Perm t := by
    rw [List.perm_ext_iff_of_nodup (hs.imp (fun h => ne_of_lt h)) (ht.imp (fun h => ne_of_lt h))]
    intro a
    rw [← List.mem_toFinset, e, List.mem_toFinset]
  exact hp.eq_of_pairwise (le := (· < ·)) (fun a b _ _ h1 h2 => by omega) hs ht

theorem pairwise_sort_lt (σ : Finset Nat) : (σ.sort (· ≤ ·)).Pairwise (· < ·) := by
  have h1 := σ.pairwise_sort (· ≤ ·)
  have h2 := σ.sort_nodup (· ≤ ·)
  exact (h1.and h2).imp (fun h => lt_of_le_of_ne h.1 h.2)

theorem toFinset_eraseIdx {s : List Nat} (hs : s.Nodup) {k : Nat} (hk : k < s.length) : (s.eraseIdx k).toFinset = s.toFinset.erase s[k] := by
  ext a
  rw [List.mem_toFinset, Finset.mem_erase, List.mem_toFinset, List.mem_eraseIdx_iff_getElem]
  constructor
  · rintro ⟨i, hi, hne, rfl⟩
    exact ⟨fun e => hne (hs.getElem_inj_iff.1 e), List.getElem_mem hi⟩
  · rintro ⟨h1, h2⟩
    obtain ⟨i, hi, rfl⟩ := List.getElem_of_mem h2
    exact ⟨i, hi, fun e => h1 (by subst e; rfl), rfl⟩

theorem card_filter_lt {s : List Nat} (hs : s.Pairwise (· < ·)) {k : Nat} (hk : k < s.length) : (s.toFinset.filter (· < s[k])).card = k := by
  have : s.toFinset.filter (· < s[k]) = (s.take k).toFinset := by
    ext a
    rw [Finset.mem_filter, List.mem_toFinset, List.mem_toFinset]
    constructor
    · rintro ⟨h1, h2⟩
      obtain ⟨i, hi, rfl⟩ := List.getElem_of_mem h1
      have : i < k := by
        by_contra hc
        rcases Nat.lt_or_ge k i with h | h
        · have := List.pairwise_iff_getElem.1 hs k i hk hi h; omega
        · have : i = k := by omega
          subst this; omega
      rw [List.mem_take_iff_getElem]
      exact ⟨i, by omega, rfl⟩
    · intro h
      rw [List.mem_take_iff_getElem] at h
      obtain ⟨i, hi, rfl⟩ := h
      exact ⟨List.getElem_mem _, List.pairwise_iff_getElem.1 hs i k (by omega) hk (by omega)⟩
  rw [this, List.card_toFinset, List.dedup_eq_self.2]
  · rw [List.length_take]; omega
  · exact ((hs.sublist (List.take_sublist _ _)).imp (fun h => ne_of_lt h))

theorem sum_toFinset_range {M : Type} [AddCommMonoid M] {s : List Nat} (hs : s.Nodup) (f : Nat → M) :
    ∑ v ∈ s.toFinset, f v = ∑ k ∈ Finset.range s.length, f (s.getD k 0) := by
  symm
  apply Finset.sum_bij (fun k _ => s.getD k 0)
  · intro k hk
    rw [Finset.mem_range] at hk
    rw [List.getD_eq_getElem?_getD, List.getElem?_eq_getElem hk]
    exact List.mem_toFinset.2 (List.getElem_mem hk)
  · intro i hi j hj e
    rw [Finset.mem_range] at hi hj
    rw [List.getD_eq_getElem?_getD, List.getElem?_eq_getElem hi, List.getD_eq_getElem?_getD, List.getElem?_eq_getElem hj] at e
    exact hs.getElem_inj_iff.1 e
  · intro v hv
    rw [List.mem_toFinset] at hv
    obtain ⟨i, hi, rfl⟩ := List.getElem_of_mem hv
    exact ⟨i, Finset.mem_range.2 hi, by rw [List.getD_eq_getElem?_getD, List.getElem?_eq_getElem hi]; rfl⟩
  · intros; rfl

theorem rank_smul_ne {F : Type} [Field F] {m n : Type} [Fintype m] [Fintype n] (c : F) (hc : c ≠ 0) (A : Matrix m n F) : (c • A).rank = A.rank := by
  unfold Matrix.rank
  have : (c • A).mulVecLin = c • A.mulVecLin := by ext; simp [Matrix.smul_mulVec]
  rw [this, LinearMap.range_smul _ _ hc]

theorem finrank_homology' {F : Type} [Field F] {l m n : Type} [Fintype l] [Fintype m] [Fintype n] [DecidableEq m] [DecidableEq n]
    (D1 : Matrix l m F) (D2 : Matrix m n F) (hDD : D1 * D2 = 0) :
    Module.finrank F (LinearMap.ker D1.mulVecLin ⧸ (LinearMap.range D2.mulVecLin).submoduleOf (LinearMap.ker D1.mulVecLin))
      + D2.rank + D1.rank = Fintype.card m := by
  have hle : LinearMap.range D2.mulVecLin ≤ LinearMap.ker D1.mulVecLin := by
    rintro _ ⟨x, rfl⟩
    simp [LinearMap.mem_ker, hDD]
  have h1 := Submodule.finrank_quotient_add_finrank
    ((LinearMap.range D2.mulVecLin).submoduleOf (LinearMap.ker D1.mulVecLin))
  have h2 := (Submodule.submoduleOfEquivOfLe hle).finrank_eq
  have h3 := LinearMap.finrank_range_add_finrank_ker D1.mulVecLin
  rw [h2] at h1
  have h4 : Module.finrank F (LinearMap.range D2.mulVecLin) = D2.rank := rfl
  have h5 : Module.finrank F (LinearMap.range D1.mulVecLin) = D1.rank := rfl
  rw [Module.finrank_fintype_fun_eq_card] at h3
  omega

namespace SCpx
open Reduction
variable {F : Type} [Field F] [DecidableEq F] {X : SCpx} {cells : Cells} {B : List (CMat F)} {K : Finset (Finset Nat)}

/-- `K` consists of the vertex sets of the cells, which are stored in increasing order -/
structure VertexSets (cells : Cells) (K : Finset (Finset Nat)) : Prop where
  sorted : ∀ d s, s ∈ cells d → s.Pairwise (· < ·)
  mem : ∀ σ, σ ∈ K ↔ σ.sort (· ≤ ·) ∈ setOf cells

theorem VertexSets.mem_card (hv : VertexSets cells K) {σ : Finset Nat} {d : Nat} (hc : σ.card = d + 1) : σ ∈ K ↔ σ.sort (· ≤ ·) ∈ cells d := by
  rw [hv.mem, mem_setOf (d := d) (by rw [Finset.length_sort]; exact hc)]

theorem sort_toFinset_of_sorted {s : List Nat} (hs : s.Pairwise (· < ·)) : s.toFinset.sort (· ≤ ·) = s := by
  apply toFinset_inj_of_sorted (pairwise_sort_lt _) hs
  rw [Finset.sort_toFinset]

noncomputable def eqv (h : Inv X cells) (hv : VertexSets cells K) (hc : ∀ k, cdim B k = (cells k).length) (k : Nat) :
    Fin (cdim B k) ≃ Simps K (k + 1) where
  toFun j := ⟨((cells k)[j.1]'(by rw [← hc]; exact j.2)).toFinset, by
    have hm : (cells k)[j.1]'(by rw [← hc]; exact j.2) ∈ cells k := List.getElem_mem _
    have hs := hv.sorted k _ hm
    have hcard : ((cells k)[j.1]'(by rw [← hc]; exact j.2)).toFinset.card = k + 1 := by
      rw [List.card_toFinset, List.dedup_eq_self.2 (hs.imp (fun h => ne_of_lt h)), h.ok.len _ _ hm]
    refine ⟨(hv.mem_card hcard).2 ?_, hcard⟩
    rw [sort_toFinset_of_sorted hs]; exact hm⟩
  invFun σ := ⟨(cells k).idxOf (σ.1.sort (· ≤ ·)), by
    rw [hc]; exact List.idxOf_lt_length_iff.2 ((hv.mem_card σ.2.2).1 σ.2.1)⟩
  left_inv j := by
    apply Fin.ext
    have hm : (cells k)[j.1]'(by rw [← hc]; exact j.2) ∈ cells k := List.getElem_mem _
    have hs := hv.sorted k _ hm
    show (cells k).idxOf (((cells k)[j.1]'(by rw [← hc]; exact j.2)).toFinset.sort (· ≤ ·)) = j.1
    rw [sort_toFinset_of_sorted hs]
    exact (h.ok.nodup k).idxOf_getElem _ _
  right_inv σ := by
    apply Subtype.ext
    show ((cells k)[(cells k).idxOf (σ.1.sort (· ≤ ·))]'_).toFinset = σ.1
    rw [List.getElem_idxOf, Finset.sort_toFinset]

theorem eqv_val (h : Inv X cells) (hv : VertexSets cells K) (hc : ∀ k, cdim B k = (cells k).length) (k : Nat) (j : Fin (cdim B k)) :
    (eqv h hv hc k j).1 = ((cells k)[j.1]'(by rw [← hc]; exact j.2)).toFinset := rfl

theorem boundary_spec_eq (h : Inv X cells) (hv : VertexSets cells K) (hc : ∀ k, cdim B k = (cells k).length)
    (hb : ∀ d, d + 1 < X.ncells.length → ∃ M, B[d + 1]? = some M ∧ BdMat cells d M) (k : Nat) :
    (simplicialBoundary F K (k + 1)).submatrix (eqv h hv hc k) (eqv h hv hc (k + 1)) = (-1 : F) ^ k • bdryUp B k := by
  ext i j
  rw [Matrix.submatrix_apply, Matrix.smul_apply, smul_eq_mul]
  have hj : j.1 < (cells (k + 1)).length := by rw [← hc]; exact j.2
  have hi : i.1 < (cells k).length := by rw [← hc]; exact i.2
  have hs : (cells (k + 1))[j.1]? = some (cells (k + 1))[j.1] := List.getElem?_eq_getElem hj
  show _ = _ * ent B (k + 1) i j
  rw [ent_eq h hb hs]
  have hm : (cells (k + 1))[j.1] ∈ cells (k + 1) := List.getElem_mem _
  have hsort := hv.sorted _ _ hm
  have hnd : (cells (k + 1))[j.1].Nodup := hsort.imp (fun h => ne_of_lt h)
  have hlen := h.ok.len _ _ hm
  show (∑ v ∈ (cells (k + 1))[j.1].toFinset, if (cells (k + 1))[j.1].toFinset.erase v = (cells k)[i.1].toFinset then
    (-1 : F) ^ ((cells (k + 1))[j.1].toFinset.filter (· < v)).card else 0) = _
  rw [sum_toFinset_range hnd, hlen, Finset.mul_sum]
  apply Finset.sum_congr rfl
  intro l hl
  rw [Finset.mem_range] at hl
  have hl' : l < (cells (k + 1))[j.1].length := by omega
  have hg : (cells (k + 1))[j.1].getD l 0 = (cells (k + 1))[j.1][l] := by
    rw [List.getD_eq_getElem?_getD, List.getElem?_eq_getElem hl']; rfl
  rw [hg, ← toFinset_eraseIdx hnd hl', card_filter_lt hsort hl']
  have hfm := h.ok.closed k _ hm l hl
  have hiff : ((cells (k + 1))[j.1].eraseIdx l).toFinset = (cells k)[i.1].toFinset ↔ (cells k).idxOf ((cells (k + 1))[j.1].eraseIdx l) = i.1 := by
    constructor
    · intro e
      have := toFinset_inj_of_sorted (hv.sorted _ _ hfm) (hv.sorted _ _ (List.getElem_mem hi)) e
      rw [this]; exact (h.ok.nodup k).idxOf_getElem _ _
    · intro e
      have : (cells k)[(cells k).idxOf ((cells (k + 1))[j.1].eraseIdx l)]'(List.idxOf_lt_length_iff.2 hfm) = (cells k)[i.1] := by
        congr 1
      rw [List.getElem_idxOf] at this
      rw [this]
  simp only [hiff]
  split
  · rw [← pow_add]
    rw [show k + (k + l) = 2 * k + l by ring, pow_add, pow_mul]; simp
  · simp

/-- Betti numbers of the stored chain complex are the simplicial Betti numbers -/
theorem betti_simplicial (h : Inv X cells) (hv : VertexSets cells K) (h0 : B[0]? = some (CMat.zero 1 (cells 0).length)) (hl : B.length = X.ncells.length)
    (hb : ∀ d, d + 1 < X.ncells.length → ∃ M, B[d + 1]? = some M ∧ BdMat cells d M) (k : Nat) :
    bettiNumber B k = simplicialBetti F K k := by
  have hc := cdim_eq h h0 hl hb
  have hspec : ∀ k, simplicialBoundary F K (k + 1) = (-1 : F) ^ k • (bdryUp B k).submatrix (eqv h hv hc k).symm (eqv h hv hc (k + 1)).symm := by
    intro k
    have := boundary_spec_eq h hv hc hb k
    ext σ τ
    have e := congrFun (congrFun this ((eqv h hv hc k).symm σ)) ((eqv h hv hc (k + 1)).symm τ)
    simpa using e
  have hne : ∀ k : Nat, (-1 : F) ^ k ≠ 0 := fun k => pow_ne_zero _ (neg_ne_zero.2 one_ne_zero)
  have hrank : ∀ k, (simplicialBoundary F K (k + 1)).rank = (bdryUp B k).rank := by
    intro k
    rw [hspec, rank_smul_ne _ (hne k), Matrix.rank_submatrix]
  have hemp : IsEmpty (Simps K 0) := by
    constructor
    rintro ⟨σ, h1, h2⟩
    rw [Finset.card_eq_zero] at h2
    subst h2
    have := (hv.mem ∅).1 h1
    exact this.1 (by simp)
  have hzero : simplicialBoundary F K 0 = 0 := by ext i; exact (hemp.false i).elim
  have hb0 : bdry B 0 = 0 := by
    ext i m
    show coef ((B.getD 0 ⟨0, []⟩).cols.getD m []) i = 0
    rw [List.getD_eq_getElem?_getD (l := B), h0, Option.getD_some]
    simp only [CMat.zero, List.getD_eq_getElem?_getD, List.getElem?_replicate]
    split <;> simp
  have hr : (simplicialBoundary F K k).rank = (bdry B k).rank := by
    cases k with
    | zero => rw [hzero, hb0, Matrix.rank_zero, Matrix.rank_zero]
    | succ k => exact hrank k
  have hsq : simplicialBoundary F K k * simplicialBoundary F K (k + 1) = 0 := by
    cases k with
    | zero => rw [hzero, Matrix.zero_mul]
    | succ k =>
      rw [hspec, hspec, Matrix.smul_mul, Matrix.mul_smul, Matrix.submatrix_mul_equiv]
      have := square_zero h h0 hl hb (k + 1)
      have e : bdryUp B k * bdryUp B (k + 1) = 0 := this
      rw [e]; simp
  have e1 := finrank_homology' _ _ (square_zero h h0 hl hb k)
  have e2 := finrank_homology' _ _ hsq
  have hcard : Fintype.card (Simps K (k + 1)) = Fintype.card (Fin (cdim B k)) := (Fintype.card_congr (eqv h hv hc k)).symm
  rw [hr, hrank k, hcard] at e2
  unfold bettiNumber Homology cycles BATS.boundaries simplicialBetti
  omega

end SCpx
end BATS
