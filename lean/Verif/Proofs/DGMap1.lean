import Verif.Model.DGMap
import Verif.Spec.DGMap
import Verif.Proofs.DG8
import Verif.Proofs.Induced
import Verif.Proofs.ZZPref

set_option linter.unusedSectionVars false
set_option linter.unusedVariables false
set_option linter.unusedSimpArgs false

/-! # Induced maps of DG vector spaces of degree `-1`: reduction to complexes -/

namespace BATS
namespace DG
open Reduction Matrix

variable {F : Type} [Field F] [DecidableEq F]

/-- the reduction of the complex `A` that contains the data of a reduced DG vector space of degree `-1` -/
def toCpx (b : Bool) (A : List (CMat F)) (X : RedDG F) : RedCpx F :=
  ⟨(List.range A.length).map (fun k => X.U.getD k ⟨0, []⟩),
   (List.range A.length).map (fun k => if k = 0 ∧ b = false then ⟨rdim A 0, (X.R.getD 0 ⟨0, []⟩).cols⟩ else X.R.getD k ⟨0, []⟩),
   (List.range A.length).map (fun k => X.I.getD k []),
   (List.range A.length).map (fun k => if k = 0 ∧ b = false then List.replicate (rdim A 0) none else X.p2c.getD k [])⟩

theorem getD_map_range {α : Type} {N k : Nat} (hk : k < N) (f : Nat → α) (d : α) : ((List.range N).map f).getD k d = f k := by
  rw [List.getD_eq_getElem?_getD, List.getElem?_map, List.getElem?_range hk]; rfl

theorem rd_map_range {α : Type} {N k : Nat} (hk : k < N) (f : Nat → α) : rd ((List.range N).map f) k = .ok (f k) := by
  unfold rd
  rw [List.getElem?_map, List.getElem?_range hk]; rfl

variable {b : Bool} {A D : List (CMat F)} {X : RedDG F}

theorem augmentable_of_degree0 (hA : IsChainComplex A) (h0 : Degree0 b A) : b = true → Augmentable A := by
  intro hb
  subst hb
  unfold Degree0 at h0
  rw [if_pos rfl] at h0
  intro j
  by_cases h1 : 1 < A.length
  · have := congrFun (congrFun (hA.sq 0 h1) ⟨0, by rw [h0.1]; omega⟩) j
    rw [Matrix.mul_apply] at this
    rw [← Matrix.zero_apply (α := F) (⟨0, by rw [h0.1]; omega⟩ : Fin (rdim A 0)) j, ← this]
    apply Finset.sum_congr rfl
    intro i _
    have : bdry A 0 ⟨0, by rw [h0.1]; omega⟩ i = 1 := h0.2 i i.isLt
    rw [this, one_mul]
  · have := cdim_of_ge (B := A) (k := 1) (by omega)
    exact absurd j.isLt (by omega)

theorem toCpx_basis (hA : IsChainComplex A) (h0 : Degree0 b A) (hS : DGSorted false (aug b) A (fun _ i => i) D)
    (h : DGBasis false (aug b) A.length (cdim A) D X) : BasisOK A (toCpx b A X) := by
  have hN := one_le_length hA
  have key : ∀ k, k < A.length → LevelOK (rdim A k) (cdim A k) (A.getD k ⟨0, []⟩) ((toCpx b A X).R.getD k ⟨0, []⟩) ((toCpx b A X).p2c.getD k []) ∧
      FactorOK (rdim A k) (cdim A k) (A.getD k ⟨0, []⟩) ((toCpx b A X).R.getD k ⟨0, []⟩) ((toCpx b A X).U.getD k ⟨0, []⟩) := by
    intro k hk
    have e1 : (toCpx b A X).U.getD k ⟨0, []⟩ = X.U.getD k ⟨0, []⟩ := getD_map_range hk _ _
    have e2 : (toCpx b A X).R.getD k ⟨0, []⟩ = if k = 0 ∧ b = false then ⟨rdim A 0, (X.R.getD 0 ⟨0, []⟩).cols⟩ else X.R.getD k ⟨0, []⟩ := getD_map_range hk _ _
    have e3 : (toCpx b A X).p2c.getD k [] = if k = 0 ∧ b = false then List.replicate (rdim A 0) none else X.p2c.getD k [] := getD_map_range hk _ _
    rw [e1, e2, e3]
    have hlev := h.tab.lev k (by omega)
    have hfac := h.fac k (by omega)
    cases k with
    | succ k =>
      rw [if_neg (by simp), if_neg (by simp)]
      have hM : (A.getD (k + 1) ⟨0, []⟩).mat (cdim A k) (cdim A (k + 1)) = (D.getD (k + 1) ⟨0, []⟩).mat (cdim A k) (cdim A (k + 1)) := by
        ext i j
        exact (hS.succ k i j hk i.isLt j.isLt).symm
      exact ⟨LevelOK.congr hlev (hA.shape (k + 1) hk) hlev.shapeR hM rfl, FactorOK.congr hfac hfac.shape hM rfl rfl⟩
    | zero =>
      cases b with
      | true =>
        rw [if_neg (by simp), if_neg (by simp)]
        unfold Degree0 at h0
        rw [if_pos rfl] at h0
        have hsh := hA.shape 0 hk
        rw [h0.1] at hsh ⊢
        have hM : (A.getD 0 ⟨0, []⟩).mat 1 (cdim A 0) = (D.getD 0 ⟨0, []⟩).mat 1 (cdim A 0) := by
          ext i j
          have hi : i = 0 := Subsingleton.elim _ _
          subst hi
          have q1 := h0.2 j j.isLt
          have q2 := hS.zero 0 j (by decide) j.isLt
          exact q1.trans q2.symm
        exact ⟨LevelOK.congr hlev hsh hlev.shapeR hM rfl, FactorOK.congr hfac hfac.shape hM rfl rfl⟩
      | false =>
        rw [if_pos ⟨rfl, rfl⟩, if_pos ⟨rfl, rfl⟩]
        have hz : ZeroBdry0 A := h0
        have hnil : ∀ c ∈ (X.R.getD 0 ⟨0, []⟩).cols, c = [] := by
          intro c hc
          have hs := hlev.shapeR
          have := (hs.ok c hc).2
          rw [hs.nrow] at this
          cases c with
          | nil => rfl
          | cons p c => have h1 := this p (by simp); exact absurd h1 (Nat.not_lt_zero _)
        have hRc : (X.R.getD 0 ⟨0, []⟩).cols.length = cdim A 0 := hlev.shapeR.ncol
        have hRsh : (⟨rdim A 0, (X.R.getD 0 ⟨0, []⟩).cols⟩ : CMat F).Shape (rdim A 0) (cdim A 0) := by
          refine ⟨?_, rfl, hRc⟩
          intro c hc
          rw [hnil c hc]
          exact ⟨vecOK_nil, below_nil _⟩
        have hR0 : (⟨rdim A 0, (X.R.getD 0 ⟨0, []⟩).cols⟩ : CMat F).mat (rdim A 0) (cdim A 0) = 0 := by
          ext i j
          show coef ((X.R.getD 0 ⟨0, []⟩).cols.getD j []) i = 0
          have hj : j.val < (X.R.getD 0 ⟨0, []⟩).cols.length := by rw [hRc]; exact j.isLt
          rw [List.getD_eq_getElem?_getD (l := (X.R.getD 0 ⟨0, []⟩).cols), List.getElem?_eq_getElem hj]
          show coef ((X.R.getD 0 ⟨0, []⟩).cols[j.val]'hj) i = 0
          rw [hnil _ (List.getElem_mem _)]
          rfl
        have hM0 : (A.getD 0 ⟨0, []⟩).mat (rdim A 0) (cdim A 0) = 0 := zeroBdry_zero hz
        refine ⟨⟨hA.shape 0 hk, hRsh, ?_, ?_⟩, ⟨hfac.shape, hfac.upper, ?_⟩⟩
        · rw [hR0]
          refine ⟨by simp, ?_, ?_⟩
          · intro i k hik
            rw [List.getElem?_replicate] at hik
            split at hik <;> simp at hik
          · intro i j
            rw [List.getElem?_replicate]
            constructor
            · intro hik; split at hik <;> simp at hik
            · intro hl; exact absurd rfl hl.1
        · intro i j
          rw [hR0, hM0]
          constructor
          · intro hl; exact absurd rfl hl.1
          · intro hp; exact absurd hp (no_pivot_zero rfl i j)
        · rw [hM0, hR0, Matrix.zero_mul]
  refine ⟨⟨by simp [toCpx], by simp [toCpx], by simp [toCpx], fun k hk => (key k hk).1, ?_, ?_⟩, by simp [toCpx], fun k hk => (key k hk).2⟩
  · intro k hk
    have e : (toCpx b A X).I.getD k [] = X.I.getD k [] := getD_map_range hk _ _
    rw [e]
    exact h.tab.sorted k hk
  · intro k hk j
    have e : (toCpx b A X).I.getD k [] = X.I.getD k [] := getD_map_range hk _ _
    rw [e]
    have hin := h.tab.inds k hk j
    have hin' : j ∈ X.I.getD k [] ↔ j < cdim A k ∧ (X.R.getD k ⟨0, []⟩).cols.getD j [] = [] ∧ (X.p2c.getD (k + 1) []).getD j none = none := hin
    rw [hin']
    have hc : ((toCpx b A X).R.getD k ⟨0, []⟩).cols = (X.R.getD k ⟨0, []⟩).cols := by
      have e2 : (toCpx b A X).R.getD k ⟨0, []⟩ = if k = 0 ∧ b = false then ⟨rdim A 0, (X.R.getD 0 ⟨0, []⟩).cols⟩ else X.R.getD k ⟨0, []⟩ := getD_map_range hk _ _
      rw [e2]
      split
      · rename_i hh; rw [hh.1]
      · rfl
    have hp : ∀ (hj : j < cdim A k), (X.p2c.getD (k + 1) []).getD j none = none ↔ ∀ l, ¬ IsPivot (bdryUp A k) ⟨j, hj⟩ l := by
      intro hj
      by_cases hk1 : k + 1 < A.length
      · have e3 : (toCpx b A X).p2c.getD (k + 1) [] = X.p2c.getD (k + 1) [] := by
          have : (toCpx b A X).p2c.getD (k + 1) [] = if k + 1 = 0 ∧ b = false then List.replicate (rdim A 0) none else X.p2c.getD (k + 1) [] := getD_map_range hk1 _ _
          rw [this, if_neg (by simp)]
        rw [← e3]
        exact (key (k + 1) hk1).1.p2c_none_iff ⟨j, hj⟩
      · have hc0 := cdim_of_ge (B := A) (k := k + 1) (by omega)
        have ht := (h.tab.lev (k + 1) (by omega)).table
        constructor
        · intro _ l; exact absurd l.isLt (by omega)
        · intro _
          cases hq : (X.p2c.getD (k + 1) []).getD j none with
          | none => rfl
          | some i =>
            have : (X.p2c.getD (k + 1) [])[j]? = some (some i) := by
              rw [List.getD_eq_getElem?_getD (l := X.p2c.getD (k + 1) [])] at hq
              cases hz : (X.p2c.getD (k + 1) [])[j]? with
              | none => rw [hz] at hq; cases hq
              | some y => rw [hz] at hq; exact congrArg some hq
            have hb := ht.bound j i this
            have hb' : i < cdim A (k + 1) := hb
            omega
    constructor
    · rintro ⟨hj, h1, h2⟩
      refine ⟨hj, ?_, (hp hj).1 h2⟩
      rw [← hc] at h1
      exact ((key k hk).1.col_nil_iff ⟨j, hj⟩).1 h1
    · rintro ⟨hj, h1, h2⟩
      refine ⟨hj, ?_, (hp hj).2 h2⟩
      rw [← hc]
      exact ((key k hk).1.col_nil_iff ⟨j, hj⟩).2 h1

end DG
end BATS
