import Verif.Proofs.Chain
import Verif.Proofs.Homology
import Mathlib.LinearAlgebra.Matrix.Rank

set_option linter.unusedSectionVars false
set_option linter.unusedVariables false
set_option linter.unusedSimpArgs false

/-! # Reindexed chain complexes -/

namespace BATS
open Reduction Matrix

variable {F : Type} [Field F] [DecidableEq F]

/-- `B'` is `B` with the basis element `τ k i` of dimension `k` renamed to `i` -/
structure ReindexedBy (B B' : List (CMat F)) (τ : Nat → Nat → Nat) : Prop where
  ok : ShapesOK B
  ne : 0 < B.length
  same : SameShape B B'
  lt : ∀ k i, i < cdim B k → τ k i < cdim B k
  inj : ∀ k i i', i < cdim B k → i' < cdim B k → τ k i = τ k i' → i = i'
  zero : ∀ i j, i < rdim B 0 → j < cdim B 0 → ent B' 0 i j = ent B 0 i (τ 0 j)
  succ : ∀ k i j, k + 1 < B.length → i < cdim B k → j < cdim B (k + 1) → ent B' (k + 1) i j = ent B (k + 1) (τ k i) (τ (k + 1) j)

namespace ReindexedBy
variable {B B' : List (CMat F)} {τ : Nat → Nat → Nat}

/-- the index map as a bijection -/
noncomputable def eqv (h : ReindexedBy B B' τ) (k : Nat) : Fin (cdim B' k) ≃ Fin (cdim B k) :=
  (finCongr (h.same.cdim k)).trans (Equiv.ofBijective (fun i => (⟨τ k i, h.lt k i i.2⟩ : Fin (cdim B k)))
    ((Finite.injective_iff_bijective).1 (fun i j e => Fin.ext (h.inj k i j i.2 j.2 (by simpa using e)))))

theorem eqv_val (h : ReindexedBy B B' τ) (k : Nat) (i : Fin (cdim B' k)) : (h.eqv k i).val = τ k i.val := rfl

/-- the row bijection of the `k`-th boundary -/
noncomputable def reqv (h : ReindexedBy B B' τ) : (k : Nat) → Fin (rdim B' k) ≃ Fin (rdim B k)
  | 0 => finCongr (h.same.rdim h.ne 0)
  | k + 1 => h.eqv k

theorem bdry_eq (h : ReindexedBy B B' τ) (k : Nat) : bdry B' k = (bdry B k).submatrix (h.reqv k) (h.eqv k) := by
  ext i j
  show ent B' k i j = ent B k (h.reqv k i) (h.eqv k j)
  have hj : j.val < cdim B k := by rw [← h.same.cdim]; exact j.2
  cases k with
  | zero =>
    have hi : i.val < rdim B 0 := by rw [← h.same.rdim h.ne]; exact i.2
    rw [h.zero i j hi hj]; rfl
  | succ k =>
    have hi : i.val < cdim B k := by rw [← h.same.cdim]; exact i.2
    by_cases hk : k + 1 < B.length
    · rw [h.succ k i j hk hi hj]; rfl
    · have := cdim_of_ge (B := B) (k := k + 1) (by omega); omega

theorem bdryUp_eq (h : ReindexedBy B B' τ) (k : Nat) : bdryUp B' k = (bdryUp B k).submatrix (h.eqv k) (h.eqv (k + 1)) :=
  h.bdry_eq (k + 1)

theorem complex (h : ReindexedBy B B' τ) (hB : IsChainComplex B) : IsChainComplex B' := by
  refine ⟨by intro e; have := h.same.len; have := h.ne; rw [e] at *; simp at *; omega, h.same.ok h.ok, ?_⟩
  intro k hk
  rw [h.bdry_eq, h.bdryUp_eq, submatrix_mul_equiv, hB.sq' k]
  rfl

theorem betti_eq (h : ReindexedBy B B' τ) (hB : IsChainComplex B) (k : Nat) : bettiNumber B' k = bettiNumber B k := by
  have h1 := finrank_homology (bdry B' k) (bdryUp B' k) ((h.complex hB).sq' k)
  have h2 := finrank_homology (bdry B k) (bdryUp B k) (hB.sq' k)
  have r1 : (bdry B' k).rank = (bdry B k).rank := by rw [h.bdry_eq, Matrix.rank_submatrix]
  have r2 : (bdryUp B' k).rank = (bdryUp B k).rank := by rw [h.bdryUp_eq, Matrix.rank_submatrix]
  have hc : Fintype.card (Fin (cdim B' k)) = Fintype.card (Fin (cdim B k)) := Fintype.card_congr (h.eqv k)
  rw [r1, r2, hc] at h1
  show Module.finrank F (Homology B' k) = Module.finrank F (Homology B k)
  unfold Homology cycles boundaries
  omega

end ReindexedBy

theorem sigma_getD : SigmaOK (fun p i => p.getD i 0) := by
  intro n p hp i hi
  have hl := Perm.isPerm_length hp
  have : p.getD i 0 = p[i]'(by omega) := by
    rw [List.getD_eq_getElem?_getD, List.getElem?_eq_getElem (by omega)]; rfl
  simp only [this]
  exact (Perm.isPerm_mem hp).1 (List.getElem_mem _)

theorem sigma_idxOf : SigmaOK (fun p i => p.idxOf i) := by
  intro n p hp i hi
  have hl := Perm.isPerm_length hp
  show p.idxOf i < n
  rw [← hl]
  exact List.idxOf_lt_length_iff.2 ((Perm.isPerm_mem hp).2 hi)

theorem ent_zero_bdry {B : List (CMat F)} (h : ZeroBdry0 B) (i j : Nat) : ent B 0 i j = 0 := by
  unfold ent
  have : (B.getD 0 ⟨0, []⟩).cols.getD j [] = [] := by
    rw [List.getD_eq_getElem?_getD]
    cases e : (B.getD 0 ⟨0, []⟩).cols[j]? with
    | none => rfl
    | some c => exact h c (List.mem_of_getElem? e)
  rw [this]; rfl

theorem stepFrom_reindexed {σ : List Nat → Nat → Nat} (hσ : SigmaOK σ)
    (hinj : ∀ n p, IsPermOf n p → ∀ i i', i < n → i' < n → σ p i = σ p i' → i = i')
    {stp : List (CMat F) → Nat → List Nat → Res (List (CMat F))} (hstp : StepSpec σ stp)
    {B : List (CMat F)} (h2 : 2 ≤ B.length) (hB : ShapesOK B) (h0 : ZeroBdry0 B) {ps : List (List Nat)}
    (hl : ps.length = B.length) (hp : ∀ k, k < B.length → IsPermOf (cdim B k) (ps.getD k [])) :
    ∃ B', stepFrom stp 0 ps B = .ok B' ∧ ReindexedBy B B' (fun k i => σ (ps.getD k []) i) := by
  obtain ⟨B', h1, hs, he⟩ := stepFrom_spec hσ hstp ps 0 B h2 (by omega) hB (fun a ha => by
    rw [Nat.zero_add]; exact hp a (by omega))
  have hk0 : ∀ k, ¬ k < B.length → cdim B k = 0 := fun k hk => cdim_of_ge (by omega)
  refine ⟨B', h1, hB, by omega, hs, ?_, ?_, ?_, ?_⟩
  · intro k i hi
    by_cases hk : k < B.length
    · exact hσ _ _ (hp k hk) i hi
    · rw [hk0 k hk] at hi; omega
  · intro k i i' hi hi' e
    by_cases hk : k < B.length
    · exact hinj _ _ (hp k hk) i i' hi hi' e
    · rw [hk0 k hk] at hi; omega
  · intro i j hi hj
    rw [he 0 i j (by omega) hi hj, ent_zero_bdry h0, ent_zero_bdry h0]
  · intro k i j hk hi hj
    rw [he (k + 1) i j hk hi hj, if_pos (by omega), if_pos (by omega)]
    simp

theorem getD_inj (n : Nat) (p : List Nat) (hp : IsPermOf n p) (i i' : Nat) (hi : i < n) (hi' : i' < n)
    (e : p.getD i 0 = p.getD i' 0) : i = i' := by
  have hl := Perm.isPerm_length hp
  have e1 : p.getD i 0 = p[i]'(by omega) := by rw [List.getD_eq_getElem?_getD, List.getElem?_eq_getElem (by omega)]; rfl
  have e2 : p.getD i' 0 = p[i']'(by omega) := by rw [List.getD_eq_getElem?_getD, List.getElem?_eq_getElem (by omega)]; rfl
  rw [e1, e2] at e
  exact (Perm.isPerm_nodup hp).getElem_inj_iff.1 e

theorem idxOf_inj (n : Nat) (p : List Nat) (hp : IsPermOf n p) (i i' : Nat) (hi : i < n) (hi' : i' < n)
    (e : p.idxOf i = p.idxOf i') : i = i' := by
  have hm : i ∈ p := (Perm.isPerm_mem hp).2 hi
  have hm' : i' ∈ p := (Perm.isPerm_mem hp).2 hi'
  have e1 : p[p.idxOf i]'(List.idxOf_lt_length_iff.2 hm) = i := by simp
  have e2 : p[p.idxOf i']'(List.idxOf_lt_length_iff.2 hm') = i' := by simp
  rw [← e1, ← e2]
  congr 1

theorem ipermuteBasis_spec {B : List (CMat F)} (h2 : 2 ≤ B.length) (hB : ShapesOK B) (h0 : ZeroBdry0 B) {ps : List (List Nat)}
    (hl : ps.length = B.length) (hp : ∀ k, k < B.length → IsPermOf (cdim B k) (ps.getD k [])) :
    ∃ B', Cpx.ipermuteBasis B ps = .ok B' ∧ ReindexedBy B B' (fun k i => (ps.getD k []).getD i 0) := by
  unfold Cpx.ipermuteBasis
  rw [ipermuteBasisFrom_eq]
  exact stepFrom_reindexed sigma_getD getD_inj ipermuteBasis1_spec h2 hB h0 hl hp

theorem permuteBasis_spec {B : List (CMat F)} (h2 : 2 ≤ B.length) (hB : ShapesOK B) (h0 : ZeroBdry0 B) {ps : List (List Nat)}
    (hl : ps.length = B.length) (hp : ∀ k, k < B.length → IsPermOf (cdim B k) (ps.getD k [])) :
    ∃ B', Cpx.permuteBasis B ps = .ok B' ∧ ReindexedBy B B' (fun k i => (ps.getD k []).idxOf i) := by
  unfold Cpx.permuteBasis
  rw [permuteBasisFrom_eq]
  exact stepFrom_reindexed sigma_idxOf idxOf_inj permuteBasis1_spec h2 hB h0 hl hp

end BATS
