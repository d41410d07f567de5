import Verif.Proofs.QuiverBars
import Mathlib.LinearAlgebra.FiniteDimensional.Lemmas
import Mathlib.LinearAlgebra.Matrix.NonsingularInverse
import Mathlib.LinearAlgebra.StdBasis

set_option linter.unusedSectionVars false
set_option linter.unusedVariables false
set_option linter.unusedSimpArgs false

/-! # From a barcode form to an interval decomposition -/

namespace BATS
namespace Quiver
open Matrix Reduction CMat BATS.Fact

variable {F : Type} [Field F] [DecidableEq F]

/-- the matrices `mats` fit the diagram and have at most one entry in every row and column -/
def FormOK (D : Dgm F) (d : Nat → Nat) (mats : List (CMat F)) : Prop :=
  mats.length = D.edata.length ∧ ∀ k, k < D.edata.length →
    if left D k then (mats.getD k ⟨0, []⟩).Shape (d k) (d (k + 1)) ∧ Monomial ((mats.getD k ⟨0, []⟩).mat (d k) (d (k + 1)))
    else (mats.getD k ⟨0, []⟩).Shape (d (k + 1)) (d k) ∧ Monomial ((mats.getD k ⟨0, []⟩).mat (d (k + 1)) (d k))

theorem isLeft_ok {D : Dgm F} {d : Nat → Nat} (hD : IsZigzag D d) {k : Nat} (hk : k < D.edata.length) : isLeft D k = .ok (left D k) := by
  unfold isLeft left
  rw [rd_getD (0, 0) (by rw [hD.len]; exact hk)]
  rfl

theorem barsLoop_spec {D : Dgm F} {d : Nat → Nat} (hD : IsZigzag D d) {mats : List (CMat F)} (hf : FormOK D d mats) :
    ∀ (n k : Nat) (bars : List QBar) (p2i : Nat → Option Nat) (ℓ : Nat → Nat → Nat) (c : Nat → Nat → F), k + n = D.edata.length →
      BI D d mats k bars p2i ℓ c → ∃ bars' p2i' ℓ' c', barsLoop mats D n k bars p2i = .ok bars' ∧ BI D d mats D.edata.length bars' p2i' ℓ' c'
  | 0, k, bars, p2i, ℓ, c, hk, h => by
    rw [Nat.add_zero] at hk; rw [← hk]
    exact ⟨bars, p2i, ℓ, c, rfl, h⟩
  | n + 1, k, bars, p2i, ℓ, c, hk, h => by
    have hkm : k < D.edata.length := by omega
    have hrd : rd mats k = .ok (mats.getD k ⟨0, []⟩) := rd_getD _ (by rw [hf.1]; exact hkm)
    have hs := hf.2 k hkm
    rw [barsLoop, isLeft_ok hD hkm]
    by_cases hl : left D k = true
    · rw [if_pos hl] at hs
      obtain ⟨bars', p2i', ℓ', c', e, hBI⟩ := step h hs.1 hs.2 (fun r j hr hj => by rw [if_pos hl])
      obtain ⟨b, p, l, cc, e', hB⟩ := barsLoop_spec hD hf n (k + 1) bars' p2i' ℓ' c' (by omega) hBI
      refine ⟨b, p, l, cc, ?_, hB⟩
      simp only [bind_ok, hrd, hl, if_true, e, e']
    · rw [if_neg hl] at hs
      obtain ⟨T, t1, t2, t3⟩ := transpose_spec hs.1
      obtain ⟨bars', p2i', ℓ', c', e, hBI⟩ := step h t2 (by rw [t3]; exact Monomial.transpose hs.2) (fun r j hr hj => by
        rw [if_neg hl]
        exact congrFun (congrFun t3 ⟨r, hr⟩) ⟨j, hj⟩)
      obtain ⟨b, p, l, cc, e', hB⟩ := barsLoop_spec hD hf n (k + 1) bars' p2i' ℓ' c' (by omega) hBI
      refine ⟨b, p, l, cc, ?_, hB⟩
      simp only [bind_ok, hrd, hl, t1, e, e', Bool.false_eq_true, if_false]

theorem barsFromForm_spec {D : Dgm F} {d : Nat → Nat} (hD : IsZigzag D d) {mats : List (CMat F)} (hf : FormOK D d mats) :
    ∃ bars p2i ℓ c, barsFromForm mats D = .ok bars ∧ BI D d mats D.edata.length bars p2i ℓ c := by
  have h0 : 0 < D.edata.length := List.length_pos_iff.2 hD.ne
  have hrd : rd mats 0 = .ok (mats.getD 0 ⟨0, []⟩) := rd_getD _ (by rw [hf.1]; exact h0)
  have hn : (if left D 0 then (mats.getD 0 ⟨0, []⟩).nrow else (mats.getD 0 ⟨0, []⟩).cols.length) = d 0 := by
    have hs := hf.2 0 h0
    split
    · rename_i hl; rw [if_pos hl] at hs; exact hs.1.nrow
    · rename_i hl; rw [if_neg hl] at hs; exact hs.1.ncol
  have hb : ∀ i, i < d 0 → bat ((List.range (d 0)).map (fun i => (⟨0, i, 0, i⟩ : QBar))) i = ⟨0, i, 0, i⟩ := by
    intro i hi; unfold bat; simp [hi]
  have hlen : ((List.range (d 0)).map (fun i => (⟨0, i, 0, i⟩ : QBar))).length = d 0 := by simp
  have hBI : BI D d mats 0 ((List.range (d 0)).map (fun i => ⟨0, i, 0, i⟩)) (fun i => if i < d 0 then some i else none) (fun _ i => i) (fun _ _ => 1) := by
    refine ⟨?_, ?_, ?_, ?_, ?_, ?_, ?_, ?_⟩
    · intro i hi; rw [hlen] at hi; rw [hb i hi]; exact ⟨le_refl _, le_refl _⟩
    · intro q hq i hi _; rw [hlen] at hi; have : q = 0 := by omega
      subst this; exact hi
    · intro q hq j hj; have : q = 0 := by omega
      subst this
      exact ⟨j, by rw [hlen]; exact hj, by rw [hb j hj]; exact ⟨le_refl _, le_refl _⟩, rfl⟩
    · intro q hq i i' _ _ _ _ h; exact h
    · intro q i; exact one_ne_zero
    · intro j hj; exact ⟨j, if_pos hj, by rw [hlen]; exact hj, by rw [hb j hj]; exact ⟨le_refl _, le_refl _⟩, rfl⟩
    · intro q hq; omega
    · intro i hi; rw [hlen] at hi; rw [hb i hi]; exact ⟨rfl, rfl⟩
  obtain ⟨b, p, l, c, e, hB⟩ := barsLoop_spec hD hf D.edata.length 0 _ _ _ _ (by omega) hBI
  refine ⟨b, p, l, c, ?_, hB⟩
  unfold barsFromForm
  simp only [isLeft_ok hD h0, hrd, bind_ok]
  rw [hn]
  exact e

/-- the matrices `N k` carry the diagram with matrices `mats` to the diagram `D` -/
def IsIso (D : Dgm F) (d : Nat → Nat) (mats : List (CMat F)) (N : (k : Nat) → Matrix (Fin (d k)) (Fin (d k)) F) : Prop :=
  (∀ k, k ≤ D.edata.length → IsUnit (N k)) ∧ ∀ k, k < D.edata.length →
    if left D k then (edge D k).mat (d k) (d (k + 1)) * N (k + 1) = N k * (mats.getD k ⟨0, []⟩).mat (d k) (d (k + 1))
    else (edge D k).mat (d (k + 1)) (d k) * N k = N (k + 1) * (mats.getD k ⟨0, []⟩).mat (d (k + 1)) (d k)

theorem bat_get {bars : List QBar} (i : Fin bars.length) : bat bars i = bars[i] := by
  unfold bat; rw [List.getD_eq_getElem?_getD, List.getElem?_eq_getElem i.2]; rfl

theorem mulVec_pick {m n : Nat} {M : CMat F} {ℓ : Nat} {c : F} (hl : ℓ < n) (r : Fin m) :
    (M.mat m n).mulVec (fun j : Fin n => if j.val = ℓ then c else 0) r = en M.cols ℓ r * c := by
  show ∑ j : Fin n, M.mat m n r j * (if j.val = ℓ then c else 0) = _
  rw [Finset.sum_eq_single ⟨ℓ, hl⟩]
  · rw [if_pos rfl]; rfl
  · intro b _ hb; rw [if_neg (fun h => hb (Fin.ext h)), mul_zero]
  · intro h; exact absurd (Finset.mem_univ _) h

theorem decomposition {D : Dgm F} {d : Nat → Nat} {mats : List (CMat F)} {N : (k : Nat) → Matrix (Fin (d k)) (Fin (d k)) F}
    (hN : IsIso D d mats N) {bars : List QBar} {p2i : Nat → Option Nat} {ℓ : Nat → Nat → Nat} {c : Nat → Nat → F}
    (h : BI D d mats D.edata.length bars p2i ℓ c) : IsDecomposition D d bars := by
  refine ⟨?_, fun k i => (N k).mulVec (fun j : Fin (d k) => if j.val = ℓ k i then c k i else 0), ?_, ?_⟩
  · intro b hb
    obtain ⟨i, hi, rfl⟩ := List.mem_iff_getElem.1 hb
    have := h.le i hi
    rw [bat_get ⟨i, hi⟩] at this
    exact this
  · intro k hk
    have hlt : ∀ i : {i : Fin bars.length // bars[i].At k}, ℓ k i.1 < d k := fun i => h.lt k hk i.1 i.1.2 (by rw [bat_get]; exact i.2)
    let σ : {i : Fin bars.length // bars[i].At k} → Fin (d k) := fun i => ⟨ℓ k i.1, hlt i⟩
    have hinj : Function.Injective σ := by
      intro i i' he
      have := h.inj k hk i.1 i'.1 i.1.2 i'.1.2 (by rw [bat_get]; exact i.2) (by rw [bat_get]; exact i'.2) (Fin.mk.inj_iff.1 he)
      exact Subtype.ext (Fin.ext this)
    have hsurj : Function.Surjective σ := by
      intro j
      obtain ⟨i, h1, h2, h3⟩ := h.surj k hk j j.2
      refine ⟨⟨⟨i, h1⟩, by rw [← bat_get]; exact h2⟩, Fin.ext h3⟩
    have hli : LinearIndependent F (fun i : {i : Fin bars.length // bars[i].At k} => (N k).mulVec (fun j : Fin (d k) => if j.val = ℓ k i.1 then c k i.1 else 0)) := by
      have h1 := (linearIndependent_cols_iff_isUnit.2 (hN.1 k hk)).comp σ hinj
      have h2 := h1.units_smul (fun i => Units.mk0 (c k i.1) (h.ne k i.1))
      convert h2 using 1
      funext i r
      show ∑ j : Fin (d k), N k r j * (if j.val = ℓ k i.1 then c k i.1 else 0) = c k i.1 * N k r (σ i)
      rw [Finset.sum_eq_single (σ i)]
      · rw [if_pos rfl, mul_comm]
      · intro b _ hb; rw [if_neg (fun hh => hb (Fin.ext hh)), mul_zero]
      · intro hh; exact absurd (Finset.mem_univ _) hh
    refine ⟨hli, hli.span_eq_top_of_card_eq_finrank' ?_⟩
    rw [Module.finrank_fin_fun, Fintype.card_of_bijective ⟨hinj, hsurj⟩, Fintype.card_fin]
  · intro k hk i
    have he := h.edge k hk i i.2
    have hiso := hN.2 k hk
    by_cases hl : left D k = true
    · rw [if_pos hl] at he hiso ⊢
      intro ha
      rw [Matrix.mulVec_mulVec, hiso, ← Matrix.mulVec_mulVec]
      have e : ((mats.getD k ⟨0, []⟩).mat (d k) (d (k + 1))).mulVec (fun j : Fin (d (k + 1)) => if j.val = ℓ (k + 1) i then c (k + 1) i else 0) =
          fun r : Fin (d k) => if bars[i].At k ∧ r.val = ℓ k i then c k i else 0 := by
        funext r
        rw [mulVec_pick (h.lt (k + 1) (by omega) i i.2 (by rw [bat_get]; exact ha)), he (by rw [bat_get]; exact ha) r r.2, bat_get]
      rw [e]
      split
      · rename_i hb; simp only [hb, true_and]
      · rename_i hb; simp only [hb, false_and, if_false]; exact Matrix.mulVec_zero _
    · rw [if_neg hl] at he hiso ⊢
      intro ha
      rw [Matrix.mulVec_mulVec, hiso, ← Matrix.mulVec_mulVec]
      have e : ((mats.getD k ⟨0, []⟩).mat (d (k + 1)) (d k)).mulVec (fun j : Fin (d k) => if j.val = ℓ k i then c k i else 0) =
          fun r : Fin (d (k + 1)) => if bars[i].At (k + 1) ∧ r.val = ℓ (k + 1) i then c (k + 1) i else 0 := by
        funext r
        rw [mulVec_pick (h.lt k (by omega) i i.2 (by rw [bat_get]; exact ha)), he (by rw [bat_get]; exact ha) r r.2, bat_get]
      rw [e]
      split
      · rename_i hb; simp only [hb, true_and]
      · rename_i hb; simp only [hb, false_and, if_false]; exact Matrix.mulVec_zero _

end Quiver
end BATS
