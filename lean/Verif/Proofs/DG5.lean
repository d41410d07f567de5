import Verif.Proofs.DG4

set_option linter.unusedSectionVars false
set_option linter.unusedVariables false
set_option linter.unusedSimpArgs false

/-! # Persistence pairs of filtered DG vector spaces: comparison with the chain complex pipeline -/

namespace BATS
namespace DG
open Reduction Matrix

variable {F : Type} [Field F] [DecidableEq F] {T : Type} [LinearOrder T]

theorem dg_pairs_list {co : Bool} {e : Nat} {B : List (CMat F)} (hB : IsChainComplex B) (ha : AugOK e B) {val : List (List T)} (hv : ValuesFor B val) {D : List (CMat F)}
    {X : RedFiltDG T F} (h : DGState co e B val D X) {C : List (CMat F)} {R : RedFiltCpx T F} (hp : PipeOK B val C R) {k : Nat} (hk : k < B.length) :
    ∃ f : Nat → Option (PPair T), X.persistencePairs k = .ok (if co then ((List.range (cdim C k)).filterMap f).reverse else (List.range (cdim C k)).filterMap f) ∧
      ∀ i : Fin (cdim C k), Step e C R k i (f i) := by
  classical
  cases co with
  | false =>
    have hst := fun i => h.step_hom hv hp hk i
    let f : Nat → Option (PPair T) := fun i => if hi : i < cdim C k then (hst ⟨i, hi⟩).choose else none
    have hf : ∀ i : Fin (cdim C k), f i = (hst i).choose := by
      intro i; simp only [f]; rw [dif_pos i.2]
    refine ⟨f, ?_, fun i => by rw [hf i]; exact (hst i).choose_spec.2⟩
    unfold RedFiltDG.persistencePairs
    have hc : (X.RC.R.getD k ⟨0, []⟩).cols.length = cdim C k := by
      have := (h.tab.lev k (by omega)).shapeR.ncol
      rw [this]; exact (hp.reidx.same.cdim k).symm
    rw [h.tab.deg, if_pos (show deg false = -1 from rfl), rd_getD ⟨0, []⟩ (by rw [h.tab.lenR]; omega), bind_ok, dgPairsLoop_spec _ f, hc, ← List.range_eq_range']
    · rfl
    · intro a ha'
      rw [Nat.zero_add]
      have := hf ⟨a, by rw [← hc]; exact ha'⟩
      simp only at this
      rw [this]
      exact (hst ⟨a, by rw [← hc]; exact ha'⟩).choose_spec.1
  | true =>
    have hst := fun i => h.step_coh hB ha hv hp hk i
    let f : Nat → Option (PPair T) := fun i => if hi : i < cdim C k then (hst ⟨i, hi⟩).choose else none
    have hf : ∀ i : Fin (cdim C k), f i = (hst i).choose := by
      intro i; simp only [f]; rw [dif_pos i.2]
    refine ⟨fun i => f (cdim C k - 1 - i), ?_, fun i => ?_⟩
    · unfold RedFiltDG.persistencePairs
      have hc : (X.RC.R.getD (k + 1) ⟨0, []⟩).cols.length = cdim C k := by
        have := (h.tab.lev (k + 1) (by omega)).shapeR.ncol
        rw [this]; exact (hp.reidx.same.cdim k).symm
      rw [h.tab.deg, if_neg (show ¬ deg true = -1 by decide), rd_getD ⟨0, []⟩ (by rw [h.tab.lenR]; omega), bind_ok, dgPairsLoop_spec _ f, hc, ← List.range_eq_range']
      · rw [if_pos rfl, ← List.filterMap_reverse]
        have : (List.range (cdim C k)).filterMap f = ((List.range (cdim C k)).reverse.map (fun i => cdim C k - 1 - i)).filterMap f := by
          congr 1
          apply List.ext_getElem
          · simp
          · intro m h1 h2
            simp at h1
            simp only [List.getElem_range, List.getElem_map, List.getElem_reverse, List.length_range]
            omega
        rw [this, List.filterMap_map]; rfl
      · intro a ha'
        rw [Nat.zero_add]
        have := hf ⟨a, by rw [← hc]; exact ha'⟩
        simp only at this
        rw [this]
        exact (hst ⟨a, by rw [← hc]; exact ha'⟩).choose_spec.1
    · have h1 : Step e C R k i (hst i.rev).choose := Eq.ndrec (motive := fun x => Step e C R k x (hst i.rev).choose) (hst i.rev).choose_spec.2 (Fin.rev_rev i)
      have h2 : f (cdim C k - 1 - i) = (hst i.rev).choose := by
        rw [← hf i.rev]
        congr 1
        simp [Fin.rev]; omega
      show Step e C R k i (f (cdim C k - 1 - i))
      rw [h2]; exact h1

/-- the pivots of a row of ones -/
theorem isPivot_ones {n : Nat} (i : Fin 1) (j : Fin n) : IsPivot (Matrix.of fun (_ : Fin 1) (_ : Fin n) => (1 : F)) i j ↔ j.val = 0 := by
  have key : ∀ j : Fin n, j.val = 0 → ∃ x : Fin n → F, VLow x j ∧ VLow ((Matrix.of fun (_ : Fin 1) (_ : Fin n) => (1 : F)).mulVec x) i := by
    intro j hj
    refine ⟨Pi.single j 1, vlow_single j, ?_, ?_⟩
    · rw [Matrix.mulVec_single_one]; simp
    · intro i' hi'; exact absurd hi' (by omega)
  constructor
  · intro h
    by_contra hc
    exact h.2 ⟨0, by omega⟩ (Fin.lt_def.2 (by show 0 < j.val; omega)) (key _ rfl)
  · intro hj
    exact ⟨key j hj, fun j' hj' => absurd (Fin.lt_def.1 hj') (by omega)⟩

theorem Step.unique {e : Nat} {C : List (CMat F)} {R : RedFiltCpx T F} {k : Nat} {i : Fin (cdim C k)} {p q : Option (PPair T)} (h : Step e C R k i p) (h' : Step e C R k i q) : p = q := by
  rcases h with ⟨h1, i1, h2⟩ | ⟨h1, x, h2, h3⟩ <;> rcases h' with ⟨h1', i1', h2'⟩ | ⟨h1', x', h2', h3'⟩
  · exact h1.trans h1'.symm
  · exact absurd h2 (h1' i1)
  · exact absurd h2' (h1 i1')
  · rw [h2, h2', h3.unique h3']

/-- drop the first bar of dimension 0 in the augmented case -/
def dropFirst {α : Type} (b : Bool) (k : Nat) (L : List α) : List α := if b = true ∧ k = 0 then L.tail else L

theorem no_pivot_zero {m n : Nat} {M : Matrix (Fin m) (Fin n) F} (h : M = 0) (i : Fin m) (j : Fin n) : ¬ IsPivot M i j := by
  rintro ⟨⟨x, _, hx⟩, _⟩
  rw [h, Matrix.zero_mulVec] at hx
  exact hx.1 rfl

/-- the bars of the DG pipeline against those of the chain complex pipeline -/
theorem dg_pairs {co b : Bool} {B : List (CMat F)} (hB : IsChainComplex B) (h0 : ZeroBdry0 B) (ha : b = true → Augmentable B) {val : List (List T)} (hv : ValuesFor B val) {D : List (CMat F)}
    {X : RedFiltDG T F} (h : DGState co (aug b) B val D X) {C : List (CMat F)} {R : RedFiltCpx T F} (hp : PipeOK B val C R) {k : Nat} (hk : k < B.length) :
    ∃ ps, R.persistencePairs k false = .ok ps ∧
      X.persistencePairs k = .ok (if co then (dropFirst b k ps).reverse else dropFirst b k ps) ∧
      (b = true → k = 0 → ∀ q, ps.head? = some q → q.deathInd = none ∧ q.death = none ∧ ∀ q' ∈ ps, q.birth ≤ q'.birth) := by
  have hC := hp.reidx.complex hB
  obtain ⟨f, f1, f2⟩ := dg_pairs_list hB (aug_ok ha) hv h hp hk
  obtain ⟨g, g1, g2, g3⟩ := hp.filt.pairs false (k := k) (by rw [hp.reidx.same.len]; exact hk)
  have hz : bdry C 0 = 0 := zeroBdry_zero (hp.reidx.zeroBdry h0)
  -- away from dimension 0 the steps agree
  have hpos : ∀ k (i : Fin (cdim C (k + 1))) i', IsPivot (bdry C (k + 1)) i' i ↔ IsPivot (M0 (aug b) C (k + 1)) i' i := fun _ _ _ => Iff.rfl
  by_cases hcase : b = true ∧ k = 0
  · obtain ⟨rfl, rfl⟩ := hcase
    -- dimension 0 with augmentation
    have hg : ∀ i : Fin (cdim C 0), ∃ q, g i = some q ∧ IsBar C R false 0 i q := by
      intro i
      rcases g3 i with ⟨_, i', h2⟩ | ⟨_, h2⟩
      · exact absurd h2 (no_pivot_zero hz _ _)
      · exact h2
    have hf : ∀ i, i < cdim C 0 → f i = if i = 0 then none else g i := by
      intro i hi
      have hs := f2 ⟨i, hi⟩
      by_cases h00 : i = 0
      · rw [if_pos h00]
        rcases hs with ⟨h1, _⟩ | ⟨h1, _⟩
        · exact h1
        · exact absurd ((isPivot_ones (0 : Fin 1) ⟨i, hi⟩).2 h00) (h1 (0 : Fin 1))
      · rw [if_neg h00]
        obtain ⟨q, q1, q2⟩ := hg ⟨i, hi⟩
        rw [show g i = some q from q1]
        rcases hs with ⟨_, i', h1⟩ | ⟨_, q', h1, h2⟩
        · exact absurd ((isPivot_ones (F := F) i' ⟨i, hi⟩).1 h1) h00
        · rw [show f i = some q' from h1, h2.unique q2]
    have htail : (List.range (cdim C 0)).filterMap f = ((List.range (cdim C 0)).filterMap g).tail := by
      cases hn : cdim C 0 with
      | zero => rfl
      | succ n =>
        have hr : List.range (n + 1) = 0 :: List.range' 1 n := by rw [List.range_eq_range', List.range'_succ]
        obtain ⟨q, q1, _⟩ := hg ⟨0, by omega⟩
        rw [hr, List.filterMap_cons, List.filterMap_cons]
        have e1 : f 0 = none := by rw [hf 0 (by omega), if_pos rfl]
        have e2 : g 0 = some q := q1
        rw [e1, e2]
        simp only [List.tail_cons]
        apply List.filterMap_congr
        intro a ha'
        rw [List.mem_range'_1] at ha'
        rw [hf a (by omega), if_neg (by omega)]
    refine ⟨_, g1, ?_, ?_⟩
    · rw [f1]
      have : ∀ L : List (PPair T), dropFirst true 0 L = L.tail := fun L => rfl
      rw [htail, this]
    · intro _ _ q hq
      have hn : 0 < cdim C 0 := by
        by_contra hc
        have : cdim C 0 = 0 := by omega
        rw [this] at hq; simp at hq
      obtain ⟨q0, q1, q2⟩ := hg ⟨0, hn⟩
      have hq0 : q = q0 := by
        obtain ⟨n, hn'⟩ : ∃ n, cdim C 0 = n + 1 := ⟨cdim C 0 - 1, by omega⟩
        have hr : List.range (cdim C 0) = 0 :: List.range' 1 n := by rw [hn', List.range_eq_range', List.range'_succ]
        rw [hr, List.filterMap_cons, show g 0 = some q0 from q1] at hq
        simpa using hq.symm
      subst hq0
      have hsq := M0_sq hB (aug_ok (b := true) ha) hv h hp 0
      have hnp : ∀ j, ¬ IsPivot (bdryUp C 0) ⟨0, hn⟩ j := by
        intro j hj
        have := pivotRow_positive (M0_hasRed (e := 1) hC 0) hsq hj
        exact this (0 : Fin 1) ((isPivot_ones (0 : Fin 1) (⟨0, hn⟩ : Fin (cdim C 0))).2 rfl)
      refine ⟨?_, ?_, ?_⟩
      · rcases q2.2.2.2 with ⟨_, h1, _⟩ | ⟨j, _, h1, _⟩
        · exact h1
        · exact absurd h1 (hnp j)
      · rcases q2.2.2.2 with ⟨_, _, h1⟩ | ⟨j, _, h1, _⟩
        · exact h1
        · exact absurd h1 (hnp j)
      · intro q' hq'
        obtain ⟨a, ha1, ha2⟩ := List.mem_filterMap.1 hq'
        have ha1 := List.mem_range.1 ha1
        obtain ⟨q'', c1, c2⟩ := hg ⟨a, ha1⟩
        rw [show g a = some q'' from c1] at ha2
        cases ha2
        have v1 := q2.2.2.1
        have v2 := c2.2.2.1
        rw [hp.valEq] at v1 v2
        exact hp.mono 0 0 a _ _ (Nat.zero_le _) ha1 v1 v2
  · refine ⟨_, g1, ?_, fun hb hk0 => absurd ⟨hb, hk0⟩ hcase⟩
    have hfg : (List.range (cdim C k)).filterMap f = (List.range (cdim C k)).filterMap g := by
      apply List.filterMap_congr
      intro a ha'
      have ha' := List.mem_range.1 ha'
      have hs := f2 ⟨a, ha'⟩
      have hs' : Step (aug b) C R k ⟨a, ha'⟩ (g a) := by
        cases k with
        | zero =>
          have hb : b = false := by
            cases b with
            | false => rfl
            | true => exact absurd ⟨rfl, rfl⟩ hcase
          subst hb
          rcases g3 ⟨a, ha'⟩ with ⟨_, i', h2⟩ | ⟨_, h2⟩
          · exact absurd h2 (no_pivot_zero hz _ _)
          · exact Or.inr ⟨fun i' => absurd i'.2 (Nat.not_lt_zero _), h2⟩
        | succ k => exact g3 ⟨a, ha'⟩
      exact hs.unique hs'
    rw [f1]
    unfold dropFirst
    rw [if_neg hcase, hfg]

end DG
end BATS
