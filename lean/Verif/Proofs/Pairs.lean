import Verif.Proofs.PersBetti
import Verif.Proofs.Complex
import Verif.Proofs.Perm
import Verif.Proofs.Reindex
import Mathlib.Algebra.BigOperators.Fin

set_option linter.unusedSectionVars false
set_option linter.unusedVariables false
set_option linter.unusedSimpArgs false

/-! # What `persistence_pairs` returns -/

namespace BATS
open Reduction Matrix

variable {F : Type} [Field F] [DecidableEq F] {T : Type}

/-- a correctly reduced filtered complex `X` whose (sorted) complex is `C` -/
structure FiltOK (C : List (CMat F)) (X : RedFiltCpx T F) : Prop where
  tab : TabOK C X.RC
  permL : X.perm.length = C.length
  perm : ∀ k, k < C.length → IsPermOf (cdim C k) (X.perm.getD k [])
  valL : X.val.length = C.length
  vals : ∀ k, k < C.length → (X.val.getD k []).length = cdim C k

/-- original index of the cell at sorted position `i` -/
def orig (X : RedFiltCpx T F) (k i : Nat) : Nat := (X.perm.getD k []).getD i 0

/-- reported index of the cell at sorted position `i` -/
def repInd (X : RedFiltCpx T F) (permuted : Bool) (k i : Nat) : Nat := if permuted then i else orig X k i

theorem getD_getElem? {α} {l : List α} {i : Nat} (d : α) (h : i < l.length) : l[i]? = some (l.getD i d) := by
  rw [List.getD_eq_getElem?_getD, List.getElem?_eq_getElem h]; rfl

namespace FiltOK
variable {C : List (CMat F)} {X : RedFiltCpx T F}

theorem orig_lt (h : FiltOK C X) {k i : Nat} (hi : i < cdim C k) : orig X k i < cdim C k := by
  have hk : k < C.length := by
    by_contra hc; have := cdim_of_ge (B := C) (k := k) (by omega); omega
  have hp := h.perm k hk
  have hl := Perm.isPerm_length hp
  have := getD_getElem? (l := X.perm.getD k []) 0 (i := i) (by omega)
  exact (Perm.isPerm_mem hp).1 (List.mem_of_getElem? this)

theorem orig_inj (h : FiltOK C X) {k i i' : Nat} (hi : i < cdim C k) (hi' : i' < cdim C k) (e : orig X k i = orig X k i') : i = i' := by
  have hk : k < C.length := by
    by_contra hc; have := cdim_of_ge (B := C) (k := k) (by omega); omega
  have hp := h.perm k hk
  have hl := Perm.isPerm_length hp
  have e1 := getD_getElem? (l := X.perm.getD k []) 0 (i := i) (by omega)
  have e2 := getD_getElem? (l := X.perm.getD k []) 0 (i := i') (by omega)
  unfold orig at e
  rw [← e] at e2
  have e3 := e1.trans e2.symm
  exact (List.getElem?_inj (by omega) (Perm.isPerm_nodup hp)).1 e3

theorem orig_surj (h : FiltOK C X) {k a : Nat} (ha : a < cdim C k) : ∃ i, i < cdim C k ∧ orig X k i = a := by
  have hk : k < C.length := by
    by_contra hc; have := cdim_of_ge (B := C) (k := k) (by omega); omega
  have hp := h.perm k hk
  have hl := Perm.isPerm_length hp
  obtain ⟨i, hi, e⟩ := List.getElem_of_mem ((Perm.isPerm_mem hp).2 ha)
  refine ⟨i, by omega, ?_⟩
  unfold orig
  have := getD_getElem? (l := X.perm.getD k []) 0 hi
  rw [List.getElem?_eq_getElem hi, e] at this
  exact (Option.some.inj this).symm

theorem val_ex (h : FiltOK C X) {k i : Nat} (hi : i < cdim C k) : ∃ v, (X.val.getD k [])[orig X k i]? = some v := by
  have hk : k < C.length := by
    by_contra hc; have := cdim_of_ge (B := C) (k := k) (by omega); omega
  have := h.orig_lt hi
  exact ⟨_, List.getElem?_eq_getElem (by rw [h.vals k hk]; exact this)⟩

theorem valAt_ok (h : FiltOK C X) {k i : Nat} (hi : i < cdim C k) {v : T} (hv : (X.val.getD k [])[orig X k i]? = some v) :
    X.valAt k i = .ok v := by
  have hk : k < C.length := by
    by_contra hc; have := cdim_of_ge (B := C) (k := k) (by omega); omega
  have hl := Perm.isPerm_length (h.perm k hk)
  unfold RedFiltCpx.valAt
  rw [rd_getD [] (by rw [h.permL]; exact hk), bind_ok, rd_getD 0 (by omega), bind_ok,
    rd_getD [] (by rw [h.valL]; exact hk), bind_ok]
  exact rd_some hv

theorem indAt_ok (h : FiltOK C X) (permuted : Bool) {k i : Nat} (hi : i < cdim C k) :
    X.indAt permuted k i = .ok (repInd X permuted k i) := by
  have hk : k < C.length := by
    by_contra hc; have := cdim_of_ge (B := C) (k := k) (by omega); omega
  have hl := Perm.isPerm_length (h.perm k hk)
  unfold RedFiltCpx.indAt repInd
  cases permuted
  · simp only [Bool.false_eq_true, if_false]
    rw [rd_getD [] (by rw [h.permL]; exact hk), bind_ok, rd_getD 0 (by omega)]
    rfl
  · simp

end FiltOK

/-- `q` is the bar born at sorted position `i` of dimension `k` -/
def IsBar (C : List (CMat F)) (X : RedFiltCpx T F) (permuted : Bool) (k : Nat) (i : Fin (cdim C k)) (q : PPair T) : Prop :=
  q.dim = k ∧ q.birthInd = repInd X permuted k i ∧ (X.val.getD k [])[orig X k i]? = some q.birth ∧
  (((∀ j, ¬ IsPivot (bdryUp C k) i j) ∧ q.deathInd = none ∧ q.death = none) ∨
    ∃ j d, IsPivot (bdryUp C k) i j ∧ q.deathInd = some (repInd X permuted (k + 1) j) ∧
      (X.val.getD (k + 1) [])[orig X (k + 1) j]? = some d ∧ q.death = some d)

theorem FiltOK.pairAt {C : List (CMat F)} {X : RedFiltCpx T F} (h : FiltOK C X) (permuted : Bool) {k : Nat} (hk : k < C.length)
    (i : Fin (cdim C k)) :
    ∃ p, X.pairAt permuted k i ((X.RC.R.getD k ⟨0, []⟩).cols.getD i []).length = .ok p ∧
      ((p = none ∧ ∃ i', IsPivot (bdry C k) i' i) ∨
       ((∀ i', ¬ IsPivot (bdry C k) i' i) ∧ ∃ q, p = some q ∧ IsBar C X permuted k i q)) := by
  have lv := h.tab.lev k hk
  have hnil := lv.col_nil_iff i
  unfold RedFiltCpx.pairAt
  by_cases h0 : (X.RC.R.getD k ⟨0, []⟩).cols.getD i [] = []
  · have hpos := hnil.1 h0
    rw [h0]
    simp only [List.length_nil, ne_eq, not_true_eq_false, if_false]
    obtain ⟨v, hv⟩ := h.val_ex i.2
    have hmd : X.RC.maxdim = C.length - 1 := by unfold RedCpx.maxdim; rw [h.tab.lenR]
    by_cases hm : k = X.RC.maxdim
    · rw [if_pos hm, h.indAt_ok permuted i.2, bind_ok, h.valAt_ok i.2 hv, bind_ok]
      refine ⟨_, rfl, Or.inr ⟨hpos, _, rfl, rfl, rfl, hv, Or.inl ⟨?_, rfl, rfl⟩⟩⟩
      intro j
      have := cdim_of_ge (B := C) (k := k + 1) (by omega)
      exact absurd j.2 (by omega)
    · have hk1 : k + 1 < C.length := by omega
      have lv1 := h.tab.lev (k + 1) hk1
      have hlen := lv1.table.len
      have hlen' : (X.RC.p2c.getD (k + 1) []).length = cdim C k := hlen
      rw [if_neg hm, rd_getD [] (by rw [h.tab.lenP]; exact hk1), bind_ok, rd_getD none (by rw [hlen']; exact i.2), bind_ok]
      cases hp : (X.RC.p2c.getD (k + 1) []).getD i none with
      | none =>
        simp only []
        rw [h.indAt_ok permuted i.2, bind_ok, h.valAt_ok i.2 hv, bind_ok]
        exact ⟨_, rfl, Or.inr ⟨hpos, _, rfl, rfl, rfl, hv, Or.inl ⟨(lv1.p2c_none_iff i).1 hp, rfl, rfl⟩⟩⟩
      | some j =>
        simp only []
        have hj : j < cdim C (k + 1) := by
          apply lv1.table.bound i j
          rw [getD_getElem? none (by rw [hlen']; exact i.2), hp]
        obtain ⟨d, hd⟩ := h.val_ex hj
        rw [h.indAt_ok permuted i.2, bind_ok, h.indAt_ok permuted hj, bind_ok, h.valAt_ok i.2 hv, bind_ok,
          h.valAt_ok hj hd, bind_ok]
        exact ⟨_, rfl, Or.inr ⟨hpos, _, rfl, rfl, rfl, hv, Or.inr ⟨⟨j, hj⟩, d, (lv1.p2c_some_iff i ⟨j, hj⟩).1 hp, rfl, hd, rfl⟩⟩⟩
  · have hl : ((X.RC.R.getD k ⟨0, []⟩).cols.getD i []).length ≠ 0 := by
      intro e; exact h0 (List.length_eq_zero_iff.1 e)
    rw [if_pos hl]
    refine ⟨none, rfl, Or.inl ⟨rfl, ?_⟩⟩
    by_contra hc
    push Not at hc
    exact h0 (hnil.2 hc)

theorem pairsLoop_spec (X : RedFiltCpx T F) (permuted : Bool) (k : Nat) (f : Nat → Option (PPair T)) :
    ∀ (cs : List (SVec F)) (i0 : Nat),
      (∀ a, a < cs.length → X.pairAt permuted k (i0 + a) (cs.getD a []).length = .ok (f (i0 + a))) →
      X.pairsLoop permuted k i0 cs = .ok ((List.range' i0 cs.length).filterMap f)
  | [], i0, _ => rfl
  | c :: cs, i0, h => by
    unfold RedFiltCpx.pairsLoop
    have h0 := h 0 (by simp)
    simp only [Nat.add_zero, List.getD_cons_zero] at h0
    rw [h0, bind_ok, pairsLoop_spec X permuted k f cs (i0 + 1) (fun a ha => by
      have := h (a + 1) (by simpa using ha)
      simpa [Nat.add_assoc, Nat.add_comm 1 a] using this), bind_ok, List.length_cons, List.range'_succ]
    cases hf : f i0 <;> simp [hf, pure_ok]

/-- `persistence_pairs(k)` runs over the positions in order, skips negative ones and reports one bar for each other -/
theorem FiltOK.pairs {C : List (CMat F)} {X : RedFiltCpx T F} (h : FiltOK C X) (permuted : Bool) {k : Nat} (hk : k < C.length) :
    ∃ f : Nat → Option (PPair T), X.persistencePairs k permuted = .ok ((List.range (cdim C k)).filterMap f) ∧
      (∀ i, cdim C k ≤ i → f i = none) ∧
      ∀ i : Fin (cdim C k), (f i = none ∧ ∃ i', IsPivot (bdry C k) i' i) ∨
       ((∀ i', ¬ IsPivot (bdry C k) i' i) ∧ ∃ q, f i = some q ∧ IsBar C X permuted k i q) := by
  classical
  let f : Nat → Option (PPair T) := fun i => if hi : i < cdim C k then (h.pairAt permuted hk ⟨i, hi⟩).choose else none
  have hf : ∀ i : Fin (cdim C k), f i = (h.pairAt permuted hk i).choose := by
    intro i; simp only [f]; rw [dif_pos i.2]
  refine ⟨f, ?_, fun i hi => by simp only [f]; rw [dif_neg (by omega)], ?_⟩
  · unfold RedFiltCpx.persistencePairs
    have hc : (X.RC.R.getD k ⟨0, []⟩).cols.length = cdim C k := (h.tab.lev k hk).shapeR.ncol
    rw [rd_getD ⟨0, []⟩ (by rw [h.tab.lenR]; exact hk), bind_ok, pairsLoop_spec X permuted k f, hc, List.range_eq_range']
    intro a ha
    rw [Nat.zero_add]
    have := hf ⟨a, by rw [← hc]; exact ha⟩
    simp only at this
    rw [this]
    exact (h.pairAt permuted hk ⟨a, by rw [← hc]; exact ha⟩).choose_spec.1
  · intro i
    rw [hf i]
    exact (h.pairAt permuted hk i).choose_spec.2

theorem countP_range_card (n : Nat) (p : Nat → Bool) :
    (List.range n).countP p = (Finset.univ.filter (fun i : Fin n => p i.val = true)).card := by
  rw [Finset.card_filter, Fin.sum_univ_eq_sum_range (fun i => if p i = true then 1 else 0) n]
  induction n with
  | zero => rfl
  | succ n ih =>
    rw [List.range_succ, List.countP_append, ih, Finset.sum_range_succ]
    simp [List.countP_cons]

theorem FiltOK.repInd_inj {C : List (CMat F)} {X : RedFiltCpx T F} (h : FiltOK C X) (permuted : Bool) {k i i' : Nat}
    (hi : i < cdim C k) (hi' : i' < cdim C k) (e : repInd X permuted k i = repInd X permuted k i') : i = i' := by
  unfold repInd at e
  cases permuted
  · exact h.orig_inj hi hi' (by simpa using e)
  · simpa using e

/-- the bars of dimension `k` -/
structure BarsOK (C : List (CMat F)) (X : RedFiltCpx T F) (permuted : Bool) (k : Nat) (ps : List (PPair T)) : Prop where
  births : (ps.map (·.birthInd)).Nodup
  deaths : (ps.filterMap (·.deathInd)).Nodup
  mem : ∀ q ∈ ps, ∃ i, (∀ i', ¬ IsPivot (bdry C k) i' i) ∧ IsBar C X permuted k i q
  ex : ∀ i, (∀ i', ¬ IsPivot (bdry C k) i' i) → ∃ q ∈ ps, IsBar C X permuted k i q
  count : ∀ (p : PPair T → Bool) (P : Fin (cdim C k) → Prop) [DecidablePred (fun i => (∀ i', ¬ IsPivot (bdry C k) i' i) ∧ P i)],
    (∀ i q, (∀ i', ¬ IsPivot (bdry C k) i' i) → IsBar C X permuted k i q → (p q = true ↔ P i)) →
    ps.countP p = (Finset.univ.filter (fun i => (∀ i', ¬ IsPivot (bdry C k) i' i) ∧ P i)).card

theorem IsBar.unique_death {C : List (CMat F)} {X : RedFiltCpx T F} (h : FiltOK C X) (hC : IsChainComplex C) {permuted : Bool} {k : Nat}
    {i i' : Fin (cdim C k)} {q q' : PPair T} (hq : IsBar C X permuted k i q) (hq' : IsBar C X permuted k i' q') {d : Nat}
    (e : q.deathInd = some d) (e' : q'.deathInd = some d) : i = i' := by
  obtain ⟨_, _, _, h1⟩ := hq
  obtain ⟨_, _, _, h2⟩ := hq'
  rcases h1 with ⟨_, h1, _⟩ | ⟨j, x, hp, h1, _⟩
  · rw [h1] at e; cases e
  rcases h2 with ⟨_, h2, _⟩ | ⟨j', x', hp', h2, _⟩
  · rw [h2] at e'; cases e'
  rw [h1] at e; rw [h2] at e'
  have e3 := (Option.some.inj e).trans (Option.some.inj e').symm
  have := Fin.ext (h.repInd_inj permuted j.2 j'.2 e3)
  subst this
  exact hp.row_unique (hC.hasRedUp k) hp'

theorem FiltOK.bars {C : List (CMat F)} {X : RedFiltCpx T F} (h : FiltOK C X) (hC : IsChainComplex C) (permuted : Bool) {k : Nat}
    (hk : k < C.length) : ∃ ps, X.persistencePairs k permuted = .ok ps ∧ BarsOK C X permuted k ps := by
  obtain ⟨f, hf, hge, hspec⟩ := h.pairs permuted hk
  have hbar : ∀ a q, f a = some q → ∃ i : Fin (cdim C k), i.val = a ∧ (∀ i', ¬ IsPivot (bdry C k) i' i) ∧ IsBar C X permuted k i q := by
    intro a q haq
    have ha : a < cdim C k := by
      by_contra hc; rw [hge a (by omega)] at haq; cases haq
    rcases hspec ⟨a, ha⟩ with ⟨h1, _⟩ | ⟨hpos, q', h1, hb⟩
    · simp only at h1; rw [h1] at haq; cases haq
    · simp only at h1; rw [h1] at haq; cases haq; exact ⟨⟨a, ha⟩, rfl, hpos, hb⟩
  refine ⟨_, hf, ?_, ?_, ?_, ?_, ?_⟩
  · rw [List.map_filterMap]
    apply List.Nodup.filterMap _ List.nodup_range
    intro a a' b hb hb'
    simp only [Option.mem_def, Option.map_eq_some_iff] at hb hb'
    obtain ⟨q, hq, rfl⟩ := hb
    obtain ⟨q', hq', e⟩ := hb'
    obtain ⟨i, rfl, _, hi⟩ := hbar a q hq
    obtain ⟨i', rfl, _, hi'⟩ := hbar a' q' hq'
    rw [hi.2.1, hi'.2.1] at e
    exact (h.repInd_inj permuted i'.2 i.2 e).symm
  · rw [List.filterMap_filterMap]
    apply List.Nodup.filterMap _ List.nodup_range
    intro a a' b hb hb'
    simp only [Option.mem_def, Option.bind_eq_some_iff] at hb hb'
    obtain ⟨q, hq, e1⟩ := hb
    obtain ⟨q', hq', e2⟩ := hb'
    obtain ⟨i, rfl, _, hi⟩ := hbar a q hq
    obtain ⟨i', rfl, _, hi'⟩ := hbar a' q' hq'
    rw [hi.unique_death h hC hi' e1 e2]
  · intro q hq
    obtain ⟨a, _, ha⟩ := List.mem_filterMap.1 hq
    obtain ⟨i, _, h1, h2⟩ := hbar a q ha
    exact ⟨i, h1, h2⟩
  · intro i hi
    rcases hspec i with ⟨_, i', h1⟩ | ⟨_, q, h1, h2⟩
    · exact absurd h1 (hi i')
    · exact ⟨q, List.mem_filterMap.2 ⟨i, List.mem_range.2 i.2, h1⟩, h2⟩
  · intro p P _ hp
    rw [List.countP_filterMap, countP_range_card]
    congr 1
    ext i
    simp only [Finset.mem_filter, Finset.mem_univ, true_and]
    rcases hspec i with ⟨h1, i', h2⟩ | ⟨hpos, q, h1, h2⟩
    · rw [h1]
      simp only [Option.map_none, Option.getD_none, Bool.false_eq_true, false_iff, not_and]
      intro h3; exact absurd h2 (h3 i')
    · rw [h1, Option.map_some, Option.getD_some, hp i q hpos h2]
      exact ⟨fun h => ⟨hpos, h⟩, fun h => h.2⟩

/-- a bar is determined by its position -/
theorem IsBar.unique {C : List (CMat F)} {X : RedFiltCpx T F} {permuted : Bool} {k : Nat}
    {i : Fin (cdim C k)} {q q' : PPair T} (hq : IsBar C X permuted k i q) (hq' : IsBar C X permuted k i q') : q = q' := by
  obtain ⟨a1, a2, a3, a4⟩ := hq
  obtain ⟨b1, b2, b3, b4⟩ := hq'
  have e3 : q.birth = q'.birth := by rw [a3] at b3; exact Option.some.inj b3
  have e4 : q.deathInd = q'.deathInd ∧ q.death = q'.death := by
    rcases a4 with ⟨hn, c1, c2⟩ | ⟨j, d, hp, c1, c2, c3⟩ <;> rcases b4 with ⟨hn', d1, d2⟩ | ⟨j', d', hp', d1, d2, d3⟩
    · exact ⟨c1.trans d1.symm, c2.trans d2.symm⟩
    · exact absurd hp' (hn j')
    · exact absurd hp (hn' j)
    · have := hp.col_unique hp'
      subst this
      rw [c2] at d2; cases d2
      exact ⟨c1.trans d1.symm, c3.trans d3.symm⟩
  cases q; cases q'
  simp only at *
  rw [a1, b1, a2, b2, e3, e4.1, e4.2]

end BATS
