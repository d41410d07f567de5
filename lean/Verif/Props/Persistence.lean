import Verif.Proofs.Pipeline

set_option linter.unusedSectionVars false
set_option linter.unusedVariables false
set_option linter.unusedSimpArgs false

/-! # C30–C32: filtered chain complexes and barcodes
(include/chain/filtered_chain_complex.hpp, include/persistence/filtered_basis.hpp)

The input is a chain complex `B` with a filtration value `val[k][i]` for every cell. `ValuesFor`, `IsFiltration`, `sublevel`,
`persistentBetti` are in `Verif/Spec/Persistence.lean`. -/

namespace BATS
open Reduction Matrix

variable {F : Type} [Field F] [DecidableEq F] {T : Type} [LinearOrder T]

/-- the solid triangle filtered by 0,1,2 on vertices, 2,3,5 on edges and 7 on the face -/
def triangleVals : List (List Nat) := [[0, 1, 2], [2, 3, 5], [7]]

/-- C30: building a filtered chain complex keeps the values, records for every dimension a permutation that lists the cells
in order of nondecreasing value (ties in original order), and stores the boundary matrices with rows and columns listed in
that order; the result is again a chain complex. -/
theorem C30_sorted_complex {B : List (CMat F)} (hB : IsChainComplex B) (h2 : 2 ≤ B.length) (h0 : ZeroBdry0 B)
    {val : List (List T)} (hv : ValuesFor B val) :
    ∃ X, FiltCpx.ofFiltration val B = .ok X ∧ X.val = val ∧ X.perm.length = B.length ∧ IsChainComplex X.C ∧
      X.C.length = B.length ∧
      (∀ k, k < B.length → cdim X.C k = cdim B k ∧ IsPermOf (cdim B k) (X.perm.getD k [])) ∧
      (∀ (k a b x y : Nat), k < B.length → a < b → (X.perm.getD k [])[a]? = some x → (X.perm.getD k [])[b]? = some y →
        ∃ u w, (val.getD k [])[x]? = some u ∧ (val.getD k [])[y]? = some w ∧ (u < w ∨ (u = w ∧ x < y))) ∧
      (∀ (k i j a b : Nat), (X.perm.getD k [])[i]? = some a → (X.perm.getD (k + 1) [])[j]? = some b →
        ent X.C (k + 1) i j = ent B (k + 1) a b) := by
  obtain ⟨X, hX, e1, e2, hr⟩ := ofFiltration_spec hB h2 h0 hv
  have hl : X.perm.length = B.length := by
    rw [e2]; unfold FiltCpx.filtrationSortperm; rw [List.length_map, hv.len]
  have hp : ∀ k, k < B.length → IsPermOf (cdim B k) (X.perm.getD k []) := by
    intro k hk
    rw [e2, filtrationSortperm_getD, ← hv.lens k hk]
    exact Perm.stableSortperm_perm _
  refine ⟨X, hX, e1, hl, hr.complex hB, hr.same.len, fun k hk => ⟨hr.same.cdim k, hp k hk⟩, ?_, ?_⟩
  · intro k a b x y hk hab hx hy
    rw [e2, filtrationSortperm_getD] at hx hy
    exact Perm.stableSortperm_sorted _ hab hx hy
  · intro k i j a b hi hj
    have hk1 : k + 1 < B.length := by
      by_contra hc
      have : X.perm.getD (k + 1) [] = [] := by
        rw [List.getD_eq_getElem?_getD, List.getElem?_eq_none (by omega)]; rfl
      rw [this] at hj
      simp at hj
    have hi' := (List.getElem?_eq_some_iff.1 hi).1
    have hj' := (List.getElem?_eq_some_iff.1 hj).1
    rw [Perm.isPerm_length (hp k (by omega))] at hi'
    rw [Perm.isPerm_length (hp (k + 1) hk1)] at hj'
    rw [hr.succ k i j hk1 hi' hj', ← e2]
    rw [List.getD_eq_getElem?_getD (l := X.perm.getD k []), List.getD_eq_getElem?_getD (l := X.perm.getD (k + 1) []), hi, hj]
    rfl

/-- C30: the sorted complex has the same Betti numbers. -/
theorem C30_same_betti {B : List (CMat F)} (hB : IsChainComplex B) (h2 : 2 ≤ B.length) (h0 : ZeroBdry0 B)
    {val : List (List T)} (hv : ValuesFor B val) :
    ∃ X, FiltCpx.ofFiltration val B = .ok X ∧ ∀ k, bettiNumber X.C k = bettiNumber B k := by
  obtain ⟨X, hX, e1, e2, hr⟩ := ofFiltration_spec hB h2 h0 hv
  exact ⟨X, hX, hr.betti_eq hB⟩

/-- C30, limitation: for a complex with vertices only, building the filtered chain complex reads `boundary[1]` out of
bounds, for all values. -/
theorem C30_vertices_only_ub (M : CMat F) (v : List T) : FiltCpx.ofFiltration [v] [M] = .error .ub := by
  unfold FiltCpx.ofFiltration FiltCpx.filtrationSortperm Cpx.ipermuteBasis Cpx.ipermuteBasisFrom Cpx.ipermuteBasis1
  obtain ⟨q, hq, _⟩ := Perm.invPerm_spec (Perm.stableSortperm_perm v)
  simp only [List.map_cons, if_true, hq, bind_ok]
  rfl

theorem triangleVals_ok : ValuesFor triangleQ triangleVals := by
  refine ⟨rfl, ?_⟩
  have : ∀ k : Fin 3, (triangleVals.getD k []).length = cdim triangleQ k := by decide
  intro k hk; exact this ⟨k, hk⟩

theorem triangleQ_zero : ZeroBdry0 triangleQ := by unfold ZeroBdry0; decide

example : IsChainComplex triangleQ ∧ 2 ≤ triangleQ.length ∧ ZeroBdry0 triangleQ ∧ ValuesFor triangleQ triangleVals ∧
    ((FiltCpx.ofFiltration [[2, 1, 0], [5, 3, 4], [7]] triangleQ).map (·.perm)) = .ok [[2, 1, 0], [1, 2, 0], [0]] :=
  ⟨triangleQ_complex, by decide, triangleQ_zero, triangleVals_ok, by decide +kernel⟩

/-- C31: for every combination of optimisation flags, `persistence_pairs` returns normally in every dimension; the bars it
returns in dimension `k` have distinct birth cells and distinct death cells, and every cell of the complex is the birth cell
of a bar of its own dimension or the death cell of a bar one dimension lower, and not both. -/
theorem C31_each_cell_once (v : Variant) {B : List (CMat F)} (hB : IsChainComplex B) (h2 : 2 ≤ B.length) (h0 : ZeroBdry0 B)
    {val : List (List T)} (hv : ValuesFor B val) :
    ∃ R, RedFiltCpx.ofFiltration v.reduce val B = .ok R ∧ ∃ bars : Nat → List (PPair T),
      (∀ k, k < B.length → R.persistencePairs k false = .ok (bars k)) ∧
      (∀ k, k < B.length → ((bars k).map (·.birthInd)).Nodup ∧ ((bars k).filterMap (·.deathInd)).Nodup) ∧
      (∀ k, k < B.length → ∀ q ∈ bars k, q.dim = k ∧ q.birthInd < cdim B k ∧ ∀ d, q.deathInd = some d → d < cdim B (k + 1)) ∧
      (∀ a, a < cdim B 0 → ∃ q ∈ bars 0, q.birthInd = a) ∧
      (∀ k a, k + 1 < B.length → a < cdim B (k + 1) →
        Xor (∃ q ∈ bars (k + 1), q.birthInd = a) (∃ q ∈ bars k, q.deathInd = some a)) := by
  obtain ⟨C, R, hR, hp, _, _⟩ := pipeline v hB h2 h0 hv
  have hC := hp.reidx.complex hB
  have hlen := hp.reidx.same.len
  have hb : ∀ k, ∃ ps, k < B.length → R.persistencePairs k false = .ok ps ∧ BarsOK C R false k ps := by
    intro k
    by_cases hk : k < B.length
    · obtain ⟨ps, h1, h2⟩ := hp.filt.bars hC false (k := k) (by omega)
      exact ⟨ps, fun _ => ⟨h1, h2⟩⟩
    · exact ⟨[], fun h => absurd h hk⟩
  choose bars hbars using hb
  refine ⟨R, hR, bars, fun k hk => (hbars k hk).1, fun k hk => ⟨(hbars k hk).2.births, (hbars k hk).2.deaths⟩, ?_, ?_, ?_⟩
  · intro k hk q hq
    obtain ⟨i, hpos, hbar⟩ := (hbars k hk).2.mem q hq
    obtain ⟨e1, e2, e3, e4⟩ := hbar
    refine ⟨e1, ?_, ?_⟩
    · rw [e2, ← hp.cdim_eq]; exact hp.filt.orig_lt i.2
    · intro d hd
      rcases e4 with ⟨_, h1, _⟩ | ⟨j, x, _, h1, _⟩
      · rw [h1] at hd; cases hd
      · rw [h1] at hd; cases hd
        rw [← hp.cdim_eq]; exact hp.filt.orig_lt j.2
  · intro a ha
    rw [← hp.cdim_eq] at ha
    obtain ⟨i, hi, rfl⟩ := hp.filt.orig_surj ha
    have hz : bdry C 0 = 0 := by
      rw [hp.reidx.bdry_eq]
      ext x y
      exact ent_zero_bdry h0 _ _
    obtain ⟨q, hq, hbar⟩ := (hbars 0 (by omega)).2.ex ⟨i, hi⟩ (by
      rintro i' ⟨⟨x, _, hx⟩, _⟩
      rw [hz, zero_mulVec] at hx
      exact hx.1 rfl)
    exact ⟨q, hq, hbar.2.1⟩
  · intro k a hk ha
    rw [← hp.cdim_eq] at ha
    obtain ⟨i, hi, rfl⟩ := hp.filt.orig_surj ha
    by_cases hpos : ∀ i', ¬ IsPivot (bdry C (k + 1)) i' ⟨i, hi⟩
    · left
      obtain ⟨q, hq, hbar⟩ := (hbars (k + 1) hk).2.ex ⟨i, hi⟩ hpos
      refine ⟨⟨q, hq, hbar.2.1⟩, ?_⟩
      rintro ⟨q', hq', e⟩
      obtain ⟨i', _, _, _, _, h1⟩ := (hbars k (by omega)).2.mem q' hq'
      rcases h1 with ⟨_, h1, _⟩ | ⟨j, x, hpv, h1, _⟩
      · rw [h1] at e; cases e
      · rw [h1] at e
        have := hp.filt.repInd_inj false j.2 hi (Option.some.inj e)
        have : j = ⟨i, hi⟩ := Fin.ext this
        subst this
        exact hpos i' hpv
    · right
      push Not at hpos
      obtain ⟨i', hpv⟩ := hpos
      have hpos' : ∀ x, ¬ IsPivot (bdry C k) x i' := pivotRow_positive (hC.hasRed k) (hC.sq' k) hpv
      obtain ⟨q, hq, hbar⟩ := (hbars k (by omega)).2.ex i' hpos'
      refine ⟨⟨q, hq, ?_⟩, ?_⟩
      · rcases hbar.2.2.2 with ⟨hn, _⟩ | ⟨j, x, hpj, h1, _⟩
        · exact absurd hpv (hn _)
        · rw [h1]
          have := IsPivot.col_unique hpj hpv
          subst this; rfl
      · rintro ⟨q', hq', e⟩
        obtain ⟨y, hy, hby⟩ := (hbars (k + 1) hk).2.mem q' hq'
        rw [hby.2.1] at e
        have := Fin.ext (a := y) (b := ⟨i, hi⟩) (hp.filt.repInd_inj false y.2 hi e)
        subst this
        exact hy i' hpv

/-- C31: the birth and death values of a bar are the filtration values of its birth and death cells; a bar has no death cell
exactly when its death value is infinite. -/
theorem C31_values (v : Variant) {B : List (CMat F)} (hB : IsChainComplex B) (h2 : 2 ≤ B.length) (h0 : ZeroBdry0 B)
    {val : List (List T)} (hv : ValuesFor B val) :
    ∃ R, RedFiltCpx.ofFiltration v.reduce val B = .ok R ∧ ∀ k, k < B.length → ∃ ps, R.persistencePairs k false = .ok ps ∧
      ∀ q ∈ ps, (val.getD k [])[q.birthInd]? = some q.birth ∧
        ((q.deathInd = none ∧ q.death = none) ∨
          ∃ d x, q.deathInd = some d ∧ (val.getD (k + 1) [])[d]? = some x ∧ q.death = some x) := by
  obtain ⟨C, R, hR, hp, _, _⟩ := pipeline v hB h2 h0 hv
  refine ⟨R, hR, fun k hk => ?_⟩
  obtain ⟨ps, h1, hb⟩ := hp.filt.bars (hp.reidx.complex hB) false (k := k) (by rw [hp.reidx.same.len]; exact hk)
  refine ⟨ps, h1, fun q hq => ?_⟩
  obtain ⟨i, _, e1, e2, e3, e4⟩ := hb.mem q hq
  rw [hp.valEq] at e3 e4
  refine ⟨by rw [e2]; exact e3, ?_⟩
  rcases e4 with ⟨_, h⟩ | ⟨j, d, _, h1, h2, h3⟩
  · exact Or.inl h
  · exact Or.inr ⟨_, d, h1, h2, h3⟩

/-- C31: the number of infinite bars in dimension `k` is the Betti number of the complex. -/
theorem C31_infinite_bars (v : Variant) {B : List (CMat F)} (hB : IsChainComplex B) (h2 : 2 ≤ B.length) (h0 : ZeroBdry0 B)
    {val : List (List T)} (hv : ValuesFor B val) :
    ∃ R, RedFiltCpx.ofFiltration v.reduce val B = .ok R ∧ ∀ k, k < B.length → ∃ ps, R.persistencePairs k false = .ok ps ∧
      ps.countP (fun q => q.death.isNone) = bettiNumber B k := by
  classical
  obtain ⟨C, R, hR, hp, _, _⟩ := pipeline v hB h2 h0 hv
  have hC := hp.reidx.complex hB
  refine ⟨R, hR, fun k hk => ?_⟩
  obtain ⟨ps, h1, hb⟩ := hp.filt.bars hC false (k := k) (by rw [hp.reidx.same.len]; exact hk)
  refine ⟨ps, h1, ?_⟩
  rw [hb.count _ (fun i => ∀ j, ¬ IsPivot (bdryUp C k) i j) (by
    rintro i q hi ⟨_, _, _, hd⟩
    rcases hd with ⟨hn, _, hd⟩ | ⟨j, d, hpv, _, _, hd⟩
    · rw [hd]; simp only [Option.isNone_none, true_iff]; exact hn
    · rw [hd]; simp only [Option.isNone_some, Bool.false_eq_true, false_iff]
      intro hn; exact hn j hpv)]
  rw [← hp.reidx.betti_eq hB k]
  have := card_essential_eq (hC.hasRed k) (hC.hasRedUp k) (hC.sq' k)
  unfold bettiNumber Homology cycles boundaries
  rw [← this]
  congr 1
  ext i
  simp [Essential]

/-- C31: if the values form a filtration, no bar dies before it is born. -/
theorem C31_birth_le_death (v : Variant) {B : List (CMat F)} (hB : IsChainComplex B) (h2 : 2 ≤ B.length) (h0 : ZeroBdry0 B)
    {val : List (List T)} (hv : ValuesFor B val) (hf : IsFiltration B val) :
    ∃ R, RedFiltCpx.ofFiltration v.reduce val B = .ok R ∧ ∀ k, k < B.length → ∃ ps, R.persistencePairs k false = .ok ps ∧
      ∀ q ∈ ps, ∀ d, q.death = some d → q.birth ≤ d := by
  obtain ⟨C, R, hR, hp, _, _⟩ := pipeline v hB h2 h0 hv
  have hC := hp.reidx.complex hB
  refine ⟨R, hR, fun k hk => ?_⟩
  obtain ⟨ps, h1, hb⟩ := hp.filt.bars hC false (k := k) (by rw [hp.reidx.same.len]; exact hk)
  refine ⟨ps, h1, fun q hq d hd => ?_⟩
  obtain ⟨i, _, _, _, e3, e4⟩ := hb.mem q hq
  rw [hp.valEq] at e3 e4
  rcases e4 with ⟨_, _, h⟩ | ⟨j, d', hpv, _, h2, h3⟩
  · rw [h] at hd; cases hd
  rw [h3] at hd; cases hd
  obtain ⟨⟨x, hx, hl⟩, _⟩ := hpv
  -- some column up to `j` has a nonzero entry in row `i`
  have : ∃ j', j' ≤ j ∧ bdryUp C k i j' ≠ 0 := by
    by_contra hc
    push Not at hc
    apply hl.1
    show ∑ j', bdryUp C k i j' * x j' = 0
    apply Finset.sum_eq_zero
    intro j' _
    by_cases hj : j' ≤ j
    · rw [hc j' hj, zero_mul]
    · rw [hx.2 j' (lt_of_not_ge hj), mul_zero]
  obtain ⟨j', hj', hne⟩ := this
  obtain ⟨w, hw⟩ := hp.filt.val_ex j'.2
  rw [hp.valEq] at hw
  refine le_trans ?_ (hp.mono (k + 1) j' j w d hj' j.2 hw h2)
  rw [hp.reidx.bdryUp_eq] at hne
  exact hf k (hp.reidx.eqv k i) (hp.reidx.eqv (k + 1) j') q.birth w hne e3 hw

/-- C31: all flag combinations return the same bars, in the same order. -/
theorem C31_flags_agree (v v' : Variant) {B : List (CMat F)} (hB : IsChainComplex B) (h2 : 2 ≤ B.length) (h0 : ZeroBdry0 B)
    {val : List (List T)} (hv : ValuesFor B val) (permuted : Bool) {k : Nat} (hk : k < B.length) :
    ∃ R R' ps, RedFiltCpx.ofFiltration v.reduce val B = .ok R ∧ RedFiltCpx.ofFiltration v'.reduce val B = .ok R' ∧
      R.persistencePairs k permuted = .ok ps ∧ R'.persistencePairs k permuted = .ok ps := by
  obtain ⟨C, R, hR, hp, hRC, hX⟩ := pipeline v hB h2 h0 hv
  obtain ⟨C', R', hR', hp', hRC', hX'⟩ := pipeline v' hB h2 h0 hv
  rw [hX] at hX'
  have hCC : C = C' := by injection hX' with e; injection e
  subst hCC
  obtain ⟨f, hf, hge, hs⟩ := hp.filt.pairs permuted (k := k) (by rw [hp.reidx.same.len]; exact hk)
  obtain ⟨f', hf', hge', hs'⟩ := hp'.filt.pairs permuted (k := k) (by rw [hp.reidx.same.len]; exact hk)
  refine ⟨R, R', _, hR, hR', hf, ?_⟩
  rw [hf']
  congr 1
  apply List.filterMap_congr
  intro a ha
  have ha := List.mem_range.1 ha
  have e : orig R = orig R' := by unfold orig; rw [hp.perm, hp'.perm]
  rcases hs ⟨a, ha⟩ with ⟨h1, i1, h2⟩ | ⟨h1, q, h2, h3⟩ <;> rcases hs' ⟨a, ha⟩ with ⟨h1', i1', h2'⟩ | ⟨h1', q', h2', h3'⟩
  · exact h1'.trans h1.symm
  · exact absurd h2 (h1' i1)
  · exact absurd h2' (h1 i1')
  · have : IsBar C R permuted k ⟨a, ha⟩ q' := by
      unfold IsBar repInd at h3' ⊢
      rw [e, hp.valEq]
      rw [hp'.valEq] at h3'
      exact h3'
    rw [h2', h2, h3.unique this]

/-- C31: with `permuted = true` the same bars are reported, with cells numbered by their position in filtration order. -/
theorem C31_permuted (v : Variant) {B : List (CMat F)} (hB : IsChainComplex B) (h2 : 2 ≤ B.length) (h0 : ZeroBdry0 B)
    {val : List (List T)} (hv : ValuesFor B val) {k : Nat} (hk : k < B.length) :
    ∃ R ps, RedFiltCpx.ofFiltration v.reduce val B = .ok R ∧ R.persistencePairs k true = .ok ps ∧
      R.persistencePairs k false = .ok (ps.map (fun q => ⟨q.dim, (R.perm.getD k []).getD q.birthInd 0,
        q.deathInd.map (fun d => (R.perm.getD (k + 1) []).getD d 0), q.birth, q.death⟩)) := by
  obtain ⟨C, R, hR, hp, _, _⟩ := pipeline v hB h2 h0 hv
  obtain ⟨f, hf, hge, hs⟩ := hp.filt.pairs true (k := k) (by rw [hp.reidx.same.len]; exact hk)
  obtain ⟨f', hf', hge', hs'⟩ := hp.filt.pairs false (k := k) (by rw [hp.reidx.same.len]; exact hk)
  refine ⟨R, _, hR, hf, ?_⟩
  rw [hf', List.map_filterMap]
  congr 1
  apply List.filterMap_congr
  intro a ha
  have ha := List.mem_range.1 ha
  rcases hs ⟨a, ha⟩ with ⟨h1, i1, h2⟩ | ⟨h1, q, h2, h3⟩ <;> rcases hs' ⟨a, ha⟩ with ⟨h1', i1', h2'⟩ | ⟨h1', q', h2', h3'⟩
  · simp only at h1 h1'; rw [h1, h1']; rfl
  · exact absurd h2 (h1' i1)
  · exact absurd h2' (h1 i1')
  · simp only at h2 h2'
    rw [h2, h2', Option.map_some]
    congr 1
    refine h3'.unique ?_
    obtain ⟨a1, a2, a3, a4⟩ := h3
    refine ⟨a1, ?_, a3, ?_⟩
    · show (R.perm.getD k []).getD q.birthInd 0 = _
      rw [a2]; rfl
    · rcases a4 with ⟨c0, c1, c2⟩ | ⟨j, d, c0, c1, c2, c3⟩
      · left
        refine ⟨c0, ?_, c2⟩
        show Option.map _ q.deathInd = none
        rw [c1]; rfl
      · right
        refine ⟨j, d, c0, ?_, c2, c3⟩
        show Option.map _ q.deathInd = _
        rw [c1]; rfl

example : IsChainComplex triangleQ ∧ ValuesFor triangleQ triangleVals ∧
    ((RedFiltCpx.ofFiltration Variant.clearing.reduce triangleVals triangleQ).bind (fun R => R.persistencePairs 0 false)) =
      .ok [⟨0, 0, none, 0, none⟩, ⟨0, 1, some 0, 1, some 2⟩, ⟨0, 2, some 1, 2, some 3⟩] ∧
    ((RedFiltCpx.ofFiltration Variant.clearing.reduce triangleVals triangleQ).bind (fun R => R.persistencePairs 1 false)) =
      .ok [⟨1, 2, some 0, 5, some 7⟩] :=
  ⟨triangleQ_complex, triangleVals_ok, by decide +kernel, by decide +kernel⟩

/-- C32: for all thresholds `s ≤ t`, in every dimension, the number of bars born at or before `s` that are still alive at `t`
(death after `t` or infinite) is the rank of the map `H_k(X_s) → H_k(X_t)` induced by inclusion of sublevel complexes. -/
theorem C32_persistent_betti (v : Variant) {B : List (CMat F)} (hB : IsChainComplex B) (h2 : 2 ≤ B.length) (h0 : ZeroBdry0 B)
    {val : List (List T)} (hv : ValuesFor B val) :
    ∃ R, RedFiltCpx.ofFiltration v.reduce val B = .ok R ∧ ∀ k, k < B.length → ∃ ps, R.persistencePairs k false = .ok ps ∧
      ∀ (s t : T) (hst : s ≤ t),
        ps.countP (fun q => decide (q.birth ≤ s) && (match q.death with | none => true | some d => decide (t < d))) =
          Module.finrank F (LinearMap.range (persistenceMap B val k hst)) := by
  classical
  obtain ⟨C, R, hR, hp, _, _⟩ := pipeline v hB h2 h0 hv
  have hC := hp.reidx.complex hB
  refine ⟨R, hR, fun k hk => ?_⟩
  obtain ⟨ps, h1, hb⟩ := hp.filt.bars hC false (k := k) (by rw [hp.reidx.same.len]; exact hk)
  refine ⟨ps, h1, fun s t hst => ?_⟩
  show _ = persistentBetti B val k hst
  rw [← hp.count hB k hst]
  rw [hb.count _ (fun i => i ∈ hp.reidx.eqv k ⁻¹' sublevel B val k s ∧
      ∀ j ∈ hp.reidx.eqv (k + 1) ⁻¹' sublevel B val (k + 1) t, ¬ IsPivot (bdryUp C k) i j)]
  · congr 1
    ext i
    simp only [Finset.mem_filter, Finset.mem_univ, true_and]
    tauto
  · rintro i q hi ⟨_, _, hbv, hd⟩
    rw [hp.valEq] at hbv hd
    simp only [Bool.and_eq_true, decide_eq_true_eq]
    apply and_congr
    · constructor
      · intro h; exact ⟨_, hbv, h⟩
      · rintro ⟨w, hw, hle⟩
        have e := hbv.symm.trans hw
        cases e; exact hle
    · rcases hd with ⟨hn, _, hd⟩ | ⟨j, d, hpv, _, hdv, hd⟩
      · rw [hd]
        simp only [true_iff]
        intro j _; exact hn j
      · rw [hd]
        simp only [decide_eq_true_eq]
        constructor
        · intro hlt j' hj' hpv'
          have := hpv.col_unique hpv'
          subst this
          obtain ⟨w, hw, hle⟩ := hj'
          have e := hdv.symm.trans hw
          cases e
          exact absurd hlt (not_lt.2 hle)
        · intro hall
          by_contra hc
          exact hall j ⟨d, hdv, not_lt.1 hc⟩ hpv

theorem triangle_isFiltration : IsFiltration triangleQ triangleVals := by
  intro k i j v w hne hv hw
  match k, i, j with
  | 0, i, j =>
    have : ∀ (i : Fin 3) (j : Fin 3), ent triangleQ 1 i.val j.val ≠ 0 →
        (triangleVals.getD 0 [])[i.val]! ≤ (triangleVals.getD 1 [])[j.val]! := by decide +kernel
    have h := this i j hne
    simp only [List.getElem!_eq_getElem?_getD, hv, hw] at h
    exact h
  | 1, i, j =>
    have : ∀ (i : Fin 3) (j : Fin 1), ent triangleQ 2 i.val j.val ≠ 0 →
        (triangleVals.getD 1 [])[i.val]! ≤ (triangleVals.getD 2 [])[j.val]! := by decide +kernel
    have h := this i j hne
    simp only [List.getElem!_eq_getElem?_getD, hv, hw] at h
    exact h
  | k + 2, i, j =>
    have : cdim triangleQ (k + 2 + 1) = 0 := cdim_of_ge (by simp [triangleQ])
    exact absurd j.2 (by omega)

example : IsChainComplex triangleQ ∧ 2 ≤ triangleQ.length ∧ ZeroBdry0 triangleQ ∧ ValuesFor triangleQ triangleVals ∧
    IsFiltration triangleQ triangleVals :=
  ⟨triangleQ_complex, by decide, triangleQ_zero, triangleVals_ok, triangle_isFiltration⟩

end BATS
