import Verif.Proofs.DG8
import Verif.Props.Update

set_option linter.unusedSectionVars false
set_option linter.unusedVariables false
set_option linter.unusedSimpArgs false

/-!
# C57–C60: differential graded vector spaces, homology and cohomology
(include/dgvs, include/homology/dgbasis.hpp, include/persistence/filtered_dgbasis.hpp)

Degree `-1` gives homology, degree `+1` cohomology; the flag `b` of `DGVS.ofComplex deg b B` asks for the augmented complex.
`Cohomology`, `ReducedHomology`, `ReducedCohomology`, `Augmentable` are in `Verif/Spec/DG.lean`.
-/

namespace BATS
open Reduction Matrix DG

variable {F : Type} [Field F] [DecidableEq F] {T : Type} [LinearOrder T]

theorem triangleQ_aug : Augmentable triangleQ := by
  have : ∀ j : Fin 3, ∑ i : Fin 3, ent triangleQ 1 i j = 0 := by decide +kernel
  exact this

theorem circleQ_aug : Augmentable circleQ := by
  have : ∀ j : Fin 3, ∑ i : Fin 3, ent circleQ 1 i j = 0 := by decide +kernel
  exact this

theorem circleQ_zero : ZeroBdry0 circleQ := by unfold ZeroBdry0; decide

/-! ### C57 -/

/-- C57: with degree `-1` the reported dimensions are those of homology, for every reduction flag. -/
theorem C57_homology (v : DGVariant) {B : List (CMat F)} (hB : IsChainComplex B) (h0 : ZeroBdry0 B) :
    ∃ C X, DGVS.ofComplex (-1) false B = .ok C ∧ v.reduce C = .ok X ∧
      ∀ k, k < B.length → X.hdim k = .ok (Module.finrank F (Homology B k)) := by
  obtain ⟨C, X, h1, h2, h3⟩ := dg_hdim v false false hB (by simp)
  refine ⟨C, X, h1, h2, fun k hk => ?_⟩
  obtain ⟨n, n1, n2⟩ := h3 k hk
  have := finrank_hom hB h0 k
  simp only [aug, Bool.false_eq_true, if_false] at n2
  rw [n1]; congr 1; omega

/-- C57: with degree `+1` they are those of cohomology. -/
theorem C57_cohomology (v : DGVariant) {B : List (CMat F)} (hB : IsChainComplex B) (h0 : ZeroBdry0 B) :
    ∃ C X, DGVS.ofComplex 1 false B = .ok C ∧ v.reduce C = .ok X ∧
      ∀ k, k < B.length → X.hdim k = .ok (Module.finrank F (Cohomology B k)) := by
  obtain ⟨C, X, h1, h2, h3⟩ := dg_hdim v true false hB (by simp)
  refine ⟨C, X, h1, h2, fun k hk => ?_⟩
  obtain ⟨n, n1, n2⟩ := h3 k hk
  have := finrank_coh hB h0 k
  simp only [aug, Bool.false_eq_true, if_false] at n2
  rw [n1]; congr 1; omega

/-- C57: with degree `-1` and augmentation they are those of reduced homology. -/
theorem C57_reduced_homology (v : DGVariant) {B : List (CMat F)} (hB : IsChainComplex B) (ha : Augmentable B) :
    ∃ C X, DGVS.ofComplex (-1) true B = .ok C ∧ v.reduce C = .ok X ∧
      ∀ k, k < B.length → X.hdim k = .ok (Module.finrank F (ReducedHomology B k)) := by
  obtain ⟨C, X, h1, h2, h3⟩ := dg_hdim v false true hB (fun _ => ha)
  refine ⟨C, X, h1, h2, fun k hk => ?_⟩
  obtain ⟨n, n1, n2⟩ := h3 k hk
  have := finrank_rhom hB ha k
  simp only [aug, if_true] at n2
  rw [n1]; congr 1; omega

/-- C57: with degree `+1` and augmentation they are those of reduced cohomology. -/
theorem C57_reduced_cohomology (v : DGVariant) {B : List (CMat F)} (hB : IsChainComplex B) (ha : Augmentable B) :
    ∃ C X, DGVS.ofComplex 1 true B = .ok C ∧ v.reduce C = .ok X ∧
      ∀ k, k < B.length → X.hdim k = .ok (Module.finrank F (ReducedCohomology B k)) := by
  obtain ⟨C, X, h1, h2, h3⟩ := dg_hdim v true true hB (fun _ => ha)
  refine ⟨C, X, h1, h2, fun k hk => ?_⟩
  obtain ⟨n, n1, n2⟩ := h3 k hk
  have := finrank_rcoh hB ha k
  simp only [aug, if_true] at n2
  rw [n1]; congr 1; omega

/-- C57: the degree does not matter for the dimensions, and neither do the flags: any two constructions report the same
Betti numbers and the same `dim`, with `maxdim` the dimension of the complex; without augmentation they are those of the
chain complex reduction. -/
theorem C57_agree (v w : DGVariant) (u : Variant) (co co' b : Bool) {B : List (CMat F)} (hB : IsChainComplex B) (h0 : ZeroBdry0 B) (ha : b = true → Augmentable B) :
    ∃ C C' X Y R, DGVS.ofComplex (if co then 1 else -1) b B = .ok C ∧ v.reduce C = .ok X ∧ DGVS.ofComplex (if co' then 1 else -1) b B = .ok C' ∧ w.reduce C' = .ok Y ∧
      u.reduce B = .ok R ∧ X.maxdim = B.length - 1 ∧
      ∀ k, k < B.length → X.dim k = .ok (cdim B k) ∧ X.hdim k = Y.hdim k ∧ (b = false → X.hdim k = R.hdim k) := by
  obtain ⟨C, X, h1, h2, h3⟩ := dg_hdim v co b hB ha
  obtain ⟨C', Y, g1, g2, g3⟩ := dg_hdim w co' b hB ha
  obtain ⟨D, X', e1, e2, e3, e4⟩ := dg_tab v co b hB ha
  obtain ⟨R, r1, r2⟩ := u.spec hB
  have hC : C = ⟨deg co, D⟩ := by rw [h1] at e1; injection e1
  subst hC
  have hX : X = X' := by rw [h2] at e2; injection e2
  subst hX
  refine ⟨_, C', X, Y, R, h1, h2, g1, g2, r1, by unfold RedDG.maxdim; rw [e4.lenR]; omega, fun k hk => ⟨e4.dim_eq hk, ?_, ?_⟩⟩
  · obtain ⟨n, n1, n2⟩ := h3 k hk
    obtain ⟨m, m1, m2⟩ := g3 k hk
    rw [n1, m1]; congr 1; omega
  · rintro rfl
    obtain ⟨n, n1, n2⟩ := h3 k hk
    have := finrank_hom hB h0 k
    have hb := r2.hdim hB hk
    simp only [aug, Bool.false_eq_true, if_false] at n2
    rw [n1, hb]; congr 1
    have hf : bettiNumber B k = Module.finrank F (Homology B k) := rfl
    omega

/-- C57: augmenting a nonempty complex lowers the Betti number of dimension 0 by one and changes no other. -/
theorem C57_augmented (v w : DGVariant) (co co' : Bool) {B : List (CMat F)} (hB : IsChainComplex B) (ha : Augmentable B) (hne : 0 < cdim B 0) :
    ∃ C C' X Y, DGVS.ofComplex (if co then 1 else -1) false B = .ok C ∧ v.reduce C = .ok X ∧ DGVS.ofComplex (if co' then 1 else -1) true B = .ok C' ∧ w.reduce C' = .ok Y ∧
      ∀ k, k < B.length → ∃ n m, X.hdim k = .ok n ∧ Y.hdim k = .ok m ∧ n = m + (if k = 0 then 1 else 0) := by
  obtain ⟨C, X, h1, h2, h3⟩ := dg_hdim v co false hB (by simp)
  obtain ⟨C', Y, g1, g2, g3⟩ := dg_hdim w co' true hB (fun _ => ha)
  refine ⟨C, C', X, Y, h1, h2, g1, g2, fun k hk => ?_⟩
  obtain ⟨n, n1, n2⟩ := h3 k hk
  obtain ⟨m, m1, m2⟩ := g3 k hk
  refine ⟨n, m, n1, m1, ?_⟩
  simp only [aug, Bool.false_eq_true, if_false, if_true] at n2 m2
  cases k with
  | zero =>
    have e0 : rank0 0 B 0 = 0 := rfl
    have e1 : rank0 1 B 0 = (augMat B).rank := rfl
    rw [e0] at n2
    rw [e1, rank_augMat hne] at m2
    rw [if_pos rfl]; omega
  | succ k =>
    have e0 : rank0 0 B (k + 1) = rank0 1 B (k + 1) := rfl
    rw [if_neg (by omega)]; omega

example : IsChainComplex circleQ ∧ ZeroBdry0 circleQ ∧ Augmentable circleQ ∧ 0 < cdim circleQ 0 ∧
    ((DGVS.ofComplex 1 false circleQ).bind fun C => (DGVariant.clearing.reduce C).bind fun X => X.hdim 0) = .ok 1 ∧
    ((DGVS.ofComplex 1 true circleQ).bind fun C => (DGVariant.compression.reduce C).bind fun X => X.hdim 0) = .ok 0 ∧
    ((DGVS.ofComplex 1 true circleQ).bind fun C => (DGVariant.clearingBasis.reduce C).bind fun X => X.hdim 1) = .ok 1 :=
  ⟨circleQ_complex, circleQ_zero, circleQ_aug, by decide, by decide +kernel, by decide +kernel, by decide +kernel⟩

/-! ### C58 -/

/-- C58: the bars of a filtered DG vector space, for every reduction flag. With degree `-1` they are the bars of the filtered
chain complex, in the same order; with degree `+1` (persistent cohomology) they are the same bars in reverse order, with the
same birth and death values and cells. In the augmented case the first bar of dimension 0 is missing: it is infinite and no
other bar is born earlier. -/
theorem C58_pairs (v : DGVariant) (w : Variant) (co b : Bool) {B : List (CMat F)} (hB : IsChainComplex B) (h2 : 2 ≤ B.length) (h0 : ZeroBdry0 B) (ha : b = true → Augmentable B)
    {val : List (List T)} (hv : ValuesFor B val) :
    ∃ X R, RedFiltDG.ofFiltration v.reduce (if co then 1 else -1) b val B = .ok X ∧ RedFiltCpx.ofFiltration w.reduce val B = .ok R ∧
      ∀ k, k < B.length → ∃ ps qs, R.persistencePairs k false = .ok ps ∧ X.persistencePairs k = .ok qs ∧
        (¬ (b = true ∧ k = 0) → qs = if co then ps.reverse else ps) ∧
        (b = true → k = 0 → (ps = [] ∧ qs = []) ∨ ∃ p rest, ps = p :: rest ∧ (qs = if co then rest.reverse else rest) ∧
          p.death = none ∧ ∀ q ∈ rest, p.birth ≤ q.birth) := by
  obtain ⟨D, X, x1, x2, _⟩ := dg_state v co b hB ha hv
  obtain ⟨C, R, hR, hp, _, _⟩ := pipeline w hB h2 h0 hv
  refine ⟨X, R, x1, hR, fun k hk => ?_⟩
  obtain ⟨ps, p1, p2, p3⟩ := dg_pairs hB h0 ha hv x2 hp hk
  refine ⟨ps, _, p1, p2, ?_, ?_⟩
  · intro hn
    have : dropFirst b k ps = ps := by unfold dropFirst; exact if_neg hn
    rw [this]
  · intro hb h0
    have : dropFirst b k ps = ps.tail := by unfold dropFirst; exact if_pos ⟨hb, h0⟩
    rw [this]
    cases ps with
    | nil => left; cases co <;> simp
    | cons p rest =>
      right
      obtain ⟨_, q2, q3⟩ := p3 hb h0 p rfl
      exact ⟨p, rest, rfl, rfl, q2, fun q hq => q3 q (by simp [hq])⟩

/-- C58: so persistent cohomology computes persistent homology: for all `s ≤ t` the number of bars born by `s` and alive after
`t` is the rank of the map from the homology of the sublevel complex at `s` to that at `t`. -/
theorem C58_persistent_betti (v : DGVariant) (co : Bool) {B : List (CMat F)} (hB : IsChainComplex B) (h2 : 2 ≤ B.length) (h0 : ZeroBdry0 B)
    {val : List (List T)} (hv : ValuesFor B val) :
    ∃ X, RedFiltDG.ofFiltration v.reduce (if co then 1 else -1) false val B = .ok X ∧ ∀ k, k < B.length → ∃ qs, X.persistencePairs k = .ok qs ∧
      ∀ (s t : T) (hst : s ≤ t),
        qs.countP (fun q => decide (q.birth ≤ s) && (match q.death with | none => true | some d => decide (t < d))) =
          Module.finrank F (LinearMap.range (persistenceMap B val k hst)) := by
  obtain ⟨X, R, h1, h3, h4⟩ := C58_pairs v .standard co false hB h2 h0 (by simp) hv
  obtain ⟨R', r1, r2⟩ := C32_persistent_betti .standard hB h2 h0 hv
  rw [h3] at r1
  cases r1
  refine ⟨X, h1, fun k hk => ?_⟩
  obtain ⟨ps, qs, p1, p2, p3, _⟩ := h4 k hk
  obtain ⟨ps', e1, e2⟩ := r2 k hk
  rw [p1] at e1
  cases e1
  refine ⟨qs, p2, fun s t hst => ?_⟩
  rw [← e2 s t hst, p3 (by simp)]
  cases co with
  | false => rfl
  | true => simp only [if_true]; rw [List.countP_reverse]; rfl

example : IsChainComplex triangleQ ∧ ZeroBdry0 triangleQ ∧ ValuesFor triangleQ triangleVals ∧ Augmentable triangleQ ∧
    ((RedFiltDG.ofFiltration DGVariant.clearing.reduce 1 false triangleVals triangleQ).bind fun X => X.persistencePairs 0) =
      .ok [⟨0, 2, some 1, 2, some 3⟩, ⟨0, 1, some 0, 1, some 2⟩, ⟨0, 0, none, 0, none⟩] ∧
    ((RedFiltDG.ofFiltration DGVariant.clearing.reduce 1 true triangleVals triangleQ).bind fun X => X.persistencePairs 0) =
      .ok [⟨0, 2, some 1, 2, some 3⟩, ⟨0, 1, some 0, 1, some 2⟩] ∧
    ((RedFiltDG.ofFiltration DGVariant.clearing.reduce 1 false triangleVals triangleQ).bind fun X => X.persistencePairs 1) =
      .ok [⟨1, 2, some 0, 5, some 7⟩] := by
  refine ⟨triangleQ_complex, triangleQ_zero, triangleVals_ok, triangleQ_aug, ?_, ?_, ?_⟩ <;> decide +kernel

/-! ### C59 -/

/-- C59: any sequence of `update_filtration` calls on a filtered DG vector space reduced with a basis (degree `-1` or `+1`,
augmented or not) gives the values, permutations, Betti numbers and bars of the reduction from scratch, with any flags, on the
last filtration. -/
theorem C59_update_equals_recompute (v w : DGVariant) (hvb : v.withBasis) (co b : Bool) {B : List (CMat F)} (hB : IsChainComplex B) (h2 : 2 ≤ B.length) (h0 : ZeroBdry0 B)
    (ha : b = true → Augmentable B) {val : List (List T)} (hv : ValuesFor B val) (hist : List (List (List T))) (hh : ∀ u ∈ hist, ValuesFor B u) :
    ∃ X X' Y, RedFiltDG.ofFiltration v.reduce (if co then 1 else -1) b val B = .ok X ∧ X.updateAll hist = .ok X' ∧
      RedFiltDG.ofFiltration w.reduce (if co then 1 else -1) b (hist.getLastD val) B = .ok Y ∧ X'.val = Y.val ∧ X'.perm = Y.perm ∧
      ∀ k, k < B.length → X'.RC.hdim k = Y.RC.hdim k ∧ ∃ ps, X'.persistencePairs k = .ok ps ∧ Y.persistencePairs k = .ok ps := by
  obtain ⟨D, X, x1, x2, x3⟩ := dg_state v co b hB ha hv
  obtain ⟨D', X', y1, y2, y3⟩ := DGFull.updateAll hB hist hv hh (b := b) ⟨x2, x3.1 hvb, x3.2⟩
  obtain ⟨E, Y, z1, z2, _⟩ := dg_state w co b hB ha y2
  refine ⟨X, X', Y, x1, y1, z1, by rw [y3.state.valEq, z2.valEq], by rw [y3.state.perm, z2.perm], fun k hk => ⟨?_, ?_⟩⟩
  · have hσ := sigOK_sortPerms co y2
    have haug := aug_ok ha
    have he : aug b = 0 ∨ aug b = 1 := by cases b <;> simp [aug]
    obtain ⟨n, n1, n2⟩ := y3.state.tab.hdim y3.state.sorted.sh (fun l _ => y3.state.sorted.sq hB haug hσ l) hk
    obtain ⟨m, m1, m2⟩ := z2.tab.hdim z2.sorted.sh (fun l _ => z2.sorted.sq hB haug hσ l) hk
    rw [y3.state.sorted.rank_up hσ, y3.state.sorted.rank_fac he hσ] at n2
    rw [z2.sorted.rank_up hσ, z2.sorted.rank_fac he hσ] at m2
    rw [n1, m1]; congr 1; omega
  · obtain ⟨C, R, hR, hp, _, _⟩ := pipeline .standard hB h2 h0 y2
    obtain ⟨ps, p1, p2, _⟩ := dg_pairs hB h0 ha y2 y3.state hp hk
    obtain ⟨ps', q1, q2, _⟩ := dg_pairs hB h0 ha y2 z2 hp hk
    rw [p1] at q1
    cases q1
    exact ⟨_, p2, q2⟩

/-- C59: after any sequence of updates the stored factors are a reduction of the differentials sorted by the current
filtration: `D_l U_l = R_l` with `U_l` upper triangular and invertible and `R_l` reduced, where `D_l` is the `l`-th
differential of the filtered DG vector space built from scratch. -/
theorem C59_valid_factorisation (v : DGVariant) (hvb : v.withBasis) (co b : Bool) {B : List (CMat F)} (hB : IsChainComplex B) (ha : b = true → Augmentable B)
    {val : List (List T)} (hv : ValuesFor B val) (hist : List (List (List T))) (hh : ∀ u ∈ hist, ValuesFor B u) :
    ∃ X X' Z, RedFiltDG.ofFiltration v.reduce (if co then 1 else -1) b val B = .ok X ∧ X.updateAll hist = .ok X' ∧ X'.RC.R.length = B.length + 1 ∧
      FiltDG.ofFiltration (if co then 1 else -1) b (hist.getLastD val) B = .ok Z ∧
      ∀ l, l ≤ B.length → ∃ (D U R : CMat F) (m n : Nat), Z.C.diff[l]? = some D ∧ X'.RC.U[l]? = some U ∧ X'.RC.R[l]? = some R ∧ D.Shape m n ∧ R.Shape m n ∧ U.Shape n n ∧
        UpperInv (U.mat n n) ∧ Reduced (R.mat m n) ∧ D.mat m n * U.mat n n = R.mat m n := by
  obtain ⟨D, X, x1, x2, x3⟩ := dg_state v co b hB ha hv
  obtain ⟨D', X', y1, y2, y3⟩ := DGFull.updateAll hB hist hv hh (b := b) ⟨x2, x3.1 hvb, x3.2⟩
  refine ⟨X, X', _, x1, y1, y3.basis.tab.lenR, y3.scratch, fun l hl => ?_⟩
  have e1 := getD_getElem? (l := D') (⟨0, []⟩ : CMat F) (i := l) (by rw [y3.state.sorted.sh.len]; omega)
  have hlev := y3.basis.tab.lev l hl
  have hf := y3.basis.fac l hl
  have e2 := getD_getElem? (l := X'.RC.U) (⟨0, []⟩ : CMat F) (i := l) (by rw [y3.basis.lenU]; omega)
  have e3 := getD_getElem? (l := X'.RC.R) (⟨0, []⟩ : CMat F) (i := l) (by rw [y3.basis.tab.lenR]; omega)
  exact ⟨_, _, _, _, _, e1, e2, e3, hlev.shapeM, hlev.shapeR, hf.shape, hf.upper, hlev.table.reduced, hf.eq⟩

example : DGVariant.clearingBasis.withBasis ∧ ValuesFor triangleQ triangleVals ∧ ValuesFor triangleQ triangleVals2 ∧
    ((RedFiltDG.ofFiltration DGVariant.clearingBasis.reduce 1 false triangleVals triangleQ).bind
      fun X => (X.updateAll [triangleVals2]).bind fun X' => X'.persistencePairs 1) = .ok [⟨1, 0, some 0, 6, some 7⟩] :=
  ⟨Or.inr rfl, triangleVals_ok, by
    refine ⟨rfl, ?_⟩
    have : ∀ k : Fin 3, (triangleVals2.getD k []).length = cdim triangleQ k := by decide
    intro k hk; exact this ⟨k, hk⟩, by decide +kernel⟩

/-- C59: `update_filtration` of the filtered DG vector space itself (not of its reduction) is wrong: on the triangle with degree
`-1` it records the new order but stores a boundary matrix that is not the one of the space built from scratch, and with
degree `+1` it applies a permutation of the vertices to the rows indexed by edges and of the edges to the row indexed by the face, out of bounds. -/
theorem C59_space_update_wrong :
    (((FiltDG.ofFiltration (-1) false triangleVals triangleQ).bind fun X => X.updateFiltration [[2, 0, 1], [6, 4, 3], [7]]).bind
      fun X => .ok (X.perm, X.C.diff)) = .ok ([[1, 2, 0], [2, 1, 0], [0]],
        [⟨0, [[], [], []]⟩, ⟨3, [[(0, 1), (2, -1)], [(0, 1), (1, -1)], [(1, -1), (2, 1)]]⟩, ⟨3, [[(0, 1), (1, -1), (2, 1)]]⟩, ⟨1, []⟩]) ∧
    ((FiltDG.ofFiltration (-1) false [[2, 0, 1], [6, 4, 3], [7]] triangleQ).bind fun X => .ok (X.perm, X.C.diff)) =
      .ok ([[1, 2, 0], [2, 1, 0], [0]],
        [⟨0, [[], [], []]⟩, ⟨3, [[(0, -1), (1, 1)], [(1, 1), (2, -1)], [(0, 1), (2, -1)]]⟩, ⟨3, [[(0, 1), (1, -1), (2, 1)]]⟩, ⟨1, []⟩]) ∧
    (((FiltDG.ofFiltration 1 false triangleVals triangleQ).bind fun X => X.updateFiltration [[2, 0, 1], [6, 4, 3], [7]]).bind
      fun X => .ok (X.perm, X.C.diff)) = .error .thrown := by
  refine ⟨?_, ?_, ?_⟩ <;> decide +kernel

/-! ### C60 -/

/-- C60: with degree `-1`, `get_preferred_representative(j, k)` returns cycles whose classes are a basis of homology in
dimension `k`. -/
theorem C60_homology_representatives (v : DGVariant) (hv : v.withBasis) {B : List (CMat F)} (hB : IsChainComplex B) (h0 : ZeroBdry0 B) :
    ∃ C X, DGVS.ofComplex (-1) false B = .ok C ∧ v.reduce C = .ok X ∧ ∀ k, k < B.length →
      ∃ n, X.hdim k = .ok n ∧ ∃ rep : Fin n → SVec F, (∀ g, X.getPreferredRepresentative g.val k = .ok (rep g)) ∧
        (∀ g, VecOK (rep g) ∧ Below (cdim B k) (rep g) ∧ vecOf (cdim B k) (rep g) ∈ cycles B k) ∧
        ∀ z ∈ cycles B k, ∃! c : Fin n → F, z - ∑ g, c g • vecOf (cdim B k) (rep g) ∈ boundaries B k := by
  obtain ⟨D, X, h1, h2, h3, h4, h5⟩ := dg_basis v hv false false hB (by simp)
  refine ⟨_, X, h1, h2, fun k hk => ?_⟩
  obtain ⟨n, n1, rep, r1, r2, r3⟩ := reps_hom h4 hk (h5 k)
  refine ⟨n, n1, rep, r1, fun g => ⟨(r2 g).1, (r2 g).2.1, (fac_ker h0 h3 k _).1 (r2 g).2.2⟩, fun z hz => ?_⟩
  have := r3 z ((fac_ker h0 h3 k z).2 hz)
  rw [facUp_id h3 k] at this
  exact this

/-- C60: the same for reduced homology of the augmented complex. -/
theorem C60_reduced_homology_representatives (v : DGVariant) (hv : v.withBasis) {B : List (CMat F)} (hB : IsChainComplex B) (ha : Augmentable B) :
    ∃ C X, DGVS.ofComplex (-1) true B = .ok C ∧ v.reduce C = .ok X ∧ ∀ k, k < B.length →
      ∃ n, X.hdim k = .ok n ∧ ∃ rep : Fin n → SVec F, (∀ g, X.getPreferredRepresentative g.val k = .ok (rep g)) ∧
        (∀ g, VecOK (rep g) ∧ Below (cdim B k) (rep g) ∧ vecOf (cdim B k) (rep g) ∈ augCycles B k) ∧
        ∀ z ∈ augCycles B k, ∃! c : Fin n → F, z - ∑ g, c g • vecOf (cdim B k) (rep g) ∈ boundaries B k := by
  obtain ⟨D, X, h1, h2, h3, h4, h5⟩ := dg_basis v hv false true hB (fun _ => ha)
  refine ⟨_, X, h1, h2, fun k hk => ?_⟩
  obtain ⟨n, n1, rep, r1, r2, r3⟩ := reps_hom h4 hk (h5 k)
  refine ⟨n, n1, rep, r1, fun g => ⟨(r2 g).1, (r2 g).2.1, (fac_ker_aug h3 k _).1 (r2 g).2.2⟩, fun z hz => ?_⟩
  have := r3 z ((fac_ker_aug h3 k z).2 hz)
  rw [facUp_id h3 k] at this
  exact this

/-- C60: with degree `+1` the index is shifted: it is `get_preferred_representative(j, k + 1)` that returns cocycles whose
classes are a basis of cohomology in dimension `k`. -/
theorem C60_cohomology_representatives_shifted (v : DGVariant) (hv : v.withBasis) {B : List (CMat F)} (hB : IsChainComplex B) (h0 : ZeroBdry0 B) :
    ∃ C X, DGVS.ofComplex 1 false B = .ok C ∧ v.reduce C = .ok X ∧ ∀ k, k < B.length →
      ∃ n, X.hdim k = .ok n ∧ ∃ rep : Fin n → SVec F, (∀ g, X.getPreferredRepresentative g.val (k + 1) = .ok (rep g)) ∧
        (∀ g, VecOK (rep g) ∧ Below (cdim B k) (rep g) ∧ vecOf (cdim B k) (rep g) ∈ cocycles B k) ∧
        ∀ z ∈ cocycles B k, ∃! c : Fin n → F, z - ∑ g, c g • vecOf (cdim B k) (rep g) ∈ coboundaries B k := by
  obtain ⟨D, X, h1, h2, h3, h4, h5⟩ := dg_basis v hv true false hB (by simp)
  refine ⟨_, X, h1, h2, fun k hk => ?_⟩
  obtain ⟨n, n1, rep, r1, r2, r3⟩ := reps_coh h4 hk (h5 k)
  have hk' : ∀ z : Fin (cdim B k) → F, (facUp true (cdim B) D k)ᵀ *ᵥ z = 0 ↔ z ∈ cocycles B k := by
    intro z
    unfold cocycles
    rw [LinearMap.mem_ker, mulVecLin_apply, facUp_id h3 k]
  refine ⟨n, n1, rep, r1, fun g => ⟨(r2 g).1, (r2 g).2.1, (hk' _).1 (r2 g).2.2⟩, fun z hz => ?_⟩
  have := r3 z ((hk' z).2 hz)
  have e := fac_range h0 h3 k
  rw [← e]
  exact this

/-- C60: the same for reduced cohomology of the augmented complex. -/
theorem C60_reduced_cohomology_representatives_shifted (v : DGVariant) (hv : v.withBasis) {B : List (CMat F)} (hB : IsChainComplex B) (ha : Augmentable B) :
    ∃ C X, DGVS.ofComplex 1 true B = .ok C ∧ v.reduce C = .ok X ∧ ∀ k, k < B.length →
      ∃ n, X.hdim k = .ok n ∧ ∃ rep : Fin n → SVec F, (∀ g, X.getPreferredRepresentative g.val (k + 1) = .ok (rep g)) ∧
        (∀ g, VecOK (rep g) ∧ Below (cdim B k) (rep g) ∧ vecOf (cdim B k) (rep g) ∈ cocycles B k) ∧
        ∀ z ∈ cocycles B k, ∃! c : Fin n → F, z - ∑ g, c g • vecOf (cdim B k) (rep g) ∈ augCoboundaries B k := by
  obtain ⟨D, X, h1, h2, h3, h4, h5⟩ := dg_basis v hv true true hB (fun _ => ha)
  refine ⟨_, X, h1, h2, fun k hk => ?_⟩
  obtain ⟨n, n1, rep, r1, r2, r3⟩ := reps_coh h4 hk (h5 k)
  have hk' : ∀ z : Fin (cdim B k) → F, (facUp true (cdim B) D k)ᵀ *ᵥ z = 0 ↔ z ∈ cocycles B k := by
    intro z
    unfold cocycles
    rw [LinearMap.mem_ker, mulVecLin_apply, facUp_id h3 k]
  refine ⟨n, n1, rep, r1, fun g => ⟨(r2 g).1, (r2 g).2.1, (hk' _).1 (r2 g).2.2⟩, fun z hz => ?_⟩
  have := r3 z ((hk' z).2 hz)
  have e := fac_range_aug h3 k
  rw [← e]
  exact this

/-- C60: so, with degree `+1`, `get_preferred_representative(0, 0)` reads out of bounds although there is a class in
dimension 0, and `get_preferred_representative(0, 1)` returns a vector on the vertices instead of the edges: the circle. -/
theorem C60_cohomology_index_wrong :
    ((DGVS.ofComplex 1 false circleQ).bind fun C => (RedDG.mkStd C).bind fun X => X.hdim 0) = .ok 1 ∧
    ((DGVS.ofComplex 1 false circleQ).bind fun C => (RedDG.mkStd C).bind fun X => X.getPreferredRepresentative 0 0) = .error .ub ∧
    ((DGVS.ofComplex 1 false circleQ).bind fun C => (RedDG.mkStd C).bind fun X => X.getPreferredRepresentative 0 1) = .ok [(0, 1), (1, 1), (2, 1)] ∧
    ((DGVS.ofComplex 1 false circleQ).bind fun C => (RedDG.mkStd C).bind fun X => X.getPreferredRepresentative 0 2) = .ok [(0, 1)] := by
  refine ⟨?_, ?_, ?_, ?_⟩ <;> decide +kernel

example : DGVariant.standard.withBasis ∧ IsChainComplex circleQ ∧ ZeroBdry0 circleQ ∧ Augmentable circleQ :=
  ⟨Or.inl rfl, circleQ_complex, circleQ_zero, circleQ_aug⟩

end BATS
