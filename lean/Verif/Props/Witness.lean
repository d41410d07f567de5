import Verif.Proofs.Witness2
import Verif.Props.SimplicialPersistence
import Verif.Props.Flag
import Verif.Proofs.ZZSort
import Mathlib.Algebra.Order.Ring.Rat

set_option linter.unusedSectionVars false
set_option linter.unusedVariables false
set_option linter.unusedSimpArgs false

/-! # C69: Dowker and witness complexes (include/topology/dowker.hpp, neighborhood.hpp)

The specification is in `Verif/Spec/Witness.lean`. -/

namespace BATS
namespace Wit
open Lmk BATS.Flag

section order
variable {T : Type} [LinearOrder T] [Zero T]

theorem tab_le {tmax : T} (h0 : 0 ≤ tmax) {p : List (List T)} (hb : ∀ r ∈ p, ∀ x ∈ r, x ≤ tmax) (i k : Nat) : tab p i k ≤ tmax := by
  unfold tab
  rcases Nat.lt_or_ge i p.length with hi | hi
  · rw [List.getD_eq_getElem?_getD (l := p), List.getElem?_eq_getElem hi, Option.getD_some]
    rcases Nat.lt_or_ge k p[i].length with hk | hk
    · rw [List.getD_eq_getElem?_getD, List.getElem?_eq_getElem hk]
      exact hb _ (List.getElem_mem hi) _ (List.getElem_mem hk)
    · rw [List.getD_eq_getElem?_getD, List.getElem?_eq_none hk]; exact h0
  · rw [List.getD_eq_getElem?_getD (l := p), List.getElem?_eq_none hi]
    simpa using h0

theorem tab_nonneg {p : List (List T)} (hb : ∀ r ∈ p, ∀ x ∈ r, 0 ≤ x) (i k : Nat) : 0 ≤ tab p i k := by
  unfold tab
  rcases Nat.lt_or_ge i p.length with hi | hi
  · rw [List.getD_eq_getElem?_getD (l := p), List.getElem?_eq_getElem hi, Option.getD_some]
    rcases Nat.lt_or_ge k p[i].length with hk | hk
    · rw [List.getD_eq_getElem?_getD, List.getElem?_eq_getElem hk]
      exact hb _ (List.getElem_mem hi) _ (List.getElem_mem hk)
    · rw [List.getD_eq_getElem?_getD, List.getElem?_eq_none hk]; exact le_refl _
  · rw [List.getD_eq_getElem?_getD (l := p), List.getElem?_eq_none hi]
    simp

/-! ### `get_m`, `dowker_edge_param` -/

/-- C69: `get_m(pdist, nu)` is, for every column, the `nu`-th smallest of its *distinct positive* entries (the largest number if there are fewer). -/
theorem C69_get_m {tmax : T} (h0 : 0 ≤ tmax) {p : List (List T)} {nL nX : Nat} (hp : IsMat p nL nX) (hb : ∀ r ∈ p, ∀ x ∈ r, x ≤ tmax) (nu : Nat) :
    ∃ ms, getM tmax p nX nu = .ok ms ∧ ms.length = nX ∧ ∀ k, k < nX → IsNthPositive tmax p nL k nu (ms.getD k 0) :=
  getM_spec hp (tab_le h0 hb) nu

/-- C69: `dowker_edge_param(pdist)` is symmetric with zeros on the diagonal, and its other entries are the smallest `t` for which the two landmarks have a common witness
within `t` (the largest number if there is no point at all). -/
theorem C69_dowker_param {tmax : T} (h0 : 0 ≤ tmax) {p : List (List T)} {nL nX : Nat} (hp : IsMat p nL nX) (hb : ∀ r ∈ p, ∀ x ∈ r, x ≤ tmax) :
    ∃ R, dowkerParam tmax p nX = .ok R ∧ IsMat R nL nL ∧ (∀ i, i < nL → tab R i i = 0) ∧ (∀ i j, i < nL → j < nL → tab R i j = tab R j i) ∧
      ∀ i j, i < nL → j < nL → i ≠ j → (nX = 0 → tab R i j = tmax) ∧ (0 < nX → IsDowkerParam p nX i j (tab R i j)) := by
  obtain ⟨R, h1, h2⟩ := dowkerParam_spec tmax hp
  exact ⟨R, h1, h2.mat, h2.diag, h2.symm, fun i j hi hj hij => ⟨(h2.entry i j hi hj hij).1, fun h => (h2.entry i j hi hj hij).2 h (tab_le h0 hb)⟩⟩

/-! ### the Dowker filtration -/

theorem param_le {tmax : T} (h0 : 0 ≤ tmax) {p R : List (List T)} {nL nX : Nat} (hb : ∀ r ∈ p, ∀ x ∈ r, x ≤ tmax) (hR : IsParamMat tmax p nL nX R) {a b : Nat}
    (ha : a < nL) (hb' : b < nL) (hab : a ≠ b) (hX : 0 < nX) (t : T) : tab R a b ≤ t ↔ WitnessWithin p nX t a b := by
  obtain ⟨⟨k, k1, k2, k3⟩, h2⟩ := (hR.entry a b ha hb' hab).2 hX (tab_le h0 hb)
  exact ⟨fun h => ⟨k, k1, le_trans k2 h, le_trans k3 h⟩, fun h => h2 h⟩

theorem param_lt {tmax : T} (h0 : 0 ≤ tmax) {p R : List (List T)} {nL nX : Nat} (hb : ∀ r ∈ p, ∀ x ∈ r, x ≤ tmax) (hR : IsParamMat tmax p nL nX R) {a b : Nat}
    (ha : a < nL) (hb' : b < nL) (hab : a ≠ b) {rmax : T} (hr : rmax ≤ tmax) : tab R a b < rmax ↔ HasWitness p nX rmax a b := by
  rcases Nat.eq_zero_or_pos nX with hX | hX
  · rw [(hR.entry a b ha hb' hab).1 hX]
    constructor
    · intro h; exact absurd hr (not_le.2 h)
    · rintro ⟨k, k1, _⟩; omega
  · obtain ⟨⟨k, k1, k2, k3⟩, h2⟩ := (hR.entry a b ha hb' hab).2 hX (tab_le h0 hb)
    constructor
    · intro h; exact ⟨k, k1, lt_of_le_of_lt k2 h, lt_of_le_of_lt k3 h⟩
    · rintro ⟨k, k1, k2, k3⟩
      exact lt_of_le_of_lt (h2 ⟨k, k1, le_max_left _ _, le_max_right _ _⟩) (max_lt k2 k3)

theorem flagEdges_graph {R : List (List T)} {n : Nat} (hR : IsMat R n n) (hsym : ∀ i j, i < n → j < n → tab R i j = tab R j i) (rmax : T) :
    ∃ es, flagFiltrationEdges R n rmax = .ok es ∧ SimpleGraphOn n (es.map FEdge.ends) ∧
      ∀ a b r, ((⟨a, b, r⟩ : FEdge T) ∈ es ∨ ⟨b, a, r⟩ ∈ es) ∧ a < b ↔ a < b ∧ b < n ∧ r = tab R a b ∧ tab R a b < rmax := by
  obtain ⟨es, h1, h2, h3⟩ := flagLoop_spec hR rmax n 0 (by omega)
  have hp := sortEdges_perm es
  have hmem : ∀ e, e ∈ sortEdges es ↔ 0 ≤ e.s ∧ e.s < 0 + n ∧ e.t < e.s ∧ e.r = tab R e.s e.t ∧ e.r < rmax := fun e => by rw [hp.mem_iff, h2]
  refine ⟨sortEdges es, ?_, ⟨?_, ?_⟩, ?_⟩
  · unfold flagFiltrationEdges; rw [h1]; rfl
  · intro q hq
    obtain ⟨e, he, rfl⟩ := List.mem_map.1 hq
    have := (hmem e).1 he
    exact ⟨by show e.s < n; omega, by show e.t < n; omega, by show e.s ≠ e.t; omega⟩
  · have hsymm : Std.Symm (fun p q : Nat × Nat => p ≠ q ∧ p ≠ q.swap) := ⟨by
      rintro ⟨a, b⟩ ⟨c, d⟩ ⟨h1, h2⟩
      refine ⟨fun h => h1 h.symm, fun h => h2 ?_⟩
      rw [h]; simp⟩
    rw [List.Perm.pairwise_iff (fun h => hsymm.symm _ _ h) (hp.map FEdge.ends)]
    · rw [List.pairwise_map]
      refine (List.Pairwise.and_mem.1 h3).imp ?_
      rintro e f ⟨he, hf, h⟩
      have he := (h2 e).1 he
      have hf := (h2 f).1 hf
      unfold FEdge.ends
      constructor
      · intro h'; simp only [Prod.mk.injEq] at h'; omega
      · intro h'; simp only [Prod.swap, Prod.mk.injEq] at h'; omega
  · intro a b r
    rw [hmem, hmem]
    constructor
    · rintro ⟨h | h, hab⟩
      · exact absurd h.2.2.1 (by show ¬ b < a; omega)
      · obtain ⟨_, q2, q3, q4, q5⟩ := h
        have q2 : b < 0 + n := q2
        have q4 : r = tab R b a := q4
        have q5 : r < rmax := q5
        refine ⟨hab, by omega, ?_, ?_⟩
        · rw [hsym a b (by omega) (by omega)]; exact q4
        · rw [hsym a b (by omega) (by omega), ← q4]; exact q5
    · rintro ⟨hab, hbn, q1, q2⟩
      refine ⟨Or.inr ⟨Nat.zero_le _, by show b < 0 + n; omega, hab, ?_, ?_⟩, hab⟩
      · rw [q1, hsym a b (by omega) (by omega)]
      · rw [q1]; exact q2

theorem dowkerFiltration_spec {tmax : T} {p : List (List T)} {nL nX : Nat} (hp : IsMat p nL nX) (rmax : T) (dmax : Nat) :
    ∃ R Ψ cells w, IsParamMat tmax p nL nX R ∧ dowkerFiltration tmax p nX rmax dmax = .ok Ψ ∧ Filt.FInv Ψ cells w ∧ dmax ≤ Ψ.X.maxdim ∧
      ∀ s x, w s = some x ↔ IsFlagSimplex (fun a b => tab R a b < rmax) nL (max dmax 1) s ∧ IsDiam (tab R) s x := by
  obtain ⟨R, h1, h2⟩ := dowkerParam_spec tmax hp
  obtain ⟨es, e1, e2, e3⟩ := flagEdges_graph h2.mat h2.symm rmax
  obtain ⟨Ψ, cells, w, f1, f2, f3, f4⟩ := flagFiltration_graph (E := fun a b => tab R a b < rmax) (dist := tab R) e3 e2 dmax
  refine ⟨R, Ψ, cells, w, h2, ?_, f2, f3, f4⟩
  unfold dowkerFiltration
  rw [h1, hp.len]
  show (flagFiltrationEdges R nL rmax >>= _) = _
  rw [e1]; exact f1

theorem isFlag_congr {E E' : Nat → Nat → Prop} {n D : Nat} (h : ∀ a b, a < b → b < n → (E a b ↔ E' a b)) (s : List Nat) : IsFlagSimplex E n D s ↔ IsFlagSimplex E' n D s :=
  ⟨fun q => ⟨q.ne, q.inc, q.lt, q.len, fun a ha b hb hab => (h a b hab (q.lt b hb)).1 (q.joined a ha b hb hab)⟩,
   fun q => ⟨q.ne, q.inc, q.lt, q.len, fun a ha b hb hab => (h a b hab (q.lt b hb)).2 (q.joined a ha b hb hab)⟩⟩

/-- C69: `DowkerFiltration(pdist, rmax, dmax)` contains exactly the sets of at most `dmax + 1` landmarks (at least the edges) any two of which have a common witness at
distance less than `rmax`; the value of a simplex is the smallest `t` such that any two of its landmarks have a common witness within `t`. -/
theorem C69_dowker_filtration {tmax : T} (h0 : 0 ≤ tmax) {p : List (List T)} {nL nX : Nat} (hp : IsMat p nL nX) (hb : ∀ r ∈ p, ∀ x ∈ r, x ≤ tmax)
    {rmax : T} (hr : rmax ≤ tmax) (dmax : Nat) :
    ∃ Ψ w, dowkerFiltration tmax p nX rmax dmax = .ok Ψ ∧ Filt.Represents Ψ w ∧
      ∀ s x, w s = some x ↔ IsFlagSimplex (HasWitness p nX rmax) nL (max dmax 1) s ∧ IsDowkerValue p nX s x := by
  obtain ⟨R, Ψ, cells, w, hR, h1, h2, _, h4⟩ := dowkerFiltration_spec (tmax := tmax) hp rmax dmax
  refine ⟨Ψ, w, h1, h2.represents, fun s x => ?_⟩
  rw [h4, isFlag_congr (E' := HasWitness p nX rmax) (fun a b hab hbn => param_lt h0 hb hR (by omega) hbn (by omega) hr)]
  refine and_congr_right (fun hs => ?_)
  unfold IsDiam IsDowkerValue
  refine and_congr_right (fun _ => ?_)
  constructor
  · intro h hl
    obtain ⟨⟨a, ha, b, hb', hab, e⟩, hmax⟩ := h hl
    have hX : 0 < nX := by obtain ⟨k, k1, _⟩ := hs.joined a ha b hb' hab; omega
    constructor
    · intro c hc d hd hcd
      exact (param_le h0 hb hR (hs.lt c hc) (hs.lt d hd) (by omega) hX x).1 (hmax ⟨c, hc, d, hd, hcd, rfl⟩)
    · intro t ht
      rw [← e]
      exact (param_le h0 hb hR (hs.lt a ha) (hs.lt b hb') (by omega) hX t).2 (ht a ha b hb' hab)
  · intro h hl
    obtain ⟨y, hy⟩ := exists_diam (tab R) s hs.inc
    obtain ⟨⟨a, ha, b, hb', hab, e⟩, hmax⟩ := hy.2 hl
    have hX : 0 < nX := by obtain ⟨k, k1, _⟩ := hs.joined a ha b hb' hab; omega
    have : IsLeast {t | ∀ a ∈ s, ∀ b ∈ s, a < b → ∃ k, k < nX ∧ tab p a k ≤ t ∧ tab p b k ≤ t} y := by
      constructor
      · intro c hc d hd hcd
        exact (param_le h0 hb hR (hs.lt c hc) (hs.lt d hd) (by omega) hX y).1 (hmax ⟨c, hc, d, hd, hcd, rfl⟩)
      · intro t ht
        rw [← e]
        exact (param_le h0 hb hR (hs.lt a ha) (hs.lt b hb') (by omega) hX t).2 (ht a ha b hb' hab)
    rw [(h hl).unique this]
    exact hy.2 hl

section pers
variable {F : Type} [Field F] [DecidableEq F]

/-- C69: the persistence pairs computed from a Dowker filtration count the ranks of the maps in homology between the flag complexes of the graphs "common witness within `s`"
and "common witness within `t`". -/
theorem C69_dowker_persistence (v : Variant) {tmax : T} (h0 : 0 ≤ tmax) {p : List (List T)} {nL nX : Nat} (hp : IsMat p nL nX) (hb : ∀ r ∈ p, ∀ x ∈ r, 0 ≤ x ∧ x ≤ tmax)
    {rmax : T} (hr : rmax ≤ tmax) (dmax : Nat) (hd : 1 ≤ dmax) :
    ∃ (Ψ : Filt T) (B : List (CMat F)) (C : RedFiltCpx T F), dowkerFiltration tmax p nX rmax dmax = .ok Ψ ∧
      Ψ.X.chainComplex = .ok B ∧ RedFiltCpx.ofFiltration v.reduce Ψ.val B = .ok C ∧
      ∀ k, k ≤ dmax → ∃ ps, C.persistencePairs k false = .ok ps ∧
        ∀ (s t : T) (hs : 0 ≤ s) (hst : s ≤ t) (ht : t < rmax),
          ps.countP (fun q => decide (q.birth ≤ s) && (match q.death with | none => true | some d => decide (t < d))) =
            Module.finrank F (LinearMap.range (simpInclusion F (isASC_flagComplexOf (WitnessWithin p nX s) nL dmax) (isASC_flagComplexOf (WitnessWithin p nX t) nL dmax)
              (flagComplexOf_mono nL dmax (WitnessWithin.mono hst)) k)) := by
  obtain ⟨R, Ψ, cells, w, hR, h1, h2, h3, h4⟩ := dowkerFiltration_spec (tmax := tmax) hp rmax dmax
  rw [Nat.max_eq_left hd] at h4
  have hb1 : ∀ r ∈ p, ∀ x ∈ r, x ≤ tmax := fun r hr x hx => (hb r hr x hx).2
  have hn : ∀ a b, a < b → b < nL → 0 ≤ tab R a b := by
    intro a b hab hbn
    rcases Nat.eq_zero_or_pos nX with hX | hX
    · rw [(hR.entry a b (by omega) hbn (by omega)).1 hX]; exact h0
    · obtain ⟨k, k1, k2, k3⟩ := (param_le h0 hb1 hR (a := a) (b := b) (by omega) hbn (by omega) hX _).1 (le_refl _)
      exact le_trans (tab_nonneg (fun r hr x hx => (hb r hr x hx).1) a k) k2
  have hsort : ∀ d s, s ∈ cells d → s.Pairwise (· < ·) := by
    intro d s hs
    have hmem := (SCpx.mem_setOf (h2.inv.ok.len d s hs)).2 hs
    obtain ⟨x, hx⟩ := Option.ne_none_iff_exists'.1 ((h2.dom s).2 hmem)
    exact ((h4 s x).1 hx).1.inc
  obtain ⟨B, C, hasc, hsub, b1, b2, b3⟩ := persistence_core (F := F) v h2 hsort (flag_monotone hn h4) (by omega) _ (mem_flag_iff hn h4)
  refine ⟨Ψ, B, C, h1, b1, b2, fun k hk => ?_⟩
  obtain ⟨ps, p1, p2⟩ := b3 k (by omega)
  refine ⟨ps, p1, fun s t hs hst ht => ?_⟩
  have hcx : ∀ t, 0 ≤ t → t < rmax → (if 0 ≤ t then flagComplexOf (fun b c => tab R b c < rmax ∧ tab R b c ≤ t) nL dmax else ∅) = flagComplexOf (WitnessWithin p nX t) nL dmax := by
    intro t ht0 ht
    rw [if_pos ht0]
    ext σ
    rw [mem_flagComplexOf, mem_flagComplexOf]
    refine and_congr_right (fun hlt => and_congr_right (fun _ => and_congr_right (fun _ => ?_)))
    refine forall_congr' fun a => forall_congr' fun ha => forall_congr' fun b => forall_congr' fun hb' => forall_congr' fun hab => ?_
    have h1 := param_lt h0 hb1 hR (hlt a ha) (hlt b hb') (by omega) hr
    rcases Nat.eq_zero_or_pos nX with hX | hX
    · constructor
      · rintro ⟨q, _⟩
        obtain ⟨k, k1, _⟩ := h1.1 q; omega
      · rintro ⟨k, k1, _⟩; omega
    · rw [param_le h0 hb1 hR (hlt a ha) (hlt b hb') (by omega) hX t]
      refine ⟨fun q => q.2, fun q => ⟨?_, q⟩⟩
      exact lt_of_le_of_lt ((param_le h0 hb1 hR (hlt a ha) (hlt b hb') (by omega) hX t).2 q) ht
  exact (p2 s t hst).trans (finrank_inclusion_congr _ _ _ _ _ _ (hcx s hs (lt_of_le_of_lt hst ht)) (hcx t (le_trans hs hst) ht) k)

end pers

/-! ### neighbourhoods -/

/-- C69: `firstk`, `neighborhood(x, X, dist, k)`: `k` positions of smallest entries, nearest first, for every implementation of `std::partial_sort`. -/
theorem C69_firstk (P : PartialSort) {d : List T} {k : Nat} (hk : k ≤ d.length) : ∃ l, firstk P d k = .ok l ∧ IsNearest d k l := firstk_spec P hk

/-- C69: with `k` greater than the number of points, `firstk` passes an iterator behind the end. -/
theorem C69_firstk_ub (P : PartialSort) {d : List T} {k : Nat} (hk : d.length < k) : firstk P d k = .error .ub := firstk_ub P hk

/-- C69: `neighborhoods(X, Y, dist, k)` lists for every point `k` nearest points of `Y`, whatever the schedule of the parallel loop. -/
theorem C69_neighborhoods_k (P : PartialSort) {rows : List (List T)} {k : Nat} (hk : ∀ r ∈ rows, k ≤ r.length) {sched : List Nat} (hs : sched.Perm (List.range rows.length)) :
    ∃ nbrs, neighborhoodsK P rows k sched = .ok nbrs ∧ List.Forall₂ (fun r nb => firstk P r k = .ok nb ∧ IsNearest r k nb) rows nbrs :=
  neighborhoodsK_spec P hk hs

/-- C69: `neighborhood(x, X, dist, r)` lists in increasing order the points at distance less than `r`. -/
theorem C69_neighborhood (r : T) (d : List T) : (within r d 0).Pairwise (· < ·) ∧ ∀ a, a ∈ within r d 0 ↔ a < d.length ∧ d.getD a 0 < r :=
  ⟨within_sorted r d 0, fun a => by rw [mem_within]; simp⟩

/-- C69: `neighborhoods(X, Y, dist, r)` returns `2n` lists for `n` points: `n` empty ones, then the neighbourhoods in the order in which the threads finish. -/
theorem C69_neighborhoods_r (rows : List (List T)) (r : T) {sched : List Nat} (hs : sched.Perm (List.range rows.length)) :
    neighborhoodsR rows r sched = .ok (List.replicate rows.length [] ++ sched.map (fun i => within r (rows.getD i []) 0)) :=
  neighborhoodsR_spec r rows sched _ (fun i hi => List.mem_range.1 (hs.mem_iff.1 hi))

/-- C69: therefore `witness_edges(X, L, dist, rmax)` finds no edge at all, whatever the data. -/
theorem C69_witness_edges (rows : List (List T)) (r : T) {sched : List Nat} (hs : sched.Perm (List.range rows.length)) : witnessEdges rows r sched = .ok [] := by
  unfold witnessEdges
  rw [C69_neighborhoods_r rows r hs]
  refine witnessEdgeLoop_nil (n := rows.length) ?_ rows.length 0 (by omega)
  intro j hj
  rw [List.getElem?_append_left (by simpa using hj), List.getElem?_replicate, if_pos hj]

/-- C69: `neighborhoods(pdist, eps)`: for every row the columns whose entry is at most `eps`, in increasing order. -/
theorem C69_neighborhoods_eps {p : List (List T)} {nL nX : Nat} (hp : IsMat p nL nX) (eps : T) :
    ∃ cv, hoods p nX eps = .ok cv ∧ cv.length = nL ∧ Nrv.IsCover cv ∧ ∀ i a, a ∈ cv.getD i [] ↔ i < nL ∧ a < nX ∧ tab p i a ≤ eps := hoods_spec hp eps

/-- C69: `landmark_cover(X, L, dist, k)`: landmark `j` covers the points which have `j` among their `k` nearest landmarks; every point is covered exactly `k` times. -/
theorem C69_landmark_cover (P : PartialSort) {rows : List (List T)} {nL k : Nat} (hr : ∀ r ∈ rows, r.length = nL) (hk : k ≤ nL) {sched : List Nat}
    (hs : sched.Perm (List.range rows.length)) :
    ∃ (nbrs cv : List (List Nat)), List.Forall₂ (fun r nb => IsNearest r k nb) rows nbrs ∧ landmarkCover P rows nL k sched = .ok cv ∧ cv.length = nL ∧ Nrv.IsCover cv ∧
      (∀ (j a : Nat), a ∈ cv.getD j [] ↔ ∃ nb, nbrs[a]? = some nb ∧ j ∈ nb) ∧
      ∀ a, a < rows.length → ((List.range nL).filter (fun j => decide (a ∈ cv.getD j []))).length = k := by
  obtain ⟨nbrs, h1, h2⟩ := neighborhoodsK_spec P (k := k) (fun r h => by rw [hr r h]; exact hk) hs
  have h2' : List.Forall₂ (fun r nb => IsNearest r k nb) rows nbrs := h2.imp (fun _ _ h => h.2)
  have hnb : ∀ nb ∈ nbrs, nb.Nodup ∧ (∀ j ∈ nb, j < nL) ∧ nb.length = k := by
    intro nb hb
    obtain ⟨i, hi, rfl⟩ := List.getElem_of_mem hb
    have hi' : i < rows.length := by rw [h2'.length_eq]; exact hi
    have := (List.forall₂_iff_get.1 h2').2 i hi' hi
    exact ⟨this.nodup, fun j hj => by rw [← hr rows[i] (List.getElem_mem hi')]; exact this.lt j hj, this.len⟩
  have hrep : ∀ j, (List.replicate nL ([] : List Nat)).getD j [] = [] := by
    intro j; rw [List.getD_eq_getElem?_getD, List.getElem?_replicate]; split <;> rfl
  obtain ⟨cv, c1, c2, c3⟩ := landmarkLoop_spec nbrs 0 (List.replicate nL []) (by simp) (fun nb h => ⟨(hnb nb h).1, (hnb nb h).2.1⟩) (by intro j; rw [hrep]; simp)
  have hmem : ∀ (j a : Nat), a ∈ cv.getD j [] ↔ ∃ nb, nbrs[a]? = some nb ∧ j ∈ nb := by
    intro j a
    rw [(c3 j).2, hrep]; simp
  refine ⟨nbrs, cv, h2', ?_, c2, ?_, hmem, ?_⟩
  · unfold landmarkCover
    rw [h1]; exact c1
  · intro s hs
    obtain ⟨j, hj, rfl⟩ := List.getElem_of_mem hs
    have := (c3 j).1
    rwa [List.getD_eq_getElem?_getD, List.getElem?_eq_getElem hj] at this
  · intro a ha
    have ha' : a < nbrs.length := by rw [← h2'.length_eq]; exact ha
    obtain ⟨n1, n2, n3⟩ := hnb nbrs[a] (List.getElem_mem ha')
    have : ((List.range nL).filter (fun j => decide (a ∈ cv.getD j []))).Perm nbrs[a] := by
      rw [List.perm_ext_iff_of_nodup (List.nodup_range.filter _) n1]
      intro j
      rw [List.mem_filter, List.mem_range, decide_eq_true_eq, hmem, List.getElem?_eq_getElem ha']
      constructor
      · rintro ⟨_, nb, h, hj⟩; rw [Option.some.inj h]; exact hj
      · intro hj; exact ⟨n2 j hj, _, rfl, hj⟩
    rw [this.length_eq, n3]

/-! ### the witness complex -/

/-- C69: `WitnessComplex(X, L, dist, dmax)` with more than `dmax` landmarks: for every schedule and every implementation of `std::partial_sort`, the complex contains exactly
the sets of at most `dmax + 1` landmarks such that every face with at least two vertices consists of the nearest landmarks of some point. -/
theorem C69_witness_complex (P : PartialSort) {rows : List (List T)} {nL dmax : Nat} (hr : ∀ r ∈ rows, r.length = nL) (hn : rows = [] ∨ dmax + 1 ≤ nL) {sched : List Nat}
    (hs : sched.Perm (List.range rows.length)) :
    ∃ (nbrs : List (List Nat)) (W : SCpx), List.Forall₂ (fun r nb => IsNearest r (dmax + 1) nb) rows nbrs ∧ witnessComplex P rows nL dmax sched = .ok W ∧
      SCpx.Reachable W ∧ W.maxdim = dmax ∧ SCpx.Represents W {s | IsWitnessSimplex nbrs nL dmax s} := by
  obtain ⟨nbrs, h1, h2⟩ := neighborhoodsK_spec P (k := dmax + 1) (fun r h => by
    rcases hn with hn | hn
    · subst hn; simp at h
    · rw [hr r h]; exact hn) hs
  have h2' : List.Forall₂ (fun r nb => IsNearest r (dmax + 1) nb) rows nbrs := h2.imp (fun _ _ h => h.2)
  have hnb : ∀ nb ∈ nbrs, 1 + dmax ≤ nb.length ∧ nb.Nodup := by
    intro nb hb
    obtain ⟨i, hi, rfl⟩ := List.getElem_of_mem hb
    have hi' : i < rows.length := by rw [h2'.length_eq]; exact hi
    have := (List.forall₂_iff_get.1 h2').2 i hi' hi
    exact ⟨le_of_eq (by rw [show nbrs[i] = nbrs.get ⟨i, hi⟩ from rfl, this.len]; omega), this.nodup⟩
  obtain ⟨i1, i2⟩ := SCpx.init_inv dmax
  obtain ⟨V, cells, v1, v2, v3⟩ := vertsCpx_spec 0 nL 0 (SCpx.init dmax) _ i1 (by ext s; simp [SCpx.setOf, finSet])
  obtain ⟨W, c', w1, w2, w3, w4⟩ := dimLoop_spec (nbrs := nbrs) (nL := nL) dmax 1 V cells (le_refl _) v2 hnb (by
    rw [v3]
    ext t
    unfold finSet
    constructor
    · rintro ⟨t1, a, t2, t3⟩
      have hl : t.length = 1 := by
        rw [← List.toFinset_card_of_nodup (t1.imp (fun h => ne_of_lt h)), t3]; simp
      obtain ⟨b, rfl⟩ := List.length_eq_one_iff.1 hl
      have : b = a := by simpa using t3
      subst this
      refine ⟨by simp, by simp, by simpa using t2, by simp, ?_⟩
      intro u hu h2
      have := hu.length_le
      simp at this; omega
    · intro h
      have hl : t.length = 1 := by
        have := h.len
        have := List.length_pos_iff.2 h.ne
        omega
      obtain ⟨b, rfl⟩ := List.length_eq_one_iff.1 hl
      exact ⟨by simp, b, by simpa using h.lt b (by simp), by simp⟩)
  refine ⟨nbrs, W, h2', ?_, ?_⟩
  · unfold witnessComplex
    rw [h1]
    show (Flag.vertsCpx nL 0 (SCpx.init dmax) >>= _) = _
    rw [v1]; exact w1
  · obtain ⟨L, l1, l2⟩ := (steps_verts (B := 1 + dmax) (by omega) _ _ _ _ v1).trans w3
    have hm : (SCpx.init dmax).maxdim = dmax := by unfold SCpx.maxdim; rw [i2]; omega
    obtain ⟨m1, m2⟩ := Nrv.run_maxdim L i1 (fun s hs => (l1 s hs).1) W l2
    refine ⟨⟨dmax, L.map SCpx.Op.add, ?_, l2⟩, ?_, ?_⟩
    · intro o ho
      rw [List.mem_map] at ho
      obtain ⟨s, hs, rfl⟩ := ho
      exact (l1 s hs).1
    · have := m2 dmax (by omega) (fun s hs => by have := (l1 s hs).2; omega)
      omega
    · have := w2.represents
      rw [w4] at this
      rw [show 1 - 1 + dmax = dmax by omega] at this
      exact this

/-- C69: with too few landmarks the computation of the nearest ones is undefined. -/
theorem C69_witness_complex_ub (P : PartialSort) {rows : List (List T)} {nL dmax : Nat} (hr : ∀ r ∈ rows, r.length = nL) (hne : rows ≠ []) (hn : nL < dmax + 1) {sched : List Nat}
    (hs : sched.Perm (List.range rows.length)) : witnessComplex P rows nL dmax sched = .error .ub := by
  have hpos : 0 < rows.length := List.length_pos_iff.2 hne
  obtain ⟨i, js, rfl⟩ : ∃ i js, sched = i :: js := by
    cases sched with
    | nil => have := hs.length_eq; simp at this; omega
    | cons i js => exact ⟨i, js, rfl⟩
  have hi : i < rows.length := List.mem_range.1 (hs.mem_iff.1 (by simp))
  unfold witnessComplex neighborhoodsK
  rw [parFor, Flag.rd_getD rows [] hi]
  have hlen : (rows.getD i []).length = nL := by
    rw [List.getD_eq_getElem?_getD, List.getElem?_eq_getElem hi]; exact hr _ (List.getElem_mem hi)
  show (((firstk P (rows.getD i []) (dmax + 1) >>= _) >>= _) >>= _) = _
  rw [firstk_ub P (by rw [hlen]; exact hn)]
  rfl

theorem take_lt {d : List T} {k n : Nat} {nb : List Nat} (h : IsNearest d k nb) {a b : Nat} (ha : a ∈ nb.take n) (hb : b < d.length) (hbn : b ∉ nb.take n) : d.getD a 0 ≤ d.getD b 0 := by
  by_cases hb' : b ∈ nb
  · obtain ⟨i, hi, rfl⟩ := List.getElem_of_mem ha
    obtain ⟨j, hj, rfl⟩ := List.getElem_of_mem hb'
    rw [List.length_take] at hi
    rw [List.getElem_take]
    have hjn : n ≤ j := by
      by_contra hc
      apply hbn
      rw [List.mem_iff_getElem]
      exact ⟨j, by rw [List.length_take]; omega, by rw [List.getElem_take]⟩
    exact List.pairwise_iff_getElem.1 h.sorted i j (by omega) hj (by omega)
  · exact h.rest a (List.mem_of_mem_take ha) b hb hb'

theorem take_perm {d : List T} {k : Nat} {nb u : List Nat} (h : IsNearest d k nb) (hu : u.Nodup) (hk : u.length ≤ k) (hlt : ∀ a ∈ u, a < d.length)
    (hw : ∀ a ∈ u, ∀ b, b < d.length → b ∉ u → d.getD a 0 < d.getD b 0) : (nb.take u.length).Perm u := by
  have hlen : (nb.take u.length).length = u.length := by rw [List.length_take, h.len]; omega
  have hnd : (nb.take u.length).Nodup := h.nodup.sublist (List.take_sublist _ _)
  have hsub : u ⊆ nb.take u.length := by
    intro a ha
    by_contra hna
    -- another landmark takes the place of `a`
    obtain ⟨c, hc, hcu⟩ : ∃ c ∈ nb.take u.length, c ∉ u := by
      by_contra hcon
      push Not at hcon
      have hperm : (nb.take u.length).Perm u := (List.subperm_of_subset hnd hcon).perm_of_length_le (by rw [hlen])
      exact hna (hperm.mem_iff.2 ha)
    have hcl : c < d.length := h.lt c (List.mem_of_mem_take hc)
    exact absurd (take_lt h hc (hlt a ha) hna) (not_le.2 (hw a ha c hcl hcu))
  exact ((List.subperm_of_subset hu hsub).perm_of_length_le (by rw [hlen])).symm

theorem isWeakWitness_of {rows : List (List T)} {nbrs : List (List Nat)} {nL D : Nat} (hr : ∀ r ∈ rows, r.length = nL) (h : List.Forall₂ (fun r nb => IsNearest r (D + 1) nb) rows nbrs)
    {s : List Nat} (hs : IsWitnessSimplex nbrs nL D s) : IsWeakWitnessSimplex (· ≤ ·) rows nL D s := by
  refine ⟨hs.ne, hs.inc, hs.lt, hs.len, fun u hu h2 => ?_⟩
  obtain ⟨nb, n1, n2⟩ := hs.witness u hu h2
  obtain ⟨i, hi, rfl⟩ := List.getElem_of_mem n1
  have hi' : i < rows.length := by rw [h.length_eq]; exact hi
  have hd : IsNearest rows[i] (D + 1) nbrs[i] := (List.forall₂_iff_get.1 h).2 i hi' hi
  refine ⟨rows[i], List.getElem_mem hi', fun a ha b hb hbu => ?_⟩
  exact take_lt hd (n2.mem_iff.2 ha) (by rw [hr _ (List.getElem_mem hi')]; exact hb) (fun hc => hbu (n2.mem_iff.1 hc))

theorem of_isWeakWitness {rows : List (List T)} {nbrs : List (List Nat)} {nL D : Nat} (hr : ∀ r ∈ rows, r.length = nL) (h : List.Forall₂ (fun r nb => IsNearest r (D + 1) nb) rows nbrs)
    {s : List Nat} (hs : IsWeakWitnessSimplex (· < ·) rows nL D s) : IsWitnessSimplex nbrs nL D s := by
  refine ⟨hs.ne, hs.inc, hs.lt, hs.len, fun u hu h2 => ?_⟩
  obtain ⟨d, d1, d2⟩ := hs.witness u hu h2
  obtain ⟨i, hi, rfl⟩ := List.getElem_of_mem d1
  have hi' : i < nbrs.length := by rw [← h.length_eq]; exact hi
  have hd : IsNearest rows[i] (D + 1) nbrs[i] := (List.forall₂_iff_get.1 h).2 i hi hi'
  refine ⟨nbrs[i], List.getElem_mem hi', take_perm hd ((hs.inc.sublist hu).imp (fun h => ne_of_lt h)) (le_trans hu.length_le hs.len) ?_ ?_⟩
  · intro a ha; rw [hr _ (List.getElem_mem hi)]; exact hs.lt a (hu.subset ha)
  · intro a ha b hb hbu
    exact d2 a ha b (by rw [hr _ (List.getElem_mem hi)] at hb; exact hb) hbu

/-- C69: whatever the order in which ties are broken, the complex lies between the two versions of the witness complex of de Silva and Carlsson, with `<` and with `≤`. -/
theorem C69_weak_witness (P : PartialSort) {rows : List (List T)} {nL dmax : Nat} (hr : ∀ r ∈ rows, r.length = nL) (hn : rows = [] ∨ dmax + 1 ≤ nL) {sched : List Nat}
    (hs : sched.Perm (List.range rows.length)) :
    ∃ (W : SCpx) (K : Set (List Nat)), witnessComplex P rows nL dmax sched = .ok W ∧ SCpx.Represents W K ∧
      (∀ s, IsWeakWitnessSimplex (· < ·) rows nL dmax s → s ∈ K) ∧ ∀ s ∈ K, IsWeakWitnessSimplex (· ≤ ·) rows nL dmax s := by
  obtain ⟨nbrs, W, h1, h2, _, _, h3⟩ := C69_witness_complex P hr hn hs
  exact ⟨W, _, h2, h3, fun s h => of_isWeakWitness hr h1 h, fun s h => isWeakWitness_of hr h1 h⟩

/-- C69: if no point has the same distance to two landmarks, it is exactly the witness complex. -/
theorem C69_weak_witness_generic (P : PartialSort) {rows : List (List T)} {nL dmax : Nat} (hr : ∀ r ∈ rows, r.length = nL) (hd : ∀ r ∈ rows, r.Nodup)
    (hn : rows = [] ∨ dmax + 1 ≤ nL) {sched : List Nat} (hs : sched.Perm (List.range rows.length)) :
    ∃ W : SCpx, witnessComplex P rows nL dmax sched = .ok W ∧ SCpx.Reachable W ∧ W.maxdim = dmax ∧ SCpx.Represents W {s | IsWeakWitnessSimplex (· ≤ ·) rows nL dmax s} := by
  obtain ⟨nbrs, W, h1, h2, h4, h5, h3⟩ := C69_witness_complex P hr hn hs
  refine ⟨W, h2, h4, h5, ?_⟩
  have : {s | IsWitnessSimplex nbrs nL dmax s} = {s | IsWeakWitnessSimplex (· ≤ ·) rows nL dmax s} := by
    ext s
    constructor
    · exact fun h => isWeakWitness_of hr h1 h
    · intro h
      refine of_isWeakWitness hr h1 ⟨h.ne, h.inc, h.lt, h.len, fun u hu h2 => ?_⟩
      obtain ⟨d, d1, d2⟩ := h.witness u hu h2
      refine ⟨d, d1, fun a ha b hb hbu => lt_of_le_of_ne (d2 a ha b hb hbu) (fun e => ?_)⟩
      have ha' : a < d.length := by rw [hr d d1]; exact h.lt a (hu.subset ha)
      have hb' : b < d.length := by rw [hr d d1]; exact hb
      rw [List.getD_eq_getElem?_getD, List.getD_eq_getElem?_getD, List.getElem?_eq_getElem ha', List.getElem?_eq_getElem hb'] at e
      have := (hd d d1).getElem_inj_iff.1 e
      subst this
      exact hbu ha
  rw [← this]; exact h3

theorem sort_isWeakWitness {rows : List (List T)} {nL D : Nat} (σ : Finset Nat) :
    IsWeakWitnessSimplex (· ≤ ·) rows nL D (σ.sort (· ≤ ·)) ↔ σ ∈ weakWitnessComplex rows nL D := by
  classical
  unfold weakWitnessComplex
  rw [Finset.mem_filter, Finset.mem_powerset]
  have hmem : ∀ b, b ∈ σ.sort (· ≤ ·) ↔ b ∈ σ := fun b => Finset.mem_sort _
  have hlen : (σ.sort (· ≤ ·)).length = σ.card := Finset.length_sort _
  constructor
  · intro h
    refine ⟨fun a ha => Finset.mem_range.2 (h.lt a ((hmem a).2 ha)), ?_, by rw [← hlen]; exact h.len, ?_⟩
    · rw [← Finset.card_pos, ← hlen]; exact List.length_pos_iff.2 h.ne
    · intro τ hτ h2
      obtain ⟨d, d1, d2⟩ := h.witness (τ.sort (· ≤ ·)) (List.sublist_of_subperm_of_pairwise (r := (· < ·))
        (List.subperm_of_subset (Finset.sort_nodup _ _) (fun a ha => (hmem a).2 (hτ ((Finset.mem_sort _).1 ha)))) (pairwise_sort_lt τ) (pairwise_sort_lt σ)) (by rw [Finset.length_sort]; exact h2)
      exact ⟨d, d1, fun a ha b hb hbt => d2 a ((Finset.mem_sort _).2 ha) b hb (fun hc => hbt ((Finset.mem_sort _).1 hc))⟩
  · rintro ⟨h1, h2, h3, h4⟩
    refine ⟨?_, pairwise_sort_lt σ, fun a ha => Finset.mem_range.1 (h1 ((hmem a).1 ha)), by rw [hlen]; exact h3, ?_⟩
    · rw [← List.length_pos_iff, hlen, Finset.card_pos]; exact h2
    · intro u hu hl
      have hnd : u.Nodup := ((pairwise_sort_lt σ).sublist hu).imp (fun h => ne_of_lt h)
      obtain ⟨d, d1, d2⟩ := h4 u.toFinset (fun a ha => (hmem a).1 (hu.subset (List.mem_toFinset.1 ha))) (by rw [List.toFinset_card_of_nodup hnd]; exact hl)
      exact ⟨d, d1, fun a ha b hb hbu => d2 a (List.mem_toFinset.2 ha) b hb (fun hc => hbu (List.mem_toFinset.1 hc))⟩

section betti
variable {F : Type} [Field F] [DecidableEq F]

/-- C69: if no point has the same distance to two landmarks, the homology computed from `WitnessComplex` is that of the witness complex. -/
theorem C69_witness_betti (v : Variant) (P : PartialSort) {rows : List (List T)} {nL dmax : Nat} (hr : ∀ r ∈ rows, r.length = nL) (hd : ∀ r ∈ rows, r.Nodup)
    (hn : rows = [] ∨ dmax + 1 ≤ nL) {sched : List Nat} (hs : sched.Perm (List.range rows.length)) :
    ∃ (W : SCpx) (B : List (CMat F)) (C : RedCpx F), witnessComplex P rows nL dmax sched = .ok W ∧ W.chainComplex = .ok B ∧ v.reduce B = .ok C ∧
      ∀ k, k ≤ dmax → C.hdim k = .ok (simplicialBetti F (weakWitnessComplex rows nL dmax) k) := by
  obtain ⟨W, h1, h2, h3, h4⟩ := C69_weak_witness_generic P hr hd hn hs
  have hf : ∀ s, s ≠ [] → ((∃ i, W.findIdx s = some i) ↔ IsWeakWitnessSimplex (· ≤ ·) rows nL dmax s) := fun s hs => (h4.found s hs).symm
  obtain ⟨B, C, b1, b2, b3⟩ := betti_of_reachable (F := F) v h2 (fun s i hs hi => ((hf s hs).1 ⟨i, hi⟩).inc) (weakWitnessComplex rows nL dmax) (by
    intro σ
    by_cases hσ : σ.Nonempty
    · have hne : σ.sort (· ≤ ·) ≠ [] := by rw [← List.length_pos_iff, Finset.length_sort, Finset.card_pos]; exact hσ
      rw [hf _ hne, sort_isWeakWitness]
      exact ⟨fun h => ⟨hσ, h⟩, fun h => h.2⟩
    · constructor
      · intro h
        have := ((sort_isWeakWitness σ).2 h).ne
        rw [← List.length_pos_iff, Finset.length_sort, Finset.card_pos] at this
        exact absurd this hσ
      · rintro ⟨h, _⟩; exact absurd h hσ)
  exact ⟨W, B, C, h1, b1, b2, fun k hk => b3 k (by omega)⟩

end betti
end order

/-! ### `witness_edge_param`, `WitnessFiltration`, `StrictWitnessComplex` -/

section group
variable {T : Type} [AddCommGroup T] [LinearOrder T] [IsOrderedAddMonoid T]

/-- C69: with at most as many points as landmarks, `witness_edge_param(X, L, dist, nu)` is the Dowker parameter of the distances decreased by `m` (cut off at 0) in the first
`nX` rows; the rows of the other landmarks are not decreased. -/
theorem C69_witness_param {tmax : T} (h0 : 0 ≤ tmax) {p : List (List T)} {nL nX : Nat} (hp : IsMat p nL nX) (hb : ∀ r ∈ p, ∀ x ∈ r, x ≤ tmax) (hn : nX ≤ nL) (nu : Nat) :
    ∃ (ms : List T) (p' : List (List T)), (∀ k, k < nX → IsNthPositive tmax p nL k nu (ms.getD k 0)) ∧ IsMat p' nL nX ∧
      (∀ i k, i < nX → k < nX → tab p' i k = max (tab p i k - ms.getD k 0) 0) ∧ (∀ i k, nX ≤ i → k < nX → tab p' i k = tab p i k) ∧
      witnessParam tmax p nX nu = dowkerParam tmax p' nX := by
  obtain ⟨ms, m1, m2, m3⟩ := getM_spec hp (tab_le h0 hb) nu
  obtain ⟨p', q1, q2, q3⟩ := adjustLoop_spec hn ms m2 nX 0 p (by omega) hp
  refine ⟨ms, p', m3, q2, ?_, ?_, ?_⟩
  · intro i k hi hk
    rw [q3, if_pos ⟨hi, Nat.zero_le _, hk⟩]
  · intro i k hi hk
    rw [q3, if_neg (by omega)]
  · unfold witnessParam
    rw [m1]
    show (adjustLoop ms nX nX 0 p >>= _) = _
    rw [q1]; rfl

/-- C69: with more points than landmarks - the case witness complexes are made for - `witness_edge_param` runs over the rows of the matrix. -/
theorem C69_witness_param_ub {tmax : T} (h0 : 0 ≤ tmax) {p : List (List T)} {nL nX : Nat} (hp : IsMat p nL nX) (hb : ∀ r ∈ p, ∀ x ∈ r, x ≤ tmax) (hn : nL < nX) (nu : Nat) :
    witnessParam tmax p nX nu = .error .ub := by
  obtain ⟨ms, m1, m2, m3⟩ := getM_spec hp (tab_le h0 hb) nu
  unfold witnessParam
  rw [m1]
  show (adjustLoop ms nX nX 0 p >>= _) = _
  rw [adjustLoop_ub hn ms m2 hp]; rfl

/-- C69: the same for `WitnessFiltration` and `StrictWitnessComplex`. -/
theorem C69_witness_filtration_ub {tmax : T} (h0 : 0 ≤ tmax) {p : List (List T)} {nL nX : Nat} (hp : IsMat p nL nX) (hb : ∀ r ∈ p, ∀ x ∈ r, x ≤ tmax) (hn : nL < nX)
    (nu : Nat) (rmax : T) (dmax : Nat) :
    witnessFiltration tmax p nX rmax dmax = .error .ub ∧ strictWitnessComplex tmax p nX nu rmax dmax = .error .ub := by
  constructor
  · unfold witnessFiltration
    rw [C69_witness_param_ub h0 hp hb hn 0]; rfl
  · unfold strictWitnessComplex
    rw [C69_witness_param_ub h0 hp hb hn nu]; rfl

/-- C69: otherwise `WitnessFiltration` (which uses `nu = 0`) of nonnegative distances is `DowkerFiltration`. -/
theorem C69_witness_filtration {tmax : T} (h0 : 0 ≤ tmax) {p : List (List T)} {nL nX : Nat} (hp : IsMat p nL nX) (hb : ∀ r ∈ p, ∀ x ∈ r, 0 ≤ x ∧ x ≤ tmax) (hn : nX ≤ nL)
    (rmax : T) (dmax : Nat) : witnessFiltration tmax p nX rmax dmax = dowkerFiltration tmax p nX rmax dmax := by
  obtain ⟨ms, p', h1, h2, h3, h4, h5⟩ := C69_witness_param h0 hp (fun r hr x hx => (hb r hr x hx).2) hn 0
  have : p' = p := by
    refine isMat_ext h2 hp (fun a b ha hb' => ?_)
    rcases Nat.lt_or_ge a nX with h | h
    · rw [h3 a b h hb', (h1 b hb').1 rfl, sub_zero, max_eq_left (tab_nonneg (fun r hr x hx => (hb r hr x hx).1) a b)]
    · exact h4 a b h hb'
  rw [this] at h5
  unfold witnessFiltration dowkerFiltration
  rw [h5]

/-- C69: `StrictWitnessComplex(X, L, dist, nu, rmax, dmax)` is the nerve of the balls of radius `rmax` around the landmarks *in the landmarks*, with respect to the witness
parameter: two landmarks are joined if a third one (possibly one of them) has parameter at most `rmax` with both. -/
theorem C69_strict_witness {tmax : T} (h0 : 0 ≤ tmax) {p : List (List T)} {nL nX : Nat} (hp : IsMat p nL nX) (hb : ∀ r ∈ p, ∀ x ∈ r, x ≤ tmax) (hn : nX ≤ nL)
    (nu : Nat) (rmax : T) (dmax : Nat) :
    ∃ R Y, witnessParam tmax p nX nu = .ok R ∧ strictWitnessComplex tmax p nX nu rmax dmax = .ok Y ∧ SCpx.Reachable Y ∧
      SCpx.Represents Y {s | s ≠ [] ∧ s.Pairwise (· < ·) ∧ (∀ a ∈ s, a < nL) ∧ s.length ≤ max dmax 1 + 1 ∧ (2 ≤ s.length → ∃ l, l < nL ∧ ∀ a ∈ s, tab R a l ≤ rmax)} := by
  obtain ⟨ms, p', h1, h2, h3, h4, h5⟩ := C69_witness_param h0 hp hb hn nu
  obtain ⟨R, r1, r2⟩ := dowkerParam_spec tmax h2
  obtain ⟨cv, c1, c2, c3, c4⟩ := hoods_spec r2.mat rmax
  obtain ⟨Y, y1, y2, y3, _⟩ := Nrv.nerve_spec c3 dmax
  refine ⟨R, Y, by rw [h5, r1], ?_, y2, ?_⟩
  · unfold strictWitnessComplex
    rw [h5, r1, hp.len]
    show (hoods R nL rmax >>= _) = _
    rw [c1]; exact y1
  · have : {s | Nrv.IsNerveSimplex cv (max dmax 1) s} = {s | s ≠ [] ∧ s.Pairwise (· < ·) ∧ (∀ a ∈ s, a < nL) ∧ s.length ≤ max dmax 1 + 1 ∧
        (2 ≤ s.length → ∃ l, l < nL ∧ ∀ a ∈ s, tab R a l ≤ rmax)} := by
      ext s
      constructor
      · intro h
        refine ⟨h.ne, h.inc, fun a ha => by rw [← c2]; exact h.lt a ha, h.len, fun h2 => ?_⟩
        obtain ⟨x, hx⟩ := h.common h2
        obtain ⟨a, ha⟩ := List.exists_mem_of_ne_nil s h.ne
        exact ⟨x, ((c4 a x).1 (hx a ha)).2.1, fun b hb' => ((c4 b x).1 (hx b hb')).2.2⟩
      · rintro ⟨q1, q2, q3, q4, q5⟩
        refine ⟨q1, q2, fun a ha => by rw [c2]; exact q3 a ha, q4, fun h2 => ?_⟩
        obtain ⟨l, l1, l2⟩ := q5 h2
        exact ⟨l, fun a ha => (c4 a l).2 ⟨q3 a ha, l1, l2 a ha⟩⟩
    rw [← this]; exact y3

end group

/-! ### examples -/

/-- `std::partial_sort` by insertion sort -/
def insertionPartialSort : PartialSort :=
  ⟨fun cmp _ l => Zigzag.isort cmp l, fun cmp k l h hk => ⟨Zigzag.isort_perm cmp l, by
    intro i j a b hij hik ha hb
    have h1 := Zigzag.isort_pairwise h l (fun _ hb => hb)
    obtain ⟨a1, rfl⟩ := List.getElem?_eq_some_iff.1 ha
    obtain ⟨b1, rfl⟩ := List.getElem?_eq_some_iff.1 hb
    exact List.pairwise_iff_getElem.1 h1 i j a1 b1 hij⟩⟩

/-- four landmarks on a circle, four points between them -/
def circleDist : List (List Int) := [[1, 3, 6, 2], [2, 1, 4, 6], [6, 2, 1, 4], [4, 5, 2, 1]]

example : IsMat circleDist 4 4 := ⟨rfl, by decide⟩
example : ∀ r ∈ circleDist, ∀ x ∈ r, (0 : Int) ≤ x ∧ x ≤ 100 := by decide +kernel
example : ∀ r ∈ circleDist, r.Nodup := by decide +kernel
example : [2, 0, 3, 1].Perm (List.range circleDist.length) := by decide

/-- the four edges of the circle with their values -/
example : (dowkerFiltration (100 : Int) circleDist 4 5 2).map (fun Φ => (Φ.val, Φ.X.ncells)) =
    .ok ([[0, 0, 0, 0], [2, 2, 2, 2, 3, 4], [3, 3, 4, 4]], [4, 6, 4]) := by decide +kernel

example : (getM (100 : Int) circleDist 4 2) = .ok [2, 2, 2, 2] := by decide +kernel

/-- ties and zeros are skipped: the second smallest of 0, 0, 1, 1, 2 should be 0, and the fourth 1 -/
example : getM (100 : Nat) [[0], [0], [1], [1], [2]] 1 2 = .ok [2] ∧ getM (100 : Nat) [[0], [0], [1], [1], [2]] 1 4 = .ok [100] := by decide +kernel

/-- the witness complex of the circle, three dimensions of nearest neighbours -/
example : (witnessComplex insertionPartialSort circleDist 4 1 [2, 0, 3, 1]).map (fun W => W.ncells) = .ok [4, 4] := by decide +kernel

/-- `neighborhoods(X, Y, dist, r)` with a schedule of two points -/
example : neighborhoodsR [[1, 5], [5, 1]] 2 [1, 0] = .ok [[], [], [1], [0]] := by decide

/-- more points than landmarks -/
example : witnessParam (100 : Int) [[1, 2, 3], [2, 1, 3]] 3 0 = .error .ub := by decide +kernel

/-- fewer points than landmarks: only the first row is decreased -/
example : witnessParam (100 : Int) [[3], [2], [4]] 1 1 = .ok [[0, 2, 4], [2, 0, 4], [4, 4, 0]] := by decide +kernel

example : (strictWitnessComplex (100 : Int) circleDist 4 1 1 2).map (fun W => W.ncells) = .ok [4, 6, 4] := by decide +kernel

end Wit
end BATS
