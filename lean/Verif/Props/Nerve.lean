import Verif.Proofs.Cover
import Verif.Props.Diagram

set_option linter.unusedSectionVars false
set_option linter.unusedVariables false
set_option linter.unusedSimpArgs false

/-! # C66: nerves and covers (include/topology/nerve.hpp, include/topology/cover.hpp, `Nerve` in include/multigraph/functors.hpp)

`IsCover`, `IsNerveSimplex`, `IsCoverMap`, `IsCoverDiagram`, `nerveComplex` are in `Verif/Spec/Nerve.lean`. -/

namespace BATS
open Matrix Reduction SMap SCpx Quiver Nrv Srt

variable {F : Type} [Field F] [DecidableEq F]

/-- C66: `Nerve(cover, dmax)` contains exactly one vertex for every set of the cover, also for empty ones, and the sets of 2 to `dmax + 1` indices whose cover
sets have a common point — for `dmax = 0` the edges, too. Its dimension is `dmax`, but 1 for `dmax = 0` if two sets overlap. -/
theorem C66_nerve {cover : List (List Nat)} (hc : IsCover cover) (dmax : Nat) :
    ∃ Y, nerve cover dmax = .ok Y ∧ Reachable Y ∧ Represents Y {s | IsNerveSimplex cover (max dmax 1) s} ∧
      (1 ≤ dmax → Y.maxdim = dmax) ∧ (dmax = 0 → (Y.maxdim = 1 ↔ ∃ s, IsNerveSimplex cover 1 s ∧ s.length = 2) ∧ Y.maxdim ≤ 1) := by
  obtain ⟨Y, h1, h2, h3, h4, h5, h6⟩ := nerve_spec hc dmax
  refine ⟨Y, h1, h2, h3, fun h => by omega, fun h => ⟨⟨fun e => ?_, ?_⟩, by omega⟩⟩
  · exact h6.resolve_left (by omega)
  · rintro ⟨s, s1, s2⟩
    have := (h3.dim s (by subst h; exact s1)).2
    omega

theorem mem_nerveComplex (cover : List (List Nat)) (σ : Finset Nat) :
    σ ∈ nerveComplex cover ↔ (∀ a ∈ σ, a < cover.length) ∧ σ.Nonempty ∧ (2 ≤ σ.card → ∃ x, ∀ a ∈ σ, x ∈ cover.getD a []) := by
  classical
  unfold nerveComplex
  rw [Finset.mem_filter, Finset.mem_powerset]
  have : σ ⊆ Finset.range cover.length ↔ ∀ a ∈ σ, a < cover.length := ⟨fun h a ha => Finset.mem_range.1 (h ha), fun h a ha => Finset.mem_range.2 (h a ha)⟩
  rw [this]

theorem sort_isNerve (cover : List (List Nat)) (D : Nat) (σ : Finset Nat) :
    IsNerveSimplex cover D (σ.sort (· ≤ ·)) ↔ σ ∈ nerveComplex cover ∧ σ.card ≤ D + 1 := by
  rw [mem_nerveComplex]
  have hne : σ.sort (· ≤ ·) ≠ [] ↔ σ.Nonempty := by
    rw [← List.length_pos_iff, Finset.length_sort, Finset.card_pos]
  constructor
  · intro h
    have h4 := h.len
    rw [Finset.length_sort] at h4
    refine ⟨⟨fun a ha => h.lt a ((Finset.mem_sort _).2 ha), hne.1 h.ne, fun h2 => ?_⟩, h4⟩
    obtain ⟨x, hx⟩ := h.common (by rw [Finset.length_sort]; exact h2)
    exact ⟨x, fun a ha => hx a ((Finset.mem_sort _).2 ha)⟩
  · rintro ⟨⟨h1, h2, h3⟩, h4⟩
    refine ⟨hne.2 h2, pairwise_sort_lt σ, fun a ha => h1 a ((Finset.mem_sort _).1 ha), by rw [Finset.length_sort]; exact h4, fun h => ?_⟩
    rw [Finset.length_sort] at h
    obtain ⟨x, hx⟩ := h3 h
    exact ⟨x, fun a ha => hx a ((Finset.mem_sort _).1 ha)⟩

/-- Betti numbers of the complexes which can be built: the abstract complex is read off with `find_idx` -/
theorem betti_of_reachable (v : Variant) {X : SCpx} (hX : Reachable X) (hs : ∀ s i, s ≠ [] → X.findIdx s = some i → s.Pairwise (· < ·))
    (K : Finset (Finset Nat)) (hK : ∀ σ : Finset Nat, σ ∈ K ↔ σ.Nonempty ∧ ∃ i, X.findIdx (σ.sort (· ≤ ·)) = some i) :
    ∃ (B : List (CMat F)) (C : RedCpx F), X.chainComplex = .ok B ∧ v.reduce B = .ok C ∧ ∀ k, k ≤ X.maxdim → C.hdim k = .ok (simplicialBetti F K k) := by
  obtain ⟨cells, h2⟩ := hX.inv
  obtain ⟨B, b1, b2, b3, b4⟩ := chainComplex_spec (F := F) h2
  have hsort : ∀ d s, s ∈ cells d → s.Pairwise (· < ·) := by
    intro d s hm
    have hne : s ≠ [] := by rintro rfl; have := h2.ok.len d _ hm; simp at this
    obtain ⟨i, hi⟩ := (h2.represents.found s hne).1 ((mem_setOf (h2.ok.len d s hm)).2 hm)
    exact hs s i hne hi
  have hv : VertexSets cells K := by
    refine ⟨hsort, ?_⟩
    intro σ
    rw [hK]
    have hne : σ.sort (· ≤ ·) ≠ [] ↔ σ.Nonempty := by
      rw [← List.length_pos_iff, Finset.length_sort, Finset.card_pos]
    constructor
    · rintro ⟨h, hi⟩
      exact (h2.represents.found _ (hne.2 h)).2 hi
    · intro hm
      have hm : σ.sort (· ≤ ·) ∈ SCpx.setOf cells := hm
      have h0 := (h2.represents.dim _ hm).1
      exact ⟨hne.1 h0, (h2.represents.found _ h0).1 hm⟩
  have hC := isChainComplex_of h2 (fun d s hs => (hsort d s hs).imp (fun h => ne_of_lt h)) b3 b2 b4
  obtain ⟨C, c1, c2⟩ := C13_betti_is_dim_homology v hC
  refine ⟨B, C, b1, c1, ?_⟩
  intro k hk
  have hne := h2.sizes.ne
  rw [c2 k (by unfold maxdim at hk; omega)]
  congr 1
  exact betti_simplicial h2 hv b3 b2 b4 k

/-- C66: below the top dimension the Betti numbers computed from `Nerve(cover, dmax)`, with any of the reduction algorithms, are those of the full nerve of the cover. -/
theorem C66_betti (v : Variant) {cover : List (List Nat)} (hc : IsCover cover) (dmax : Nat) :
    ∃ (Y : SCpx) (B : List (CMat F)) (C : RedCpx F), nerve cover dmax = .ok Y ∧ Y.chainComplex = .ok B ∧ v.reduce B = .ok C ∧
      ∀ k, k < dmax → C.hdim k = .ok (simplicialBetti F (nerveComplex cover) k) := by
  classical
  obtain ⟨Y, h1, h2, h3, h4, h5, h6⟩ := nerve_spec hc dmax
  obtain ⟨B, C, b1, b2, b3⟩ := betti_of_reachable (F := F) v h2 (fun s i hs hi => ((found_iff h3 hs).1 ⟨i, hi⟩).inc)
    ((nerveComplex cover).filter (fun σ => σ.card ≤ max dmax 1 + 1)) (by
      intro σ
      rw [Finset.mem_filter]
      by_cases hσ : σ.Nonempty
      · have hne : σ.sort (· ≤ ·) ≠ [] := by
          rw [← List.length_pos_iff, Finset.length_sort, Finset.card_pos]; exact hσ
        rw [found_iff h3 hne, sort_isNerve]
        exact ⟨fun h => ⟨hσ, h⟩, fun h => h.2⟩
      · constructor
        · rintro ⟨h, _⟩
          exact absurd ((mem_nerveComplex cover σ).1 h).2.1 hσ
        · rintro ⟨h, _⟩; exact absurd h hσ)
  refine ⟨Y, B, C, h1, b1, b2, ?_⟩
  intro k hk
  rw [b3 k (by omega), simplicialBetti_congr]
  intro σ hσ
  rw [Finset.mem_filter]
  exact ⟨fun h => h.1, fun h => ⟨h, by omega⟩⟩

/-- C66: an assignment of cover sets to larger ones extends to a simplicial map of the nerves, for `dmax ≥ 1`. -/
theorem C66_refinement {c c' : List (List Nat)} (hc : IsCover c) (hc' : IsCover c') {f : List Nat} (hf : IsCoverMap c c' f) {dmax : Nat} (hd : 1 ≤ dmax) :
    ∃ X Y M, nerve c dmax = .ok X ∧ nerve c' dmax = .ok Y ∧ simplicialMap X Y f = .ok M ∧
      ∀ {BX BY : List (CMat F)}, X.chainComplex = .ok BX → Y.chainComplex = .ok BY → IsChainMap (chainMap M : List (CMat F)) BX BY := by
  obtain ⟨X, x1, x2, x3, x4, x5, -⟩ := nerve_spec hc dmax
  obtain ⟨Y, y1, y2, y3, y4, y5, -⟩ := nerve_spec hc' dmax
  have hle : X.maxdim ≤ Y.maxdim := by omega
  obtain ⟨m1, m2⟩ := coverMap_carries hf (Nat.le_refl _) x3 y3
  obtain ⟨M, hM⟩ := (C37_succeeds_iff x2 y2).2 ⟨m1, m2, hle⟩
  refine ⟨X, Y, M, x1, y1, hM, ?_⟩
  intro BX BY hX hY
  obtain ⟨M', e1, e2⟩ := C37_chain_map (F := F) x2 y2 m1 m2 hle hX hY
  rw [hM] at e1; cases e1; exact e2

/-- C66: for `dmax = 0`, if two sets of the source overlap but no two sets of the target do, the map of the nerves reads outside the tables of the target. -/
theorem C66_dimension_zero {c c' : List (List Nat)} (hc : IsCover c) (hc' : IsCover c') {f : List Nat} (hf : IsCoverMap c c' f)
    (h : ∃ s, IsNerveSimplex c 1 s ∧ s.length = 2) (h' : ¬ ∃ s, IsNerveSimplex c' 1 s ∧ s.length = 2) :
    ∃ X Y, nerve c 0 = .ok X ∧ nerve c' 0 = .ok Y ∧ simplicialMap X Y f = .error .ub := by
  obtain ⟨X, x1, x2, x3, _, x5⟩ := C66_nerve hc 0
  obtain ⟨Y, y1, y2, y3, _, y5⟩ := C66_nerve hc' 0
  obtain ⟨m1, m2⟩ := coverMap_carries hf (Nat.le_refl _) x3 y3
  refine ⟨X, Y, x1, y1, C37_dimension_ub x2 y2 m1 m2 ?_⟩
  have e1 := (x5 rfl).1.2 h
  have e2 := y5 rfl
  have : Y.maxdim ≠ 1 := fun e => h' (e2.1.1 e)
  omega

/-- C66: `Nerve(D, dmax)` for a diagram of covers: for `dmax ≥ 1` and every schedule of the parallel loops it succeeds and is a diagram of spaces and maps of
the same shape, with the nerves of the covers as nodes and the maps induced by the assignments as edges. -/
theorem C66_functor {D : Diagram (List (List Nat)) (List Nat)} (hD : IsCoverDiagram D) {sc : Schedule} (hs : sc.For D) {dmax : Nat} (hd : 1 ≤ dmax) :
    ∃ TD, nerveFunctor sc D dmax = .ok TD ∧ TD.elist = D.elist ∧ List.Forall₂ (fun c X => nerve c dmax = .ok X) D.node TD.node ∧
      TD.edata.length = D.edata.length ∧ IsSpaceDiagram TD ∧ (∀ X ∈ TD.node, X.maxdim = dmax) ∧
      ∀ (j s t : Nat) (f : List Nat), D.elist[j]? = some (s, t) → D.edata[j]? = some f → ∃ X Y M, TD.node[s]? = some X ∧ TD.node[t]? = some Y ∧
        TD.edata[j]? = some M ∧ simplicialMap X Y f = .ok M := by
  obtain ⟨Xs, hX⟩ := forall2_exists (R := fun c X => nerve c dmax = .ok X) (fun c hc => by
    obtain ⟨X, h, _⟩ := nerve_spec (hD.node c hc) dmax
    exact ⟨X, h⟩)
  have hXs : ∀ X ∈ Xs, (Reachable X ∧ ∀ s i, s ≠ [] → X.findIdx s = some i → s.Pairwise (· < ·)) ∧ X.maxdim = dmax := by
    intro X hm
    obtain ⟨i, hi, rfl⟩ := List.getElem_of_mem hm
    have hlen := hX.length_eq
    obtain ⟨X', e1, e2⟩ := forall2_get hX (i := i) (List.getElem?_eq_getElem (by omega))
    rw [List.getElem?_eq_getElem hi] at e1; cases e1
    obtain ⟨X', h1, h2, h3, h4, h5, _⟩ := nerve_spec (hD.node _ (List.getElem_mem (by omega : i < D.node.length))) dmax
    rw [e2] at h1; cases h1
    exact ⟨⟨h2, fun s i hs hi => ((found_iff h3 hs).1 ⟨i, hi⟩).inc⟩, by omega⟩
  have hedge : ∀ (j : Nat) (st : Nat × Nat) (f : List Nat), D.elist[j]? = some st → D.edata[j]? = some f →
      ∃ M X Y, Xs[st.1]? = some X ∧ Xs[st.2]? = some Y ∧ simplicialMap X Y f = .ok M := by
    intro j st f e1 e2
    obtain ⟨c, c', c1, c2, hf⟩ := hD.edges.edge j st f e1 e2
    obtain ⟨X, x1, x2⟩ := forall2_get hX c1
    obtain ⟨Y, y1, y2⟩ := forall2_get hX c2
    obtain ⟨X', Y', M, h1, h2, h3, _⟩ := C66_refinement (F := ℚ) (hD.node c (List.mem_of_getElem? c1)) (hD.node c' (List.mem_of_getElem? c2)) hf hd
    rw [x2] at h1; cases h1
    rw [y2] at h2; cases h2
    exact ⟨M, X, Y, x1, y1, h3⟩
  obtain ⟨Ms, m1, m2⟩ : ∃ Ms : List (List (CMat Int)), Ms.length = D.edata.length ∧ ∀ (j : Nat) (st : Nat × Nat) (f : List Nat), D.elist[j]? = some st → D.edata[j]? = some f →
      ∃ M X Y, Ms[j]? = some M ∧ Xs[st.1]? = some X ∧ Xs[st.2]? = some Y ∧ simplicialMap X Y f = .ok M := by
    have hlen := hD.edges.len
    have hex : ∀ j : Fin D.edata.length, ∃ M X Y, Xs[(D.elist[j.1]'(by omega)).1]? = some X ∧ Xs[(D.elist[j.1]'(by omega)).2]? = some Y ∧
        simplicialMap X Y (D.edata[j.1]) = .ok M := fun j => hedge j.1 _ _ (List.getElem?_eq_getElem _) (List.getElem?_eq_getElem _)
    choose M hM using hex
    refine ⟨List.ofFn M, by simp, ?_⟩
    intro j st f e1 e2
    obtain ⟨l1, rfl⟩ := List.getElem?_eq_some_iff.1 e2
    obtain ⟨l2, rfl⟩ := List.getElem?_eq_some_iff.1 e1
    obtain ⟨X, Y, q1, q2, q3⟩ := hM ⟨j, l1⟩
    exact ⟨M ⟨j, l1⟩, X, Y, by rw [List.getElem?_ofFn, dif_pos l1], q1, q2, q3⟩
  refine ⟨⟨Xs, Ms, D.elist⟩, (spaceLoops_iff (g := fun c => nerve c dmax) (h := fun X Y f => simplicialMap X Y f) hs hD.edges.len).2 ⟨Xs, Ms, hX, m1, m2, rfl⟩, rfl, hX, m1,
    ⟨fun X hm => (hXs X hm).1, ⟨by rw [m1]; exact hD.edges.len, ?_⟩⟩, fun X hm => (hXs X hm).2, ?_⟩
  · intro j st M e1 e2
    have e2 : Ms[j]? = some M := e2
    have hj : j < D.edata.length := by
      have := (List.getElem?_eq_some_iff.1 e2).1
      omega
    obtain ⟨M', X, Y, q1, q2, q3, q4⟩ := m2 j st _ e1 (List.getElem?_eq_getElem hj)
    have e2 : Ms[j]? = some M := e2
    rw [e2] at q1; cases q1
    exact ⟨X, Y, q2, q3, Or.inl ⟨_, q4⟩⟩
  · intro j s t f e1 e2
    obtain ⟨M', X, Y, q1, q2, q3, q4⟩ := m2 j _ f e1 e2
    exact ⟨X, Y, M', q2, q3, q1, q4⟩

/-- C66, from covers to barcodes: for a zigzag of covers the functors `Nerve`, `Chain`, `Hom` and the computation of the barcode succeed, in every schedule;
below the top dimension the number of pairs alive at node `n` is the Betti number of the nerve of the cover at node `n`. -/
theorem C66_barcode {D : Diagram (List (List Nat)) (List Nat)} (hD : IsCoverDiagram D) (hl : D.IsLine) {sc : Schedule} (hs : sc.For D) {dmax k : Nat} (hk : k < dmax) (a : Algo) :
    ∃ (TD : Diagram SCpx (List (CMat Int))) (CD : Diagram (List (CMat F)) (List (CMat F))) (HD : Diagram (RedCpx F) (CMat F)) (bars : List QBar),
      nerveFunctor sc D dmax = .ok TD ∧ chainFunctor F sc TD = .ok CD ∧ homFunctor sc CD k = .ok HD ∧
      barcode HD.toDgm k a = .ok (bars.map fun b => ⟨k, b.startInd, some b.stopInd, b.start, some b.stop⟩) ∧ IsHomologyDecomposition CD k bars ∧
      ∀ (n : Nat) (c : List (List Nat)), D.node[n]? = some c →
        (bars.filter (fun q => decide (q.start ≤ n ∧ n ≤ q.stop))).length = simplicialBetti F (nerveComplex c) k := by
  classical
  obtain ⟨TD, t1, t2, t3, t4, t5, t6, _⟩ := C66_functor hD hs (show 1 ≤ dmax by omega)
  have hlen := t3.length_eq
  have hlT : TD.IsLine := ⟨by
      intro h; rw [h] at t4; exact hl.ne (List.length_eq_zero_iff.1 t4.symm), by rw [← hlen, t4]; exact hl.nodes, by rw [t2, t4]; exact hl.len, by
      rw [t2, t4]; exact hl.ends⟩
  have hsT : sc.For TD := ⟨by rw [← hlen]; exact hs.1, by rw [t4]; exact hs.2⟩
  obtain ⟨CD, HD, bars, c1, c2, c3, c4, c5⟩ := C65_spaces (F := F) t5 hlT hsT (k := k) (fun X hX => by rw [t6 X hX]; omega) a
  refine ⟨TD, CD, HD, bars, t1, c1, c2, c3, c4, ?_⟩
  intro n c hn
  obtain ⟨X, x1, x2⟩ := forall2_get t3 hn
  obtain ⟨X', h1, h2, h3, h4, h5, _⟩ := nerve_spec (hD.node c (List.mem_of_getElem? hn)) dmax
  rw [x2] at h1; cases h1
  rw [c5 n X ((nerveComplex c).filter (fun σ => σ.card ≤ max dmax 1 + 1)) x1, simplicialBetti_congr]
  · intro σ hσ
    rw [Finset.mem_filter]
    exact ⟨fun h => h.1, fun h => ⟨h, by omega⟩⟩
  · intro σ
    rw [Finset.mem_filter]
    by_cases hσ : σ.Nonempty
    · have hne : σ.sort (· ≤ ·) ≠ [] := by
        rw [← List.length_pos_iff, Finset.length_sort, Finset.card_pos]; exact hσ
      rw [found_iff h3 hne, sort_isNerve]
      exact ⟨fun h => ⟨hσ, h⟩, fun h => h.2⟩
    · constructor
      · rintro ⟨h, _⟩
        exact absurd ((mem_nerveComplex c σ).1 h).2.1 hσ
      · rintro ⟨h, _⟩; exact absurd h hσ

/-! ### Making covers -/

theorem zip_fst_snd (ps : List (Nat × Nat)) : (ps.map Prod.fst).zip (ps.map Prod.snd) = ps := by
  induction ps with
  | nil => rfl
  | cons p ps ih => rw [List.map_cons, List.map_cons, List.zip_cons_cons, ih]

/-- C66: `bivariate_cover(cover1, cover2)` returns the nonempty intersections of a set of the first with a set of the second cover, one for every such pair in
lexicographic order, and the two index maps, which are assignments to larger sets; a point is covered exactly if both covers contain it. -/
theorem C66_bivariate {c1 c2 : List (List Nat)} (h1 : IsCover c1) (h2 : IsCover c2) :
    ∃ c f1 f2, bivariateCover c1 c2 = (c, f1, f2) ∧ IsCover c ∧ f1.length = c.length ∧ f2.length = c.length ∧
      (∀ k, k < c.length → (∃ z, z ∈ c.getD k []) ∧ ∀ z, z ∈ c.getD k [] ↔ z ∈ c1.getD (f1.getD k 0) [] ∧ z ∈ c2.getD (f2.getD k 0) []) ∧
      (∀ i j, (i, j) ∈ f1.zip f2 ↔ ∃ z, z ∈ c1.getD i [] ∧ z ∈ c2.getD j []) ∧
      (f1.zip f2).Pairwise (fun p q => p.1 < q.1 ∨ (p.1 = q.1 ∧ p.2 < q.2)) ∧
      IsCoverMap c c1 f1 ∧ IsCoverMap c c2 f2 ∧
      ∀ z, (∃ s ∈ c, z ∈ s) ↔ (∃ s ∈ c1, z ∈ s) ∧ ∃ s ∈ c2, z ∈ s := by
  obtain ⟨ps, e1, e2, e3⟩ := biLoop_spec c2 c1 0
  have hlt : ∀ (l : List (List Nat)) (i z : Nat), z ∈ l.getD i [] → i < l.length := by
    intro l i z hz
    by_contra h
    rw [List.getD_eq_getElem?_getD, List.getElem?_eq_none (by omega)] at hz
    simp at hz
  have hgmem : ∀ (l : List (List Nat)) (i : Nat), i < l.length → l.getD i [] ∈ l := by
    intro l i h
    rw [List.getD_eq_getElem?_getD, List.getElem?_eq_getElem h]; exact List.getElem_mem h
  have hint : ∀ i j z, z ∈ intersectSorted (c1.getD i []) (c2.getD j []) ↔ z ∈ c1.getD i [] ∧ z ∈ c2.getD j [] := fun i j z =>
    (C27_intersect_sorted (getD_inc h1 i) (getD_inc h2 j)).2 z
  have hps : ∀ i j, (i, j) ∈ ps ↔ ∃ z, z ∈ c1.getD i [] ∧ z ∈ c2.getD j [] := by
    intro i j
    rw [e2]
    simp only [Nat.sub_zero, Nat.zero_add, Nat.zero_le, true_and]
    rw [List.length_pos_iff_exists_mem]
    constructor
    · rintro ⟨_, _, z, hz⟩; exact ⟨z, (hint i j z).1 hz⟩
    · rintro ⟨z, hz⟩; exact ⟨hlt _ _ _ hz.1, hlt _ _ _ hz.2, z, (hint i j z).2 hz⟩
  have hzip : (ps.map Prod.fst).zip (ps.map Prod.snd) = ps := zip_fst_snd ps
  have hk : ∀ k, k < (ps.map (fun p => intersectSorted (c1.getD (p.1 - 0) []) (c2.getD p.2 []))).length → ∃ i j, (i, j) ∈ ps ∧
      (ps.map (fun p => intersectSorted (c1.getD (p.1 - 0) []) (c2.getD p.2 []))).getD k [] = intersectSorted (c1.getD i []) (c2.getD j []) ∧
      (ps.map Prod.fst).getD k 0 = i ∧ (ps.map Prod.snd).getD k 0 = j := by
    intro k hk
    rw [List.length_map] at hk
    refine ⟨(ps[k]).1, (ps[k]).2, List.getElem_mem hk, ?_, ?_, ?_⟩
    · rw [List.getD_eq_getElem?_getD, List.getElem?_map, List.getElem?_eq_getElem hk]; rfl
    · rw [List.getD_eq_getElem?_getD, List.getElem?_map, List.getElem?_eq_getElem hk]; rfl
    · rw [List.getD_eq_getElem?_getD, List.getElem?_map, List.getElem?_eq_getElem hk]; rfl
  refine ⟨_, _, _, e1, ?_, by simp, by simp, ?_, by rw [hzip]; exact hps, by rw [hzip]; exact e3, ⟨by simp, ?_⟩, ⟨by simp, ?_⟩, ?_⟩
  · intro s hs
    rw [List.mem_map] at hs
    obtain ⟨p, _, rfl⟩ := hs
    exact (C27_intersect_sorted (getD_inc h1 _) (getD_inc h2 _)).1
  · intro k hk'
    obtain ⟨i, j, q1, q2, q3, q4⟩ := hk k hk'
    rw [q2, q3, q4]
    obtain ⟨z, hz⟩ := (hps i j).1 q1
    exact ⟨⟨z, (hint i j z).2 hz⟩, hint i j⟩
  · intro k hk'
    obtain ⟨i, j, q1, q2, q3, q4⟩ := hk k hk'
    rw [q2, q3]
    obtain ⟨z, hz⟩ := (hps i j).1 q1
    exact ⟨hlt _ _ _ hz.1, fun x hx => ((hint i j x).1 hx).1⟩
  · intro k hk'
    obtain ⟨i, j, q1, q2, q3, q4⟩ := hk k hk'
    rw [q2, q4]
    obtain ⟨z, hz⟩ := (hps i j).1 q1
    exact ⟨hlt _ _ _ hz.2, fun x hx => ((hint i j x).1 hx).2⟩
  · intro z
    constructor
    · rintro ⟨s, hs, hz⟩
      rw [List.mem_map] at hs
      obtain ⟨p, _, rfl⟩ := hs
      have := (hint _ _ z).1 hz
      exact ⟨⟨_, hgmem _ _ (hlt _ _ _ this.1), this.1⟩, ⟨_, hgmem _ _ (hlt _ _ _ this.2), this.2⟩⟩
    · rintro ⟨⟨s, hs, hz⟩, ⟨t, ht, hz'⟩⟩
      obtain ⟨i, hi, rfl⟩ := List.getElem_of_mem hs
      obtain ⟨j, hj, rfl⟩ := List.getElem_of_mem ht
      have g1 : c1.getD i [] = c1[i] := by rw [List.getD_eq_getElem?_getD, List.getElem?_eq_getElem hi]; rfl
      have g2 : c2.getD j [] = c2[j] := by rw [List.getD_eq_getElem?_getD, List.getElem?_eq_getElem hj]; rfl
      have hz : z ∈ c1.getD i [] ∧ z ∈ c2.getD j [] := ⟨by rw [g1]; exact hz, by rw [g2]; exact hz'⟩
      refine ⟨intersectSorted (c1.getD (i - 0) []) (c2.getD j []), List.mem_map.2 ⟨(i, j), (hps i j).2 ⟨z, hz⟩, rfl⟩, (hint i j z).2 hz⟩

section eps
variable {T : Type} [AddCommGroup T] [LinearOrder T] [IsOrderedAddMonoid T]

/-- C66: `landmark_eps_cover(X, L, dist, eps)` puts point `i` into the set of landmark `j` exactly if no landmark is nearer by `eps` or more. -/
theorem C66_landmark_eps {rows : List (List T)} {nL : Nat} (hr : ∀ di ∈ rows, di.length = nL) (eps : T) :
    ∃ c, landmarkEpsCover rows nL eps = .ok c ∧ c.length = nL ∧ IsCover c ∧
      ∀ i j, i ∈ c.getD j [] ↔ i < rows.length ∧ j < nL ∧ ∀ j', j' < nL → (rows.getD i []).getD j 0 < (rows.getD i []).getD j' 0 + eps := by
  obtain ⟨c, h1, h2, h3⟩ := epsLoop_spec eps nL rows 0 (List.replicate nL []) hr (by simp) (by
    intro j
    rw [List.getD_eq_getElem?_getD, List.getElem?_replicate]; split <;> simp)
  refine ⟨c, h1, h2, ?_, ?_⟩
  · intro s hs
    obtain ⟨j, hj, rfl⟩ := List.getElem_of_mem hs
    have := (h3 j).1
    rwa [List.getD_eq_getElem?_getD, List.getElem?_eq_getElem hj] at this
  · intro i j
    rw [(h3 j).2]
    have hempty : ¬ i ∈ (List.replicate nL ([] : List Nat)).getD j [] := by
      rw [List.getD_eq_getElem?_getD, List.getElem?_replicate]; split <;> simp
    simp only [hempty, false_or, Nat.zero_le, true_and, Nat.sub_zero]
    have key : ∀ di : List T, Assigned eps di j ↔ j < di.length ∧ ∀ j', j' < di.length → di.getD j 0 < di.getD j' 0 + eps := by
      intro di
      unfold Assigned
      cases di with
      | nil => simp [epsAssign]
      | cons d ds =>
        rw [epsAssign, mem_epsRow]
        obtain ⟨m1, m2⟩ := minOf_spec ds d
        have hg : ∀ a, a < (d :: ds).length → (d :: ds)[a]? = some ((d :: ds).getD a 0) := by
          intro a ha
          rw [List.getD_eq_getElem?_getD, List.getElem?_eq_getElem ha]; rfl
        rw [Nat.sub_zero]
        constructor
        · rintro ⟨_, x, x1, x2⟩
          have hj := (List.getElem?_eq_some_iff.1 x1).1
          rw [hg j hj] at x1
          cases x1
          refine ⟨hj, fun a ha => lt_of_lt_of_le x2 ?_⟩
          apply add_le_add_left
          exact m1 _ (List.mem_of_getElem? (hg a ha))
        · rintro ⟨hj, hall⟩
          refine ⟨Nat.zero_le _, _, hg j hj, ?_⟩
          obtain ⟨a, ha, e⟩ := List.getElem_of_mem m2
          have := hall a ha
          have e2 : (d :: ds).getD a 0 = minOf d ds := by
            rw [List.getD_eq_getElem?_getD, List.getElem?_eq_getElem ha]; exact e
          rwa [e2] at this
    constructor
    · rintro ⟨di, d1, d2⟩
      obtain ⟨hi, rfl⟩ := List.getElem?_eq_some_iff.1 d1
      have hl := hr _ (List.getElem_mem hi)
      have g : rows.getD i [] = rows[i] := by rw [List.getD_eq_getElem?_getD, List.getElem?_eq_getElem hi]; rfl
      rw [g]
      have := (key _).1 d2
      rw [hl] at this
      exact ⟨hi, this⟩
    · rintro ⟨hi, h⟩
      have hl := hr _ (List.getElem_mem hi)
      have g : rows.getD i [] = rows[i] := by rw [List.getD_eq_getElem?_getD, List.getElem?_eq_getElem hi]; rfl
      rw [g] at h
      exact ⟨rows[i], List.getElem?_eq_getElem hi, (key _).2 (by rw [hl]; exact h)⟩

/-- C66: the sets of `landmark_eps_cover` cover the data if `eps > 0` and there is a landmark, and they are all empty if `eps ≤ 0`, in particular for `eps = 0`. -/
theorem C66_landmark_eps_covers {rows : List (List T)} {nL : Nat} (hr : ∀ di ∈ rows, di.length = nL) {eps : T} {c : List (List Nat)}
    (hc : landmarkEpsCover rows nL eps = .ok c) :
    (0 < eps → 0 < nL → ∀ i, i < rows.length → ∃ j, i ∈ c.getD j []) ∧ (eps ≤ 0 → ∀ j, c.getD j [] = []) := by
  obtain ⟨c', h1, h2, _, h3⟩ := C66_landmark_eps hr eps
  rw [hc] at h1; cases h1
  refine ⟨?_, ?_⟩
  · intro he hn i hi
    obtain ⟨m, hm, hmin⟩ := Finset.exists_min_image (Finset.range nL) (fun j => (rows.getD i []).getD j 0) ⟨0, Finset.mem_range.2 hn⟩
    refine ⟨m, (h3 i m).2 ⟨hi, Finset.mem_range.1 hm, fun j' hj' => ?_⟩⟩
    exact lt_of_le_of_lt (hmin j' (Finset.mem_range.2 hj')) (lt_add_of_pos_right _ he)
  · intro he j
    rw [List.eq_nil_iff_forall_not_mem]
    intro i hi
    obtain ⟨_, hj, h⟩ := (h3 i j).1 hi
    have := h j hj
    exact absurd this (not_lt.2 (by simpa using he))

end eps

/-! ### Examples -/

/-- three sets without common point, which meet in pairs, and a refinement -/
def circleCover : List (List Nat) := [[0, 1, 5], [1, 2, 3], [3, 4, 5]]
def fineCover : List (List Nat) := [[0, 1], [1, 2], [2, 3], [3, 4], [4, 5], [0, 5]]

example : IsCover circleCover ∧ IsCover fineCover ∧ IsCoverMap fineCover circleCover [0, 1, 1, 2, 2, 0] := by
  refine ⟨by unfold IsCover circleCover; simp, by unfold IsCover fineCover; simp, by simp [fineCover], ?_⟩
  intro i hi
  have hi : i < 6 := hi
  interval_cases i <;> simp [fineCover, circleCover]

/-- the nerve of `circleCover` is the hollow triangle -/
example : (nerve circleCover 2).map (fun X => (X.ncells, X.maxdim)) = .ok ([3, 3, 0], 2) := by decide +kernel

/-- edges in spite of `dmax = 0` -/
example : (nerve circleCover 0).map (fun X => (X.ncells, X.maxdim)) = .ok ([3, 3], 1) := by decide +kernel

/-- the whole computation: the class of the circle is common to both covers -/
example : (do
    let TD ← nerveFunctor ⟨[1, 0], [0]⟩ ⟨[fineCover, circleCover], [[0, 1, 1, 2, 2, 0]], [(0, 1)]⟩ 2
    let CD ← chainFunctor ℚ ⟨[0, 1], [0]⟩ TD
    let HD ← homFunctor ⟨[0, 1], [0]⟩ CD 1
    barcode HD.toDgm 1 .leftward) = .ok [⟨1, 0, some 0, 0, some 1⟩] := by decide +kernel

/-- `dmax = 0` and a constant map: out of range -/
example : (do
    let X ← nerve circleCover 0
    let Y ← nerve [[0, 1, 2, 3, 4, 5]] 0
    simplicialMap X Y [0, 0, 0]) = .error .ub := by decide +kernel

example : bivariateCover [[0, 1, 2], [2, 3]] [[0, 3], [1, 2]] = ([[0], [1, 2], [3], [2]], [0, 0, 1, 1], [0, 1, 0, 1]) := by decide +kernel

example : (landmarkEpsCover [[(0 : Int), 3], [1, 2], [4, 1]] 2 2) = .ok [[0, 1], [1, 2]] := by decide +kernel

example : (landmarkEpsCover [[(0 : Int), 3], [1, 2], [4, 1]] 2 0) = .ok [[], []] := by decide +kernel

end BATS
