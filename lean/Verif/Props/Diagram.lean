import Verif.Proofs.DiagramHom
import Verif.Proofs.Examples

set_option linter.unusedSectionVars false
set_option linter.unusedVariables false
set_option linter.unusedSimpArgs false

/-! # C65: homology of diagrams of spaces (include/multigraph/diagram.hpp, include/multigraph/functors.hpp, include/quiver/sparse.hpp)

`IsSpaceDiagram`, `IsChainDiagram`, `Diagram.IsLine`, `Schedule.For`, `IsHomologyDecomposition`, `homologyRank` are in `Verif/Spec/Diagram.lean`. -/

namespace BATS
open Matrix Reduction SMap SCpx Quiver

variable {F : Type} [Field F] [DecidableEq F]

/-- C65: a parallel run of `Chain(D)`, `Hom(D, k)` or `Hom(D, topd)` which ends normally has the same result as every other run, whatever the order
in which the threads execute the iterations. -/
theorem C65_schedule {sc sc' : Schedule} :
    (∀ {D : Diagram SCpx (List (CMat Int))}, sc.For D → sc'.For D → D.elist.length = D.edata.length → ∀ CD : Diagram (List (CMat F)) (List (CMat F)),
      (chainFunctor F sc D = .ok CD ↔ chainFunctor F sc' D = .ok CD)) ∧
    (∀ {D : Diagram (List (CMat F)) (List (CMat F))}, sc.For D → sc'.For D → D.elist.length = D.edata.length → ∀ k HD,
      (homFunctor sc D k = .ok HD ↔ homFunctor sc' D k = .ok HD)) ∧
    (∀ {D : Diagram (List (CMat F)) (List (CMat F))}, sc.For D → sc'.For D → D.elist.length = D.edata.length → ∀ topd HD,
      (homFunctorAll sc D topd = .ok HD ↔ homFunctorAll sc' D topd = .ok HD)) := by
  refine ⟨?_, ?_, ?_⟩
  · intro D h h' hl CD
    rw [chainFunctor_iff h hl, chainFunctor_iff h' hl]
  · intro D h h' hl k HD
    unfold homFunctor
    rw [homLoops_iff (g := fun f C C' => inducedMap f C C' k) h hl, homLoops_iff (g := fun f C C' => inducedMap f C C' k) h' hl]
  · intro D h h' hl topd HD
    unfold homFunctorAll
    rw [bind_ok_iff, bind_ok_iff]
    apply exists_congr
    intro B
    apply and_congr_right
    intro _
    obtain ⟨m, hm⟩ : ∃ m, m = (if topd then B.length else B.length - 1) := ⟨_, rfl⟩
    rw [← hm]
    by_cases h0 : m = 0
    · rw [if_pos h0, if_pos h0]
    · rw [if_neg h0, if_neg h0]
      rw [homLoops_iff (g := fun f C C' => inducedMaps f C C' m 0) h hl, homLoops_iff (g := fun f C C' => inducedMaps f C C' m 0) h' hl]

private theorem space_nodup {X : SCpx} (h : ∀ s i, s ≠ [] → X.findIdx s = some i → s.Pairwise (· < ·)) :
    ∀ s i, s ≠ [] → X.findIdx s = some i → s.Nodup := fun s i h1 h2 => (h s i h1 h2).imp (fun h => ne_of_lt h)

private theorem space_map {X Y : SCpx} (hX : Reachable X) (hY : Reachable Y) {f : List (CMat Int)} (hf : IsSpaceMap X Y f)
    {BX BY : List (CMat F)} (hBX : X.chainComplex = .ok BX) (hBY : Y.chainComplex = .ok BY) : IsChainMap (chainMap f : List (CMat F)) BX BY := by
  rcases hf with ⟨f0, hf⟩ | ⟨hd, hf⟩
  · obtain ⟨h1, h2, h3⟩ := (C37_succeeds_iff hX hY).1 ⟨f, hf⟩
    obtain ⟨f', f1, f2⟩ := C37_chain_map (F := F) hX hY h1 h2 h3 hBX hBY
    rw [hf] at f1; cases f1; exact f2
  · have hc : Contained X Y := by
      by_contra hn
      rw [C37_inclusion_missing hX hY hn hd] at hf; cases hf
    obtain ⟨f', f1, f2, _⟩ := C37_inclusion (F := F) hX hY hc hd hBX hBY
    rw [hf] at f1; cases f1; exact f2

/-- C65: `Chain(D)` for a diagram of simplicial complexes and maps: the nodes are the chain complexes, the edges the chain maps; they form a diagram of
chain complexes and chain maps of the same shape. -/
theorem C65_chain_functor {D : Diagram SCpx (List (CMat Int))} (hD : IsSpaceDiagram D) {sc : Schedule} (hs : sc.For D) :
    ∃ CD : Diagram (List (CMat F)) (List (CMat F)), chainFunctor F sc D = .ok CD ∧ CD.elist = D.elist ∧ CD.edata = D.edata.map chainMap ∧
      List.Forall₂ (fun X B => X.chainComplex = .ok B) D.node CD.node ∧ IsChainDiagram CD := by
  have hex : ∀ X ∈ D.node, ∃ B : List (CMat F), X.chainComplex = .ok B := by
    intro X hX
    obtain ⟨B, h, _⟩ := C20_chain_complex (F := F) (hD.node X hX).1 (space_nodup (hD.node X hX).2)
    exact ⟨B, h⟩
  obtain ⟨Bs, hB⟩ := forall2_exists hex
  refine ⟨⟨Bs, D.edata.map chainMap, D.elist⟩, (chainFunctor_iff hs hD.edges.len).2 ⟨Bs, hB, rfl⟩, rfl, rfl, hB, ?_, ?_, ?_⟩
  · intro B hm
    obtain ⟨i, hi, rfl⟩ := List.getElem_of_mem hm
    have hi : i < Bs.length := hi
    have hlen := hB.length_eq
    obtain ⟨B', b1, b2⟩ := forall2_get hB (i := i) (List.getElem?_eq_getElem (by omega))
    have : Bs[i]? = some Bs[i] := List.getElem?_eq_getElem hi
    rw [this] at b1; cases b1
    have hX := hD.node _ (List.getElem_mem (by omega : i < D.node.length))
    obtain ⟨B', e1, e2, _⟩ := C20_chain_complex (F := F) hX.1 (space_nodup hX.2)
    rw [b2] at e1; cases e1; exact e2
  · show D.elist.length = (D.edata.map chainMap).length
    rw [List.length_map]; exact hD.edges.len
  · intro j st f h1 h2
    have h2 : (D.edata.map chainMap)[j]? = some f := h2
    rw [List.getElem?_map] at h2
    obtain ⟨f', e1, rfl⟩ := Option.map_eq_some_iff.1 h2
    obtain ⟨X, Y, x1, y1, hf⟩ := hD.edges.edge j st f' h1 e1
    obtain ⟨BX, bx1, bx2⟩ := forall2_get hB x1
    obtain ⟨BY, by1, by2⟩ := forall2_get hB y1
    exact ⟨BX, BY, bx1, by1, space_map (hD.node X (List.mem_of_getElem? x1)).1 (hD.node Y (List.mem_of_getElem? y1)).1 hf bx2 by2⟩

private theorem induced_ok {B B' : List (CMat F)} (hB : IsChainComplex B) (hB' : IsChainComplex B') {f : List (CMat F)} (hf : IsChainMap f B B') {C C' : RedCpx F}
    (hC : RedCpx.mkStd B = .ok C) (hC' : RedCpx.mkStd B' = .ok C') {k : Nat} (hk : k < B.length) (hk' : k < B'.length) : ∃ M, inducedMap f C C' k = .ok M := by
  obtain ⟨M, m, _⟩ := inducedMap_spec hB hB' (mkStd_basis hB hC) (mkStd_basis hB' hC') hf hk hk'
  exact ⟨M, m⟩

private theorem homFunctor_data {D : Diagram (List (CMat F)) (List (CMat F))} (hD : IsChainDiagram D) {sc : Schedule} (hs : sc.For D) {k : Nat}
    (hk : ∀ B ∈ D.node, k < B.length) :
    ∃ Cs Ms, homFunctor sc D k = .ok ⟨Cs, Ms, D.elist⟩ ∧ List.Forall₂ (fun B C => RedCpx.mkStd B = .ok C) D.node Cs ∧ HomData D Cs k Ms := by
  obtain ⟨Cs, hC⟩ := mkStd_nodes hD.node
  obtain ⟨Ms, m1, m2⟩ := edges_exist hD hC (g := fun f C C' => inducedMap f C C' k) (by
    intro B hB B' hB' f C C' hf h1 h2
    exact induced_ok (hD.node B hB) (hD.node B' hB') hf h1 h2 (hk B hB) (hk B' hB'))
  exact ⟨Cs, Ms, (homLoops_iff (g := fun f C C' => inducedMap f C C' k) hs hD.edges.len).2 ⟨Cs, Ms, hC, m1, m2, rfl⟩, hC, homData_of hD hC m1 m2⟩

/-- C65: `Hom(D, k)` for a diagram of chain complexes: the nodes are the reduced complexes, and the matrix on every edge represents the map on `H_k`
induced by the chain map of the edge. -/
theorem C65_hom {D : Diagram (List (CMat F)) (List (CMat F))} (hD : IsChainDiagram D) {sc : Schedule} (hs : sc.For D) {k : Nat}
    (hk : ∀ B ∈ D.node, k < B.length) :
    ∃ HD, homFunctor sc D k = .ok HD ∧ HD.elist = D.elist ∧ List.Forall₂ (fun B C => RedCpx.mkStd B = .ok C) D.node HD.node ∧
      HD.edata.length = D.edata.length ∧
      ∀ (j s t : Nat) (f : List (CMat F)), D.elist[j]? = some (s, t) → D.edata[j]? = some f → ∃ M B B' C C', HD.edata[j]? = some M ∧ D.node[s]? = some B ∧
        D.node[t]? = some B' ∧ HD.node[s]? = some C ∧ HD.node[t]? = some C' ∧ RepresentsOnHomology M f B B' C C' k := by
  obtain ⟨Cs, Ms, h1, h2, h3⟩ := homFunctor_data hD hs hk
  refine ⟨_, h1, rfl, h2, h3.len, ?_⟩
  intro j s t f e1 e2
  obtain ⟨B, B', b1, b2, hf⟩ := hD.edges.edge j _ f e1 e2
  obtain ⟨C, c1, c2⟩ := forall2_get h2 b1
  obtain ⟨C', c1', c2'⟩ := forall2_get h2 b2
  obtain ⟨M, m1, m2⟩ := h3.edge j _ f e1 e2
  rw [redAt_of c1, redAt_of c1'] at m2
  have hmB := List.mem_of_getElem? b1
  have hmB' := List.mem_of_getElem? b2
  obtain ⟨M', b, b', rep, rep', q1, q2⟩ := C40_induced .standard .standard (Or.inl rfl) (Or.inl rfl) (hD.node B hmB) (hD.node B' hmB') c2 c2' hf
    (hk B hmB) (hk B' hmB')
  rw [m2] at q1; cases q1
  exact ⟨M, B, B', C, C', m1, b1, b2, c1, c1', b, b', rep, rep', q2⟩

/-- C65: the barcode of `Hom(D, k)` for a zigzag `D` of chain complexes, with any of the algorithms and for every schedule, is an interval decomposition of
the zigzag of the homology groups `H_k`. -/
theorem C65_barcode {D : Diagram (List (CMat F)) (List (CMat F))} (hD : IsChainDiagram D) (hl : D.IsLine) {sc : Schedule} (hs : sc.For D) {k : Nat}
    (hk : ∀ B ∈ D.node, k < B.length) (a : Algo) :
    ∃ HD bars, homFunctor sc D k = .ok HD ∧ barcode HD.toDgm k a = .ok (bars.map fun b => ⟨k, b.startInd, some b.stopInd, b.start, some b.stop⟩) ∧
      IsHomologyDecomposition D k bars := by
  obtain ⟨Cs, Ms, h1, h2, h3⟩ := homFunctor_data hD hs hk
  obtain ⟨bars, b1, _, b2⟩ := C55_decomposition (hom_isZigzag hD hl h3 hk) k a
  exact ⟨_, bars, h1, b2, homology_decomposition hD hl h3 hk b1⟩

/-- C65: the barcode is unique: it consists of the (birth, death) pairs of any interval decomposition of homology; in particular it does not depend on the
algorithm. -/
theorem C65_unique {D : Diagram (List (CMat F)) (List (CMat F))} (hD : IsChainDiagram D) (hl : D.IsLine) {sc : Schedule} (hs : sc.For D) {k : Nat}
    (hk : ∀ B ∈ D.node, k < B.length) (a : Algo) {bars : List QBar} (hb : IsHomologyDecomposition D k bars) :
    ∃ HD pairs, homFunctor sc D k = .ok HD ∧ barcode HD.toDgm k a = .ok pairs ∧
      (pairs.map (fun p => (p.birth, p.death))).Perm (bars.map (fun b => (b.start, some b.stop))) := by
  obtain ⟨Cs, Ms, h1, h2, h3⟩ := homFunctor_data hD hs hk
  obtain ⟨pairs, p1, p2⟩ := C55_unique (hom_isZigzag hD hl h3 hk) k a (decomposition_of_homology hD hl h3 hk hb)
  exact ⟨_, pairs, h1, p1, p2⟩

/-- C65: ranks. If all arrows between the nodes `b` and `b + n` point to the right, the number of pairs alive from `b` to `b + n` is the rank of the
composed map on homology; for `n = 0` it is the Betti number of the complex at node `b`. -/
theorem C65_rank {D : Diagram (List (CMat F)) (List (CMat F))} (hD : IsChainDiagram D) (hl : D.IsLine) {sc : Schedule} (hs : sc.For D) {k : Nat}
    (hk : ∀ B ∈ D.node, k < B.length) (a : Algo) :
    ∃ HD pairs, homFunctor sc D k = .ok HD ∧ barcode HD.toDgm k a = .ok pairs ∧
      (∀ b n, b + n ≤ D.edata.length → (∀ j, b ≤ j → j < b + n → D.leftArrow j = false) →
        (pairs.filter (fun p => decide (p.birth ≤ b ∧ ∃ t ∈ p.death, b + n ≤ t))).length = homologyRank D k b n) ∧
      ∀ n, n ≤ D.edata.length → (pairs.filter (fun p => decide (p.birth ≤ n ∧ ∃ t ∈ p.death, n ≤ t))).length = bettiNumber (D.cpx n) k := by
  obtain ⟨HD, bars, h1, h2, h3⟩ := C65_barcode hD hl hs hk a
  refine ⟨HD, _, h1, h2, ?_, ?_⟩
  · intro b n hn hr
    rw [List.filter_map, List.length_map, h3.rank hD hl hn hr]
    congr 1
    apply List.filter_congr
    intro q _
    simp
  · intro n hn
    rw [List.filter_map, List.length_map, ← h3.betti hD hl hn]
    congr 1
    apply List.filter_congr
    intro q _
    simp

/-- C65, from spaces to barcodes: for a zigzag of simplicial complexes whose edges are simplicial maps or inclusions, `Chain`, `Hom` and `barcode` succeed; the
pairs are an interval decomposition of the zigzag of homology groups, and the number of pairs alive at node `n` is the `k`-th simplicial Betti number of
the complex at node `n` (`K` being the family of the vertex sets of its simplices). -/
theorem C65_spaces {D : Diagram SCpx (List (CMat Int))} (hD : IsSpaceDiagram D) (hl : D.IsLine) {sc : Schedule} (hs : sc.For D) {k : Nat}
    (hk : ∀ X ∈ D.node, k ≤ X.maxdim) (a : Algo) :
    ∃ (CD : Diagram (List (CMat F)) (List (CMat F))) (HD : Diagram (RedCpx F) (CMat F)) (bars : List QBar),
      chainFunctor F sc D = .ok CD ∧ homFunctor sc CD k = .ok HD ∧
      barcode HD.toDgm k a = .ok (bars.map fun b => ⟨k, b.startInd, some b.stopInd, b.start, some b.stop⟩) ∧
      IsHomologyDecomposition CD k bars ∧
      ∀ (n : Nat) (X : SCpx) (K : Finset (Finset Nat)), D.node[n]? = some X → (∀ σ : Finset Nat, σ ∈ K ↔ σ.Nonempty ∧ ∃ i, X.findIdx (σ.sort (· ≤ ·)) = some i) →
        (bars.filter (fun q => decide (q.start ≤ n ∧ n ≤ q.stop))).length = simplicialBetti F K k := by
  obtain ⟨CD, c1, c2, c3, c4, c5⟩ := C65_chain_functor (F := F) hD hs
  have hlen := c4.length_eq
  have hlC : CD.IsLine := by
    refine ⟨?_, ?_, ?_, ?_⟩
    · rw [c3]; intro h; exact hl.ne (List.map_eq_nil_iff.1 h)
    · rw [← hlen, c3, List.length_map]; exact hl.nodes
    · rw [c2, c3, List.length_map]; exact hl.len
    · rw [c2, c3, List.length_map]; exact hl.ends
  have hsC : sc.For CD := by
    constructor
    · rw [← hlen]; exact hs.1
    · rw [c3, List.length_map]; exact hs.2
  have hkC : ∀ B ∈ CD.node, k < B.length := by
    intro B hB
    obtain ⟨i, hi, rfl⟩ := List.getElem_of_mem hB
    obtain ⟨B', b1, b2⟩ := forall2_get c4 (i := i) (List.getElem?_eq_getElem (by omega))
    rw [List.getElem?_eq_getElem hi] at b1; cases b1
    obtain ⟨cells, hI⟩ := (hD.node _ (List.getElem_mem (by omega : i < D.node.length))).1.inv
    obtain ⟨_, _, q3, _⟩ := cpx_data hI b2
    have := hk _ (List.getElem_mem (by omega : i < D.node.length))
    unfold SCpx.maxdim at this
    have := hI.sizes.ne
    omega
  obtain ⟨HD, bars, h1, h2, h3⟩ := C65_barcode c5 hlC hsC hkC a
  refine ⟨CD, HD, bars, c1, h1, h2, h3, ?_⟩
  intro n X K hX hK
  have hn : n < D.node.length := (List.getElem?_eq_some_iff.1 hX).1
  have hn' : n ≤ CD.edata.length := by rw [c3, List.length_map]; have := hl.nodes; omega
  rw [h3.betti c5 hlC hn']
  obtain ⟨B, b1, b2⟩ := forall2_get c4 hX
  have e : CD.cpx n = B := by
    have := cpx_get CD (show n < CD.node.length by omega)
    rw [b1] at this; cases this; rfl
  rw [e]
  have hXn := hD.node X (List.mem_of_getElem? hX)
  obtain ⟨cells, hI⟩ := hXn.1.inv
  obtain ⟨B', h1', h2', h3', h4'⟩ := chainComplex_spec (F := F) hI
  rw [b2] at h1'; cases h1'
  refine betti_simplicial hI ⟨?_, ?_⟩ h3' h2' h4' k
  · intro d s hs
    have hl := hI.ok.len d s hs
    have hne : s ≠ [] := by rintro rfl; simp at hl
    obtain ⟨i, hi⟩ := (hI.represents.found s hne).1 ((mem_setOf hl).2 hs)
    exact hXn.2 s i hne hi
  · intro σ
    rw [hK]
    have hne : σ.sort (· ≤ ·) ≠ [] ↔ σ.Nonempty := by
      rw [← List.length_pos_iff, Finset.length_sort, Finset.card_pos]
    constructor
    · rintro ⟨h1, h2⟩
      exact (hI.represents.found _ (hne.2 h1)).2 h2
    · intro h
      have h1 : σ.sort (· ≤ ·) ≠ [] := h.1
      exact ⟨hne.1 h1, (hI.represents.found _ h1).1 h⟩

private theorem inducedMaps_spec {f : List (CMat F)} {C C' : RedCpx F} : ∀ (n k : Nat), (∀ j, k ≤ j → j < k + n → ∃ M, inducedMap f C C' j = .ok M) →
    ∃ Ms, inducedMaps f C C' n k = .ok Ms ∧ Ms.length = n ∧ ∀ j, j < n → inducedMap f C C' (k + j) = .ok (Ms.getD j ⟨0, []⟩)
  | 0, k, _ => ⟨[], rfl, rfl, fun j hj => by omega⟩
  | n + 1, k, h => by
    obtain ⟨M, hM⟩ := h k (by omega) (by omega)
    obtain ⟨Ms, m1, m2, m3⟩ := inducedMaps_spec n (k + 1) (fun j h1 h2 => h j (by omega) (by omega))
    refine ⟨M :: Ms, ?_, by rw [List.length_cons, m2], ?_⟩
    · rw [inducedMaps, hM, bind_ok, m1, bind_ok]; rfl
    · intro j hj
      cases j with
      | zero => exact hM
      | succ j =>
        have := m3 j (by omega)
        rw [show k + (j + 1) = k + 1 + j by omega, this]; rfl

/-- C65: `Hom(D, topd)` and `barcode(HD, flag)`: all dimensions of the first complex (without the top one unless `topd`) at once; the pairs are, dimension
after dimension, an interval decomposition of homology. -/
theorem C65_all_dimensions {D : Diagram (List (CMat F)) (List (CMat F))} (hD : IsChainDiagram D) (hl : D.IsLine) {sc : Schedule} (hs : sc.For D) {topd : Bool} {m : Nat}
    (hm : m = if topd then (D.cpx 0).length else (D.cpx 0).length - 1) (h0 : m ≠ 0) (hk : ∀ B ∈ D.node, m ≤ B.length) (a : Algo) :
    ∃ (HD : Diagram (RedCpx F) (List (CMat F))) (bars : Nat → List QBar), homFunctorAll sc D topd = .ok HD ∧
      barcodeAll HD.toDgmVec a = .ok ((List.range m).flatMap (fun k => (bars k).map fun b => ⟨k, b.startInd, some b.stopInd, b.start, some b.stop⟩)) ∧
      ∀ k, k < m → IsHomologyDecomposition D k (bars k) := by
  have hnodes := hl.nodes
  obtain ⟨Cs, hC⟩ := mkStd_nodes hD.node
  have hone : ∀ B ∈ D.node, ∀ B' ∈ D.node, ∀ f C C', IsChainMap f B B' → RedCpx.mkStd B = .ok C → RedCpx.mkStd B' = .ok C' →
      ∃ y, inducedMaps f C C' m 0 = .ok y ∧ y.length = m ∧ ∀ j, j < m → inducedMap f C C' j = .ok (y.getD j ⟨0, []⟩) := by
    intro B hB B' hB' f C C' hf h1 h2
    obtain ⟨Ms, q1, q2, q3⟩ := inducedMaps_spec (f := f) (C := C) (C' := C') m 0 (by
      intro j _ hj
      exact induced_ok (hD.node B hB) (hD.node B' hB') hf h1 h2 (by have := hk B hB; omega) (by have := hk B' hB'; omega))
    exact ⟨Ms, q1, q2, fun j hj => by have := q3 j hj; rwa [Nat.zero_add] at this⟩
  obtain ⟨Ms, m1, m2⟩ := edges_exist hD hC (g := fun f C C' => inducedMaps f C C' m 0) (by
    intro B hB B' hB' f C C' hf h1 h2
    obtain ⟨y, hy, _⟩ := hone B hB B' hB' f C C' hf h1 h2
    exact ⟨y, hy⟩)
  have hMs : ∀ (j : Nat) (st : Nat × Nat) (f : List (CMat F)), D.elist[j]? = some st → D.edata[j]? = some f → ∃ y C C', Ms[j]? = some y ∧ Cs[st.1]? = some C ∧
      Cs[st.2]? = some C' ∧ y.length = m ∧ ∀ k, k < m → inducedMap f C C' k = .ok (y.getD k ⟨0, []⟩) := by
    intro j st f e1 e2
    obtain ⟨y, C, C', q1, q2, q3, q4⟩ := m2 j st f e1 e2
    obtain ⟨B, B', b1, b2, hf⟩ := hD.edges.edge j st f e1 e2
    obtain ⟨C1, c1, c2⟩ := forall2_get hC b1
    obtain ⟨C2, c3, c4⟩ := forall2_get hC b2
    rw [q2] at c1; cases c1
    rw [q3] at c3; cases c3
    obtain ⟨y', y1, y2, y3⟩ := hone B (List.mem_of_getElem? b1) B' (List.mem_of_getElem? b2) f C C' hf c2 c4
    rw [show inducedMaps f C C' m 0 = .ok y from q4] at y1; cases y1
    exact ⟨y, C, C', q1, q2, q3, y2, y3⟩
  have hdata : ∀ k, k < m → HomData D Cs k (Ms.map (fun l => l.getD k ⟨0, []⟩)) := by
    intro k hkm
    refine homData_of hD hC (by rw [List.length_map]; exact m1) ?_
    intro j st f e1 e2
    obtain ⟨y, C, C', q1, q2, q3, q4, q5⟩ := hMs j st f e1 e2
    exact ⟨y.getD k ⟨0, []⟩, C, C', by rw [List.getElem?_map, q1]; rfl, q2, q3, q5 k hkm⟩
  have hz : ∀ k, k < m → IsZigzag (homDgm D (Ms.map (fun l => l.getD k ⟨0, []⟩))) (homDims D k) := by
    intro k hkm
    exact hom_isZigzag hD hl (hdata k hkm) (fun B hB => by have := hk B hB; omega)
  have hne : Ms ≠ [] := by
    intro h; rw [h] at m1
    exact hl.ne (List.length_eq_zero_iff.1 m1.symm)
  have hlenM : ∀ l ∈ Ms, l.length = m := by
    intro l hlm
    obtain ⟨j, hj, rfl⟩ := List.getElem_of_mem hlm
    have h1 : j < D.edata.length := by omega
    obtain ⟨y, C, C', q1, _, _, q4, _⟩ := hMs j _ _ (List.getElem?_eq_getElem (by rw [hl.len]; exact h1)) (List.getElem?_eq_getElem h1)
    rw [List.getElem?_eq_getElem hj] at q1; cases q1; exact q4
  obtain ⟨bars, b1, b2⟩ := C55_all_dimensions (D := ⟨D.elist, Ms⟩) (d := fun k => homDims D k) (N := m) hne hlenM hz a
  refine ⟨⟨Cs, Ms, D.elist⟩, bars, ?_, b2, ?_⟩
  · unfold homFunctorAll
    rw [rd_some (cpx_get D (show 0 < D.node.length by omega)), bind_ok]
    show (if (if topd then (D.cpx 0).length else (D.cpx 0).length - 1) = 0 then _ else _) = _
    rw [← hm, if_neg h0]
    exact (homLoops_iff (g := fun f C C' => inducedMaps f C C' m 0) hs hD.edges.len).2 ⟨Cs, Ms, hC, m1, m2, rfl⟩
  · intro k hkm
    exact homology_decomposition hD hl (hdata k hkm) (fun B hB => by have := hk B hB; omega) (b1 k hkm)

/-- C65: without dimensions below the top `Hom(D, topd)` throws. -/
theorem C65_no_dimension (sc : Schedule) {D : Diagram (List (CMat F)) (List (CMat F))} {B : List (CMat F)} (hB : D.node[0]? = some B) (h : B.length = 1) :
    homFunctorAll sc D false = .error .thrown := by
  unfold homFunctorAll
  rw [rd_some hB, bind_ok]
  exact if_pos (show B.length - 1 = 0 by omega)

/-! ### A zigzag of spaces: the hollow square, mapped to the hollow triangle, which contains a path -/

/-- a path with two edges -/
def pathOps : List Op := [.addRecursive [0, 1], .addRecursive [1, 2]]

private theorem sorted_of_run {m : Nat} {ops : List Op} (ho : ∀ o ∈ ops, PlainOp o) {X : SCpx} (hX : (SCpx.init m).run ops = .ok X) :
    Reachable X ∧ ∀ s i, s ≠ [] → X.findIdx s = some i → s.Pairwise (· < ·) := by
  refine ⟨⟨m, ops, fun o h => (ho o h).ne, hX⟩, ?_⟩
  obtain ⟨X', h1, h2⟩ := C19_history m ops (fun o h => (ho o h).ne)
  rw [hX] at h1; cases h1
  intro s i hs hi
  exact specRun_sorted ops ∅ ho (by intro s hs; exact hs.elim) s ((h2.found s hs).2 ⟨i, hi⟩)

/-- the diagram satisfies the hypotheses -/
theorem zigzag_of_spaces : ∃ D : Diagram SCpx (List (CMat Int)), IsSpaceDiagram D ∧ D.IsLine ∧ D.node.length = 3 ∧ (∀ X ∈ D.node, X.maxdim = 1) ∧
    D.leftArrow 0 = false ∧ D.leftArrow 1 = true ∧ Schedule.For ⟨[2, 0, 1], [1, 0]⟩ D ∧
    ∃ X Y Z f g, D = ⟨[X, Y, Z], [f, g], [(0, 1), (2, 1)]⟩ ∧ (SCpx.init 1).run squareOps = .ok X ∧ (SCpx.init 1).run triOps = .ok Y ∧
      (SCpx.init 1).run pathOps = .ok Z ∧ simplicialMap X Y [2, 1, 0, 0] = .ok f ∧ inclusion Z Y = .ok g := by
  have pq : ∀ o ∈ squareOps, PlainOp o := by unfold squareOps; simp [PlainOp]
  have pt : ∀ o ∈ triOps, PlainOp o := by unfold triOps; simp [PlainOp]
  have pp : ∀ o ∈ pathOps, PlainOp o := by unfold pathOps; simp [PlainOp]
  obtain ⟨X, hX, _⟩ := C19_history 1 squareOps (fun o h => (pq o h).ne)
  obtain ⟨Y, hY, _⟩ := C19_history 1 triOps (fun o h => (pt o h).ne)
  obtain ⟨Z, hZ, _⟩ := C19_history 1 pathOps (fun o h => (pp o h).ne)
  have h1 : ((SCpx.init 1).run squareOps).bind (fun X => ((SCpx.init 1).run triOps).bind (fun Y => simplicialMap X Y [2, 1, 0, 0]))
      = .ok [⟨3, [[(2, 1)], [(1, 1)], [(0, 1)], [(0, 1)]]⟩, ⟨3, [[(1, -1)], [(0, -1)], [], [(2, -1)]]⟩] := by decide +kernel
  have h2 : ((SCpx.init 1).run pathOps).bind (fun X => ((SCpx.init 1).run triOps).bind (fun Y => inclusion X Y))
      = .ok [⟨3, [[(0, 1)], [(1, 1)], [(2, 1)]]⟩, ⟨3, [[(0, 1)], [(1, 1)]]⟩] := by decide +kernel
  have m1 : ((SCpx.init 1).run squareOps).map SCpx.maxdim = .ok 1 := by decide +kernel
  have m2 : ((SCpx.init 1).run triOps).map SCpx.maxdim = .ok 1 := by decide +kernel
  have m3 : ((SCpx.init 1).run pathOps).map SCpx.maxdim = .ok 1 := by decide +kernel
  rw [hX, hY] at h1
  rw [hZ, hY] at h2
  rw [hX] at m1; rw [hY] at m2; rw [hZ] at m3
  have m1 : X.maxdim = 1 := by injection m1
  have m2 : Y.maxdim = 1 := by injection m2
  have m3 : Z.maxdim = 1 := by injection m3
  refine ⟨⟨[X, Y, Z], _, [(0, 1), (2, 1)]⟩, ⟨?_, ?_, ?_⟩, ⟨by simp, by simp, by simp, ?_⟩, rfl, ?_, rfl, rfl, ⟨?_, ?_⟩, X, Y, Z, _, _, rfl, hX, hY, hZ, h1, h2⟩
  · intro W hW
    simp only [List.mem_cons, List.not_mem_nil, or_false] at hW
    rcases hW with rfl | rfl | rfl
    · exact sorted_of_run pq hX
    · exact sorted_of_run pt hY
    · exact sorted_of_run pp hZ
  · rfl
  · intro j st f e1 e2
    match j with
    | 0 =>
      simp only [List.getElem?_cons_zero, Option.some.injEq] at e1 e2
      subst e1; subst e2
      exact ⟨X, Y, rfl, rfl, Or.inl ⟨_, h1⟩⟩
    | 1 =>
      simp only [List.getElem?_cons_succ, List.getElem?_cons_zero, Option.some.injEq] at e1 e2
      subst e1; subst e2
      exact ⟨Z, Y, rfl, rfl, Or.inr ⟨by omega, h2⟩⟩
    | j + 2 => simp at e1
  · intro k hk
    have hk : k < 2 := hk
    interval_cases k
    · right; rfl
    · left; rfl
  · intro W hW
    simp only [List.mem_cons, List.not_mem_nil, or_false] at hW
    rcases hW with rfl | rfl | rfl <;> assumption
  · show [2, 0, 1].Perm (List.range 3)
    decide
  · show [1, 0].Perm (List.range 2)
    decide

/-- the whole computation on the example: the cycle of the square maps to that of the triangle, which does not come from the path -/
theorem zigzag_of_spaces_barcode : (do
    let X ← (SCpx.init 1).run squareOps
    let Y ← (SCpx.init 1).run triOps
    let Z ← (SCpx.init 1).run pathOps
    let f ← simplicialMap X Y [2, 1, 0, 0]
    let g ← inclusion Z Y
    let CD ← chainFunctor ℚ ⟨[2, 0, 1], [1, 0]⟩ ⟨[X, Y, Z], [f, g], [(0, 1), (2, 1)]⟩
    let H0 ← homFunctor ⟨[2, 0, 1], [1, 0]⟩ CD 0
    let H1 ← homFunctor ⟨[0, 1, 2], [0, 1]⟩ CD 1
    let b0 ← barcode H0.toDgm 0 .leftward
    let b1 ← barcode H1.toDgm 1 (.divideConquer 4)
    pure (b0.map (fun p => (p.birth, p.death)), b1.map (fun p => (p.birth, p.death)))) = Except.ok ([(0, some 2)], [(0, some 1)]) := by
  decide +kernel

end BATS
