import Verif.Proofs.ZigzagSets
import Verif.Props.RipsDiagram

set_option linter.unusedSectionVars false
set_option linter.unusedVariables false
set_option linter.unusedSimpArgs false

/-! # C68, second part: unions and intersections of subsets (include/topology/inclusion.hpp) and the zigzags of include/topology/zigzag_zoo.hpp -/

namespace BATS
open Matrix Reduction SMap SCpx Quiver Nrv Srt Zoo BATS.Flag

/-! ## Inclusions -/

/-- C68: `vertex_inclusion_map(s, t)` of sets lists the positions in `t` of the elements of `s` if `s` is a subset of `t`; otherwise it reads past the end of `t`. -/
theorem C68_vertex_inclusion {s t : List Nat} (hs : s.Pairwise (· < ·)) (ht : t.Pairwise (· < ·)) :
    ((∀ x ∈ s, x ∈ t) → ∃ f, vertexInclusionMap s t = .ok f ∧ IsInclusionMap s t f) ∧ ((∃ x ∈ s, x ∉ t) → vertexInclusionMap s t = .error .ub) :=
  ⟨vertexInclusionMap_ok hs ht, fun h => inclLoop_ub h 0⟩

example : vertexInclusionMap [2, 5] [0, 2, 4, 5] = .ok [1, 3] := by decide

example : vertexInclusionMap [2, 3] [0, 2, 4, 5] = .error .ub := by decide

/-- C68: `linear_subset_union_diagram(subsets)` is the zigzag `S₀ → S₀ ∪ S₁ ← S₁ → S₁ ∪ S₂ ← …` of the sets, their unions and the inclusions. -/
theorem C68_union_diagram {cs : List (List Nat)} (hne : cs ≠ []) (hc : ∀ c ∈ cs, c.Pairwise (· < ·)) :
    ∃ D, linearSubsetUnionDiagram cs = .ok D ∧ IsZigzagShape cs.length D ∧ D.HasEdges IsInclusionMap ∧
      (∀ (j : Nat) (c : List Nat), cs[j]? = some c → D.node[2 * j]? = some c) ∧
      ∀ (j : Nat) (a b : List Nat), cs[j]? = some a → cs[j + 1]? = some b → ∃ u, D.node[2 * j + 1]? = some u ∧ IsSetOf u (a ++ b) := by
  obtain ⟨D, d1, d2, d3, d4, d5⟩ := unionLoop_spec hc cs 0 Diagram.empty hne rfl ⟨rfl, fun j hj => by omega, fun j hj => by omega, rfl, fun j hj => by omega, fun j hj => by omega,
    ⟨rfl, fun j st f e => by simp [Diagram.empty] at e⟩⟩
  refine ⟨D, d1, d2, d3, ?_, ?_⟩
  · intro j c h
    rw [d4 j (List.getElem?_eq_some_iff.1 h).1, h]
  · intro j a b ha hb
    obtain ⟨a', b', e1, e2, e3⟩ := d5 j (List.getElem?_eq_some_iff.1 hb).1
    rw [ha] at e1; cases e1
    rw [hb] at e2; cases e2
    have := C27_set_union a b
    exact ⟨_, e3, this.1, fun x => by rw [this.2, List.mem_append]⟩

/-- C68: for at least two subsets of `n` points the union diagram is a diagram of subsets to which `Rips` and the barcode of zigzags apply. -/
theorem C68_union_rips {T : Type} [Zero T] [LinearOrder T] {F : Type} [Field F] [DecidableEq F] {cs : List (List Nat)} {n : Nat} (h2 : 2 ≤ cs.length)
    (hc : ∀ c ∈ cs, c.Pairwise (· < ·)) (hn : ∀ c ∈ cs, ∀ x ∈ c, x < n) (dist : Nat → Nat → T) (r : T) (dmax : Nat) (k : Nat) (hk : k < dmax) (a : Algo) :
    ∃ D, linearSubsetUnionDiagram cs = .ok D ∧ IsSubsetDiagram n D ∧ D.IsLine ∧ ∀ sc : Schedule, sc.For D →
      ∃ (TD : Diagram SCpx (List (CMat Int))) (CD : Diagram (List (CMat F)) (List (CMat F))) (HD : Diagram (RedCpx F) (CMat F)) (bars : List QBar), ripsFunctor sc D dist n r dmax = .ok TD ∧ chainFunctor F sc TD = .ok CD ∧ homFunctor sc CD k = .ok HD ∧
        barcode HD.toDgm k a = .ok (bars.map fun b => ⟨k, b.startInd, some b.stopInd, b.start, some b.stop⟩) ∧
        (∀ (j : Nat) (S : List Nat), cs[j]? = some S → (bars.filter (fun q => decide (q.start ≤ 2 * j ∧ 2 * j ≤ q.stop))).length = simplicialBetti F (subRips dist S r) k) := by
  obtain ⟨D, d1, d2, d3, d4, d5⟩ := C68_union_diagram (by rintro rfl; simp at h2) hc
  have hnode : ∀ S ∈ D.node, S.Pairwise (· < ·) ∧ ∀ x ∈ S, x < n := by
    intro S hS
    obtain ⟨i, hi, rfl⟩ := List.getElem_of_mem hS
    have hlen := d2.nodes
    rcases Nat.even_or_odd' i with ⟨j, rfl | rfl⟩
    · have hj : j < cs.length := by omega
      have := d4 j _ (List.getElem?_eq_getElem hj)
      rw [List.getElem?_eq_getElem hi] at this
      rw [Option.some.inj this]
      exact ⟨hc _ (List.getElem_mem hj), hn _ (List.getElem_mem hj)⟩
    · obtain ⟨u, u1, u2, u3⟩ := d5 j _ _ (List.getElem?_eq_getElem (by omega)) (List.getElem?_eq_getElem (by omega))
      rw [List.getElem?_eq_getElem hi] at u1
      rw [Option.some.inj u1]
      refine ⟨u2, fun x hx => ?_⟩
      rcases List.mem_append.1 ((u3 x).1 hx) with h | h
      · exact hn _ (List.getElem_mem _) x h
      · exact hn _ (List.getElem_mem _) x h
  have hD : IsSubsetDiagram n D := ⟨fun S hS => (hnode S hS).1, fun S hS => (hnode S hS).2, d3⟩
  have hl := line_of_zigzag h2 d2 d3.len
  refine ⟨D, d1, hD, hl, ?_⟩
  intro sc hs
  obtain ⟨TD, t1, t2⟩ := C68_functor hD hs dist r dmax
  obtain ⟨CD, HD, bars, c1, c2, c3, c4, c5⟩ := C68_barcode (F := F) (n := n) hl t2 hs hk a
  exact ⟨TD, CD, HD, bars, t1, c1, c2, c3, fun j S h => c5 _ _ (d4 j S h)⟩

example : linearSubsetUnionDiagram [] = .ok Diagram.empty := rfl

example : (linearSubsetUnionDiagram [[0, 1], [1, 2], [3]]).map (fun D => (D.node, D.edata, D.elist)) =
    .ok ([[0, 1], [0, 1, 2], [1, 2], [1, 2, 3], [3]], [[0, 1], [1, 2], [0, 1], [2]], [(0, 1), (2, 1), (2, 3), (4, 3)]) := by decide +kernel

/-- C68, a defect: `linear_cover_intersection_diagram(cover)` has the sets of the cover and the intersections of neighbours as nodes, and the inclusions as data of the edges, but the
second edge at the intersection of the sets `j` and `j + 1` (node `2 j + 1`) goes to node `j + 1`, not to `2 j + 2` as it should. -/
theorem C68_intersection_diagram {cs : List (List Nat)} (hne : cs ≠ []) (hc : ∀ c ∈ cs, c.Pairwise (· < ·)) :
    ∃ D, linearCoverIntersectionDiagram cs = .ok D ∧ D.node.length = 2 * cs.length - 1 ∧ D.elist.length = 2 * cs.length - 2 ∧ D.edata.length = 2 * cs.length - 2 ∧
      (∀ (j : Nat) (c : List Nat), cs[j]? = some c → D.node[2 * j]? = some c) ∧
      ∀ (j : Nat) (a b : List Nat), cs[j]? = some a → cs[j + 1]? = some b → ∃ u f g, D.node[2 * j + 1]? = some u ∧ u.Pairwise (· < ·) ∧ (∀ x, x ∈ u ↔ x ∈ a ∧ x ∈ b) ∧
        D.edata[2 * j]? = some f ∧ IsInclusionMap u a f ∧ D.elist[2 * j]? = some (2 * j + 1, 2 * j) ∧
        D.edata[2 * j + 1]? = some g ∧ IsInclusionMap u b g ∧ D.elist[2 * j + 1]? = some (2 * j + 1, j + 1) := by
  obtain ⟨D, d1, d2, d3, d4, d5, d6⟩ := interLoop_spec hc cs 0 Diagram.empty hne rfl ⟨rfl, fun j hj => by omega, fun j hj => by omega, rfl, rfl, fun j hj => by omega, fun j hj => by omega⟩
  refine ⟨D, d1, d2, d3, d4, ?_, ?_⟩
  · intro j c h
    rw [d5 j (List.getElem?_eq_some_iff.1 h).1, h]
  · intro j a b ha hb
    obtain ⟨e1, e2, a', b', f, g, q1, q2, q3, q4, q5, q6, q7⟩ := d6 j (List.getElem?_eq_some_iff.1 hb).1
    rw [ha] at q1; cases q1
    rw [hb] at q2; cases q2
    have := C27_intersect_sorted (hc a (List.mem_of_getElem? ha)) (hc b (List.mem_of_getElem? hb))
    exact ⟨_, f, g, q3, this.1, this.2, q4, q6, e1, q5, q7, e2⟩

/-- C68, a defect: for two or more sets the result of `linear_cover_intersection_diagram` is not a zigzag (its second edge is a loop at the first intersection), and it is no diagram of
inclusions as soon as an element of the second set before a common one of the first two sets is not in the first. -/
theorem C68_intersection_wrong {cs : List (List Nat)} (h2 : 2 ≤ cs.length) (hc : ∀ c ∈ cs, c.Pairwise (· < ·)) :
    ∃ D, linearCoverIntersectionDiagram cs = .ok D ∧ ¬ D.IsLine ∧ D.elist[1]? = some (1, 1) ∧
      ((∃ a b x, cs[0]? = some a ∧ cs[1]? = some b ∧ x ∈ b ∧ x ∈ a ∧ ∃ y ∈ b, y < x ∧ y ∉ a) → ∀ n, ¬ IsSubsetDiagram n D) := by
  obtain ⟨D, d1, d2, d3, d4, d5, d6⟩ := C68_intersection_diagram (cs := cs) (by rintro rfl; simp at h2) hc
  obtain ⟨u, f, g, q1, q2, q3, q4, q5, q6, q7, q8, q9⟩ := d6 0 _ _ (List.getElem?_eq_getElem (by omega)) (List.getElem?_eq_getElem (by omega))
  refine ⟨D, d1, ?_, by simpa using q9, ?_⟩
  · intro hl
    have := hl.ends 1 (by omega)
    have e : D.elist[1]? = some (1, 1) := by simpa using q9
    rw [List.getD_eq_getElem?_getD, e] at this
    simp at this
  · rintro ⟨a, b, x, ha, hb, hxb, hxa, y, hyb, hyx, hya⟩ n hD
    rw [List.getElem?_eq_getElem (by omega)] at ha hb
    simp only [Option.some.injEq] at ha hb
    simp only [Nat.zero_add, Nat.mul_zero, Nat.mul_one] at *
    rw [ha] at q3 q5
    rw [hb] at q3 q8
    obtain ⟨X, Y, x1, x2, x3⟩ := hD.edges.edge 1 _ _ q9 q7
    have x1 : D.node[1]? = some X := x1
    have x2 : D.node[1]? = some Y := x2
    rw [q1] at x1 x2
    cases x1; cases x2
    -- the positions in `u` of the elements of `u` are the identity, those in `b` are larger
    obtain ⟨i, hi, hix⟩ := List.getElem_of_mem ((q3 x).2 ⟨hxa, hxb⟩)
    have hpos : ∀ i, i < u.length → g.getD i 0 = i := by
      intro i hi
      have e := x3.2 i hi
      rw [List.getElem?_eq_getElem hi] at e
      obtain ⟨l, e⟩ := List.getElem?_eq_some_iff.1 e
      exact (List.Nodup.getElem_inj_iff (q2.imp (fun h => ne_of_lt h))).1 e
    have hb' : b.Pairwise (· < ·) := by rw [← hb]; exact hc _ (List.getElem_mem _)
    -- in `b` there are at least `i + 1` elements before `x`
    have e := q8.2 i hi
    rw [hpos i hi, List.getElem?_eq_getElem hi, hix] at e
    have hbi : ∀ j, j ≤ i → b[j]? = u[j]? := by
      intro j hj
      have e := q8.2 j (by omega)
      rwa [hpos j (by omega)] at e
    obtain ⟨m, hm, hmy⟩ := List.getElem_of_mem hyb
    obtain ⟨li, e⟩ := List.getElem?_eq_some_iff.1 e
    have hmi : m < i := by
      by_contra hno
      have : b[i] ≤ b[m] := by
        rcases Nat.lt_or_ge i m with h | h
        · exact le_of_lt (List.pairwise_iff_getElem.1 hb' i m li hm h)
        · have : i = m := by omega
          subst this; exact le_refl _
      omega
    have e' := hbi m (by omega)
    rw [List.getElem?_eq_getElem hm, hmy] at e'
    exact hya ((q3 y).1 (List.mem_of_getElem? e'.symm)).1

example : (linearCoverIntersectionDiagram [[0, 1], [1, 2], [2, 3]]).map (fun D => (D.node, D.edata, D.elist)) =
    .ok ([[0, 1], [1], [1, 2], [2], [2, 3]], [[1], [0], [1], [0]], [(1, 0), (1, 1), (3, 2), (3, 2)]) := by decide +kernel

/-! ## zigzag_zoo.hpp -/

section zoo
open Lmk
variable {T : Type} [Field T] [LinearOrder T] [IsStrictOrderedRing T]

theorem hds_nonneg {rows : List (List T)} {i0 : Nat} {inds : List Nat} {hds : List T} (hf : IsFarthestFirst rows i0 rows.length inds hds) (hl : hds.getLast? = some 0)
    {i : Nat} {h : T} (hi : hds[i]? = some h) : 0 ≤ h := by
  have := (List.getElem?_eq_some_iff.1 hi).1
  rw [List.getLast?_eq_getElem?] at hl
  exact hf.anti (by omega) hi hl

theorem landmarks {rows : List (List T)} (hD : IsDistance rows) (hn : rows ≠ []) (dim : Nat) :
    ∃ i0 inds hds, approxCenter rows dim 0 0 = .ok i0 ∧ greedyHausdorff rows i0 = .ok (inds, hds) ∧ i0 < rows.length ∧ IsFarthestFirst rows i0 rows.length inds hds ∧
      hds.getLast? = some 0 := by
  obtain ⟨c, _, _, _, c1, _, c2, _⟩ := C67_approx_center hD.table (List.length_pos_iff.2 hn) dim 0
  obtain ⟨inds, hds, g1, g2, g3⟩ := C67_all_points hD c2
  exact ⟨c, inds, hds, c1, g1, c2, g2, g3⟩

/-- C68: `OscillatingRipsZigzagSets(D, dist, rho, eta)` is a zigzag of subsets: with the landmarks `inds` of all points in farthest-first order and their Hausdorff distances `hds`, node `2 i` is the set of
the first `i + 1` landmarks with radius `eta hds[i]`, and node `2 i + 1` the set of the first `i + 2` landmarks with radius `rho hds[i]`; for `rho ≥ 0` the radii do not decrease along the edges. -/
theorem C68_oscillating {rows : List (List T)} (hD : IsDistance rows) (hn : rows ≠ []) (dim : Nat) {rho eta : T} (hre : eta ≤ rho) :
    ∃ D r i0 inds hds, oscillatingSets rows dim rho eta = .ok (D, r) ∧ IsFarthestFirst rows i0 rows.length inds hds ∧ hds.getLast? = some 0 ∧
      IsZigzagShape rows.length D ∧ IsSubsetDiagram rows.length D ∧ r.length = D.node.length ∧
      (∀ (i : Nat) (h : T), hds[i]? = some h → r[2 * i]? = some (eta * h) ∧ ∃ S, D.node[2 * i]? = some S ∧ IsSetOf S (inds.take (i + 1))) ∧
      (∀ (i : Nat) (h : T), i + 1 < rows.length → hds[i]? = some h → r[2 * i + 1]? = some (rho * h) ∧ ∃ S, D.node[2 * i + 1]? = some S ∧ IsSetOf S (inds.take (i + 2))) ∧
      (0 ≤ rho → ∀ (j s t : Nat), D.elist[j]? = some (s, t) → r.getD s 0 ≤ r.getD t 0) := by
  obtain ⟨i0, inds, hds, g0, g1, g2, g3, g4⟩ := landmarks hD hn dim
  have hpos := List.length_pos_iff.2 hn
  have hil := g3.len
  have hhl := g3.hlen
  obtain ⟨its, hits⟩ : ∃ its, its = oscItems rho eta inds hds [] 0 := ⟨_, rfl⟩
  have hlen : its.length = inds.length := by rw [hits]; exact (oscNodes_eq rho eta inds hds [] 0 0 Diagram.empty [] (by omega)).2
  have hget : ∀ m, m < inds.length → ∃ S, its[m]? = some (S, rho * ((0 : T) :: hds).getD m 0, eta * hds.getD m 0) ∧ IsSetOf S (inds.take (m + 1)) := by
    intro m hm
    rw [hits]
    simpa using oscItems_get rho eta inds hds [] [] 0 (by omega) ⟨List.Pairwise.nil, fun x => Iff.rfl⟩ m hm
  obtain ⟨D0, D, r, z1, z2, z3, z4, z5, z6, z7⟩ := zz_build (its := its) (by rintro h; rw [h] at hlen; simp at hlen; omega) (by
      intro t ht
      obtain ⟨m, hm, rfl⟩ := List.getElem_of_mem ht
      obtain ⟨S, s1, s2⟩ := hget m (by omega)
      rw [List.getElem?_eq_getElem hm] at s1
      rw [Option.some.inj s1]; exact s2.1) (by
      intro i a b ha hb x hx
      have h1 := (List.getElem?_eq_some_iff.1 ha).1
      have h2 := (List.getElem?_eq_some_iff.1 hb).1
      obtain ⟨S, s1, s2⟩ := hget i (by omega)
      obtain ⟨S', s1', s2'⟩ := hget (i + 1) (by omega)
      rw [ha] at s1; rw [hb] at s1'
      cases s1; cases s1'
      exact (s2'.2 x).2 (List.take_subset_take_left _ (by omega) ((s2.2 x).1 hx)))
  have hlen' : its.length = rows.length := by omega
  rw [hlen'] at z1 z2 z3 z5
  refine ⟨D, r, i0, inds, hds, ?_, g3, g4, z3, ⟨?_, ?_, z4⟩, by rw [z5, z3.nodes], ?_, ?_, ?_⟩
  · unfold oscillatingSets
    rw [if_neg (not_lt.2 hre), g0, bind_ok, g1, bind_ok]
    show (do
      let q ← oscNodes rho eta inds hds [] 0 0 (Diagram.init (2 * inds.length - 1) (2 * inds.length - 2)) (List.replicate (2 * inds.length - 1) 0)
      let D ← zzEdges (inds.length - 1) 0 q.1
      pure (D, q.2)) = _
    rw [(oscNodes_eq rho eta inds hds [] 0 0 _ _ (by omega)).1, ← hits, hil, z1, bind_ok]
    show (do let D ← zzEdges (rows.length - 1) 0 D0; pure (D, r)) = _
    rw [z2]; rfl
  · intro S hS
    obtain ⟨t, ht, rfl⟩ := z6 S hS
    obtain ⟨m, hm, rfl⟩ := List.getElem_of_mem ht
    obtain ⟨S, s1, s2⟩ := hget m (by omega)
    rw [List.getElem?_eq_getElem hm] at s1
    rw [Option.some.inj s1]; exact s2.1
  · intro S hS x hx
    obtain ⟨t, ht, rfl⟩ := z6 S hS
    obtain ⟨m, hm, rfl⟩ := List.getElem_of_mem ht
    obtain ⟨S, s1, s2⟩ := hget m (by omega)
    rw [List.getElem?_eq_getElem hm] at s1
    rw [Option.some.inj s1] at hx
    exact g3.lt x (List.mem_of_mem_take ((s2.2 x).1 hx))
  · intro i h hi
    have h1 := (List.getElem?_eq_some_iff.1 hi).1
    obtain ⟨S, s1, s2⟩ := hget i (by omega)
    obtain ⟨k1, k2, _⟩ := z7 i _ s1
    refine ⟨?_, S, k1, s2⟩
    rw [k2]
    show some (eta * hds.getD i 0) = _
    rw [List.getD_eq_getElem?_getD, hi]; rfl
  · intro i h hlt hi
    obtain ⟨S, s1, s2⟩ := hget (i + 1) (by omega)
    obtain ⟨_, _, k3⟩ := z7 (i + 1) _ s1
    obtain ⟨k1, k2⟩ := k3 (by omega)
    rw [show 2 * (i + 1) - 1 = 2 * i + 1 from by omega] at k1 k2
    refine ⟨?_, S, k1, s2⟩
    rw [k2]
    show some (rho * hds.getD i 0) = _
    rw [List.getD_eq_getElem?_getD, hi]; rfl
  · intro hrho j s t hj
    have hjl := (List.getElem?_eq_some_iff.1 hj).1
    rw [z3.len] at hjl
    have hr : ∀ i, i < rows.length → r.getD (2 * i) 0 = eta * hds.getD i 0 ∧ (i + 1 < rows.length → r.getD (2 * i + 1) 0 = rho * hds.getD i 0) := by
      intro i hi
      obtain ⟨S, s1, s2⟩ := hget i (by omega)
      obtain ⟨k1, k2, _⟩ := z7 i _ s1
      refine ⟨by rw [List.getD_eq_getElem?_getD, k2]; rfl, fun hi' => ?_⟩
      obtain ⟨S, s1, s2⟩ := hget (i + 1) (by omega)
      obtain ⟨_, _, k3⟩ := z7 (i + 1) _ s1
      obtain ⟨k1, k2⟩ := k3 (by omega)
      rw [show 2 * (i + 1) - 1 = 2 * i + 1 from by omega] at k2
      rw [List.getD_eq_getElem?_getD, k2, show ((0 : T) :: hds).getD (i + 1) 0 = hds.getD i 0 from rfl]; rfl
    have hn0 : ∀ i, i < rows.length → 0 ≤ hds.getD i 0 := by
      intro i hi
      rw [List.getD_eq_getElem?_getD, List.getElem?_eq_getElem (show i < hds.length by omega)]
      exact hds_nonneg g3 g4 (List.getElem?_eq_getElem (show i < hds.length by omega))
    have hanti : ∀ i, i + 1 < rows.length → hds.getD (i + 1) 0 ≤ hds.getD i 0 := by
      intro i hi
      rw [List.getD_eq_getElem?_getD, List.getElem?_eq_getElem (show i + 1 < hds.length by omega), List.getD_eq_getElem?_getD, List.getElem?_eq_getElem (show i < hds.length by omega)]
      exact g3.anti (Nat.le_succ i) (List.getElem?_eq_getElem (show i < hds.length by omega)) (List.getElem?_eq_getElem (show i + 1 < hds.length by omega))
    rcases Nat.even_or_odd' j with ⟨i, rfl | rfl⟩
    · rw [z3.right i (by omega)] at hj; cases hj
      rw [(hr i (by omega)).1, (hr i (by omega)).2 (by omega)]
      exact mul_le_mul_of_nonneg_right hre (hn0 i (by omega))
    · rw [z3.left i (by omega)] at hj; cases hj
      have e := (hr (i + 1) (by omega)).1
      rw [show 2 * (i + 1) = 2 * i + 2 from by omega] at e
      rw [e, (hr i (by omega)).2 (by omega)]
      exact (mul_le_mul_of_nonneg_right hre (hn0 (i + 1) (by omega))).trans (mul_le_mul_of_nonneg_left (hanti i (by omega)) hrho)

/-- C68: `OscillatingRipsZigzagSets` throws if `rho < eta`. -/
theorem C68_oscillating_thrown (rows : List (List T)) (dim : Nat) {rho eta : T} (h : rho < eta) : oscillatingSets rows dim rho eta = .error .thrown := by
  unfold oscillatingSets; rw [if_pos h]

theorem morozovLoop_spec (eta : T) (hds : List T) : ∀ (hs : List T) (i k0 : Nat), hds.drop i = hs → i ≤ hds.length → k0 < i → (∀ j, k0 < j → j < i → eta * hds.getD k0 0 < hds.getD j 0) →
    let ks := k0 :: morozovLoop eta hs i (hds.getD k0 0)
    ks.Pairwise (· < ·) ∧ (∀ k ∈ ks, k < hds.length) ∧
    (∀ i k k', ks[i]? = some k → ks[i + 1]? = some k' → hds.getD k' 0 ≤ eta * hds.getD k 0 ∧ ∀ j, k < j → j < k' → eta * hds.getD k 0 < hds.getD j 0) ∧
    (∀ k, ks.getLast? = some k → ∀ j, k < j → j < hds.length → eta * hds.getD k 0 < hds.getD j 0) ∧ ∀ k ∈ morozovLoop eta hs i (hds.getD k0 0), i ≤ k := by
  intro hs
  induction hs with
  | nil =>
    intro i k0 hd hi h0 hb
    have hi' : i = hds.length := by
      have := congrArg List.length hd
      simp at this; omega
    simp only [morozovLoop]
    refine ⟨by simp, by simp; omega, ?_, ?_, by simp⟩
    · intro m k k' _ h; simp at h
    · intro k hk j h1 h2
      simp at hk; subst hk
      exact hb j h1 (by omega)
  | cons h hs ih =>
    intro i k0 hd hi h0 hb
    have hil : i < hds.length := by
      have := congrArg List.length hd
      simp at this; omega
    have hget : hds.getD i 0 = h := by
      have := congrArg (fun l => l[0]?) hd
      simp at this
      rw [List.getD_eq_getElem?_getD, this]; rfl
    have hd' : hds.drop (i + 1) = hs := by
      rw [← List.drop_drop, hd]; rfl
    simp only [morozovLoop]
    by_cases hc : eta * hds.getD k0 0 < h
    · rw [if_neg (not_not.2 hc)]
      obtain ⟨q1, q2, q3, q4, q5⟩ := ih (i + 1) k0 hd' (by omega) (by omega) (by
        intro j h1 h2
        rcases Nat.lt_or_ge j i with h3 | h3
        · exact hb j h1 h3
        · have : j = i := by omega
          subst this; rw [hget]; exact hc)
      exact ⟨q1, q2, q3, q4, fun k hk => by have := q5 k hk; omega⟩
    · rw [if_pos hc]
      obtain ⟨q1, q2, q3, q4, q5⟩ := ih (i + 1) i hd' (by omega) (by omega) (fun j h1 h2 => by omega)
      rw [hget] at q1 q2 q3 q4 q5
      refine ⟨?_, ?_, ?_, ?_, ?_⟩
      · rw [List.pairwise_cons]
        refine ⟨?_, q1⟩
        intro k hk
        rcases List.mem_cons.1 hk with rfl | hk
        · exact h0
        · have := q5 k hk; omega
      · intro k hk
        rcases List.mem_cons.1 hk with rfl | hk
        · omega
        · exact q2 k hk
      · intro m k k' e1 e2
        cases m with
        | zero =>
          simp at e1 e2
          subst e1; subst e2
          exact ⟨by rw [hget]; exact not_lt.1 hc, hb⟩
        | succ m => exact q3 m k k' (by simpa using e1) (by simpa using e2)
      · intro k hk
        rw [List.getLast?_cons_cons] at hk
        exact q4 k hk
      · intro k hk
        rcases List.mem_cons.1 hk with rfl | hk
        · exact Nat.le_refl _
        · have := q5 k hk; omega

/-- C68: `get_dM_ZZ_inds(hds, rho, theta)` returns the levels of the Morozov zigzag; without distances it reads past the end. -/
theorem C68_levels (hds : List T) (rho theta : T) :
    (hds ≠ [] → ∃ ks, morozovInds hds rho theta = .ok ks ∧ IsLevels (zzEta rho theta) hds ks) ∧ (hds = [] → morozovInds hds rho theta = .error .ub) := by
  refine ⟨fun hne => ?_, fun h => by rw [h]; rfl⟩
  obtain ⟨h, hs, rfl⟩ := List.exists_cons_of_ne_nil hne
  obtain ⟨q1, q2, q3, q4, q5⟩ := morozovLoop_spec (zzEta rho theta) (h :: hs) hs 1 0 rfl (by simp) (by omega) (fun j h1 h2 => by omega)
  exact ⟨_, rfl, ⟨rfl, q1, q2, q3, q4⟩⟩

theorem levels_le {eta : T} {hds : List T} {ks ks' : List Nat} (h : IsLevels eta hds ks) (h' : IsLevels eta hds ks') : ∀ (m k : Nat), ks[m]? = some k → ks'[m]? = some k := by
    intro m
    induction m with
    | zero => intro k hk; rw [h.first] at hk; rw [h'.first, hk]
    | succ m ih =>
      intro k hk
      have hm := (List.getElem?_eq_some_iff.1 hk).1
      obtain ⟨k0, e0⟩ : ∃ k0, ks[m]? = some k0 := ⟨_, List.getElem?_eq_getElem (show m < ks.length by omega)⟩
      have e0' := ih k0 e0
      obtain ⟨n1, n2⟩ := h.next m k0 k e0 hk
      have hkl := h.lt k (List.mem_of_getElem? hk)
      have hk0 : k0 < k := by
        obtain ⟨l1, rfl⟩ := List.getElem?_eq_some_iff.1 e0
        obtain ⟨l2, rfl⟩ := List.getElem?_eq_some_iff.1 hk
        exact List.pairwise_iff_getElem.1 h.inc m (m + 1) l1 l2 (by omega)
      rcases hk' : ks'[m + 1]? with _ | k'
      · exfalso
        have hlast : ks'.getLast? = some k0 := by
          have l1 := (List.getElem?_eq_some_iff.1 e0').1
          have l2 := List.getElem?_eq_none_iff.1 hk'
          rw [List.getLast?_eq_getElem?, show ks'.length - 1 = m from by omega, e0']
        exact absurd (h'.last k0 hlast k hk0 hkl) (not_lt.2 n1)
      · obtain ⟨n1', n2'⟩ := h'.next m k0 k' e0' hk'
        have hk0' : k0 < k' := by
          obtain ⟨l1, rfl⟩ := List.getElem?_eq_some_iff.1 e0'
          obtain ⟨l2, rfl⟩ := List.getElem?_eq_some_iff.1 hk'
          exact List.pairwise_iff_getElem.1 h'.inc m (m + 1) l1 l2 (by omega)
        rcases Nat.lt_trichotomy k k' with hlt | heq | hlt
        · exact absurd (n2' k hk0 hlt) (not_lt.2 n1)
        · rw [heq]
        · exact absurd (n2 k' hk0' hlt) (not_lt.2 n1')

/-- the levels are determined by `eta` and the distances -/
theorem levels_unique {eta : T} {hds : List T} {ks ks' : List Nat} (h : IsLevels eta hds ks) (h' : IsLevels eta hds ks') : ks = ks' := by
  refine List.ext_getElem? fun m => ?_
  rcases e : ks[m]? with _ | k
  · rcases e' : ks'[m]? with _ | k'
    · rfl
    · rw [levels_le h' h m k' e'] at e; cases e
  · rw [levels_le h h' m k e]

theorem zzEta_nonneg {rho theta : T} (hr : 0 ≤ rho) (ht : 0 ≤ theta) : 0 ≤ zzEta rho theta := by
  unfold zzEta
  refine div_nonneg (by positivity) (by positivity)

/-- the last point is a level -/
theorem last_level {eta : T} (he : 0 ≤ eta) {hds : List T} (hnn : ∀ h ∈ hds, 0 ≤ h) (hl : hds.getLast? = some 0) {ks : List Nat} (h : IsLevels eta hds ks) : ks.getLast? = some (hds.length - 1) := by
  have hne : ks ≠ [] := by rintro rfl; have := h.first; simp at this
  obtain ⟨k, hk⟩ : ∃ k, ks.getLast? = some k := ⟨_, List.getLast?_eq_some_getLast hne⟩
  have hkl := h.lt k (List.mem_of_getLast? hk)
  rw [List.getLast?_eq_getElem?] at hl
  rcases Nat.lt_or_ge k (hds.length - 1) with hlt | hge
  · exfalso
    have := h.last k hk (hds.length - 1) hlt (by omega)
    rw [List.getD_eq_getElem?_getD, List.getD_eq_getElem?_getD, hl, List.getElem?_eq_getElem hkl] at this
    exact absurd this (not_lt.2 (mul_nonneg he (hnn _ (List.getElem_mem hkl))))
  · rw [hk]; congr 1; omega

/-- C68: `DiscreteMorozovZigzagSets(D, dist, rho)`, if the farthest-first order of the points (from an approximate center) repeats no point: with the levels `ks`, node `2 i` is the set of the
first `ks[i] + 1` landmarks with radius `rho hds[ks[i]]` and node `2 i + 1` the set of the first `ks[i + 1] + 1` landmarks with the same radius; for `rho ≥ 0` the radii do not decrease along the
edges. -/
theorem C68_morozov {rows : List (List T)} (hD : IsDistance rows) (hn : rows ≠ []) (dim : Nat) (rho theta : T) :
    ∃ i0 inds hds ks, approxCenter rows dim 0 0 = .ok i0 ∧ greedyHausdorff rows i0 = .ok (inds, hds) ∧ IsFarthestFirst rows i0 rows.length inds hds ∧ IsLevels (zzEta rho theta) hds ks ∧
      (0 ≤ rho → 0 ≤ theta → ks.getLast? = some (rows.length - 1)) ∧
      (inds.Nodup → ∃ D r, morozovSets rows dim rho theta = .ok (D, r) ∧ IsZigzagShape ks.length D ∧ IsSubsetDiagram rows.length D ∧ r.length = D.node.length ∧
        (∀ (i k : Nat), ks[i]? = some k → r[2 * i]? = some (hds.getD k 0 * rho) ∧ ∃ S, D.node[2 * i]? = some S ∧ IsSetOf S (inds.take (k + 1))) ∧
        (∀ (i k k' : Nat), ks[i]? = some k → ks[i + 1]? = some k' → r[2 * i + 1]? = some (hds.getD k 0 * rho) ∧ ∃ S, D.node[2 * i + 1]? = some S ∧ IsSetOf S (inds.take (k' + 1))) ∧
        (0 ≤ rho → ∀ (j s t : Nat), D.elist[j]? = some (s, t) → r.getD s 0 ≤ r.getD t 0)) := by
  obtain ⟨i0, inds, hds, g0, g1, g2, g3, g4⟩ := landmarks hD hn dim
  have hpos := List.length_pos_iff.2 hn
  have hil := g3.len
  have hhl := g3.hlen
  have hnn : ∀ h ∈ hds, 0 ≤ h := by
    intro h hh
    obtain ⟨i, hi, rfl⟩ := List.getElem_of_mem hh
    exact hds_nonneg g3 g4 (List.getElem?_eq_getElem hi)
  obtain ⟨ks, k1, k2⟩ := (C68_levels hds rho theta).1 (by rintro rfl; simp at hhl; omega)
  refine ⟨i0, inds, hds, ks, g0, g1, g3, k2, fun hr ht => by rw [last_level (zzEta_nonneg hr ht) hnn g4 k2, hhl], ?_⟩
  intro hnd
  obtain ⟨its, m1, m2, m3⟩ := morozov_items hnd (hds := hds) (by omega) rho ks 0 [] 0 k2.inc (fun k hk => ⟨Nat.zero_le _, by have := k2.lt k hk; omega⟩) ⟨List.Pairwise.nil, by simp⟩
  have hkne : 0 < ks.length := by
    rcases Nat.eq_zero_or_pos ks.length with h | h
    · rw [List.length_eq_zero_iff.1 h] at k2; have := k2.first; simp at this
    · exact h
  have hget : ∀ m (hm : m < its.length), ∃ k S, ks[m]? = some k ∧ its[m]? = some (S, ((0 : T) :: ks.map (fun k => hds.getD k 0 * rho)).getD m 0, hds.getD k 0 * rho) ∧
      IsSetOf S (inds.take (k + 1)) := by
    intro m hm
    have hk : ks[m]? = some ks[m] := List.getElem?_eq_getElem (show m < ks.length by omega)
    obtain ⟨S, s1, s2⟩ := m3 m _ hk
    exact ⟨_, S, hk, s1, s2⟩
  obtain ⟨D0, D, r, z1, z2, z3, z4, z5, z6, z7⟩ := zz_build (its := its) (by rintro h; rw [h] at m1; simp at m1; omega) (by
      intro t ht
      obtain ⟨m, hm, rfl⟩ := List.getElem_of_mem ht
      obtain ⟨k, S, s0, s1, s2⟩ := hget m (by omega)
      rw [List.getElem?_eq_getElem hm] at s1
      rw [Option.some.inj s1]; exact s2.1) (by
      intro i a b ha hb x hx
      have h1 := (List.getElem?_eq_some_iff.1 ha).1
      have h2 := (List.getElem?_eq_some_iff.1 hb).1
      obtain ⟨k, S, s0, s1, s2⟩ := hget i (by omega)
      obtain ⟨k', S', s0', s1', s2'⟩ := hget (i + 1) (by omega)
      rw [ha] at s1; rw [hb] at s1'
      cases s1; cases s1'
      have hkk : k < k' := by
        obtain ⟨l1, rfl⟩ := List.getElem?_eq_some_iff.1 s0
        obtain ⟨l2, rfl⟩ := List.getElem?_eq_some_iff.1 s0'
        exact List.pairwise_iff_getElem.1 k2.inc i (i + 1) l1 l2 (by omega)
      exact (s2'.2 x).2 (List.take_subset_take_left _ (by omega) ((s2.2 x).1 hx)))
  rw [m1] at z1 z2 z3 z5
  have hodd : ∀ (i k k' : Nat), ks[i]? = some k → ks[i + 1]? = some k' → r[2 * i + 1]? = some (hds.getD k 0 * rho) ∧ ∃ S, D.node[2 * i + 1]? = some S ∧ IsSetOf S (inds.take (k' + 1)) := by
    intro i k k' hk hk'
    obtain ⟨S, s1, s2⟩ := m3 (i + 1) _ hk'
    obtain ⟨_, _, q3⟩ := z7 (i + 1) _ s1
    obtain ⟨q1, q2⟩ := q3 (by omega)
    rw [show 2 * (i + 1) - 1 = 2 * i + 1 from by omega] at q1 q2
    refine ⟨?_, S, q1, s2⟩
    rw [q2]
    show some ((ks.map (fun k => hds.getD k 0 * rho)).getD i 0) = _
    rw [List.getD_eq_getElem?_getD, List.getElem?_map, hk]; rfl
  have heven : ∀ (i k : Nat), ks[i]? = some k → r[2 * i]? = some (hds.getD k 0 * rho) ∧ ∃ S, D.node[2 * i]? = some S ∧ IsSetOf S (inds.take (k + 1)) := by
    intro i k hk
    obtain ⟨S, s1, s2⟩ := m3 i _ hk
    obtain ⟨q1, q2, _⟩ := z7 i _ s1
    exact ⟨q2, S, q1, s2⟩
  refine ⟨D, r, ?_, z3, ⟨?_, ?_, z4⟩, by rw [z5, z3.nodes], heven, hodd, ?_⟩
  · unfold morozovSets
    rw [g0, bind_ok, g1, bind_ok]
    show (do
      let inds2 ← morozovInds hds rho theta
      let q ← morozovNodes hds rho inds2 inds [] 0 0 (Diagram.init (2 * inds2.length - 1) (2 * inds2.length - 2)) (List.replicate (2 * inds2.length - 1) 0)
      let D ← zzEdges (inds2.length - 1) 0 q.1
      pure (D, q.2)) = _
    rw [k1, bind_ok]
    have := m2 0 (Diagram.init (2 * ks.length - 1) (2 * ks.length - 2)) (List.replicate (2 * ks.length - 1) 0)
    rw [List.drop_zero] at this
    rw [this, z1, bind_ok]
    show (do let D ← zzEdges (ks.length - 1) 0 D0; pure (D, r)) = _
    rw [z2]; rfl
  · intro S hS
    obtain ⟨t, ht, rfl⟩ := z6 S hS
    obtain ⟨m, hm, rfl⟩ := List.getElem_of_mem ht
    obtain ⟨k, S, s0, s1, s2⟩ := hget m (by omega)
    rw [List.getElem?_eq_getElem hm] at s1
    rw [Option.some.inj s1]; exact s2.1
  · intro S hS x hx
    obtain ⟨t, ht, rfl⟩ := z6 S hS
    obtain ⟨m, hm, rfl⟩ := List.getElem_of_mem ht
    obtain ⟨k, S, s0, s1, s2⟩ := hget m (by omega)
    rw [List.getElem?_eq_getElem hm] at s1
    rw [Option.some.inj s1] at hx
    exact g3.lt x (List.mem_of_mem_take ((s2.2 x).1 hx))
  · intro hrho j s t hj
    have hjl := (List.getElem?_eq_some_iff.1 hj).1
    rw [z3.len] at hjl
    have gd : ∀ (m : Nat) (x : T), r[m]? = some x → r.getD m 0 = x := fun m x h => by rw [List.getD_eq_getElem?_getD, h]; rfl
    rcases Nat.even_or_odd' j with ⟨i, rfl | rfl⟩
    · rw [z3.right i (by omega)] at hj; cases hj
      obtain ⟨q1, _⟩ := hodd i _ _ (List.getElem?_eq_getElem (show i < ks.length by omega)) (List.getElem?_eq_getElem (show i + 1 < ks.length by omega))
      obtain ⟨q2, _⟩ := heven i _ (List.getElem?_eq_getElem (show i < ks.length by omega))
      rw [gd _ _ q2, gd _ _ q1]
    · rw [z3.left i (by omega)] at hj; cases hj
      obtain ⟨q1, _⟩ := hodd i _ _ (List.getElem?_eq_getElem (show i < ks.length by omega)) (List.getElem?_eq_getElem (show i + 1 < ks.length by omega))
      obtain ⟨q2, _⟩ := heven (i + 1) _ (List.getElem?_eq_getElem (show i + 1 < ks.length by omega))
      rw [show 2 * (i + 1) = 2 * i + 2 from by omega] at q2
      rw [gd _ _ q2, gd _ _ q1]
      have l1 := k2.lt _ (List.getElem_mem (show i < ks.length by omega))
      have l2 := k2.lt _ (List.getElem_mem (show i + 1 < ks.length by omega))
      have hlt := List.pairwise_iff_getElem.1 k2.inc i (i + 1) (by omega) (by omega) (by omega)
      have := g3.anti (le_of_lt hlt) (List.getElem?_eq_getElem l1) (List.getElem?_eq_getElem l2)
      show hds.getD _ 0 * rho ≤ hds.getD _ 0 * rho
      rw [List.getD_eq_getElem?_getD, List.getD_eq_getElem?_getD, List.getElem?_eq_getElem l1, List.getElem?_eq_getElem l2]
      exact mul_le_mul_of_nonneg_right this hrho

/-- C68: for distinct points the farthest-first order repeats no point. -/
theorem C68_distinct_points {rows : List (List T)} (hD : IsDistance rows) (hpos : ∀ i x, i < rows.length → x < rows.length → i ≠ x → 0 < tab rows i x) {i0 : Nat} {inds : List Nat}
    {hds : List T} (hf : IsFarthestFirst rows i0 rows.length inds hds) : inds.Nodup :=
  (C67_permutation hD hpos hf).nodup_iff.2 List.nodup_range

/-- C68: if two points other than the first have distance 0, the farthest-first order repeats a point. -/
theorem C68_equal_points {rows : List (List T)} (hD : IsDistance rows) {a b : Nat} (ha : a < rows.length) (hb : b < rows.length) (hab : a ≠ b) (ha0 : a ≠ 0) (hb0 : b ≠ 0)
    (h1 : tab rows a b = 0) (h2 : tab rows b a = 0) {i0 : Nat} {inds : List Nat} {hds : List T} (hf : IsFarthestFirst rows i0 rows.length inds hds) : ¬ inds.Nodup := by
  intro hnd
  have hperm : ∀ x, x < rows.length → x ∈ inds := by
    have hsub : inds.Subperm (List.range rows.length) := List.subperm_of_subset hnd (fun x hx => List.mem_range.2 (hf.lt x hx))
    have hp := hsub.perm_of_length_le (by rw [List.length_range, hf.len])
    intro x hx
    exact hp.mem_iff.2 (List.mem_range.2 hx)
  have key : ∀ (a b i j : Nat), tab rows a b = 0 → b ≠ 0 → inds[i]? = some a → inds[j]? = some b → i < j → False := by
    intro a b i j hz hb0 hi hj hij
    obtain ⟨j, rfl⟩ : ∃ j', j = j' + 1 := ⟨j - 1, by omega⟩
    have hjl := (List.getElem?_eq_some_iff.1 hj).1
    have hjd : j < hds.length := by rw [hf.hlen, ← hf.len]; omega
    have hjh : hds[j]? = some hds[j] := List.getElem?_eq_getElem hjd
    obtain ⟨f1, f2⟩ := hf.far j b _ hj hjh
    have hmem : a ∈ inds.take (j + 1) := by
      rw [List.mem_take_iff_getElem]
      obtain ⟨l, rfl⟩ := List.getElem?_eq_some_iff.1 hi
      exact ⟨i, by omega, rfl⟩
    have hle := f1.2 a hmem
    rw [hz] at hle
    obtain ⟨m, hm⟩ := exists_distTo rows (L := inds.take (j + 1)) (by rintro h; rw [h] at hmem; simp at hmem) 0
    have := f2 0 (by omega) m hm
    obtain ⟨l, l1, l2⟩ := hm.1
    have hnn := hD.nonneg l 0 (hf.lt l (List.mem_of_mem_take l1)) (by have := hf.lt b (List.mem_of_getElem? hj); omega)
    rw [l2] at hnn
    exact absurd (lt_of_le_of_lt hnn (lt_of_lt_of_le this hle)) (lt_irrefl _)
  obtain ⟨i, hi, hia⟩ := List.getElem_of_mem (hperm a ha)
  obtain ⟨j, hj, hjb⟩ := List.getElem_of_mem (hperm b hb)
  have e1 : inds[i]? = some a := by rw [List.getElem?_eq_getElem hi, hia]
  have e2 : inds[j]? = some b := by rw [List.getElem?_eq_getElem hj, hjb]
  rcases Nat.lt_trichotomy i j with h | h | h
  · exact key a b i j h1 hb0 e1 e2 h
  · subst h; exact hab (by rw [← hia, ← hjb])
  · exact key b a j i h2 ha0 e2 e1 h

/-! ### Repeated points -/

/-- the only error is undefined behaviour -/
def OnlyUB {α : Type} (x : Res α) : Prop := ∀ e, x = .error e → e = .ub

theorem OnlyUB.bind {α β : Type} {x : Res α} {f : α → Res β} (hx : OnlyUB x) (hf : ∀ a, x = .ok a → OnlyUB (f a)) : OnlyUB (x >>= f) := by
  intro e h
  rcases hx' : x with e' | a
  · rw [hx'] at h
    have : (Except.error e' : Res β) = .error e := h
    cases this
    exact hx _ hx'
  · rw [hx', bind_ok] at h
    exact hf a hx' e h

theorem onlyUB_ok {α : Type} (a : α) : OnlyUB (.ok a : Res α) := fun e h => by cases h

theorem onlyUB_ub {α : Type} : OnlyUB (.error .ub : Res α) := fun e h => by cases h; rfl

theorem onlyUB_rd {α : Type} (l : List α) (i : Nat) : OnlyUB (rd l i) := by
  unfold rd
  rcases l[i]? with _ | a
  · exact onlyUB_ub
  · exact onlyUB_ok a

theorem onlyUB_wr {α : Type} (l : List α) (i : Nat) (x : α) : OnlyUB (wr l i x) := by
  unfold wr
  by_cases h : i < l.length
  · rw [if_pos h]; exact onlyUB_ok _
  · rw [if_neg h]; exact onlyUB_ub

theorem onlyUB_setNode {N E : Type} (D : Diagram N E) (i : Nat) (x : N) : OnlyUB (D.setNode i x) := by
  unfold Diagram.setNode
  exact (onlyUB_wr _ _ _).bind fun a _ => onlyUB_ok _

theorem onlyUB_zzStep (s : List Nat) (p c : T) (j : Nat) (D : Diagram (List Nat) (List Nat)) (r : List T) : OnlyUB (zzStep s p c j D r) := by
  unfold zzStep zzPrev
  refine OnlyUB.bind ?_ fun q _ => (onlyUB_setNode _ _ _).bind fun _ _ => (onlyUB_wr _ _ _).bind fun _ _ => onlyUB_ok _
  by_cases h : 0 < j
  · rw [if_pos h]; exact (onlyUB_setNode _ _ _).bind fun _ _ => (onlyUB_wr _ _ _).bind fun _ _ => onlyUB_ok _
  · rw [if_neg h]; exact onlyUB_ok _

theorem fillSet_gen {inds : List Nat} (k : Nat) : ∀ (is : List Nat) (p : Nat) (s : List Nat), inds.drop p = is → IsSetOf s (inds.take p) →
    OnlyUB (fillSet k is s) ∧ ∀ q, fillSet k is s = .ok q → ∃ p', inds.drop p' = q.1 ∧ IsSetOf q.2 (inds.take p') ∧ k < q.2.length := by
  intro is
  induction is with
  | nil =>
    intro p s hp hs
    rw [fillSet]
    by_cases h : s.length ≤ k
    · rw [if_pos h]; exact ⟨onlyUB_ub, fun q hq => by cases hq⟩
    · rw [if_neg h]; exact ⟨onlyUB_ok _, fun q hq => by cases hq; exact ⟨p, hp, hs, Nat.lt_of_not_le h⟩⟩
  | cons i is ih =>
    intro p s hp hs
    rw [fillSet]
    by_cases h : s.length ≤ k
    · rw [if_pos h]
      have hpl : p < inds.length := by
        have := congrArg List.length hp
        simp at this; omega
      have hi : inds[p] = i := by
        rw [List.drop_eq_getElem_cons hpl] at hp
        exact (List.cons.inj hp).1
      refine ih (p + 1) _ ?_ ?_
      · rw [← List.drop_drop, hp]; rfl
      · have := isSetOf_insert hs i
        rwa [← hi, List.take_append_getElem hpl, hi] at this
    · rw [if_neg h]; exact ⟨onlyUB_ok _, fun q hq => by cases hq; exact ⟨p, hp, hs, Nat.lt_of_not_le h⟩⟩

theorem morozovNodes_gen {inds : List Nat} (hds : List T) (rho : T) : ∀ (ks is : List Nat) (p : Nat) (s : List Nat) (prev : T) (j : Nat) (D : Diagram (List Nat) (List Nat)) (r : List T),
    inds.drop p = is → IsSetOf s (inds.take p) → OnlyUB (morozovNodes hds rho ks is s prev j D r) ∧
      ∀ q, morozovNodes hds rho ks is s prev j D r = .ok q → ∀ k ∈ ks, ∃ S p', IsSetOf S (inds.take p') ∧ k < S.length := by
  intro ks
  induction ks with
  | nil => intro is p s prev j D r _ _; exact ⟨onlyUB_ok _, fun q _ k hk => by simp at hk⟩
  | cons k ks ih =>
    intro is p s prev j D r hp hs
    obtain ⟨f1, f2⟩ := fillSet_gen k is p s hp hs
    rw [morozovNodes]
    constructor
    · refine f1.bind fun q hq => (onlyUB_rd _ _).bind fun h _ => (onlyUB_zzStep _ _ _ _ _ _).bind fun w _ => ?_
      obtain ⟨p', p1, p2, _⟩ := f2 q hq
      exact (ih q.1 p' q.2 _ _ _ _ p1 p2).1
    · intro q hq k' hk'
      obtain ⟨a, ha, hq⟩ := bind_ok_iff.1 hq
      obtain ⟨h, _, hq⟩ := bind_ok_iff.1 hq
      obtain ⟨w, _, hq⟩ := bind_ok_iff.1 hq
      obtain ⟨p', p1, p2, p3⟩ := f2 a ha
      rcases List.mem_cons.1 hk' with rfl | hk'
      · exact ⟨_, p', p2, p3⟩
      · exact (ih a.1 p' a.2 _ _ _ _ p1 p2).2 q hq k' hk'

/-- C68, a defect: if the farthest-first order repeats a point (`C68_equal_points`: as soon as two points other than the first have distance 0), `DiscreteMorozovZigzagSets` with `rho ≥ 0` reads past
the end of the list of landmarks. -/
theorem C68_morozov_ub {rows : List (List T)} (hD : IsDistance rows) (hn : rows ≠ []) (dim : Nat) {rho theta : T} (hr : 0 ≤ rho) (ht : 0 ≤ theta) {i0 : Nat} {inds : List Nat} {hds : List T}
    (h0 : approxCenter rows dim 0 0 = .ok i0) (h1 : greedyHausdorff rows i0 = .ok (inds, hds)) (hnd : ¬ inds.Nodup) : morozovSets rows dim rho theta = .error .ub := by
  obtain ⟨i0', inds', hds', ks, a0, a1, a2, a3, a4, _⟩ := C68_morozov hD hn dim rho theta
  rw [h0] at a0; cases a0
  rw [h1] at a1; cases a1
  have hpos := List.length_pos_iff.2 hn
  have hk : rows.length - 1 ∈ ks := List.mem_of_getLast? (a4 hr ht)
  obtain ⟨ks', k1, k2⟩ := (C68_levels hds rho theta).1 (by rintro rfl; have := a2.hlen; simp at this; omega)
  rw [levels_unique k2 a3] at k1
  unfold morozovSets
  rw [h0, bind_ok, h1, bind_ok]
  show (do
    let inds2 ← morozovInds hds rho theta
    let q ← morozovNodes hds rho inds2 inds [] 0 0 (Diagram.init (2 * inds2.length - 1) (2 * inds2.length - 2)) (List.replicate (2 * inds2.length - 1) 0)
    let D ← zzEdges (inds2.length - 1) 0 q.1
    pure (D, q.2)) = _
  rw [k1, bind_ok]
  obtain ⟨m1, m2⟩ := morozovNodes_gen (inds := inds) hds rho ks inds 0 [] 0 0 (Diagram.init (2 * ks.length - 1) (2 * ks.length - 2)) (List.replicate (2 * ks.length - 1) 0) rfl
    ⟨List.Pairwise.nil, by simp⟩
  rcases e : morozovNodes hds rho ks inds [] 0 0 (Diagram.init (2 * ks.length - 1) (2 * ks.length - 2)) (List.replicate (2 * ks.length - 1) 0) with e' | q
  · rw [m1 e' e]; rfl
  · exfalso
    obtain ⟨S, p, s1, s2⟩ := m2 q e _ hk
    apply hnd
    -- a set of `n` of the `n` landmarks
    have hS : S.Nodup := s1.1.imp (fun h => ne_of_lt h)
    have hsub : S.Subperm inds := List.subperm_of_subset hS (fun x hx => List.mem_of_mem_take ((s1.2 x).1 hx))
    have hp := hsub.perm_of_length_le (by rw [a2.len]; omega)
    exact hp.nodup_iff.1 hS

end zoo

end BATS
