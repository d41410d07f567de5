import Verif.Proofs.RipsDiagram
import Verif.Props.Landmark

set_option linter.unusedSectionVars false
set_option linter.unusedVariables false
set_option linter.unusedSimpArgs false

/-! # C68: diagrams of subsets and of their Rips complexes (include/topology/inclusion.hpp, `Rips` and `RipsHom` in include/multigraph/functors.hpp,
include/topology/zigzag_zoo.hpp)

`IsInclusionMap`, `IsSubsetDiagram`, `subDist`, `subRips`, `IsSetOf` are in `Verif/Spec/RipsDiagram.lean`. -/

namespace BATS
open Matrix Reduction SMap SCpx Quiver Nrv Srt Zoo BATS.Flag

section functor
variable {T : Type} [Zero T] [LinearOrder T]

/-- C68: `RipsComplex(X, dist, rmax, dmax)` consists of the sets of at most `dmax + 1` points with pairwise distances at most `rmax`, for `dmax = 0` also of the
edges; its dimension is `dmax`, but 1 for `dmax = 0` and two points at distance at most `rmax`. -/
theorem C68_rips_complex (d : Nat → Nat → T) (n : Nat) (r : T) (dmax : Nat) :
    ∃ Y, ripsCpx d n r dmax = .ok Y ∧ Reachable Y ∧ SCpx.Represents Y {s | IsRipsSimplex (fun a b => d b a) n (max dmax 1) r s} ∧
      (1 ≤ dmax → Y.maxdim = dmax) ∧ (dmax = 0 → (Y.maxdim = 1 ↔ ∃ a b, a < b ∧ b < n ∧ d b a ≤ r) ∧ Y.maxdim ≤ 1) := by
  obtain ⟨Y, h1, h2, h3, h4, h5⟩ := ripsCpx_spec d n r dmax
  refine ⟨Y, h1, h2, h3, fun h => by omega, fun h0 => ⟨⟨fun h => ?_, ?_⟩, by omega⟩⟩
  · by_contra hno
    push Not at hno
    have hnil : ripsEdges d n r = [] := by
      rw [ripsEdges_eq, List.flatMap_eq_nil_iff]
      intro p hp
      rw [List.mem_map] at hp
      obtain ⟨e, he, rfl⟩ := hp
      have := (mem_ripsDataLoop d r n 0 e).1 he
      have h' := hno e.t e.s (by omega) (by omega)
      rw [← this.2.2.2.1] at h'
      exact absurd this.2.2.2.2 (not_le.2 h')
    unfold ripsCpx at h1
    rw [hnil] at h1
    have := flagComplex_no_edges h1
    omega
  · rintro ⟨a, b, hab, hb, hd⟩
    have hs : IsRipsSimplex (fun a b => d b a) n (max dmax 1) r [a, b] := by
      refine ⟨by simp, by simpa using hab, ?_, by simp, ?_⟩
      · intro x hx
        simp only [List.mem_cons, List.not_mem_nil, or_false] at hx
        rcases hx with rfl | rfl <;> omega
      · intro x hx y hy hxy
        simp only [List.mem_cons, List.not_mem_nil, or_false] at hx hy
        rcases hx with rfl | rfl <;> rcases hy with rfl | rfl
        · omega
        · exact hd
        · omega
        · omega
    have := (h3.dim [a, b] hs).2
    simp at this
    omega

/-- C68: `RipsComplex(pdist, rmax, dmax)` reads the entries above the diagonal and gives the same complex for a symmetric matrix of distances. -/
theorem C68_rips_matrix (pdist : Nat → Nat → T) (n : Nat) (r : T) (dmax : Nat) :
    (∃ Y, ripsCpxMat pdist n r dmax = .ok Y ∧ Reachable Y ∧ SCpx.Represents Y {s | IsRipsSimplex pdist n (max dmax 1) r s}) ∧
    ∀ d : Nat → Nat → T, (∀ i j, d j i = pdist i j) → ripsCpx d n r dmax = ripsCpxMat pdist n r dmax := by
  constructor
  · obtain ⟨Y, h1, h2, h3, _⟩ := ripsCpx_spec (fun j i => pdist i j) n r dmax
    exact ⟨Y, h1, h2, h3⟩
  · intro d h
    have : d = fun j i => pdist i j := by funext j i; exact h i j
    rw [this]; rfl

theorem sort_isRips (d : Nat → Nat → T) (n D : Nat) (r : T) (σ : Finset Nat) :
    IsRipsSimplex d n D r (σ.sort (· ≤ ·)) ↔ σ ∈ ripsComplex d n D r := by
  rw [mem_ripsComplex]
  have hne : σ.sort (· ≤ ·) ≠ [] ↔ σ.Nonempty := by
    rw [← List.length_pos_iff, Finset.length_sort, Finset.card_pos]
  constructor
  · intro h
    have h4 := h.len
    rw [Finset.length_sort] at h4
    exact ⟨fun a ha => h.lt a ((Finset.mem_sort _).2 ha), hne.1 h.ne, h4, fun a ha b hb => h.close a ((Finset.mem_sort _).2 ha) b ((Finset.mem_sort _).2 hb)⟩
  · rintro ⟨h1, h2, h3, h4⟩
    exact ⟨hne.2 h2, pairwise_sort_lt σ, fun a ha => h1 a ((Finset.mem_sort _).1 ha), by rw [Finset.length_sort]; exact h3, fun a ha b hb =>
      h4 a ((Finset.mem_sort _).1 ha) b ((Finset.mem_sort _).1 hb)⟩

theorem rips_members {Y : SCpx} {d : Nat → Nat → T} {n D : Nat} {r : T} (h : SCpx.Represents Y {s | IsRipsSimplex d n D r s}) (σ : Finset Nat) :
    σ ∈ ripsComplex d n D r ↔ σ.Nonempty ∧ ∃ i, Y.findIdx (σ.sort (· ≤ ·)) = some i := by
  by_cases hσ : σ.Nonempty
  · have hne : σ.sort (· ≤ ·) ≠ [] := by
      rw [← List.length_pos_iff, Finset.length_sort, Finset.card_pos]; exact hσ
    rw [rips_found h hne, sort_isRips]
    exact ⟨fun h => ⟨hσ, h⟩, fun h => h.2⟩
  · exact ⟨fun h => absurd ((mem_ripsComplex _ _ _ _ σ).1 h).2.1 hσ, fun h => absurd h.1 hσ⟩

/-- the bound on the dimension does not matter below it -/
theorem ripsComplex_skeleton {F : Type} [Field F] [DecidableEq F] (d : Nat → Nat → T) (n : Nat) (r : T) {D k : Nat} (hk : k < D) :
    simplicialBetti F (ripsComplex d n D r) k = simplicialBetti F (ripsComplex d n n r) k := by
  apply simplicialBetti_congr
  intro σ hσ
  rw [mem_ripsComplex, mem_ripsComplex]
  constructor
  · rintro ⟨h1, h2, h3, h4⟩
    refine ⟨h1, h2, ?_, h4⟩
    have : σ ⊆ Finset.range n := fun a ha => Finset.mem_range.2 (h1 a ha)
    have := Finset.card_le_card this
    rw [Finset.card_range] at this
    omega
  · rintro ⟨h1, h2, h3, h4⟩
    exact ⟨h1, h2, by omega, h4⟩

/-- C68: below the top dimension the Betti numbers computed from `RipsComplex(X, dist, rmax, dmax)`, with any of the reduction algorithms, are those of the full
Vietoris–Rips complex. -/
theorem C68_betti {F : Type} [Field F] [DecidableEq F] (v : Variant) (d : Nat → Nat → T) (n : Nat) (r : T) (dmax : Nat) :
    ∃ (Y : SCpx) (B : List (CMat F)) (C : RedCpx F), ripsCpx d n r dmax = .ok Y ∧ Y.chainComplex = .ok B ∧ v.reduce B = .ok C ∧
      ∀ k, k < dmax → C.hdim k = .ok (simplicialBetti F (ripsComplex (fun a b => d b a) n n r) k) := by
  obtain ⟨Y, h1, h2, h3, h4, h5⟩ := ripsCpx_spec d n r dmax
  obtain ⟨B, C, b1, b2, b3⟩ := betti_of_reachable (F := F) v h2 (fun s i hs hi => ((rips_found h3 hs).1 ⟨i, hi⟩).inc) _ (rips_members h3)
  refine ⟨Y, B, C, h1, b1, b2, ?_⟩
  intro k hk
  rw [b3 k (by omega), ripsComplex_skeleton _ _ _ (by omega)]

/-- the dimension of the Rips complexes respects inclusions -/
theorem rips_dim_mono {dist : Nat → Nat → T} {n : Nat} {s t f : List Nat} (hs : s.Pairwise (· < ·)) (ht : t.Pairwise (· < ·)) (hf : IsInclusionMap s t f)
    (hsn : ∀ x ∈ s, x < n) (htn : ∀ x ∈ t, x < n) {r r' : T} (hr : r ≤ r') {dmax : Nat} {X Y : SCpx} (hX : ripsNode dist n r dmax s = .ok X)
    (hY : ripsNode dist n r' dmax t = .ok Y) : X.maxdim ≤ Y.maxdim := by
  have ex : ripsCpx (fun a b => dist (s.getD a 0) (s.getD b 0)) s.length r dmax = .ok X := by
    unfold ripsNode getSubset at hX
    rw [if_pos hsn, bind_ok] at hX; exact hX
  have ey : ripsCpx (fun a b => dist (t.getD a 0) (t.getD b 0)) t.length r' dmax = .ok Y := by
    unfold ripsNode getSubset at hY
    rw [if_pos htn, bind_ok] at hY; exact hY
  obtain ⟨X', x1, -, -, x4, x5⟩ := C68_rips_complex (fun a b => dist (s.getD a 0) (s.getD b 0)) s.length r dmax
  obtain ⟨Y', y1, -, -, y4, y5⟩ := C68_rips_complex (fun a b => dist (t.getD a 0) (t.getD b 0)) t.length r' dmax
  rw [ex] at x1; cases x1
  rw [ey] at y1; cases y1
  rcases Nat.eq_zero_or_pos dmax with h0 | h0
  · have hx := x5 h0
    have hy := y5 h0
    rcases Nat.lt_or_ge X.maxdim 1 with h | h
    · omega
    · obtain ⟨a, b, hab, hb, hd⟩ := hx.1.1 (by omega)
      have hval : ∀ i, i < s.length → f.getD i 0 < t.length ∧ t.getD (f.getD i 0) 0 = s.getD i 0 := by
        intro i hi
        have e := hf.2 i hi
        refine ⟨?_, by rw [List.getD_eq_getElem?_getD (l := t), List.getD_eq_getElem?_getD (l := s), e]⟩
        rw [List.getElem?_eq_getElem hi] at e
        exact (List.getElem?_eq_some_iff.1 e).1
      have := hy.1.2 ⟨f.getD a 0, f.getD b 0, incl_mono hs ht hf hab hb, (hval b hb).1, by
        rw [(hval a (by omega)).2, (hval b hb).2]; exact le_trans hd hr⟩
      omega
  · have := x4 h0
    have := y4 h0
    omega

/-- the nodes and maps of the Rips functors, for the radius `ρ i` at node `i` -/
theorem rips_data {n : Nat} {D : Diagram (List Nat) (List Nat)} (hD : IsSubsetDiagram n D) (dist : Nat → Nat → T) (ρ : Nat → T) (dmax : Nat) :
    ∃ Xs : List SCpx, Xs.length = D.node.length ∧
      (∀ (i : Nat) (S : List Nat), D.node[i]? = some S → ∃ X, Xs[i]? = some X ∧ ripsNode dist n (ρ i) dmax S = .ok X ∧ Reachable X ∧
        SCpx.Represents X {s | IsRipsSimplex (subDist dist S) S.length (max dmax 1) (ρ i) s} ∧ dmax ≤ X.maxdim ∧ X.maxdim ≤ max dmax 1) ∧
      ∀ (j : Nat) (st : Nat × Nat) (f : List Nat), D.elist[j]? = some st → D.edata[j]? = some f → ρ st.1 ≤ ρ st.2 →
        ∃ M X Y, Xs[st.1]? = some X ∧ Xs[st.2]? = some Y ∧ simplicialMap X Y f = .ok M := by
  have hex : ∀ i : Fin D.node.length, ∃ X, ripsNode dist n (ρ i) dmax D.node[i.1] = .ok X ∧ Reachable X ∧
      SCpx.Represents X {s | IsRipsSimplex (subDist dist D.node[i.1]) (D.node[i.1]).length (max dmax 1) (ρ i) s} ∧ dmax ≤ X.maxdim ∧ X.maxdim ≤ max dmax 1 :=
    fun i => ripsNode_spec dist (ρ i) dmax (hD.lt _ (List.getElem_mem i.2))
  choose X hX using hex
  have hnode : ∀ (i : Nat) (S : List Nat), D.node[i]? = some S → ∃ Z, (List.ofFn X)[i]? = some Z ∧ ripsNode dist n (ρ i) dmax S = .ok Z ∧ Reachable Z ∧
        SCpx.Represents Z {s | IsRipsSimplex (subDist dist S) S.length (max dmax 1) (ρ i) s} ∧ dmax ≤ Z.maxdim ∧ Z.maxdim ≤ max dmax 1 := by
    intro i S hi
    obtain ⟨hl, rfl⟩ := List.getElem?_eq_some_iff.1 hi
    exact ⟨X ⟨i, hl⟩, by rw [List.getElem?_ofFn, dif_pos hl], hX ⟨i, hl⟩⟩
  refine ⟨List.ofFn X, by simp, hnode, ?_⟩
  intro j st f e1 e2 hr
  obtain ⟨s, t, s1, t1, hf⟩ := hD.edges.edge j st f e1 e2
  obtain ⟨A, a1, a2, a3, a4, a5, a6⟩ := hnode _ _ s1
  obtain ⟨B, b1, b2, b3, b4, b5, b6⟩ := hnode _ _ t1
  have hs := List.mem_of_getElem? s1
  have ht := List.mem_of_getElem? t1
  obtain ⟨m1, m2⟩ := inclusion_carries (hD.inc _ hs) (hD.inc _ ht) hf (Nat.le_refl _) hr a4 b4
  obtain ⟨M, hM⟩ := (C37_succeeds_iff a3 b3).2 ⟨m1, m2, rips_dim_mono (hD.inc _ hs) (hD.inc _ ht) hf (hD.lt _ hs) (hD.lt _ ht) hr a2 b2⟩
  exact ⟨M, A, B, a1, b1, hM⟩

/-- the data of the edges, collected in a list -/
theorem edges_list {N E E' : Type} {D : Diagram N E} (hl : D.elist.length = D.edata.length) {P : Nat → Nat × Nat → E → E' → Prop}
    (h : ∀ (j : Nat) (st : Nat × Nat) (f : E), D.elist[j]? = some st → D.edata[j]? = some f → ∃ M, P j st f M) :
    ∃ Ms : List E', Ms.length = D.edata.length ∧ ∀ (j : Nat) (st : Nat × Nat) (f : E), D.elist[j]? = some st → D.edata[j]? = some f → ∃ M, Ms[j]? = some M ∧ P j st f M := by
  have hex : ∀ j : Fin D.edata.length, ∃ M, P j.1 (D.elist[j.1]'(by omega)) (D.edata[j.1]) M := fun j =>
    h j.1 _ _ (List.getElem?_eq_getElem _) (List.getElem?_eq_getElem _)
  choose M hM using hex
  refine ⟨List.ofFn M, by simp, ?_⟩
  intro j st f e1 e2
  obtain ⟨l1, rfl⟩ := List.getElem?_eq_some_iff.1 e2
  obtain ⟨l2, rfl⟩ := List.getElem?_eq_some_iff.1 e1
  exact ⟨M ⟨j, l1⟩, by rw [List.getElem?_ofFn, dif_pos l1], hM ⟨j, l1⟩⟩

theorem ripsDiagram_of {n : Nat} {D : Diagram (List Nat) (List Nat)} (hD : IsSubsetDiagram n D) {dist : Nat → Nat → T} {ρ : Nat → T} {dmax : Nat} {Xs : List SCpx}
    (hlen : Xs.length = D.node.length)
    (hX : ∀ (i : Nat) (S : List Nat), D.node[i]? = some S → ∃ X, Xs[i]? = some X ∧ ripsNode dist n (ρ i) dmax S = .ok X ∧ Reachable X ∧
        SCpx.Represents X {s | IsRipsSimplex (subDist dist S) S.length (max dmax 1) (ρ i) s} ∧ dmax ≤ X.maxdim ∧ X.maxdim ≤ max dmax 1) {Ms : List (List (CMat Int))}
    (m1 : Ms.length = D.edata.length) (m2 : ∀ (j : Nat) (st : Nat × Nat) (f : List Nat), D.elist[j]? = some st → D.edata[j]? = some f →
      ∃ M, Ms[j]? = some M ∧ ∃ X Y, Xs[st.1]? = some X ∧ Xs[st.2]? = some Y ∧ simplicialMap X Y f = .ok M) : IsRipsDiagram D dist ρ dmax ⟨Xs, Ms, D.elist⟩ := by
  refine ⟨⟨rfl, hlen, m1⟩, fun i S h => ?_, ?_, ⟨?_, ⟨by show D.elist.length = Ms.length; rw [m1]; exact hD.edges.len, ?_⟩⟩⟩
  · obtain ⟨X, x1, x2, x3, x4, x5, _⟩ := hX i S h
    exact ⟨X, x1, x4, x5⟩
  · intro j s t f e1 e2
    obtain ⟨M, q1, X, Y, q2, q3, q4⟩ := m2 j _ f e1 e2
    exact ⟨X, Y, M, q2, q3, q1, q4⟩
  · intro X hm
    obtain ⟨i, hi, rfl⟩ := List.getElem_of_mem hm
    have hi : i < Xs.length := hi
    obtain ⟨X', x1, x2, x3, x4, -⟩ := hX i _ (List.getElem?_eq_getElem (by omega))
    rw [List.getElem?_eq_getElem hi] at x1
    cases x1
    exact ⟨x3, fun s i hs hi => ((rips_found x4 hs).1 ⟨i, hi⟩).inc⟩
  · intro j st M e1 e2
    have e2 : Ms[j]? = some M := e2
    have hj : j < D.edata.length := by
      have := (List.getElem?_eq_some_iff.1 e2).1
      omega
    obtain ⟨M', q1, X, Y, q2, q3, q4⟩ := m2 j st _ e1 (List.getElem?_eq_getElem hj)
    rw [e2] at q1; cases q1
    exact ⟨X, Y, q2, q3, Or.inl ⟨_, q4⟩⟩

/-- C68: `Rips(D, X, dist, rmax, dmax)` for a diagram of subsets and inclusions succeeds, in every schedule, and is the diagram of the Rips complexes. -/
theorem C68_functor {n : Nat} {D : Diagram (List Nat) (List Nat)} (hD : IsSubsetDiagram n D) {sc : Schedule} (hs : sc.For D) (dist : Nat → Nat → T) (r : T) (dmax : Nat) :
    ∃ TD, ripsFunctor sc D dist n r dmax = .ok TD ∧ IsRipsDiagram D dist (fun _ => r) dmax TD := by
  obtain ⟨Xs, x1, x2, x3⟩ := rips_data hD dist (fun _ => r) dmax
  obtain ⟨Ms, m1, m2⟩ := edges_list hD.edges.len (P := fun j st f M => ∃ X Y, Xs[st.1]? = some X ∧ Xs[st.2]? = some Y ∧ simplicialMap X Y f = .ok M)
    (fun j st f e1 e2 => x3 j st f e1 e2 (le_refl _))
  refine ⟨⟨Xs, Ms, D.elist⟩, (spaceLoops_iff (g := ripsNode dist n r dmax) (h := fun X Y f => simplicialMap X Y f) hs hD.edges.len).2 ⟨Xs, Ms, ?_, m1, ?_, rfl⟩,
    ripsDiagram_of hD x1 x2 m1 m2⟩
  · rw [List.forall₂_iff_get]
    refine ⟨by omega, ?_⟩
    intro i h1 h2
    obtain ⟨X, e1, e2, _⟩ := x2 i _ (List.getElem?_eq_getElem h1)
    rw [List.getElem?_eq_getElem h2] at e1
    cases e1
    exact e2
  · intro j st f e1 e2
    obtain ⟨M, q1, X, Y, q2, q3, q4⟩ := m2 j st f e1 e2
    exact ⟨M, X, Y, q1, q2, q3, q4⟩

theorem zip_forall {N N' : Type} {l : List N} {m : List N'} {R : Nat → N → N' → Prop} (hlen : m.length = l.length)
    (h : ∀ (i : Nat) (S : N), l[i]? = some S → ∃ X, m[i]? = some X ∧ R i S X) : List.Forall₂ (fun (p : N × Nat) X => R p.2 p.1 X) l.zipIdx m := by
  rw [List.forall₂_iff_get]
  refine ⟨by simp [hlen], ?_⟩
  intro i h1 h2
  rw [List.length_zipIdx] at h1
  obtain ⟨X, e1, e2⟩ := h i _ (List.getElem?_eq_getElem h1)
  rw [List.getElem?_eq_getElem h2] at e1
  cases e1
  simpa using e2

theorem ripsNodes_loop {n : Nat} {D : Diagram (List Nat) (List Nat)} {sched : List Nat} (hs : sched.Perm (List.range D.node.length)) {dist : Nat → Nat → T}
    {rmax : List T} (hr : rmax.length = D.node.length) {dmax : Nat} {Xs : List SCpx} (hlen : Xs.length = D.node.length)
    (hX : ∀ (i : Nat) (S : List Nat), D.node[i]? = some S → ∃ X, Xs[i]? = some X ∧ ripsNode dist n (rmax.getD i 0) dmax S = .ok X)
    (m : Nat) : nodeLoopI D (fun i S => do
        let r ← rd rmax i
        ripsNode dist n r dmax S) sched (Diagram.init D.node.length m : Diagram SCpx (List (CMat Int))) =
      .ok ⟨Xs, List.replicate m default, List.replicate m (0, 0)⟩ := by
  rw [nodeLoopI_eq]
  refine (nodeLoop_iff (by simpa using hs) (by simp [Diagram.init])).2 ⟨Xs, ?_, rfl⟩
  refine zip_forall (R := fun i S X => (do let r ← rd rmax i; ripsNode dist n r dmax S) = .ok X) hlen ?_
  intro i S h
  obtain ⟨X, x1, x2⟩ := hX i S h
  have hi := (List.getElem?_eq_some_iff.1 h).1
  refine ⟨X, x1, ?_⟩
  rw [List.getD_eq_getElem?_getD, List.getElem?_eq_getElem (show i < rmax.length by omega)] at x2
  rw [rd_lt (show i < rmax.length by omega), bind_ok]; exact x2

/-- C68: with a radius for every node, `Rips` succeeds in every schedule and is the diagram of the Rips complexes, if the radii do not decrease along the edges. -/
theorem C68_functor_radii {n : Nat} {D : Diagram (List Nat) (List Nat)} (hD : IsSubsetDiagram n D) {sc : Schedule} (hs : sc.For D) (dist : Nat → Nat → T) {rmax : List T}
    (hr : rmax.length = D.node.length) (hmono : ∀ (j s t : Nat), D.elist[j]? = some (s, t) → rmax.getD s 0 ≤ rmax.getD t 0) (dmax : Nat) :
    ∃ TD, ripsFunctorV sc D dist n rmax dmax = .ok TD ∧ IsRipsDiagram D dist (fun i => rmax.getD i 0) dmax TD := by
  obtain ⟨Xs, x1, x2, x3⟩ := rips_data hD dist (fun i => rmax.getD i 0) dmax
  obtain ⟨Ms, m1, m2⟩ := edges_list hD.edges.len (P := fun j st f M => ∃ X Y, Xs[st.1]? = some X ∧ Xs[st.2]? = some Y ∧ simplicialMap X Y f = .ok M)
    (fun j st f e1 e2 => x3 j st f e1 e2 (hmono j st.1 st.2 e1))
  refine ⟨⟨Xs, Ms, D.elist⟩, ?_, ripsDiagram_of hD x1 x2 m1 m2⟩
  unfold ripsFunctorV
  rw [ripsNodes_loop hs.1 hr x1 (fun i S h => by obtain ⟨X, e1, e2, _⟩ := x2 i S h; exact ⟨X, e1, e2⟩) D.edata.length, bind_ok]
  refine (edgeLoop_iff hs.2 hD.edges.len (by simp) (by simp)).2 ⟨Ms, m1, ?_, rfl⟩
  intro j st f e1 e2
  obtain ⟨M, q1, X, Y, q2, q3, q4⟩ := m2 j st f e1 e2
  refine ⟨M, q1, ?_⟩
  have l1 := (List.getElem?_eq_some_iff.1 q2).1
  have l2 := (List.getElem?_eq_some_iff.1 q3).1
  have hm := hmono j st.1 st.2 e1
  rw [List.getD_eq_getElem?_getD, List.getElem?_eq_getElem (show st.1 < rmax.length by omega), List.getD_eq_getElem?_getD,
    List.getElem?_eq_getElem (show st.2 < rmax.length by omega)] at hm
  show (do let rt ← rd rmax st.2; let rs ← rd rmax st.1; if rt < rs then .error .thrown else do
      let X ← rd Xs st.1; let Y ← rd Xs st.2; simplicialMap X Y f) = _
  rw [rd_lt (show st.2 < rmax.length by omega), bind_ok, rd_lt (show st.1 < rmax.length by omega), bind_ok, if_neg (show ¬ rmax[st.2] < rmax[st.1] from not_lt.2 hm), rd_some q2, bind_ok, rd_some q3, bind_ok, q4]

/-- C68: if the radius decreases along some edge, `Rips` throws, in every schedule. -/
theorem C68_radii_thrown {n : Nat} {D : Diagram (List Nat) (List Nat)} (hD : IsSubsetDiagram n D) {sc : Schedule} (hs : sc.For D) (dist : Nat → Nat → T) {rmax : List T}
    (hr : rmax.length = D.node.length) {j s t : Nat} (hj : D.elist[j]? = some (s, t)) (hlt : rmax.getD t 0 < rmax.getD s 0) (dmax : Nat) :
    ripsFunctorV sc D dist n rmax dmax = .error .thrown := by
  obtain ⟨Xs, x1, x2, x3⟩ := rips_data hD dist (fun i => rmax.getD i 0) dmax
  unfold ripsFunctorV
  rw [ripsNodes_loop hs.1 hr x1 (fun i S h => by obtain ⟨X, e1, e2, _⟩ := x2 i S h; exact ⟨X, e1, e2⟩) D.edata.length, bind_ok]
  have hrd : ∀ i, i < D.node.length → rd rmax i = .ok (rmax.getD i 0) := by
    intro i hi
    rw [rd_lt (show i < rmax.length by omega), List.getD_eq_getElem?_getD, List.getElem?_eq_getElem (show i < rmax.length by omega)]; rfl
  refine parFor_error (P := fun Z : Diagram SCpx (List (CMat Int)) => Z.node = Xs ∧ Z.edata.length = D.edata.length ∧ Z.elist.length = D.edata.length)
    ⟨rfl, by simp, by simp⟩ ?_ ⟨j, ?_, ?_⟩
  · intro i hi Z hZ
    rw [hs.2.mem_iff, List.mem_range] at hi
    have e1 : D.elist[i]? = some (D.elist[i]'(by have := hD.edges.len; omega)) := List.getElem?_eq_getElem _
    obtain ⟨st, hst⟩ : ∃ st, st = D.elist[i]'(by have := hD.edges.len; omega) := ⟨_, rfl⟩
    rw [← hst] at e1
    have e2 := List.getElem?_eq_getElem hi
    obtain ⟨S, S', y1, y2, _⟩ := hD.edges.edge i st _ e1 e2
    rw [rd_some e1, bind_ok, rd_some e2, bind_ok]
    have q1 := hrd _ (List.getElem?_eq_some_iff.1 y1).1
    have q2 := hrd _ (List.getElem?_eq_some_iff.1 y2).1
    by_cases hlt : rmax.getD st.2 0 < rmax.getD st.1 0
    · left
      show (do
        let e' ← (do
          let rt ← rd rmax st.2; let rs ← rd rmax st.1; if rt < rs then Except.error Err.thrown else do
            let X ← rd Z.node st.1; let Y ← rd Z.node st.2; simplicialMap X Y D.edata[i])
        Z.setEdge i st.1 st.2 e') = Except.error Err.thrown
      rw [q1, q2, bind_ok, bind_ok, if_pos hlt]; rfl
    · right
      obtain ⟨M, X, Y, m1, m2, m3⟩ := x3 i st _ e1 e2 (not_lt.1 hlt)
      refine ⟨{ Z with edata := Z.edata.set i M, elist := Z.elist.set i st }, ?_, hZ.1, by simp [hZ.2.1], by simp [hZ.2.2]⟩
      show (do
        let e' ← (do
          let rt ← rd rmax st.2; let rs ← rd rmax st.1; if rt < rs then Except.error Err.thrown else do
            let X ← rd Z.node st.1; let Y ← rd Z.node st.2; simplicialMap X Y D.edata[i])
        Z.setEdge i st.1 st.2 e') = Except.ok _
      rw [q1, q2, bind_ok, bind_ok, if_neg hlt, hZ.1, rd_some m1, bind_ok, rd_some m2, bind_ok, m3, bind_ok]
      exact setEdge_ok.2 ⟨by omega, by omega, by rw [hZ.1]⟩
  · rw [hs.2.mem_iff, List.mem_range]
    have := (List.getElem?_eq_some_iff.1 hj).1
    rw [hD.edges.len] at this; exact this
  · intro Z hZ
    have hjl : j < D.edata.length := by
      have := (List.getElem?_eq_some_iff.1 hj).1
      rw [hD.edges.len] at this; exact this
    have e2 := List.getElem?_eq_getElem hjl
    obtain ⟨S, S', y1, y2, _⟩ := hD.edges.edge j _ _ hj e2
    rw [rd_some hj, bind_ok, rd_some e2, bind_ok]
    show (do
      let e' ← (do
        let rt ← rd rmax t; let rs ← rd rmax s; if rt < rs then .error .thrown else do
          let X ← rd Z.node s; let Y ← rd Z.node t; simplicialMap X Y D.edata[j])
      Z.setEdge j s t e') = _
    rw [hrd _ (List.getElem?_eq_some_iff.1 y1).1, hrd _ (List.getElem?_eq_some_iff.1 y2).1, bind_ok, bind_ok, if_pos hlt]; rfl

variable {F : Type} [Field F] [DecidableEq F]

/-- C68, from subsets to barcodes: for a zigzag `TD` of Rips complexes, however made, the functors `Chain`, `Hom` and the computation of the barcode succeed in
every schedule, and in every dimension below the bound the number of pairs alive at node `i` is the Betti number of the Vietoris–Rips complex of the `i`-th subset at the radius of the node. -/
theorem C68_barcode {n : Nat} {D : Diagram (List Nat) (List Nat)} (hl : D.IsLine) {dist : Nat → Nat → T} {ρ : Nat → T} {dmax : Nat} {TD : Diagram SCpx (List (CMat Int))}
    (hT : IsRipsDiagram D dist ρ dmax TD) {sc : Schedule} (hs : sc.For D) {k : Nat} (hk : k < dmax) (a : Algo) :
    ∃ (CD : Diagram (List (CMat F)) (List (CMat F))) (HD : Diagram (RedCpx F) (CMat F)) (bars : List QBar),
      chainFunctor F sc TD = .ok CD ∧ homFunctor sc CD k = .ok HD ∧
      barcode HD.toDgm k a = .ok (bars.map fun b => ⟨k, b.startInd, some b.stopInd, b.start, some b.stop⟩) ∧ IsHomologyDecomposition CD k bars ∧
      ∀ (i : Nat) (S : List Nat), D.node[i]? = some S →
        (bars.filter (fun q => decide (q.start ≤ i ∧ i ≤ q.stop))).length = simplicialBetti F (subRips dist S (ρ i)) k := by
  obtain ⟨s1, s2, s3⟩ := hT.shape
  have hlT : TD.IsLine := ⟨by
      intro h; rw [h] at s3; exact hl.ne (List.length_eq_zero_iff.1 s3.symm), by rw [s2, s3]; exact hl.nodes, by rw [s1, s3]; exact hl.len, by
      rw [s1, s3]; exact hl.ends⟩
  have hsT : sc.For TD := ⟨by rw [s2]; exact hs.1, by rw [s3]; exact hs.2⟩
  obtain ⟨CD, HD, bars, c1, c2, c3, c4, c5⟩ := C65_spaces (F := F) hT.spaces hlT hsT (k := k) (fun X hX => by
    obtain ⟨i, hi, rfl⟩ := List.getElem_of_mem hX
    obtain ⟨X', x1, _, x3⟩ := hT.node i _ (List.getElem?_eq_getElem (by omega))
    rw [List.getElem?_eq_getElem hi] at x1; cases x1
    omega) a
  refine ⟨CD, HD, bars, c1, c2, c3, c4, ?_⟩
  intro i S hi
  obtain ⟨X, x1, x2, _⟩ := hT.node i S hi
  rw [c5 i X _ x1 (rips_members x2)]
  exact ripsComplex_skeleton _ _ _ (by omega)

end functor
end BATS
