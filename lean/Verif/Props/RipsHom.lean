import Verif.Props.ZigzagSets
import Mathlib.Data.Rat.Defs
import Mathlib.Algebra.Field.Rat
import Mathlib.Algebra.Order.Ring.Rat

set_option linter.unusedSectionVars false
set_option linter.unusedVariables false
set_option linter.unusedSimpArgs false

/-! # C68, third part: `RipsHom`, and from data to the barcodes of the zigzags -/

namespace BATS
open Matrix Reduction SMap SCpx Quiver Nrv Srt Zoo BATS.Flag

section
variable {F : Type} [Field F] [DecidableEq F]

theorem dimLoop_spec {D : Diagram (List Nat) (List Nat)} {b : Nat → Nat} (hl : D.elist.length = D.edata.length) : ∀ (c i : Nat) (TD : Diagram Nat (CMat F)),
    i + c = D.edata.length → TD.edata.length = D.edata.length →
    (∀ (j s t : Nat) (M : CMat F), D.elist[j]? = some (s, t) → TD.edata[j]? = some M → s < TD.node.length ∧ t < TD.node.length ∧ M.cols.length = b s ∧ M.nrow = b t) →
    ∃ TD', dimLoop D c i TD = .ok TD' ∧ TD'.edata = TD.edata ∧ TD'.elist = TD.elist ∧ TD'.node.length = TD.node.length ∧
      (∀ v, (∃ j s t, i ≤ j ∧ D.elist[j]? = some (s, t) ∧ (v = s ∨ v = t)) → TD'.node[v]? = some (b v)) ∧
      (∀ v, (∀ j s t, i ≤ j → D.elist[j]? = some (s, t) → v ≠ s ∧ v ≠ t) → TD'.node[v]? = TD.node[v]?) := by
  intro c
  induction c with
  | zero =>
    intro i TD hi hE hM
    refine ⟨TD, rfl, rfl, rfl, rfl, ?_, fun v _ => rfl⟩
    rintro v ⟨j, s, t, hj, e, _⟩
    have := (List.getElem?_eq_some_iff.1 e).1
    omega
  | succ c ih =>
    intro i TD hi hE hM
    obtain ⟨⟨s, t⟩, hst⟩ : ∃ st, D.elist[i]? = some st := ⟨_, List.getElem?_eq_getElem (by omega)⟩
    obtain ⟨M, hMi⟩ : ∃ M, TD.edata[i]? = some M := ⟨_, List.getElem?_eq_getElem (by omega)⟩
    obtain ⟨h1, h2, h3, h4⟩ := hM i s t M hst hMi
    obtain ⟨TD', d1, d2, d3, d4, d5, d6⟩ := ih (i + 1) ⟨(TD.node.set s M.cols.length).set t M.nrow, TD.edata, TD.elist⟩ (by omega) hE (by
      intro j s' t' M' e1 e2
      obtain ⟨q1, q2, q3⟩ := hM j s' t' M' e1 e2
      exact ⟨by simpa using q1, by simpa using q2, q3⟩)
    refine ⟨TD', ?_, d2, d3, by simpa using d4, ?_, ?_⟩
    · rw [dimLoop, rd_some hst, bind_ok, rd_some hMi, bind_ok]
      show (do
        let TD1 ← TD.setNode s M.cols.length
        let TD2 ← TD1.setNode t M.nrow
        dimLoop D c (i + 1) TD2) = _
      rw [show TD.setNode s M.cols.length = .ok { TD with node := TD.node.set s M.cols.length } from setNode_ok.2 ⟨h1, rfl⟩, bind_ok,
        show ({ TD with node := TD.node.set s M.cols.length } : Diagram Nat (CMat F)).setNode t M.nrow = .ok ⟨(TD.node.set s M.cols.length).set t M.nrow, TD.edata, TD.elist⟩ from
          setNode_ok.2 ⟨by simpa using h2, rfl⟩, bind_ok, d1]
    · rintro v ⟨j, s', t', hj, e, hv⟩
      by_cases hex : ∃ j s t, i + 1 ≤ j ∧ D.elist[j]? = some (s, t) ∧ (v = s ∨ v = t)
      · exact d5 v hex
      · have hno : ∀ j s t, i + 1 ≤ j → D.elist[j]? = some (s, t) → v ≠ s ∧ v ≠ t := fun j s t h1 h2 =>
          ⟨fun h => hex ⟨j, s, t, h1, h2, Or.inl h⟩, fun h => hex ⟨j, s, t, h1, h2, Or.inr h⟩⟩
        have hji : j = i := by
          by_contra hne
          exact hex ⟨j, s', t', by omega, e, hv⟩
        subst hji
        rw [hst] at e; cases e
        rw [d6 v hno]
        show ((TD.node.set s M.cols.length).set t M.nrow)[v]? = _
        by_cases hvt : v = t
        · subst hvt
          rw [List.getElem?_set_self (by simpa using h2), h4]
        · have hvs : v = s := by rcases hv with h | h <;> [exact h; exact absurd h hvt]
          subst hvs
          rw [List.getElem?_set_ne (fun h => hvt h.symm), List.getElem?_set_self h1, h3]
    · intro v hv
      rw [d6 v (fun j s t h1 h2 => hv j s t (by omega) h2)]
      obtain ⟨n1, n2⟩ := hv i s t (Nat.le_refl _) hst
      show ((TD.node.set s M.cols.length).set t M.nrow)[v]? = _
      rw [List.getElem?_set_ne (fun h => n2 h.symm), List.getElem?_set_ne (fun h => n1 h.symm)]

variable {T : Type} [Zero T] [LinearOrder T]

/-- C68: `RipsHom(D, X, dist, rmax, k)` computes, in every schedule, the same maps on homology as `Hom(Chain(Rips(D, X, dist, rmax, k + 1)), k)`; the dimension it stores at a node which is the end
of an edge is the Betti number of the Rips complex of the node, and 0 at a node without edges. -/
theorem C68_rips_hom {n : Nat} {D : Diagram (List Nat) (List Nat)} (hD : IsSubsetDiagram n D) {sc : Schedule} (hs : sc.For D) (dist : Nat → Nat → T) {rmax : List T}
    (hr : rmax.length = D.node.length) (hmono : ∀ (j s t : Nat), D.elist[j]? = some (s, t) → rmax.getD s 0 ≤ rmax.getD t 0) (k : Nat) :
    ∃ (TD : Diagram SCpx (List (CMat Int))) (CD : Diagram (List (CMat F)) (List (CMat F))) (HD : Diagram (RedCpx F) (CMat F)) (RD : Diagram Nat (CMat F)),
      ripsFunctorV sc D dist n rmax (k + 1) = .ok TD ∧ chainFunctor F sc TD = .ok CD ∧ homFunctor sc CD k = .ok HD ∧ ripsHom F sc.edges D dist n rmax k = .ok RD ∧
      RD.elist = HD.elist ∧ RD.edata = HD.edata ∧ RD.node.length = D.node.length ∧
      ∀ (v : Nat) (S : List Nat), D.node[v]? = some S →
        ((∃ j s t : Nat, D.elist[j]? = some (s, t) ∧ (v = s ∨ v = t)) → RD.node[v]? = some (simplicialBetti F (subRips dist S (rmax.getD v 0)) k)) ∧
        ((∀ j s t : Nat, D.elist[j]? = some (s, t) → v ≠ s ∧ v ≠ t) → RD.node[v]? = some 0) := by
  obtain ⟨Xs, x1, x2, x3⟩ := rips_data hD dist (fun i => rmax.getD i 0) (k + 1)
  obtain ⟨TD, t1, t2⟩ := C68_functor_radii hD hs dist hr hmono (k + 1)
  have hl := hD.edges.len
  -- the nodes of `TD` are the `Xs`
  have hTn : TD.node = Xs ∧ TD.elist = D.elist ∧ TD.edata.length = D.edata.length ∧ ∀ (j : Nat) (st : Nat × Nat) (f : List Nat), D.elist[j]? = some st → D.edata[j]? = some f →
      ∃ X Y M, Xs[st.1]? = some X ∧ Xs[st.2]? = some Y ∧ TD.edata[j]? = some M ∧ simplicialMap X Y f = .ok M := by
    have hn : TD.node = Xs := by
      have t1' := t1
      unfold ripsFunctorV at t1'
      rw [ripsNodes_loop hs.1 hr x1 (fun i S h => by obtain ⟨X, e1, e2, _⟩ := x2 i S h; exact ⟨X, e1, e2⟩) D.edata.length, bind_ok] at t1'
      obtain ⟨Ms, m1, m2, m3⟩ := (edgeLoop_iff hs.2 hD.edges.len (by simp) (by simp)).1 t1'
      rw [m3]
    refine ⟨hn, t2.shape.1, t2.shape.2.2, ?_⟩
    intro j st f e1 e2
    obtain ⟨X, Y, M, q1, q2, q3, q4⟩ := t2.edge j st.1 st.2 f e1 e2
    rw [hn] at q1 q2
    exact ⟨X, Y, M, q1, q2, q3, q4⟩
  obtain ⟨n1, n2, n3, n4⟩ := hTn
  have hsT : sc.For TD := ⟨by rw [n1, x1]; exact hs.1, by rw [n3]; exact hs.2⟩
  obtain ⟨CD, c1, c2, c3, c4, c5⟩ := C65_chain_functor (F := F) t2.spaces hsT
  have hCn := c4.length_eq
  have hsC : sc.For CD := ⟨by rw [← hCn, n1, x1]; exact hs.1, by rw [c3, List.length_map, n3]; exact hs.2⟩
  have hmaxd : ∀ B ∈ CD.node, k < B.length := by
    intro B hB
    obtain ⟨i, hi, rfl⟩ := List.getElem_of_mem hB
    have hi' : i < D.node.length := by rw [← x1, ← n1, hCn]; exact hi
    obtain ⟨X, e1, e2, e3, e4, e5, e6⟩ := x2 i _ (List.getElem?_eq_getElem hi')
    rw [← n1] at e1
    obtain ⟨B, b1, b2⟩ := forall2_get c4 e1
    rw [List.getElem?_eq_getElem hi] at b1
    rw [Option.some.inj b1]
    obtain ⟨cells, hI⟩ := e3.inv
    obtain ⟨B', b1', b3, _⟩ := chainComplex_spec (F := F) hI
    rw [b2] at b1'; cases b1'
    unfold SCpx.maxdim at e5
    omega
  obtain ⟨HD, h1, h2, h3, h4, h5⟩ := C65_hom c5 hsC hmaxd
  obtain ⟨Cs, Ms, l1, l2, l3, l4⟩ := (homLoops_iff (g := fun f C C' => inducedMap f C C' k) hsC c5.edges.len).1 h1
  have hHn : HD.node = Cs := by rw [l4]
  have hHe : HD.edata = Ms := by rw [l4]
  -- Betti numbers of the nodes
  have hbetti : ∀ (v : Nat) (S : List Nat), D.node[v]? = some S → ∃ X B C, Xs[v]? = some X ∧ ripsNode dist n (rmax.getD v 0) (k + 1) S = .ok X ∧ (X.chainComplex : Res (List (CMat F))) = .ok B ∧
      RedCpx.mkStd B = .ok C ∧ Cs[v]? = some C ∧ C.hdim k = .ok (simplicialBetti F (subRips dist S (rmax.getD v 0)) k) := by
    intro v S hv
    obtain ⟨X, e1, e2, e3, e4, e5, e6⟩ := x2 v S hv
    obtain ⟨B, C, b1, b2, b3⟩ := betti_of_reachable (F := F) .standard e3 (fun s i hs hi => ((rips_found e4 hs).1 ⟨i, hi⟩).inc) _ (rips_members e4)
    have e1' := e1
    rw [← n1] at e1'
    obtain ⟨B', c6, c7⟩ := forall2_get c4 e1'
    rw [b1] at c7; cases c7
    obtain ⟨C', c8, c9⟩ := forall2_get l1 c6
    have b2 : RedCpx.mkStd B = .ok C := b2
    rw [b2] at c9; cases c9
    refine ⟨X, B, C, e1, e2, b1, b2, c8, ?_⟩
    rw [b3 k (by omega)]
    congr 1
    exact ripsComplex_skeleton _ _ _ (by omega)
  have hrd : ∀ i, i < D.node.length → rd rmax i = .ok (rmax.getD i 0) := by
    intro i hi
    rw [rd_lt (show i < rmax.length by omega), List.getD_eq_getElem?_getD, List.getElem?_eq_getElem (show i < rmax.length by omega)]; rfl
  have hMl : Ms.length = D.edata.length := by rw [l2, c3, List.length_map, n3]
  -- the edge loop
  have hloop : edgeLoop D (fun _ s t f => ripsHomEdge F D dist n rmax k s t f) sc.edges (Diagram.init D.node.length D.edata.length : Diagram Nat (CMat F)) =
      .ok ⟨List.replicate D.node.length default, Ms, D.elist⟩ := by
    refine (edgeLoop_iff hs.2 hl (by simp [Diagram.init]) (by simp [Diagram.init])).2 ⟨Ms, hMl, ?_, rfl⟩
    intro j st f e1 e2
    obtain ⟨S, S', s1, s2, hf⟩ := hD.edges.edge j st f e1 e2
    obtain ⟨X, B, C, a1, a2, a3, a4, a5, a6⟩ := hbetti _ _ s1
    obtain ⟨Y, B', C', b1, b2, b3, b4, b5, b6⟩ := hbetti _ _ s2
    obtain ⟨X', Y', M, m1, m2, m3, m4⟩ := n4 j st f e1 e2
    rw [a1] at m1; cases m1
    rw [b1] at m2; cases m2
    obtain ⟨N, C2, C2', q1, q2, q3, q4⟩ := l3 j st (chainMap M) (by rw [c2, n2]; exact e1) (by rw [c3, List.getElem?_map, m3]; rfl)
    rw [a5] at q2; cases q2
    rw [b5] at q3; cases q3
    refine ⟨N, q1, ?_⟩
    unfold ripsHomEdge
    rw [hrd _ (List.getElem?_eq_some_iff.1 s2).1, bind_ok, hrd _ (List.getElem?_eq_some_iff.1 s1).1, bind_ok, if_neg (not_lt.2 (hmono j st.1 st.2 e1)), rd_some s1, bind_ok, rd_some s2, bind_ok,
      a2, bind_ok, b2, bind_ok, a3, bind_ok, a4, bind_ok, b3, bind_ok, b4, bind_ok, m4, bind_ok]
    exact q4
  obtain ⟨b, hb⟩ : ∃ b : Nat → Nat, ∀ (v : Nat) (S : List Nat), D.node[v]? = some S → b v = simplicialBetti F (subRips dist S (rmax.getD v 0)) k :=
    ⟨fun v => simplicialBetti F (subRips dist (D.node.getD v []) (rmax.getD v 0)) k, fun v S h => by
      have e : D.node.getD v [] = S := by rw [List.getD_eq_getElem?_getD, h]; rfl
      show simplicialBetti F (subRips dist (D.node.getD v []) (rmax.getD v 0)) k = _
      rw [e]⟩
  obtain ⟨RD, r1, r2, r3, r4, r5, r6⟩ := dimLoop_spec (F := F) (D := D) (b := b) hl D.edata.length 0 ⟨List.replicate D.node.length default, Ms, D.elist⟩ (by omega) hMl (by
    intro j s t M e1 e2
    have e2 : Ms[j]? = some M := e2
    have hj := (List.getElem?_eq_some_iff.1 e1).1
    have ef : D.edata[j]? = some (D.edata[j]'(by omega)) := List.getElem?_eq_getElem _
    obtain ⟨S, S', s1, s2, hf⟩ := hD.edges.edge j _ _ e1 ef
    have s1 : D.node[s]? = some S := s1
    have s2 : D.node[t]? = some S' := s2
    obtain ⟨X, B, C, a1, a2, a3, a4, a5, a6⟩ := hbetti _ _ s1
    obtain ⟨Y, B', C', b1, b2, b3, b4, b5, b6⟩ := hbetti _ _ s2
    obtain ⟨f', hf'⟩ : ∃ f', CD.edata[j]? = some f' := ⟨_, List.getElem?_eq_getElem (show j < CD.edata.length by rw [c3, List.length_map, n3]; omega)⟩
    obtain ⟨M', B2, B2', C2, C2', q1, q2, q3, q4, q5, q6⟩ := h5 j s t _ (by rw [c2, n2]; exact e1) hf'
    rw [hHe, e2] at q1; cases q1
    rw [hHn, a5] at q4; cases q4
    rw [hHn, b5] at q5; cases q5
    obtain ⟨d, d', _, _, w1, w2, w3, _⟩ := q6
    rw [a6] at w2; cases w2
    rw [b6] at w3; cases w3
    refine ⟨?_, ?_, ?_, ?_⟩
    · show s < (List.replicate D.node.length default).length
      rw [List.length_replicate]; exact (List.getElem?_eq_some_iff.1 s1).1
    · show t < (List.replicate D.node.length default).length
      rw [List.length_replicate]; exact (List.getElem?_eq_some_iff.1 s2).1
    · rw [w1.ncol, hb s S s1]
    · rw [w1.nrow, hb t S' s2])
  refine ⟨TD, CD, HD, RD, t1, c1, h1, ?_, ?_, ?_, ?_, ?_⟩
  · unfold ripsHom
    rw [hloop, bind_ok, r1]
  · rw [r3, h2, c2, n2]
  · rw [r2, hHe]
  · rw [r4]; simp
  · intro v S hv
    refine ⟨fun hex => ?_, fun hno => ?_⟩
    · obtain ⟨j, s, t, e, hvst⟩ := hex
      rw [r5 v ⟨j, s, t, Nat.zero_le _, e, hvst⟩, hb v S hv]
    · rw [r6 v (fun j s t _ e => hno j s t e)]
      show (List.replicate D.node.length (default : Nat))[v]? = _
      rw [List.getElem?_replicate, if_pos (List.getElem?_eq_some_iff.1 hv).1]; rfl

end

section zoo
open Lmk
variable {T : Type} [Field T] [LinearOrder T] [IsStrictOrderedRing T] {F : Type} [Field F] [DecidableEq F]

/-- C68: from data to the barcode of the oscillating Rips zigzag: for at least two points every stage succeeds in every schedule, and the number of pairs of dimension `k` alive at node `2 i` is the
Betti number of the Rips complex of the first `i + 1` landmarks at radius `eta hds[i]`, and at node `2 i + 1` that of the first `i + 2` landmarks at radius `rho hds[i]`. -/
theorem C68_oscillating_barcode {rows : List (List T)} (hD : IsDistance rows) (hn : 2 ≤ rows.length) (dim : Nat) {rho eta : T} (hre : eta ≤ rho) (hrho : 0 ≤ rho) {dmax k : Nat} (hk : k < dmax) (a : Algo) :
    ∃ D r i0 inds hds, oscillatingSets rows dim rho eta = .ok (D, r) ∧ IsFarthestFirst rows i0 rows.length inds hds ∧ ∀ sc : Schedule, sc.For D →
      ∃ (TD : Diagram SCpx (List (CMat Int))) (CD : Diagram (List (CMat F)) (List (CMat F))) (HD : Diagram (RedCpx F) (CMat F)) (bars : List QBar),
        ripsFunctorV sc D (tab rows) rows.length r dmax = .ok TD ∧ chainFunctor F sc TD = .ok CD ∧ homFunctor sc CD k = .ok HD ∧
        barcode HD.toDgm k a = .ok (bars.map fun b => ⟨k, b.startInd, some b.stopInd, b.start, some b.stop⟩) ∧
        (∀ (i : Nat) (h : T), hds[i]? = some h → ∃ S, IsSetOf S (inds.take (i + 1)) ∧
          (bars.filter (fun q => decide (q.start ≤ 2 * i ∧ 2 * i ≤ q.stop))).length = simplicialBetti F (subRips (tab rows) S (eta * h)) k) ∧
        (∀ (i : Nat) (h : T), i + 1 < rows.length → hds[i]? = some h → ∃ S, IsSetOf S (inds.take (i + 2)) ∧
          (bars.filter (fun q => decide (q.start ≤ 2 * i + 1 ∧ 2 * i + 1 ≤ q.stop))).length = simplicialBetti F (subRips (tab rows) S (rho * h)) k) := by
  obtain ⟨D, r, i0, inds, hds, o1, o2, o3, o4, o5, o6, o7, o8, o9⟩ := C68_oscillating hD (by rintro rfl; simp at hn) dim hre
  refine ⟨D, r, i0, inds, hds, o1, o2, ?_⟩
  intro sc hs
  obtain ⟨TD, t1, t2⟩ := C68_functor_radii o5 hs (tab rows) o6 (o9 hrho) dmax
  obtain ⟨CD, HD, bars, c1, c2, c3, c4, c5⟩ := C68_barcode (F := F) (n := rows.length) (line_of_zigzag hn o4 o5.edges.len) t2 hs hk a
  have gd : ∀ (m : Nat) (x : T), r[m]? = some x → r.getD m 0 = x := fun m x h => by rw [List.getD_eq_getElem?_getD, h]; rfl
  refine ⟨TD, CD, HD, bars, t1, c1, c2, c3, ?_, ?_⟩
  · intro i h hi
    obtain ⟨q1, S, q2, q3⟩ := o7 i h hi
    refine ⟨S, q3, ?_⟩
    rw [c5 _ S q2, gd _ _ q1]
  · intro i h hlt hi
    obtain ⟨q1, S, q2, q3⟩ := o8 i h hlt hi
    refine ⟨S, q3, ?_⟩
    rw [c5 _ S q2, gd _ _ q1]

/-- C68: `DiscreteMorozovZigzag(D, dist, rho, dmax)` for distinct points, at least two levels and `rho ≥ 0`: every stage to the barcode succeeds in every schedule, and the number of pairs of dimension
`k` alive at node `2 i` is the Betti number of the Rips complex of the first `ks[i] + 1` landmarks at radius `rho hds[ks[i]]`, and at node `2 i + 1` that of the first `ks[i + 1] + 1` landmarks at the
same radius. -/
theorem C68_morozov_barcode {rows : List (List T)} (hD : IsDistance rows) (hn : rows ≠ []) (hpos : ∀ i x, i < rows.length → x < rows.length → i ≠ x → 0 < tab rows i x) (dim : Nat) {rho theta : T}
    (hrho : 0 ≤ rho) {dmax k : Nat} (hk : k < dmax) (a : Algo) :
    ∃ D r i0 inds hds ks, morozovSets rows dim rho theta = .ok (D, r) ∧ IsFarthestFirst rows i0 rows.length inds hds ∧ IsLevels (zzEta rho theta) hds ks ∧ (2 ≤ ks.length → ∀ sc : Schedule, sc.For D →
      ∃ (TD : Diagram SCpx (List (CMat Int))) (CD : Diagram (List (CMat F)) (List (CMat F))) (HD : Diagram (RedCpx F) (CMat F)) (bars : List QBar),
        morozovZigzag sc rows dim rho theta dmax = .ok (TD, r) ∧ chainFunctor F sc TD = .ok CD ∧ homFunctor sc CD k = .ok HD ∧
        barcode HD.toDgm k a = .ok (bars.map fun b => ⟨k, b.startInd, some b.stopInd, b.start, some b.stop⟩) ∧
        (∀ (i l : Nat), ks[i]? = some l → ∃ S, IsSetOf S (inds.take (l + 1)) ∧
          (bars.filter (fun q => decide (q.start ≤ 2 * i ∧ 2 * i ≤ q.stop))).length = simplicialBetti F (subRips (tab rows) S (hds.getD l 0 * rho)) k) ∧
        (∀ (i l l' : Nat), ks[i]? = some l → ks[i + 1]? = some l' → ∃ S, IsSetOf S (inds.take (l' + 1)) ∧
          (bars.filter (fun q => decide (q.start ≤ 2 * i + 1 ∧ 2 * i + 1 ≤ q.stop))).length = simplicialBetti F (subRips (tab rows) S (hds.getD l 0 * rho)) k)) := by
  obtain ⟨i0, inds, hds, ks, m1, m2, m3, m4, m5, m6⟩ := C68_morozov hD hn dim rho theta
  obtain ⟨D, r, o1, o4, o5, o6, o7, o8, o9⟩ := m6 (C68_distinct_points hD hpos m3)
  refine ⟨D, r, i0, inds, hds, ks, o1, m3, m4, ?_⟩
  intro h2 sc hs
  obtain ⟨TD, t1, t2⟩ := C68_functor_radii o5 hs (tab rows) o6 (o9 hrho) dmax
  obtain ⟨CD, HD, bars, c1, c2, c3, c4, c5⟩ := C68_barcode (F := F) (n := rows.length) (line_of_zigzag h2 o4 o5.edges.len) t2 hs hk a
  have gd : ∀ (m : Nat) (x : T), r[m]? = some x → r.getD m 0 = x := fun m x h => by rw [List.getD_eq_getElem?_getD, h]; rfl
  refine ⟨TD, CD, HD, bars, ?_, c1, c2, c3, ?_, ?_⟩
  · unfold morozovZigzag
    rw [o1, bind_ok]
    show (do let R ← ripsFunctorV sc D (tab rows) rows.length r dmax; pure (R, r)) = _
    rw [t1]; rfl
  · intro i l hi
    obtain ⟨q1, S, q2, q3⟩ := o7 i l hi
    refine ⟨S, q3, ?_⟩
    rw [c5 _ S q2, gd _ _ q1]
  · intro i l l' hi hi'
    obtain ⟨q1, S, q2, q3⟩ := o8 i l l' hi hi'
    refine ⟨S, q3, ?_⟩
    rw [c5 _ S q2, gd _ _ q1]

/-- the distances of the points 0, 1, 3 of the line -/
def threePoints : List (List ℚ) := [[0, 1, 3], [1, 0, 2], [3, 2, 0]]

/-- the distances of the points 0, 1, 1 of the line -/
def twoEqual : List (List ℚ) := [[0, 1, 1], [1, 0, 0], [1, 0, 0]]

theorem threePoints_distance : IsDistance threePoints ∧ ∀ i x, i < threePoints.length → x < threePoints.length → i ≠ x → 0 < tab threePoints i x := by
  refine ⟨⟨by unfold IsTable threePoints; decide, ?_, ?_⟩, ?_⟩
  · intro i x hi hx
    have hi : i < 3 := hi
    have hx : x < 3 := hx
    interval_cases i <;> interval_cases x <;> decide +kernel
  · intro i hi
    have hi : i < 3 := hi
    interval_cases i <;> rfl
  · intro i x hi hx
    have hi : i < 3 := hi
    have hx : x < 3 := hx
    interval_cases i <;> interval_cases x <;> decide +kernel

example : (oscillatingSets threePoints 1 2 1).map (fun p => (p.1.node, p.1.edata, p.1.elist, p.2)) =
    .ok ([[1], [1, 2], [1, 2], [0, 1, 2], [0, 1, 2]], [[0], [0, 1], [1, 2], [0, 1, 2]], [(0, 1), (2, 1), (2, 3), (4, 3)], [2, 4, 1, 2, 0]) := by decide +kernel

example : (morozovSets threePoints 1 2 (1 / 2)).map (fun p => (p.1.node, p.1.edata, p.1.elist, p.2)) =
    .ok ([[1], [1, 2], [1, 2], [0, 1, 2], [0, 1, 2]], [[0], [0, 1], [1, 2], [0, 1, 2]], [(0, 1), (2, 1), (2, 3), (4, 3)], [4, 4, 2, 2, 0]) := by decide +kernel

/-- the hypotheses of `C68_oscillating_barcode` and `C68_morozov_barcode` hold -/
example := C68_oscillating_barcode (F := ℚ) threePoints_distance.1 (by decide) 1 (rho := 2) (eta := 1) (by norm_num) (by norm_num) (dmax := 2) (k := 1) (by omega) .leftward

example := C68_morozov_barcode (F := ℚ) threePoints_distance.1 (by decide) threePoints_distance.2 1 (rho := 2) (theta := 1 / 2) (by norm_num) (dmax := 2) (k := 1) (by omega) .leftward

/-- C68, a defect: `DiscreteMorozovZigzagSets` reads past the end of the list of landmarks for three points of which two are equal. -/
theorem C68_morozov_ub_example : morozovSets twoEqual 1 2 (1 / 2) = .error .ub := by
  refine C68_morozov_ub (i0 := 0) (inds := [0, 1, 0]) (hds := [1, 0, 0]) ⟨by unfold IsTable twoEqual; decide, ?_, ?_⟩ (by decide) 1 (by norm_num) (by norm_num) (by decide +kernel) (by decide +kernel) (by decide)
  · intro i x hi hx
    have hi : i < 3 := hi
    have hx : x < 3 := hx
    interval_cases i <;> interval_cases x <;> decide +kernel
  · intro i hi
    have hi : i < 3 := hi
    interval_cases i <;> rfl

/-- `RipsHom` in dimension 0 for a diagram with a node (3) without edges: the dimension of the node stays 0 -/
example : (ripsHom ℚ [0, 1] ⟨[[0, 1], [0, 1, 2], [2], [1]], [[0, 1], [2]], [(0, 1), (2, 1)]⟩ (tab threePoints) 3 [1, 1, 1, 1] 0).map (fun p => (p.node, p.edata, p.elist)) =
    .ok ([1, 2, 1, 0], [⟨2, [[(0, 1)]]⟩, ⟨2, [[(1, 1)]]⟩], [(0, 1), (2, 1)]) := by decide +kernel

end zoo

end BATS
