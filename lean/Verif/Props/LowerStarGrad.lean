import Verif.Proofs.LowerStarGrad
import Verif.Props.Filtration

set_option linter.unusedSectionVars false
set_option linter.unusedVariables false
set_option linter.unusedSimpArgs false

/-! # C81: gradients through lower star filtrations (include/filtration/extension.hpp:45-85)

`GradFits`, `pullback`, `diagramPairing` are in `Verif/Spec/LowerStarGrad.lean`. -/

namespace BATS

variable {T : Type} [CommRing T]

/-- C81: `lower_star_backwards` succeeds exactly if `imap` has a row for the vertices and all indices fit, with every recorded vertex below the number
of vertices; in all other cases it reads or writes out of range. -/
theorem C81_defined (grad : List (List T)) (bdinds : List (List Int)) (imap : List (List Nat)) :
    ((∃ row, imap[0]? = some row ∧ GradFits row.length grad bdinds imap) → ∃ df, lowerStarBackwards grad bdinds imap = .ok df) ∧
    (¬ (∃ row, imap[0]? = some row ∧ GradFits row.length grad bdinds imap) → lowerStarBackwards grad bdinds imap = .error .ub) := by
  unfold lowerStarBackwards
  rcases hr : imap[0]? with _ | row
  · refine ⟨fun ⟨_, h, _⟩ => (by cases h), fun _ => by rw [show rd imap 0 = .error .ub by unfold rd; rw [hr]]; rfl⟩
  · rw [show rd imap 0 = .ok row by unfold rd; rw [hr], bind_ok]
    obtain ⟨h1, h2⟩ := LSG.gradLoop_spec (imap := imap) bdinds grad 0 (List.replicate row.length (0 : T))
    simp only [List.length_replicate, Nat.zero_add] at h1 h2
    constructor
    · rintro ⟨_, e, h⟩
      cases e
      obtain ⟨df, e, _⟩ := h1 h
      exact ⟨df, e⟩
    · intro h
      exact h2 (fun hc => h ⟨row, rfl, hc⟩)

/-- C81: the result has one entry per vertex and is the transpose of the map from vertex values to the diagram: its pairing with any vector `x` of vertex
values is the pairing of the gradient with the diagram entries read off `x` at the recorded vertices. -/
theorem C81_adjoint {grad : List (List T)} {bdinds : List (List Int)} {imap : List (List Nat)} {df : List T}
    (h : lowerStarBackwards grad bdinds imap = .ok df) :
    df.length = (imap.getD 0 []).length ∧
      ∀ x : Nat → T, ∑ v ∈ Finset.range df.length, df.getD v 0 * x v = pullback grad bdinds imap x := by
  unfold lowerStarBackwards at h
  obtain ⟨row, hr, h⟩ := bind_ok_iff.1 h
  have hrow : imap[0]? = some row := rd_ok_iff.1 hr
  obtain ⟨h1, h2⟩ := LSG.gradLoop_spec (imap := imap) bdinds grad 0 (List.replicate row.length (0 : T))
  have hok : ∀ j g, grad[j]? = some g → LSG.RowOK imap (List.replicate row.length (0 : T)).length (0 + j) g (bdinds.getD (0 + j) []) := by
    by_contra hc
    rw [h2 hc] at h; cases h
  obtain ⟨df', e, a1, a2⟩ := h1 hok
  rw [h] at e; cases e
  rw [List.length_replicate] at a1 a2
  refine ⟨by rw [a1, List.getD_eq_getElem?_getD, hrow]; rfl, fun x => ?_⟩
  rw [a1, a2 x]
  have h0 : ∑ u ∈ Finset.range row.length, (List.replicate row.length (0 : T)).getD u 0 * x u = 0 := by
    apply Finset.sum_eq_zero
    intro u _
    rw [List.getD_eq_getElem?_getD, List.getElem?_replicate]
    split <;> simp
  rw [h0, zero_add]
  unfold pullback
  apply Finset.sum_congr rfl
  intro j _
  rw [Nat.zero_add]
  rfl

variable [LinearOrder T]

/-- C81: compute the lower star filtration of vertex values `f0` on a simplicial complex whose vertex labels are smaller than the number of vertices.
For every gradient with respect to the finite entries of the flattened diagrams `lower_star_backwards` succeeds, and its result `df` is the gradient
with respect to the vertex values: its pairing with `f0` is the pairing of the gradient with the diagrams, and for all vertex values `g0` for which the
recorded vertices are still maxima on their simplices, the change of the pairing with the diagrams is exactly the pairing of `df` with `g0 - f0`. -/
theorem C81_gradient {X : SCpx} (h : SCpx.Reachable X) {n0 : Nat} (hn : X.numCells 0 = .ok n0)
    (hlab : ∀ s i, s ≠ [] → X.findIdx s = some i → ∀ j ∈ s, j < n0) (f0 : List T) (hf : n0 ≤ f0.length)
    (grad : List (List T)) (bdinds : List (List Int))
    (hfit : ∀ dim g, grad[dim]? = some g →
      (∀ k, k < g.length → ∃ i, (bdinds.getD dim [])[k]? = some i ∧
        (i = -1 ∨ 0 ≤ i ∧ ∃ n, X.numCells (entryDim dim k) = .ok n ∧ i.toNat < n)) ∧
      (g.length % 2 = 1 → (bdinds.getD dim [])[g.length]? = some (-1))) :
    ∃ vals inds df, lowerStar X f0 = .ok (vals, inds) ∧ lowerStarBackwards grad bdinds inds = .ok df ∧ df.length = n0 ∧
      ∑ v ∈ Finset.range n0, df.getD v 0 * f0.getD v 0 = diagramPairing grad bdinds vals ∧
      ∀ (g0 : List T) (vals' : List (List T)) (inds' : List (List Nat)), lowerStar X g0 = .ok (vals', inds') →
        (∀ d i v : Nat, (inds.getD d [])[i]? = some v → ∃ y, g0[v]? = some y ∧ (vals'.getD d [])[i]? = some y) →
        ∑ v ∈ Finset.range n0, df.getD v 0 * (g0.getD v 0 - f0.getD v 0) =
          diagramPairing grad bdinds vals' - diagramPairing grad bdinds vals := by
  obtain ⟨cells, hI⟩ := h.inv
  obtain ⟨vals, inds, e, l1, l2, l3, l4⟩ := C29_lower_star h f0 (fun s i hs hi j hj => lt_of_lt_of_le (hlab s i hs hi j hj) hf)
  have hne := hI.sizes.ne
  -- the entry recorded at an index
  have hat : ∀ d i n, X.numCells d = .ok n → i < n → ∃ v y, (inds.getD d [])[i]? = some v ∧ (vals.getD d [])[i]? = some y ∧ f0[v]? = some y ∧ v < n0 := by
    intro d i n hd hi
    have hdl : d < X.ncells.length := by
      by_contra hc
      rw [show X.numCells d = rd X.ncells d from rfl, show rd X.ncells d = .error .ub by unfold rd; rw [List.getElem?_eq_none (by omega)]] at hd
      cases hd
    have h1 := BATS.rd_some (hI.dim d hdl).nc
    rw [show X.numCells d = rd X.ncells d from rfl, h1] at hd
    cases hd
    have hs : (cells d)[i]? = some (cells d)[i] := List.getElem?_eq_getElem hi
    have hm : (cells d)[i] ∈ cells d := List.getElem_mem _
    have hlen := hI.ok.len d _ hm
    have hsn : (cells d)[i] ≠ [] := by intro e; rw [e] at hlen; simp at hlen
    have hfi : X.findIdx (cells d)[i] = some i := (hI.trie _ hsn i).2 (by rw [hlen]; exact hs)
    obtain ⟨r, ⟨r1, r2, r3⟩, r4, r5⟩ := l4 _ i hsn hfi
    rw [hlen] at r4 r5
    exact ⟨r.2, r.1, r5, r4, r2, hlab _ i hsn hfi _ r1⟩
  have hcrit : ∀ d (i : Int) v, 0 ≤ i → (inds.getD d [])[i.toNat]? = some v → critVertex inds d i = some v := by
    intro d i v hi hv
    unfold critVertex
    rw [if_neg (by omega)]
    rw [List.getD_eq_getElem?_getD] at hv
    rcases hd : inds[d]? with _ | row
    · rw [hd] at hv; cases hv
    · rw [hd] at hv; exact hv
  have hrow : inds[0]? = some (inds.getD 0 []) := by
    have : 0 < inds.length := by rw [l2]; omega
    rw [List.getD_eq_getElem?_getD, List.getElem?_eq_getElem this]; rfl
  have hn0 : (inds.getD 0 []).length = n0 := by
    have := (l3 0 (Nat.zero_le _)).2
    rw [hn] at this; exact (Except.ok.inj this).symm
  obtain ⟨df, hdf⟩ := (C81_defined grad bdinds inds).1 ⟨_, hrow, by
    intro dim g hg
    obtain ⟨a, b⟩ := hfit dim g hg
    refine ⟨fun k hk => ?_, b⟩
    obtain ⟨i, h1, h2⟩ := a k hk
    refine ⟨i, h1, ?_⟩
    rcases h2 with h2 | ⟨h2, n, h3, h4⟩
    · exact Or.inl h2
    · obtain ⟨v, y, g1, _, _, g4⟩ := hat _ _ n h3 h4
      exact Or.inr ⟨v, hcrit _ _ _ h2 g1, by rw [hn0]; exact g4⟩⟩
  obtain ⟨a1, a2⟩ := C81_adjoint hdf
  rw [hn0] at a1
  rw [a1] at a2
  have hpair : ∀ (x : Nat → T) (vs : List (List T)), (∀ d i v n, X.numCells d = .ok n → i < n → (inds.getD d [])[i]? = some v → (vs.getD d [])[i]? = some (x v)) →
      pullback grad bdinds inds x = diagramPairing grad bdinds vs := by
    intro x vs hx
    unfold pullback diagramPairing
    apply Finset.sum_congr rfl
    intro dim hdim
    apply Finset.sum_congr rfl
    intro k hk
    rw [Finset.mem_range] at hdim hk
    have hg : grad[dim]? = some (grad.getD dim []) := by
      rw [List.getD_eq_getElem?_getD, List.getElem?_eq_getElem hdim]; rfl
    obtain ⟨i, h1, h2⟩ := (hfit dim _ hg).1 k hk
    have hgd : (bdinds.getD dim []).getD k (-1) = i := by rw [List.getD_eq_getElem?_getD (l := bdinds.getD dim []), h1]; rfl
    rw [hgd]
    rcases h2 with h2 | ⟨h2, n, h3, h4⟩
    · rw [if_pos h2, show critVertex inds (entryDim dim k) i = none by unfold critVertex; rw [if_pos (by omega)]]
    · rw [if_neg (by omega)]
      obtain ⟨v, y, g1, _, _, _⟩ := hat _ _ n h3 h4
      rw [hcrit _ _ _ h2 g1, List.getD_eq_getElem?_getD (l := vs.getD (entryDim dim k) []), hx _ _ v n h3 h4 g1]
      rfl
  have hF := hpair (fun v => f0.getD v 0) vals (by
    intro d i v n hd hi hv
    obtain ⟨v', y, g1, g2, g3, _⟩ := hat d i n hd hi
    rw [hv] at g1; cases g1
    rw [g2, List.getD_eq_getElem?_getD, g3]; rfl)
  refine ⟨vals, inds, df, e, hdf, a1, by rw [a2 (fun v => f0.getD v 0), hF], fun g0 vals' inds' e' hmax => ?_⟩
  have hG := hpair (fun v => g0.getD v 0) vals' (by
    intro d i v n hd hi hv
    obtain ⟨y, g1, g2⟩ := hmax d i v hv
    rw [g2, List.getD_eq_getElem?_getD, g1]; rfl)
  rw [← hG, ← hF, ← a2 (fun v => g0.getD v 0), ← a2 (fun v => f0.getD v 0), ← Finset.sum_sub_distrib]
  apply Finset.sum_congr rfl
  intro v _
  ring

/-- the boundary of a triangle with vertex values 5, 3, 8: bars `(3, ∞)`, `(5, 5)`, .. in dimension 0 and `(8, ∞)` in dimension 1. The gradient `1, 10` of the
pair born at vertex 0 and killed by the edge 01, and the gradient 100 of the birth of the loop with edge 12 -/
example : ((SCpx.init 0).run [.addRecursive [0, 1], .addRecursive [0, 2], .addRecursive [1, 2]]).bind (fun X => (lowerStar X [(5 : Int), 3, 8]).bind (fun r =>
    lowerStarBackwards [[1, 10], [100, 1000]] [[0, 0], [2, -1]] r.2)) = .ok [11, 0, 100] := by decide +kernel

/-- other vertex values with the same recorded vertices, as in the last part of `C81_gradient`: the pairing `1 * 5 + 10 * 5 + 100 * 8` becomes
`1 * 6 + 10 * 6 + 100 * 9` -/
example : (((SCpx.init 0).run [.addRecursive [0, 1], .addRecursive [0, 2], .addRecursive [1, 2]]).bind (fun X => (lowerStar X [(5 : Int), 3, 8]).bind (fun r =>
    (lowerStar X [6, 3, 9]).map (fun r' => (r.2 == r'.2, r.1, r'.1))))) =
    .ok (true, [[5, 3, 8], [5, 8, 8]], [[6, 3, 9], [6, 9, 9]]) := by decide +kernel

/-- C81, finding: a complex on the vertices 0 and 5 has two vertices, and the entry for vertex 5 is written past the end of the gradient -/
theorem C81_labels : ((SCpx.init 0).run [.add [0], .add [5]]).bind (fun X => (lowerStar X [(5 : Int), 3, 8, 1, 1, 1]).bind (fun r =>
    lowerStarBackwards [[1, 0]] [[1, -1]] r.2)) = .error .ub := by decide +kernel

end BATS
