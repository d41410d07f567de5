import Verif.Proofs.DGMap2
import Verif.Proofs.DiagramHom

set_option linter.unusedSectionVars false
set_option linter.unusedVariables false
set_option linter.unusedSimpArgs false

/-! # Diagrams of DG vector spaces -/

namespace BATS
namespace DG
open Reduction Matrix

variable {F : Type} [Field F] [DecidableEq F]

/-- the result of a functor which transforms nodes by `r` and edges by `g` -/
theorem loops_iff {N E N' E' : Type} [Inhabited N'] [Inhabited E'] {sc : Schedule} {D : Diagram N E} (hs : sc.For D)
    (hl : D.elist.length = D.edata.length) {r : N → Res N'} {g : E → N' → N' → Res E'} {HD : Diagram N' E'} :
    (do let HD ← nodeLoop D r sc.nodes (Diagram.init D.node.length D.edata.length)
        edgeLoop D (fun nodes s t f => do
          let C ← rd nodes s
          let C' ← rd nodes t
          g f C C') sc.edges HD) = .ok HD ↔
    ∃ Cs Ms, List.Forall₂ (fun B C => r B = .ok C) D.node Cs ∧ Ms.length = D.edata.length ∧
      (∀ (j : Nat) (st : Nat × Nat) (f : E), D.elist[j]? = some st → D.edata[j]? = some f →
        ∃ M C C', Ms[j]? = some M ∧ Cs[st.1]? = some C ∧ Cs[st.2]? = some C' ∧ g f C C' = .ok M) ∧ HD = ⟨Cs, Ms, D.elist⟩ := by
  rw [bind_ok_iff]
  have key : ∀ (Cs : List N') (s t : Nat) (f : E) (y : E'),
      (do let C ← rd Cs s; let C' ← rd Cs t; g f C C') = .ok y ↔ ∃ C C', Cs[s]? = some C ∧ Cs[t]? = some C' ∧ g f C C' = .ok y := by
    intro Cs s t f y
    rw [bind_ok_iff]
    constructor
    · rintro ⟨C, h1, h2⟩
      obtain ⟨C', h2, h3⟩ := bind_ok_iff.1 h2
      rw [rd_ok_iff] at h1 h2
      exact ⟨C, C', h1, h2, h3⟩
    · rintro ⟨C, C', h1, h2, h3⟩
      exact ⟨C, rd_some h1, by rw [rd_some h2]; exact h3⟩
  constructor
  · rintro ⟨TD, h1, h2⟩
    obtain ⟨Cs, b1, rfl⟩ := (nodeLoop_iff hs.1 (by simp [Diagram.init])).1 h1
    obtain ⟨ys, y1, y2, rfl⟩ := (edgeLoop_iff hs.2 hl (by simp [Diagram.init]) (by simp [Diagram.init])).1 h2
    refine ⟨Cs, ys, b1, y1, ?_, rfl⟩
    intro j st f h3 h4
    obtain ⟨y, e1, e2⟩ := y2 j st f h3 h4
    obtain ⟨C, C', c1, c2, c3⟩ := (key _ _ _ _ _).1 e2
    exact ⟨y, C, C', e1, c1, c2, c3⟩
  · rintro ⟨Cs, Ms, b1, b2, b3, rfl⟩
    refine ⟨_, (nodeLoop_iff hs.1 (by simp [Diagram.init])).2 ⟨Cs, b1, rfl⟩, ?_⟩
    refine (edgeLoop_iff hs.2 hl (by simp [Diagram.init]) (by simp [Diagram.init])).2 ⟨Ms, b2, ?_, rfl⟩
    intro j st x h1 h2
    obtain ⟨M, C, C', m1, m2, m3, m4⟩ := b3 j st x h1 h2
    exact ⟨M, m1, (key _ _ _ _ _).2 ⟨C, C', m2, m3, m4⟩⟩

variable {b : Bool}

/-- the induced map of a reduced pair, with the bases -/
theorem dgInduced_spec {v w : DGVariant} (hv : v.withBasis) (hw : w.withBasis) {b' : Bool} {A A' : List (CMat F)} (hA : IsChainComplex A) (hA' : IsChainComplex A')
    (h0 : Degree0 b A) (h0' : Degree0 b' A') {V V' : DGVS F} (hV : DGVS.ofComplex (-1) b A = .ok V) (hV' : DGVS.ofComplex (-1) b' A' = .ok V')
    {X X' : RedDG F} (hX : v.reduce V = .ok X) (hX' : w.reduce V' = .ok X') :
    BasisOK A (toCpx b A X) ∧ BasisOK A' (toCpx b' A' X') ∧
    (∀ k, k < A.length → X.hdim k = (toCpx b A X).hdim k ∧ ∀ j, X.getPreferredRepresentative j k = (toCpx b A X).getPreferredRepresentative j k) ∧
    ∀ f k, k < A.length → k < A'.length → k < f.length ∧ (f.getD k ⟨0, []⟩).Shape (cdim A' k) (cdim A k) →
      dgInducedMap f X X' k = inducedMap f (toCpx b A X) (toCpx b' A' X') k := by
  obtain ⟨D, Y, y1, y2, y3, y4⟩ := degree0_basis v hv b hA h0
  obtain ⟨D', Y', z1, z2, z3, z4⟩ := degree0_basis w hw b' hA' h0'
  rw [hV] at y1; cases y1
  rw [hV'] at z1; cases z1
  rw [hX] at y2; cases y2
  rw [hX'] at z2; cases z2
  exact ⟨y4, z4, fun k hk => ⟨hdim_eq y3 hk, fun j => getPref_eq y3 hk j⟩, fun f k hk hk' hf => dgInduced_eq hA hA' y3 z3 hk hk' hf⟩

/-- the reduced nodes of a diagram of DG vector spaces -/
theorem reduced_nodes {A : Diagram (List (CMat F)) (List (CMat F))} {D : Diagram (DGVS F) (List (CMat F))} (hD : IsDGDiagram b A D) :
    ∃ Xs, List.Forall₂ (fun V X => RedDG.mkStd V = .ok X) D.node Xs := by
  apply forall2_exists
  intro V hV
  obtain ⟨i, hi, rfl⟩ := List.getElem_of_mem hV
  have hlen := hD.node.length_eq
  obtain ⟨V', v1, v2⟩ := forall2_get hD.node (i := i) (List.getElem?_eq_getElem (by omega))
  rw [List.getElem?_eq_getElem hi] at v1; cases v1
  have hm := List.getElem_mem (by omega : i < A.node.length)
  obtain ⟨E, Y, y1, y2, _⟩ := degree0_basis DGVariant.standard (Or.inl rfl) b (hD.chain.node _ hm) (hD.zero _ hm)
  have y1' := v2.symm.trans y1
  injection y1' with y1'
  exact ⟨Y, (congrArg RedDG.mkStd y1').trans y2⟩

/-- the complexes of the reduced nodes -/
theorem reduced_cpx {A : Diagram (List (CMat F)) (List (CMat F))} {D : Diagram (DGVS F) (List (CMat F))} (hD : IsDGDiagram b A D)
    {Xs : List (RedDG F)} (hX : List.Forall₂ (fun V X => RedDG.mkStd V = .ok X) D.node Xs) {n : Nat} {B : List (CMat F)} (hB : A.node[n]? = some B) :
    ∃ V X, D.node[n]? = some V ∧ Xs[n]? = some X ∧ DGVS.ofComplex (-1) b B = .ok V ∧ RedDG.mkStd V = .ok X ∧
      redAt (List.zipWith (toCpx b) A.node Xs) n = toCpx b B X := by
  obtain ⟨V, v1, v2⟩ := forall2_get hD.node hB
  obtain ⟨X, x1, x2⟩ := forall2_get hX v1
  refine ⟨V, X, v1, x1, v2, x2, redAt_of ?_⟩
  rw [List.getElem?_zipWith, hB, x1]

/-- the data of the homology diagram -/
theorem dgHom_data {A : Diagram (List (CMat F)) (List (CMat F))} {D : Diagram (DGVS F) (List (CMat F))} (hD : IsDGDiagram b A D)
    {Xs : List (RedDG F)} (hX : List.Forall₂ (fun V X => RedDG.mkStd V = .ok X) D.node Xs) {k : Nat} (hk : ∀ B ∈ A.node, k < B.length) :
    ∃ Ms, HomData A (List.zipWith (toCpx b) A.node Xs) k Ms ∧
      (∀ (j : Nat) (st : Nat × Nat) (f : List (CMat F)), D.elist[j]? = some st → D.edata[j]? = some f →
        ∃ M X X', Ms[j]? = some M ∧ Xs[st.1]? = some X ∧ Xs[st.2]? = some X' ∧ dgInducedMap f X X' k = .ok M) := by
  have hone : ∀ j, j < A.edata.length → ∃ M, ∃ st f X X', A.elist[j]? = some st ∧ A.edata[j]? = some f ∧ Xs[st.1]? = some X ∧ Xs[st.2]? = some X' ∧
      dgInducedMap f X X' k = .ok M ∧ inducedMap f (redAt (List.zipWith (toCpx b) A.node Xs) st.1) (redAt (List.zipWith (toCpx b) A.node Xs) st.2) k = .ok M := by
    intro j hj
    have hel := hD.chain.edges.len
    obtain ⟨B, B', b1, b2, hf⟩ := hD.chain.edges.edge j _ _ (List.getElem?_eq_getElem (by omega)) (List.getElem?_eq_getElem hj)
    obtain ⟨V, X, v1, x1, v2, x2, e⟩ := reduced_cpx hD hX b1
    obtain ⟨V', X', v1', x1', v2', x2', e'⟩ := reduced_cpx hD hX b2
    have m1 := List.mem_of_getElem? b1
    have m2 := List.mem_of_getElem? b2
    obtain ⟨q1, q2, _, q4⟩ := dgInduced_spec (v := DGVariant.standard) (w := DGVariant.standard) (Or.inl rfl) (Or.inl rfl) (hD.chain.node _ m1) (hD.chain.node _ m2)
      (hD.zero _ m1) (hD.zero _ m2) v2 v2' x2 x2'
    obtain ⟨M, r1, _⟩ := inducedMap_spec (hD.chain.node _ m1) (hD.chain.node _ m2) q1 q2 hf (hk _ m1) (hk _ m2)
    refine ⟨M, _, _, X, X', List.getElem?_eq_getElem (by omega), List.getElem?_eq_getElem hj, x1, x1', ?_, ?_⟩
    · rw [q4 _ k (hk _ m1) (hk _ m2) (hf.shape k (hk _ m1) (hk _ m2)), r1]
    · rw [e, e', r1]
  choose! M hM using hone
  refine ⟨(List.range A.edata.length).map M, ⟨by simp, ?_, ?_⟩, ?_⟩
  · intro n hn
    obtain ⟨V, X, v1, x1, v2, x2, e⟩ := reduced_cpx hD hX (cpx_get A hn)
    rw [e]
    have m1 := List.mem_of_getElem? (cpx_get A hn)
    exact (dgInduced_spec (v := DGVariant.standard) (w := DGVariant.standard) (Or.inl rfl) (Or.inl rfl) (hD.chain.node _ m1) (hD.chain.node _ m1)
      (hD.zero _ m1) (hD.zero _ m1) v2 v2 x2 x2).1
  · intro j st f h1 h2
    have hj := (List.getElem?_eq_some_iff.1 h2).1
    obtain ⟨st', f', X, X', a1, a2, a3, a4, a5, a6⟩ := hM j hj
    rw [h1] at a1; cases a1
    rw [h2] at a2; cases a2
    exact ⟨M j, by rw [List.getElem?_map, List.getElem?_range hj]; rfl, a6⟩
  · intro j st f h1 h2
    rw [hD.elist] at h1
    rw [hD.edata] at h2
    have hj := (List.getElem?_eq_some_iff.1 h2).1
    obtain ⟨st', f', X, X', a1, a2, a3, a4, a5, a6⟩ := hM j hj
    rw [h1] at a1; cases a1
    rw [h2] at a2; cases a2
    exact ⟨M j, X, X', by rw [List.getElem?_map, List.getElem?_range hj]; rfl, a3, a4, a5⟩

end DG
end BATS
