import Verif.Proofs.DiagramLoops
import Verif.Proofs.RelativeLin
import Verif.Props.SimplicialMap
import Verif.Props.Quiver
import Mathlib.LinearAlgebra.LinearIndependent.Basic
import Mathlib.LinearAlgebra.Finsupp.LinearCombination
import Mathlib.LinearAlgebra.Dimension.Constructions

set_option linter.unusedSectionVars false
set_option linter.unusedVariables false
set_option linter.unusedSimpArgs false

/-! # Results of the functors; homology decompositions from decompositions of the diagram of homology groups -/

namespace BATS
open Matrix Reduction SMap

variable {F : Type} [Field F] [DecidableEq F]

theorem chainFunctor_iff {sc : Schedule} {D : Diagram SCpx (List (CMat Int))} (hs : sc.For D) (hl : D.elist.length = D.edata.length)
    {CD : Diagram (List (CMat F)) (List (CMat F))} :
    chainFunctor F sc D = .ok CD ↔ ∃ Bs, List.Forall₂ (fun X B => X.chainComplex = .ok B) D.node Bs ∧ CD = ⟨Bs, D.edata.map chainMap, D.elist⟩ := by
  unfold chainFunctor
  rw [bind_ok_iff]
  constructor
  · rintro ⟨TD, h1, h2⟩
    obtain ⟨Bs, b1, rfl⟩ := (nodeLoop_iff hs.1 (by simp [Diagram.init])).1 h1
    obtain ⟨ys, y1, y2, rfl⟩ := (edgeLoop_iff hs.2 hl (by simp [Diagram.init]) (by simp [Diagram.init])).1 h2
    refine ⟨Bs, b1, ?_⟩
    congr 1
    apply List.ext_getElem?
    intro j
    by_cases hj : j < D.edata.length
    · obtain ⟨y, e1, e2⟩ := y2 j _ _ (List.getElem?_eq_getElem (by omega)) (List.getElem?_eq_getElem hj)
      cases e2
      rw [e1, List.getElem?_map, List.getElem?_eq_getElem hj]; rfl
    · rw [List.getElem?_eq_none (by omega), List.getElem?_eq_none (by simp; omega)]
  · rintro ⟨Bs, b1, rfl⟩
    refine ⟨_, (nodeLoop_iff hs.1 (by simp [Diagram.init])).2 ⟨Bs, b1, rfl⟩, ?_⟩
    refine (edgeLoop_iff hs.2 hl (by simp [Diagram.init]) (by simp [Diagram.init])).2 ⟨D.edata.map chainMap, by simp, ?_, rfl⟩
    intro j st x h1 h2
    exact ⟨chainMap x, by rw [List.getElem?_map, h2]; rfl, rfl⟩

/-- the result of the functor from chain complexes to reduced complexes, with the data `g f C C'` on the edges -/
theorem homLoops_iff {E' : Type} [Inhabited E'] {sc : Schedule} {D : Diagram (List (CMat F)) (List (CMat F))} (hs : sc.For D)
    (hl : D.elist.length = D.edata.length) {g : List (CMat F) → RedCpx F → RedCpx F → Res E'} {HD : Diagram (RedCpx F) E'} :
    (do let HD ← nodeLoop D RedCpx.mkStd sc.nodes (Diagram.init D.node.length D.edata.length)
        edgeLoop D (fun nodes s t f => do
          let C ← rd nodes s
          let C' ← rd nodes t
          g f C C') sc.edges HD) = .ok HD ↔
    ∃ Cs Ms, List.Forall₂ (fun B C => RedCpx.mkStd B = .ok C) D.node Cs ∧ Ms.length = D.edata.length ∧
      (∀ (j : Nat) (st : Nat × Nat) (f : List (CMat F)), D.elist[j]? = some st → D.edata[j]? = some f →
        ∃ M C C', Ms[j]? = some M ∧ Cs[st.1]? = some C ∧ Cs[st.2]? = some C' ∧ g f C C' = .ok M) ∧ HD = ⟨Cs, Ms, D.elist⟩ := by
  rw [bind_ok_iff]
  have key : ∀ (Cs : List (RedCpx F)) (s t : Nat) (f : List (CMat F)) (y : E'),
      (do let C ← rd Cs s; let C' ← rd Cs t; g f C C') = .ok y ↔ ∃ C C', Cs[s]? = some C ∧ Cs[t]? = some C' ∧ g f C C' = .ok y := by
    intro Cs s t f y
    rw [bind_ok_iff]
    constructor
    · rintro ⟨C, h1, h2⟩
      obtain ⟨C', h2, h3⟩ := bind_ok_iff.1 h2
      rw [rd_ok_iff] at h1 h2
      exact ⟨C, C', h1, h2, h3⟩
    · rintro ⟨C, C', h1, h2, h3⟩
      exact ⟨C, rd_some h1, by rw [rd_some h2]; exact h3⟩
  constructor
  · rintro ⟨TD, h1, h2⟩
    obtain ⟨Cs, b1, rfl⟩ := (nodeLoop_iff hs.1 (by simp [Diagram.init])).1 h1
    obtain ⟨ys, y1, y2, rfl⟩ := (edgeLoop_iff hs.2 hl (by simp [Diagram.init]) (by simp [Diagram.init])).1 h2
    refine ⟨Cs, ys, b1, y1, ?_, rfl⟩
    intro j st f h3 h4
    obtain ⟨y, e1, e2⟩ := y2 j st f h3 h4
    obtain ⟨C, C', c1, c2, c3⟩ := (key _ _ _ _ _).1 e2
    exact ⟨y, C, C', e1, c1, c2, c3⟩
  · rintro ⟨Cs, Ms, b1, b2, b3, rfl⟩
    refine ⟨_, (nodeLoop_iff hs.1 (by simp [Diagram.init])).2 ⟨Cs, b1, rfl⟩, ?_⟩
    refine (edgeLoop_iff hs.2 hl (by simp [Diagram.init]) (by simp [Diagram.init])).2 ⟨Ms, b2, ?_, rfl⟩
    intro j st x h1 h2
    obtain ⟨M, C, C', m1, m2, m3, m4⟩ := b3 j st x h1 h2
    exact ⟨M, m1, (key _ _ _ _ _).2 ⟨C, C', m2, m3, m4⟩⟩

theorem forall2_exists {α β : Type} {R : α → β → Prop} : ∀ {l : List α}, (∀ a ∈ l, ∃ b, R a b) → ∃ m, List.Forall₂ R l m
  | [], _ => ⟨[], .nil⟩
  | a :: l, h => by
    obtain ⟨b, hb⟩ := h a (by simp)
    obtain ⟨m, hm⟩ := forall2_exists (l := l) (fun x hx => h x (by simp [hx]))
    exact ⟨b :: m, .cons hb hm⟩

theorem forall2_get {α β : Type} {R : α → β → Prop} {l : List α} {m : List β} (h : List.Forall₂ R l m) {i : Nat} {a : α} (ha : l[i]? = some a) :
    ∃ b, m[i]? = some b ∧ R a b := by
  have hlen := h.length_eq
  rw [List.forall₂_iff_get] at h
  obtain ⟨hi, rfl⟩ := List.getElem?_eq_some_iff.1 ha
  exact ⟨m[i], List.getElem?_eq_getElem _, h.2 i hi (by omega)⟩

/-- the reduced complexes of the nodes -/
theorem mkStd_nodes {D : Diagram (List (CMat F)) (List (CMat F))} (hn : ∀ B ∈ D.node, IsChainComplex B) :
    ∃ Cs, List.Forall₂ (fun B C => RedCpx.mkStd B = .ok C) D.node Cs :=
  forall2_exists (fun B hB => by obtain ⟨C, h, _⟩ := mkStd_spec (hn B hB); exact ⟨C, h⟩)

theorem mkStd_basis {B : List (CMat F)} (hB : IsChainComplex B) {C : RedCpx F} (h : RedCpx.mkStd B = .ok C) : BasisOK B C := by
  obtain ⟨C', h', hC⟩ := mkStd_spec hB
  rw [h] at h'; cases h'; exact hC

/-- the value of an edge computed from the reduced complexes of its ends exists if it exists for each edge -/
theorem edges_exist {E' : Type} {D : Diagram (List (CMat F)) (List (CMat F))} (hD : IsChainDiagram D) {Cs : List (RedCpx F)}
    (hC : List.Forall₂ (fun B C => RedCpx.mkStd B = .ok C) D.node Cs) {g : List (CMat F) → RedCpx F → RedCpx F → Res E'}
    (hg : ∀ B ∈ D.node, ∀ B' ∈ D.node, ∀ f C C', IsChainMap f B B' → RedCpx.mkStd B = .ok C → RedCpx.mkStd B' = .ok C' → ∃ y, g f C C' = .ok y) :
    ∃ Ms : List E', Ms.length = D.edata.length ∧
      (∀ (j : Nat) (st : Nat × Nat) (f : List (CMat F)), D.elist[j]? = some st → D.edata[j]? = some f →
        ∃ M C C', Ms[j]? = some M ∧ Cs[st.1]? = some C ∧ Cs[st.2]? = some C' ∧ g f C C' = .ok M) := by
  have hone : ∀ j, j < D.edata.length → ∃ M, ∃ st f C C', D.elist[j]? = some st ∧ D.edata[j]? = some f ∧ Cs[st.1]? = some C ∧ Cs[st.2]? = some C' ∧ g f C C' = .ok M := by
    intro j hj
    have h1 := List.getElem?_eq_getElem (l := D.elist) (i := j) (by have := hD.edges.len; omega)
    have h2 := List.getElem?_eq_getElem (l := D.edata) (i := j) hj
    obtain ⟨B, B', b1, b2, hf⟩ := hD.edges.edge j _ _ h1 h2
    obtain ⟨C, c1, c2⟩ := forall2_get hC b1
    obtain ⟨C', c1', c2'⟩ := forall2_get hC b2
    obtain ⟨y, hy⟩ := hg B (List.mem_of_getElem? b1) B' (List.mem_of_getElem? b2) _ C C' hf c2 c2'
    exact ⟨y, _, _, C, C', h1, h2, c1, c1', hy⟩
  obtain ⟨Ms, hM⟩ := forall2_exists (l := List.range D.edata.length) (R := fun j M => ∃ st f C C', D.elist[j]? = some st ∧ D.edata[j]? = some f ∧
    Cs[st.1]? = some C ∧ Cs[st.2]? = some C' ∧ g f C C' = .ok M) (fun j hj => hone j (List.mem_range.1 hj))
  refine ⟨Ms, by rw [← hM.length_eq, List.length_range], ?_⟩
  intro j st f h1 h2
  have hj : j < D.edata.length := (List.getElem?_eq_some_iff.1 h2).1
  obtain ⟨M, m1, st', f', C, C', m2, m3, m4, m5, m6⟩ := forall2_get hM (i := j) (a := j) (by rw [List.getElem?_range hj])
  rw [h1] at m2; cases m2
  rw [h2] at m3; cases m3
  exact ⟨M, C, C', m1, m4, m5, m6⟩

/-! ## Bases of the spaces of a decomposition as sums over finite sets -/

theorem mem_barsAt {bars : List QBar} {n : Nat} {i : Fin bars.length} : i ∈ barsAt bars n ↔ bars[i].start ≤ n ∧ n ≤ bars[i].stop := by
  have : i ∈ barsAt bars n ↔ bars[i].At n := by simp [barsAt]
  exact this

theorem alive_coords {bars : List QBar} {n d : Nat} {v : Fin bars.length → Fin d → F}
    (h : LinearIndependent F (fun i : {i : Fin bars.length // bars[i].At n} => v i.1) ∧
      Submodule.span F (Set.range fun i : {i : Fin bars.length // bars[i].At n} => v i.1) = ⊤) :
    (∀ x, ∃ c : Fin bars.length → F, ∑ i ∈ barsAt bars n, c i • v i = x) ∧
    ∀ c : Fin bars.length → F, ∑ i ∈ barsAt bars n, c i • v i = 0 → ∀ i ∈ barsAt bars n, c i = 0 := by
  have hset : ({i : Fin bars.length | bars[i].At n} : Set _) = ↑(barsAt bars n) := by
    ext i; simp [barsAt]
  constructor
  · intro x
    have hx : x ∈ Submodule.span F (v '' ↑(barsAt bars n)) := by
      rw [← hset]
      have : v '' {i : Fin bars.length | bars[i].At n} = Set.range fun i : {i : Fin bars.length // bars[i].At n} => v i.1 := by
        ext y
        constructor
        · rintro ⟨i, hi, rfl⟩; exact ⟨⟨i, hi⟩, rfl⟩
        · rintro ⟨i, rfl⟩; exact ⟨i.1, i.2, rfl⟩
      rw [this, h.2]; trivial
    rw [Submodule.mem_span_image_finset_iff_exists_fun] at hx
    obtain ⟨c, hc⟩ := hx
    refine ⟨fun i => if h : i ∈ barsAt bars n then c ⟨i, h⟩ else 0, ?_⟩
    rw [← hc, ← Finset.sum_coe_sort]
    apply Finset.sum_congr rfl
    intro i _
    congr 1
    exact dif_pos i.2
  · have h1 : LinearIndepOn F v {i : Fin bars.length | bars[i].At n} := h.1
    rw [hset, linearIndepOn_finset_iff] at h1
    exact h1

theorem coords_alive {bars : List QBar} {n d : Nat} {v : Fin bars.length → Fin d → F}
    (h1 : ∀ x, ∃ c : Fin bars.length → F, ∑ i ∈ barsAt bars n, c i • v i = x)
    (h2 : ∀ c : Fin bars.length → F, ∑ i ∈ barsAt bars n, c i • v i = 0 → ∀ i ∈ barsAt bars n, c i = 0) :
    LinearIndependent F (fun i : {i : Fin bars.length // bars[i].At n} => v i.1) ∧
      Submodule.span F (Set.range fun i : {i : Fin bars.length // bars[i].At n} => v i.1) = ⊤ := by
  have hset : ({i : Fin bars.length | bars[i].At n} : Set _) = ↑(barsAt bars n) := by
    ext i; simp [barsAt]
  constructor
  · have : LinearIndepOn F v {i : Fin bars.length | bars[i].At n} := by rw [hset, linearIndepOn_finset_iff]; exact h2
    exact this
  · rw [eq_top_iff]
    intro x _
    obtain ⟨c, rfl⟩ := h1 x
    apply Submodule.sum_mem
    intro i hi
    exact Submodule.smul_mem _ _ (Submodule.subset_span ⟨⟨i, mem_barsAt.1 hi⟩, rfl⟩)

/-! ## From the diagram of homology groups to homology -/

section
variable {D : Diagram (List (CMat F)) (List (CMat F))}

theorem cpx_get (D : Diagram (List (CMat F)) (List (CMat F))) {n : Nat} (h : n < D.node.length) : D.node[n]? = some (D.cpx n) := by
  unfold Diagram.cpx
  rw [List.getD_eq_getElem?_getD, List.getElem?_eq_getElem h]; rfl

/-- the reduced complex at node `n` -/
def redAt (Cs : List (RedCpx F)) (n : Nat) : RedCpx F := Cs.getD n default

theorem redAt_of {Cs : List (RedCpx F)} {n : Nat} {C : RedCpx F} (h : Cs[n]? = some C) : redAt Cs n = C := by
  unfold redAt
  rw [List.getD_eq_getElem?_getD, h]; rfl

/-- the matrices `Ms` on the edges represent the maps on `H_k` in the bases stored in `Cs` -/
structure HomData (D : Diagram (List (CMat F)) (List (CMat F))) (Cs : List (RedCpx F)) (k : Nat) (Ms : List (CMat F)) : Prop where
  len : Ms.length = D.edata.length
  basis : ∀ n, n < D.node.length → BasisOK (D.cpx n) (redAt Cs n)
  edge : ∀ (j : Nat) (st : Nat × Nat) (f : List (CMat F)), D.elist[j]? = some st → D.edata[j]? = some f →
    ∃ M, Ms[j]? = some M ∧ inducedMap f (redAt Cs st.1) (redAt Cs st.2) k = .ok M

theorem homData_of (hD : IsChainDiagram D) {Cs : List (RedCpx F)} (hC : List.Forall₂ (fun B C => RedCpx.mkStd B = .ok C) D.node Cs) {k : Nat}
    {Ms : List (CMat F)} (hlen : Ms.length = D.edata.length)
    (hM : ∀ (j : Nat) (st : Nat × Nat) (f : List (CMat F)), D.elist[j]? = some st → D.edata[j]? = some f →
        ∃ M C C', Ms[j]? = some M ∧ Cs[st.1]? = some C ∧ Cs[st.2]? = some C' ∧ inducedMap f C C' k = .ok M) : HomData D Cs k Ms := by
  refine ⟨hlen, ?_, ?_⟩
  · intro n hn
    obtain ⟨C, c1, c2⟩ := forall2_get hC (cpx_get D hn)
    rw [redAt_of c1]
    exact mkStd_basis (hD.node _ (List.mem_of_getElem? (cpx_get D hn))) c2
  · intro j st f h1 h2
    obtain ⟨M, C, C', m1, m2, m3, m4⟩ := hM j st f h1 h2
    exact ⟨M, m1, by rw [redAt_of m2, redAt_of m3]; exact m4⟩

/-- source and target of edge `n` of a line -/
theorem line_ends {N E : Type} {D : Diagram N E} (hl : D.IsLine) {n : Nat} (hn : n < D.edata.length) :
    D.elist[n]? = some (if D.leftArrow n then (n + 1, n) else (n, n + 1)) := by
  have hlen := hl.len
  have h := hl.ends n hn
  have e : D.elist[n]? = some (D.elist.getD n (0, 0)) := by
    rw [List.getD_eq_getElem?_getD, List.getElem?_eq_getElem (by omega)]; rfl
  rw [e]
  unfold Diagram.leftArrow
  rcases h with h | h <;> rw [h] <;> simp

theorem edata_get {N E : Type} (D : Diagram N (List E)) {n : Nat} (hn : n < D.edata.length) : D.edata[n]? = some (D.edata.getD n []) := by
  rw [List.getD_eq_getElem?_getD, List.getElem?_eq_getElem hn]; rfl

/-- the chain map on edge `n` of a line -/
theorem line_chainMap (hD : IsChainDiagram D) (hl : D.IsLine) {n : Nat} (hn : n < D.edata.length) :
    if D.leftArrow n then IsChainMap (D.edata.getD n []) (D.cpx (n + 1)) (D.cpx n) else IsChainMap (D.edata.getD n []) (D.cpx n) (D.cpx (n + 1)) := by
  obtain ⟨B, B', b1, b2, hf⟩ := hD.edges.edge n _ _ (line_ends hl hn) (edata_get D hn)
  have hnodes := hl.nodes
  by_cases hq : D.leftArrow n = true
  · rw [if_pos hq] at b1 b2 ⊢
    rw [cpx_get D (by omega)] at b1; cases b1
    rw [cpx_get D (by omega)] at b2; cases b2
    exact hf
  · rw [if_neg hq] at b1 b2 ⊢
    rw [cpx_get D (by omega)] at b1; cases b1
    rw [cpx_get D (by omega)] at b2; cases b2
    exact hf

theorem node_complex (hD : IsChainDiagram D) {n : Nat} (hn : n < D.node.length) : IsChainComplex (D.cpx n) :=
  hD.node _ (List.mem_of_getElem? (cpx_get D hn))

/-- the dimensions of the spaces of the diagram of homology groups -/
noncomputable def homDims (D : Diagram (List (CMat F)) (List (CMat F))) (k n : Nat) : Nat := bettiNumber (D.cpx n) k

/-- the diagram handed to the barcode computation -/
def homDgm (D : Diagram (List (CMat F)) (List (CMat F))) (Ms : List (CMat F)) : Dgm F := ⟨D.elist, Ms⟩

theorem line_matrix (hD : IsChainDiagram D) (hl : D.IsLine) {Cs : List (RedCpx F)} {k : Nat} {Ms : List (CMat F)} (hH : HomData D Cs k Ms)
    (hk : ∀ B ∈ D.node, k < B.length) {n : Nat} (hn : n < D.edata.length) {s t : Nat} (hs : s < D.node.length) (ht : t < D.node.length)
    (he : D.elist[n]? = some (s, t)) (hf : IsChainMap (D.edata.getD n []) (D.cpx s) (D.cpx t)) :
    (Quiver.edge (homDgm D Ms) n).Shape (homDims D k t) (homDims D k s) ∧
    ∀ (z : Fin (cdim (D.cpx s) k) → F) (c : Fin (homDims D k s) → F), z - ∑ g, c g • vecOf (cdim (D.cpx s) k) (gen (redAt Cs s) k g) ∈ boundaries (D.cpx s) k →
      cmap (D.edata.getD n []) (D.cpx s) (D.cpx t) k *ᵥ z - ∑ h, ((Quiver.edge (homDgm D Ms) n).mat (homDims D k t) (homDims D k s) *ᵥ c) h •
        vecOf (cdim (D.cpx t) k) (gen (redAt Cs t) k h) ∈ boundaries (D.cpx t) k := by
  obtain ⟨M, m1, m2⟩ := hH.edge n _ _ he (edata_get D hn)
  have hks := hk _ (List.mem_of_getElem? (cpx_get D hs))
  have hkt := hk _ (List.mem_of_getElem? (cpx_get D ht))
  obtain ⟨M', q1, q2, q3⟩ := inducedMap_spec (node_complex hD hs) (node_complex hD ht) (hH.basis s hs) (hH.basis t ht) hf hks hkt
  rw [show inducedMap (D.edata.getD n []) (redAt Cs s) (redAt Cs t) k = .ok M from m2] at q1
  cases q1
  have e : Quiver.edge (homDgm D Ms) n = M := by
    unfold Quiver.edge homDgm
    simp only
    rw [List.getD_eq_getElem?_getD, m1]; rfl
  rw [e]
  exact ⟨q2, fun z c hz => induced_class hf q3 hz⟩

/-- the diagram of homology groups is a zigzag of vector spaces -/
theorem hom_isZigzag (hD : IsChainDiagram D) (hl : D.IsLine) {Cs : List (RedCpx F)} {k : Nat} {Ms : List (CMat F)} (hH : HomData D Cs k Ms)
    (hk : ∀ B ∈ D.node, k < B.length) : Quiver.IsZigzag (homDgm D Ms) (homDims D k) := by
  have hlen := hH.len
  have hnodes := hl.nodes
  refine ⟨?_, ?_, ?_, ?_⟩
  · intro h
    have h' : Ms = [] := h
    apply hl.ne
    rw [h'] at hlen
    exact List.length_eq_zero_iff.1 hlen.symm
  · show D.elist.length = Ms.length
    rw [hlen, hl.len]
  · intro n hn
    exact hl.ends n (by rw [← hlen]; exact hn)
  · intro n hn
    have hn' : n < D.edata.length := by rw [← hlen]; exact hn
    have hc := line_chainMap hD hl hn'
    have he := line_ends hl hn'
    have hleft : Quiver.left (homDgm D Ms) n = D.leftArrow n := rfl
    rw [hleft]
    by_cases hq : D.leftArrow n = true
    · rw [if_pos hq] at hc he ⊢
      exact (line_matrix hD hl hH hk hn' (by omega) (by omega) he hc).1
    · rw [if_neg hq] at hc he ⊢
      exact (line_matrix hD hl hH hk hn' (by omega) (by omega) he hc).1

/-- an interval decomposition of the diagram of homology groups gives one of homology -/
theorem homology_decomposition (hD : IsChainDiagram D) (hl : D.IsLine) {Cs : List (RedCpx F)} {k : Nat} {Ms : List (CMat F)} (hH : HomData D Cs k Ms)
    (hk : ∀ B ∈ D.node, k < B.length) {bars : List QBar} (hb : Quiver.IsDecomposition (homDgm D Ms) (homDims D k) bars) :
    IsHomologyDecomposition D k bars := by
  have hlen := hH.len
  have hnodes := hl.nodes
  have hlen' : (homDgm D Ms).edata.length = D.edata.length := hlen
  obtain ⟨hb1, v, hv1, hv2⟩ := hb
  rw [hlen'] at hb1 hv1 hv2
  refine ⟨hb1, fun n i => ∑ g, v n i g • vecOf (cdim (D.cpx n) k) (gen (redAt Cs n) k g), ?_, ?_⟩
  · intro n hn
    have hn' : n < D.node.length := by omega
    have hkn := hk _ (List.mem_of_getElem? (cpx_get D hn'))
    obtain ⟨g1, g2⟩ := (hH.basis n hn').gen_unique (node_complex hD hn') hkn
    obtain ⟨a1, a2⟩ := alive_coords (hv1 n hn)
    have hsum : ∀ c : Fin bars.length → F, ∑ i ∈ barsAt bars n, c i • ∑ g, v n i g • vecOf (cdim (D.cpx n) k) (gen (redAt Cs n) k g) =
        ∑ g, (∑ i ∈ barsAt bars n, c i • v n i) g • vecOf (cdim (D.cpx n) k) (gen (redAt Cs n) k g) := by
      intro c
      simp only [Finset.smul_sum, smul_smul, Finset.sum_apply, Pi.smul_apply, smul_eq_mul, Finset.sum_smul]
      rw [Finset.sum_comm]
    refine ⟨?_, ?_, ?_⟩
    · intro i _
      exact Submodule.sum_mem _ (fun g _ => Submodule.smul_mem _ _ (g1 g).2.2)
    · intro y hy
      obtain ⟨c, hc, _⟩ := g2 y hy
      obtain ⟨c', hc'⟩ := a1 c
      refine ⟨c', ?_⟩
      rw [hsum, hc']; exact hc
    · intro c hc
      rw [hsum] at hc
      apply a2
      have h0 : (0 : Fin (cdim (D.cpx n) k) → F) ∈ cycles (D.cpx n) k := Submodule.zero_mem _
      refine (g2 0 h0).unique ?_ ?_
      · rw [zero_sub]; exact Submodule.neg_mem _ hc
      · have e0 : ∑ g : Fin (bettiNumber (D.cpx n) k), (0 : F) • vecOf (cdim (D.cpx n) k) (gen (redAt Cs n) k g) = 0 :=
          Finset.sum_eq_zero (fun g _ => zero_smul F _)
        show 0 - ∑ g : Fin (bettiNumber (D.cpx n) k), (0 : F) • vecOf (cdim (D.cpx n) k) (gen (redAt Cs n) k g) ∈ _
        rw [e0, sub_zero]; exact Submodule.zero_mem _
  · intro n hn i
    have hc := line_chainMap hD hl hn
    have he := line_ends hl hn
    have hleft : Quiver.left (homDgm D Ms) n = D.leftArrow n := rfl
    have hvn := hv2 n hn i
    rw [hleft] at hvn
    have hmem : ∀ m, i ∈ barsAt bars m ↔ bars[i].At m := by intro m; simp [barsAt]
    by_cases hq : D.leftArrow n = true
    · rw [if_pos hq] at hc he hvn ⊢
      intro hi
      have e := hvn ((hmem _).1 hi)
      have := (line_matrix hD hl hH hk hn (by omega) (by omega) he hc).2 (∑ g, v (n + 1) i g • vecOf (cdim (D.cpx (n + 1)) k) (gen (redAt Cs (n + 1)) k g))
        (v (n + 1) i) (by rw [sub_self]; exact Submodule.zero_mem _)
      rw [e] at this
      by_cases hi' : bars[i].At n
      · rw [if_pos hi'] at this; rw [if_pos ((hmem n).2 hi')]; exact this
      · rw [if_neg hi'] at this; rw [if_neg (fun h => hi' ((hmem n).1 h))]; simpa using this
    · rw [if_neg hq] at hc he hvn ⊢
      intro hi
      have e := hvn ((hmem _).1 hi)
      have := (line_matrix hD hl hH hk hn (by omega) (by omega) he hc).2 (∑ g, v n i g • vecOf (cdim (D.cpx n) k) (gen (redAt Cs n) k g))
        (v n i) (by rw [sub_self]; exact Submodule.zero_mem _)
      rw [e] at this
      by_cases hi' : bars[i].At (n + 1)
      · rw [if_pos hi'] at this; rw [if_pos ((hmem _).2 hi')]; exact this
      · rw [if_neg hi'] at this; rw [if_neg (fun h => hi' ((hmem _).1 h))]; simpa using this

/-- conversely, a decomposition of homology gives one of the diagram of homology groups -/
theorem decomposition_of_homology (hD : IsChainDiagram D) (hl : D.IsLine) {Cs : List (RedCpx F)} {k : Nat} {Ms : List (CMat F)} (hH : HomData D Cs k Ms)
    (hk : ∀ B ∈ D.node, k < B.length) {bars : List QBar} (hb : IsHomologyDecomposition D k bars) :
    Quiver.IsDecomposition (homDgm D Ms) (homDims D k) bars := by
  classical
  have hnodes := hl.nodes
  have hlen' : (homDgm D Ms).edata.length = D.edata.length := hH.len
  obtain ⟨hb1, z, hz1, hz2⟩ := hb
  have hgen : ∀ n, n ≤ D.edata.length → _ := fun n (hn : n ≤ D.edata.length) =>
    (hH.basis n (show n < D.node.length by omega)).gen_unique (node_complex hD (show n < D.node.length by omega))
      (hk _ (List.mem_of_getElem? (cpx_get D (show n < D.node.length by omega))))
  have hex : ∀ n (i : Fin bars.length), ∃ c : Fin (homDims D k n) → F, n ≤ D.edata.length → i ∈ barsAt bars n →
      z n i - ∑ g, c g • vecOf (cdim (D.cpx n) k) (gen (redAt Cs n) k g) ∈ boundaries (D.cpx n) k := by
    intro n i
    by_cases h : n ≤ D.edata.length ∧ i ∈ barsAt bars n
    · obtain ⟨c, hc, _⟩ := (hgen n h.1).2 (z n i) ((hz1 n h.1).1 i h.2)
      exact ⟨c, fun _ _ => hc⟩
    · exact ⟨fun _ => 0, fun h1 h2 => absurd ⟨h1, h2⟩ h⟩
  choose v hv using hex
  have huniq : ∀ n, n ≤ D.edata.length → ∀ x y : Fin (homDims D k n) → F,
      ∑ g, x g • vecOf (cdim (D.cpx n) k) (gen (redAt Cs n) k g) - ∑ g, y g • vecOf (cdim (D.cpx n) k) (gen (redAt Cs n) k g) ∈ boundaries (D.cpx n) k → x = y := by
    intro n hn x y hxy
    have hc : ∑ g, x g • vecOf (cdim (D.cpx n) k) (gen (redAt Cs n) k g) ∈ cycles (D.cpx n) k :=
      Submodule.sum_mem _ (fun g _ => Submodule.smul_mem _ _ ((hgen n hn).1 g).2.2)
    have h0 : ∀ w : Fin (cdim (D.cpx n) k) → F, w - w ∈ boundaries (D.cpx n) k := fun w => by rw [sub_self]; exact Submodule.zero_mem _
    exact ((hgen n hn).2 _ hc).unique (h0 _) hxy
  have hsum : ∀ n, n ≤ D.edata.length → ∀ c : Fin bars.length → F, ∑ i ∈ barsAt bars n, c i • z n i -
      ∑ g, (∑ i ∈ barsAt bars n, c i • v n i) g • vecOf (cdim (D.cpx n) k) (gen (redAt Cs n) k g) ∈ boundaries (D.cpx n) k := by
    intro n hn c
    have e : ∑ g, (∑ i ∈ barsAt bars n, c i • v n i) g • vecOf (cdim (D.cpx n) k) (gen (redAt Cs n) k g) =
        ∑ i ∈ barsAt bars n, c i • ∑ g, v n i g • vecOf (cdim (D.cpx n) k) (gen (redAt Cs n) k g) := by
      simp only [Finset.smul_sum, smul_smul, Finset.sum_apply, Pi.smul_apply, smul_eq_mul, Finset.sum_smul]
      rw [Finset.sum_comm]
    rw [e, ← Finset.sum_sub_distrib]
    apply Submodule.sum_mem
    intro i hi
    rw [← smul_sub]
    exact Submodule.smul_mem _ _ (hv n i hn hi)
  have hzero : ∀ n, ∑ g, (0 : Fin (homDims D k n) → F) g • vecOf (cdim (D.cpx n) k) (gen (redAt Cs n) k g) = 0 :=
    fun n => Finset.sum_eq_zero (fun g _ => zero_smul F _)
  refine ⟨by rw [hlen']; exact hb1, v, ?_, ?_⟩
  · rw [hlen']
    intro n hn
    obtain ⟨q1, q2, q3⟩ := hz1 n hn
    apply coords_alive
    · intro x
      have hc : ∑ g, x g • vecOf (cdim (D.cpx n) k) (gen (redAt Cs n) k g) ∈ cycles (D.cpx n) k :=
        Submodule.sum_mem _ (fun g _ => Submodule.smul_mem _ _ ((hgen n hn).1 g).2.2)
      obtain ⟨c, hc⟩ := q2 _ hc
      refine ⟨c, (huniq n hn _ _ ?_).symm⟩
      have := Submodule.add_mem _ hc (hsum n hn c)
      rwa [sub_add_sub_cancel] at this
    · intro c hc
      apply q3
      have := hsum n hn c
      rw [hc, hzero, sub_zero] at this
      exact this
  · rw [hlen']
    intro n hn i
    have hc := line_chainMap hD hl hn
    have he := line_ends hl hn
    have hleft : Quiver.left (homDgm D Ms) n = D.leftArrow n := rfl
    have hzn := hz2 n hn i
    rw [hleft]
    by_cases hq : D.leftArrow n = true
    · rw [if_pos hq] at hc he hzn ⊢
      intro hi
      have hi' := mem_barsAt.2 hi
      have h1 := (line_matrix hD hl hH hk hn (by omega) (by omega) he hc).2 _ _ (hv (n + 1) i (by omega) hi')
      have h2 := hzn hi'
      apply huniq n (by omega)
      have h3 := Submodule.sub_mem _ h2 h1
      by_cases ha : i ∈ barsAt bars n
      · rw [if_pos ha] at h3
        rw [if_pos (show bars[i].At n from mem_barsAt.1 ha)]
        have := Submodule.add_mem _ h3 (hv n i (by omega) ha)
        rwa [sub_sub_sub_cancel_left, sub_add_sub_cancel] at this
      · rw [if_neg ha, sub_zero] at h3
        rw [if_neg (show ¬ bars[i].At n from fun h => ha (mem_barsAt.2 h)), hzero, sub_zero]
        rwa [sub_sub_cancel] at h3
    · rw [if_neg hq] at hc he hzn ⊢
      intro hi
      have hi' := mem_barsAt.2 hi
      have h1 := (line_matrix hD hl hH hk hn (by omega) (by omega) he hc).2 _ _ (hv n i (by omega) hi')
      have h2 := hzn hi'
      apply huniq (n + 1) (by omega)
      have h3 := Submodule.sub_mem _ h2 h1
      by_cases ha : i ∈ barsAt bars (n + 1)
      · rw [if_pos ha] at h3
        rw [if_pos (show bars[i].At (n + 1) from mem_barsAt.1 ha)]
        have := Submodule.add_mem _ h3 (hv (n + 1) i (by omega) ha)
        rwa [sub_sub_sub_cancel_left, sub_add_sub_cancel] at this
      · rw [if_neg ha, sub_zero] at h3
        rw [if_neg (show ¬ bars[i].At (n + 1) from fun h => ha (mem_barsAt.2 h)), hzero, sub_zero]
        rwa [sub_sub_cancel] at h3

/-! ## Counting bars -/

/-- a family of chains whose classes are independent modulo `Bd`, and which span `Z` modulo `Bd`: its size is the dimension of the image of `Z` -/
theorem finrank_classes {V ι : Type} [AddCommGroup V] [Module F V] [FiniteDimensional F V] (Bd : Submodule F V) {W : Submodule F (V ⧸ Bd)} (s : Finset ι)
    (z : ι → V) (h1 : ∀ c : ι → F, ∑ i ∈ s, c i • z i ∈ Bd → ∀ i ∈ s, c i = 0) (h2 : W = Submodule.span F ((fun i => Bd.mkQ (z i)) '' ↑s)) :
    Module.finrank F W = s.card := by
  have hli : LinearIndepOn F (fun i => Bd.mkQ (z i)) (s : Set ι) := by
    rw [linearIndepOn_finset_iff]
    intro c hc
    apply h1
    rw [← Submodule.Quotient.mk_eq_zero, ← Submodule.mkQ_apply, map_sum, ← hc]
    simp
  rw [h2]
  have : (fun i => Bd.mkQ (z i)) '' ↑s = Set.range (fun i : (s : Set ι) => Bd.mkQ (z i)) := by
    ext y
    constructor
    · rintro ⟨i, hi, rfl⟩; exact ⟨⟨i, hi⟩, rfl⟩
    · rintro ⟨i, rfl⟩; exact ⟨i.1, i.2, rfl⟩
  rw [this, finrank_span_eq_card hli]
  simp

/-- the bars alive at two nodes -/
def barsAt2 (bars : List QBar) (b e : Nat) : Finset (Fin bars.length) := barsAt bars b ∩ barsAt bars e

theorem card_barsAt2 (bars : List QBar) {b e : Nat} (h : b ≤ e) :
    (barsAt2 bars b e).card = (bars.filter (fun q => decide (q.start ≤ b ∧ e ≤ q.stop))).length := by
  have : barsAt2 bars b e = Finset.univ.filter (fun i : Fin bars.length => decide (bars[i].start ≤ b ∧ e ≤ bars[i].stop) = true) := by
    ext i
    rw [barsAt2, Finset.mem_inter, mem_barsAt, mem_barsAt, Finset.mem_filter, decide_eq_true_eq]
    simp only [Finset.mem_univ, true_and]
    constructor
    · rintro ⟨h1, h2⟩; exact ⟨h1.1, h2.2⟩
    · rintro ⟨h1, h2⟩; exact ⟨⟨h1, by omega⟩, by omega, h2⟩
  rw [this]
  rw [← List.countP_eq_length_filter]
  have hc : ∀ (l : List QBar) (p : QBar → Bool), (Finset.univ.filter (fun i : Fin l.length => p l[i] = true)).card = l.countP p := by
    intro l p
    induction l with
    | nil => simp
    | cons a l ih =>
      rw [List.countP_cons, ← ih]
      refine (Fin.card_filter_univ_succ' (fun i : Fin (l.length + 1) => p (a :: l)[i] = true)).trans ?_
      rw [add_comm]
      rfl
  exact hc bars (fun q => decide (q.start ≤ b ∧ e ≤ q.stop))

theorem composite_bars (hD : IsChainDiagram D) (hl : D.IsLine) {k : Nat} {bars : List QBar}
    {z : (n : Nat) → Fin bars.length → (Fin (cdim (D.cpx n) k) → F)}
    (hz : ∀ n, n < D.edata.length → ∀ i : Fin bars.length,
      if D.leftArrow n then i ∈ barsAt bars (n + 1) →
        cmap (D.edata.getD n []) (D.cpx (n + 1)) (D.cpx n) k *ᵥ z (n + 1) i - (if i ∈ barsAt bars n then z n i else 0) ∈ boundaries (D.cpx n) k
      else i ∈ barsAt bars n →
        cmap (D.edata.getD n []) (D.cpx n) (D.cpx (n + 1)) k *ᵥ z n i - (if i ∈ barsAt bars (n + 1) then z (n + 1) i else 0) ∈ boundaries (D.cpx (n + 1)) k)
    (b : Nat) : ∀ n, b + n ≤ D.edata.length → (∀ j, b ≤ j → j < b + n → D.leftArrow j = false) → 
      (∀ y ∈ boundaries (D.cpx b) k, chainComposite D k b n y ∈ boundaries (D.cpx (b + n)) k) ∧ ∀ i ∈ barsAt bars b,
      chainComposite D k b n (z b i) - (if i ∈ barsAt bars (b + n) then z (b + n) i else 0) ∈ boundaries (D.cpx (b + n)) k := by
  intro n
  induction n with
  | zero =>
    intro _ _
    refine ⟨fun y hy => hy, ?_⟩
    intro i hi
    rw [show (if i ∈ barsAt bars (b + 0) then z (b + 0) i else 0) = z b i from if_pos hi]
    show z b i - z b i ∈ _
    rw [sub_self]; exact Submodule.zero_mem _
  | succ n ih =>
    intro hn hr
    obtain ⟨ih1, ih2⟩ := ih (by omega) (fun j h1 h2 => hr j h1 (by omega))
    have hc := line_chainMap hD hl (show b + n < D.edata.length by omega)
    rw [if_neg (by rw [hr (b + n) (by omega) (by omega)]; simp)] at hc
    have hzn := hz (b + n) (by omega)
    refine ⟨?_, ?_⟩
    · intro y hy
      exact hc.boundaries k (ih1 y hy)
    · intro i hi
      have h1 := hc.boundaries k (ih2 i hi)
      rw [mulVec_sub] at h1
      have hzi := hzn i
      rw [if_neg (by rw [hr (b + n) (by omega) (by omega)]; simp)] at hzi
      show cmap (D.edata.getD (b + n) []) (D.cpx (b + n)) (D.cpx (b + n + 1)) k *ᵥ chainComposite D k b n (z b i) -
        (if i ∈ barsAt bars (b + n + 1) then z (b + n + 1) i else 0) ∈ boundaries (D.cpx (b + n + 1)) k
      by_cases ha : i ∈ barsAt bars (b + n)
      · rw [if_pos ha] at h1
        have := Submodule.add_mem _ h1 (hzi ha)
        rwa [sub_add_sub_cancel] at this
      · rw [if_neg ha, mulVec_zero, sub_zero] at h1
        rw [if_neg, sub_zero]
        · exact h1
        · intro h2
          apply ha
          rw [mem_barsAt] at hi h2 ⊢
          omega

/-- the rank of the map on homology between two nodes is the number of bars alive at both -/
theorem IsHomologyDecomposition.rank (hD : IsChainDiagram D) (hl : D.IsLine) {k : Nat} {bars : List QBar} (h : IsHomologyDecomposition D k bars)
    {b n : Nat} (hn : b + n ≤ D.edata.length) (hr : ∀ j, b ≤ j → j < b + n → D.leftArrow j = false) :
    homologyRank D k b n = (bars.filter (fun q => decide (q.start ≤ b ∧ b + n ≤ q.stop))).length := by
  obtain ⟨_, z, hz1, hz2⟩ := h
  obtain ⟨c1, c2⟩ := composite_bars hD hl hz2 b n hn hr
  obtain ⟨a1, a2, a3⟩ := hz1 b (by omega)
  obtain ⟨_, _, e3⟩ := hz1 (b + n) hn
  rw [← card_barsAt2 bars (by omega : b ≤ b + n)]
  unfold homologyRank
  have hmk : ∀ i ∈ barsAt bars b, (boundaries (D.cpx (b + n)) k).mkQ (chainComposite D k b n (z b i)) =
      if i ∈ barsAt bars (b + n) then (boundaries (D.cpx (b + n)) k).mkQ (z (b + n) i) else 0 := by
    intro i hi
    have := c2 i hi
    rw [← Submodule.Quotient.mk_eq_zero, ← Submodule.mkQ_apply, map_sub, sub_eq_zero] at this
    rw [this]
    split
    · rfl
    · exact map_zero _
  refine finrank_classes (boundaries (D.cpx (b + n)) k) (barsAt2 bars b (b + n)) (z (b + n)) ?_ ?_
  · intro c hc i hi
    have h2 := e3 (fun i => if i ∈ barsAt bars b then c i else 0) (by
      rw [Finset.sum_congr rfl (g := fun i => if i ∈ barsAt bars b then c i • z (b + n) i else 0)]
      · rw [← Finset.sum_filter, Finset.filter_mem_eq_inter, Finset.inter_comm]; exact hc
      · intro i _
        split <;> simp)
    have hi' : i ∈ barsAt bars b ∧ i ∈ barsAt bars (b + n) := Finset.mem_inter.1 hi
    have := h2 i hi'.2
    rwa [if_pos hi'.1] at this
  · apply le_antisymm
    · rintro _ ⟨_, ⟨y, hy, rfl⟩, rfl⟩
      obtain ⟨c, hc⟩ := a2 y hy
      have h3 := c1 _ hc
      rw [map_sub, ← Submodule.Quotient.mk_eq_zero, ← Submodule.mkQ_apply, map_sub, sub_eq_zero] at h3
      rw [h3, map_sum, map_sum]
      apply Submodule.sum_mem
      intro i hi
      rw [map_smul, map_smul, hmk i hi]
      apply Submodule.smul_mem
      split
      · exact Submodule.subset_span ⟨i, Finset.mem_coe.2 (Finset.mem_inter.2 ⟨hi, by assumption⟩), rfl⟩
      · exact Submodule.zero_mem _
    · rw [Submodule.span_le]
      rintro _ ⟨i, hi, rfl⟩
      have hi' : i ∈ barsAt bars b ∧ i ∈ barsAt bars (b + n) := Finset.mem_inter.1 hi
      refine ⟨_, ⟨z b i, a1 i hi'.1, rfl⟩, ?_⟩
      rw [hmk i hi'.1, if_pos hi'.2]

/-- the number of bars alive at a node is the Betti number of the complex there -/
theorem IsHomologyDecomposition.betti (hD : IsChainDiagram D) (hl : D.IsLine) {k : Nat} {bars : List QBar} (h : IsHomologyDecomposition D k bars)
    {n : Nat} (hn : n ≤ D.edata.length) : (bars.filter (fun q => decide (q.start ≤ n ∧ n ≤ q.stop))).length = bettiNumber (D.cpx n) k := by
  have := h.rank hD hl (b := n) (n := 0) hn (fun j h1 h2 => by omega)
  have h0 : homologyRank D k n 0 = bettiNumber (D.cpx n) k := by
    unfold homologyRank bettiNumber Homology
    have hle := boundaries_le_cycles (node_complex hD (show n < D.node.length by have := hl.nodes; omega)) k
    have e : (cycles (D.cpx n) k).map (chainComposite D k n 0) = cycles (D.cpx n) k := by
      show (cycles (D.cpx n) k).map LinearMap.id = _
      exact Submodule.map_id _
    have h1 := finrank_quot hle
    show Module.finrank F (((cycles (D.cpx n) k).map (chainComposite D k n 0)).map (boundaries (D.cpx n) k).mkQ) = _
    rw [e]
    have h2 := finrank_map_add (boundaries (D.cpx n) k).mkQ (cycles (D.cpx n) k)
    rw [Submodule.ker_mkQ, inf_eq_right.2 hle] at h2
    omega
  rw [← h0, this]
  rfl

end

end BATS
