import Verif.Proofs.RipsDiagram
import Verif.Props.Sorted

set_option linter.unusedSectionVars false
set_option linter.unusedVariables false
set_option linter.unusedSimpArgs false

/-! # Zigzags of subsets: unions, intersections, and the loops of zigzag_zoo.hpp -/

namespace BATS
namespace Zoo
open Srt SCpx Reduction Nrv BATS.Flag

section diagram
variable {N E : Type}

theorem hasEdges_addNode {D : Diagram N E} {P : N → N → E → Prop} (h : D.HasEdges P) (a : N) : (D.addNode a).1.HasEdges P := by
  refine ⟨h.len, ?_⟩
  intro j st f e1 e2
  obtain ⟨X, Y, x, y, p⟩ := h.edge j st f e1 e2
  have hx := (List.getElem?_eq_some_iff.1 x).1
  have hy := (List.getElem?_eq_some_iff.1 y).1
  refine ⟨X, Y, ?_, ?_, p⟩
  · show (D.node ++ [a])[st.1]? = _
    rw [List.getElem?_append_left hx, x]
  · show (D.node ++ [a])[st.2]? = _
    rw [List.getElem?_append_left hy, y]

theorem hasEdges_addEdge {D : Diagram N E} {P : N → N → E → Prop} (h : D.HasEdges P) {s t : Nat} {f : E} {X Y : N} (hX : D.node[s]? = some X) (hY : D.node[t]? = some Y)
    (hf : P X Y f) : (D.addEdge s t f).1.HasEdges P := by
  refine ⟨by show (D.elist ++ [(s, t)]).length = (D.edata ++ [f]).length; simp [h.len], ?_⟩
  intro j st g e1 e2
  have e1 : (D.elist ++ [(s, t)])[j]? = some st := e1
  have e2 : (D.edata ++ [f])[j]? = some g := e2
  have hl := h.len
  by_cases hj : j < D.edata.length
  · rw [List.getElem?_append_left (by omega)] at e1
    rw [List.getElem?_append_left hj] at e2
    exact h.edge j st g e1 e2
  · have hj2 := (List.getElem?_eq_some_iff.1 e2).1
    simp at hj2
    have : j = D.edata.length := by omega
    subst this
    rw [List.getElem?_append_right (by omega), hl] at e1
    rw [List.getElem?_append_right (by omega)] at e2
    simp at e1 e2
    subst e1; subst e2
    exact ⟨X, Y, hX, hY, hf⟩

theorem line_of_zigzag {D : Diagram N E} {m : Nat} (hm : 2 ≤ m) (h : IsZigzagShape m D) (hl : D.elist.length = D.edata.length) : D.IsLine := by
  have h1 := h.nodes
  have h2 := h.len
  refine ⟨?_, by omega, hl, ?_⟩
  · intro e
    rw [e] at hl; simp at hl; rw [hl] at h2; simp at h2; omega
  · intro k hk
    rcases Nat.even_or_odd' k with ⟨i, rfl | rfl⟩
    · right; rw [List.getD_eq_getElem?_getD, h.right i (by omega)]; rfl
    · left; rw [List.getD_eq_getElem?_getD, h.left i (by omega)]; rfl

end diagram

/-- the state of the loop of `linear_subset_union_diagram` before set `i` -/
structure UInv (cs : List (List Nat)) (i : Nat) (D : Diagram (List Nat) (List Nat)) : Prop where
  nodes : D.node.length = 2 * i
  even : ∀ j, j < i → D.node[2 * j]? = cs[j]?
  odd : ∀ j, j < i → ∃ a b, cs[j]? = some a ∧ cs[j + 1]? = some b ∧ D.node[2 * j + 1]? = some (setUnion a b)
  len : D.elist.length = 2 * i - 1
  right : ∀ j, j < i → D.elist[2 * j]? = some (2 * j, 2 * j + 1)
  left : ∀ j, j + 1 < i → D.elist[2 * j + 1]? = some (2 * j + 2, 2 * j + 1)
  edges : D.HasEdges IsInclusionMap

theorem app_get {α : Type} {l : List α} {x : α} {i : Nat} (h : i = l.length) : (l ++ [x])[i]? = some x := by
  subst h; rw [List.getElem?_append_right (Nat.le_refl _)]; simp

theorem app_left {α : Type} {l : List α} {x y : α} {i : Nat} (h : l[i]? = some y) : (l ++ [x])[i]? = some y := by
  rw [List.getElem?_append_left (List.getElem?_eq_some_iff.1 h).1, h]

/-- adding the set `c` and the edge back from it -/
theorem union_back {cs : List (List Nat)} (hc : ∀ c ∈ cs, c.Pairwise (· < ·)) {i : Nat} {D : Diagram (List Nat) (List Nat)} (h : UInv cs i D) {c : List Nat} (hi : cs[i]? = some c) :
    ∃ D2 : Diagram (List Nat) (List Nat), unionBack c i D = .ok D2 ∧ D2.node = D.node ++ [c] ∧ D2.elist.length = 2 * i ∧ (∀ j, j < i → D2.elist[2 * j]? = some (2 * j, 2 * j + 1)) ∧
        (∀ j, j < i → D2.elist[2 * j + 1]? = some (2 * j + 2, 2 * j + 1)) ∧ D2.edata.length = 2 * i ∧ D2.HasEdges IsInclusionMap := by
  have hel := h.edges.len
  have hln := h.nodes
  have hle := h.len
  unfold unionBack
  by_cases h0 : 0 < i
  · rw [if_pos h0]
    obtain ⟨a, b, ha, hb, hn⟩ := h.odd (i - 1) (by omega)
    rw [show i - 1 + 1 = i from by omega, hi] at hb
    cases hb
    have hU := C27_set_union a c
    obtain ⟨f, f1, f2⟩ := vertexInclusionMap_ok (hc c (List.mem_of_getElem? hi)) hU.1 (fun x hx => (hU.2 x).2 (Or.inr hx))
    have r1 : (D.node ++ [c])[D.node.length]? = some c := app_get rfl
    have r2 : (D.node ++ [c])[D.node.length - 1]? = some (setUnion a c) := by
      apply app_left
      rw [hln, show 2 * i - 1 = 2 * (i - 1) + 1 from by omega]; exact hn
    refine ⟨((D.addNode c).1.addEdge D.node.length (D.node.length - 1) f).1, ?_, rfl, ?_, ?_, ?_, ?_, ?_⟩
    · show (do
        let s ← rd (D.node ++ [c]) D.node.length
        let t ← rd (D.node ++ [c]) (D.node.length - 1)
        let f ← vertexInclusionMap s t
        pure ((D.addNode c).1.addEdge D.node.length (D.node.length - 1) f).1) = _
      rw [rd_some r1, bind_ok, rd_some r2, bind_ok, f1, bind_ok]; rfl
    · show (D.elist ++ [(D.node.length, D.node.length - 1)]).length = _
      simp; omega
    · intro j hj
      exact app_left (h.right j hj)
    · intro j hj
      by_cases hj' : j + 1 < i
      · exact app_left (h.left j hj')
      · show (D.elist ++ [(D.node.length, D.node.length - 1)])[2 * j + 1]? = _
        rw [app_get (by omega), hln]
        congr 2 <;> omega
    · show (D.edata ++ [f]).length = _
      simp; omega
    · exact hasEdges_addEdge (hasEdges_addNode h.edges c) r1 r2 f2
  · rw [if_neg h0]
    have h0 : i = 0 := by omega
    subst h0
    exact ⟨(D.addNode c).1, rfl, rfl, by show D.elist.length = _; omega, fun j hj => by omega, fun j hj => by omega, by show D.edata.length = _; omega, hasEdges_addNode h.edges c⟩

theorem unionLoop_spec {cs : List (List Nat)} (hc : ∀ c ∈ cs, c.Pairwise (· < ·)) : ∀ (rest : List (List Nat)) (i : Nat) (D : Diagram (List Nat) (List Nat)), rest ≠ [] →
    cs.drop i = rest → UInv cs i D → ∃ D', unionLoop rest i D = .ok D' ∧ IsZigzagShape cs.length D' ∧ D'.HasEdges IsInclusionMap ∧ (∀ j, j < cs.length → D'.node[2 * j]? = cs[j]?) ∧
      ∀ j, j + 1 < cs.length → ∃ a b, cs[j]? = some a ∧ cs[j + 1]? = some b ∧ D'.node[2 * j + 1]? = some (setUnion a b) := by
  intro rest
  induction rest with
  | nil => intro i D h; exact absurd rfl h
  | cons c rest ih =>
    intro i D _ hd hI
    have hi : cs[i]? = some c := by
      have := congrArg (fun l => l[0]?) hd
      simpa using this
    have hil := (List.getElem?_eq_some_iff.1 hi).1
    have hlen : cs.length = i + (rest.length + 1) := by
      have := congrArg List.length hd
      simp at this; omega
    obtain ⟨D2, e0, e1, e2, e3, e4, e5, e6⟩ := union_back hc hI hi
    have hln := hI.nodes
    have heven : ∀ j, j < i + 1 → D2.node[2 * j]? = cs[j]? := by
      intro j hj
      rw [e1]
      by_cases hj' : j < i
      · rw [List.getElem?_append_left (by omega)]; exact hI.even j hj'
      · have : j = i := by omega
        subst this
        rw [app_get (by omega), hi]
    have hodd : ∀ j, j < i → ∃ a b, cs[j]? = some a ∧ cs[j + 1]? = some b ∧ D2.node[2 * j + 1]? = some (setUnion a b) := by
      intro j hj
      obtain ⟨a, b, q1, q2, q3⟩ := hI.odd j hj
      exact ⟨a, b, q1, q2, by rw [e1]; exact app_left q3⟩
    cases rest with
    | nil =>
      refine ⟨D2, ?_, ⟨?_, ?_, ?_, ?_⟩, e6, ?_, ?_⟩
      · rw [unionLoop]
        rw [e0, bind_ok]
      · rw [e1]; simp; simp at hlen; omega
      · simp at hlen; omega
      · intro j hj; simp at hlen; exact e3 j (by omega)
      · intro j hj; simp at hlen; exact e4 j (by omega)
      · intro j hj; simp at hlen; exact heven j (by omega)
      · intro j hj; simp at hlen; exact hodd j (by omega)
    | cons c' rest =>
      have hi' : cs[i + 1]? = some c' := by
        have := congrArg (fun l => l[1]?) hd
        simpa using this
      have hU := C27_set_union c c'
      obtain ⟨f, f1, f2⟩ := vertexInclusionMap_ok (hc c (List.mem_of_getElem? hi)) hU.1 (fun x hx => (hU.2 x).2 (Or.inl hx))
      have r1 : (D2.node ++ [setUnion c c'])[D.node.length]? = some c := by
        apply app_left; rw [e1]; exact app_get rfl
      have r2 : (D2.node ++ [setUnion c c'])[D2.node.length]? = some (setUnion c c') := app_get rfl
      obtain ⟨D', d1, d2⟩ := ih (i + 1) ((D2.addNode (setUnion c c')).1.addEdge D.node.length D2.node.length f).1 (by simp) (by
        rw [← List.drop_drop, hd]; simp) (by
        refine ⟨?_, ?_, ?_, ?_, ?_, ?_, ?_⟩
        · show (D2.node ++ [setUnion c c']).length = _
          rw [e1]; simp; omega
        · intro j hj
          show (D2.node ++ [setUnion c c'])[2 * j]? = _
          rw [List.getElem?_append_left (by rw [e1]; simp; omega)]
          exact heven j hj
        · intro j hj
          by_cases hj' : j < i
          · obtain ⟨a, b, q1, q2, q3⟩ := hodd j hj'
            exact ⟨a, b, q1, q2, app_left q3⟩
          · have : j = i := by omega
            subst this
            exact ⟨c, c', hi, hi', app_get (by rw [e1]; simp; omega)⟩
        · show (D2.elist ++ [(D.node.length, D2.node.length)]).length = _
          simp; omega
        · intro j hj
          by_cases hj' : j < i
          · exact app_left (e3 j hj')
          · have : j = i := by omega
            subst this
            show (D2.elist ++ [(D.node.length, D2.node.length)])[2 * j]? = _
            rw [app_get (by omega), e1, hln]
            simp; omega
        · intro j hj
          exact app_left (e4 j (by omega))
        · exact hasEdges_addEdge (hasEdges_addNode e6 _) r1 r2 f2)
      refine ⟨D', ?_, d2⟩
      rw [unionLoop]
      rw [e0, bind_ok]
      show (do
        let s ← rd (D2.node ++ [setUnion c c']) D.node.length
        let t ← rd (D2.node ++ [setUnion c c']) D2.node.length
        let f ← vertexInclusionMap s t
        unionLoop (c' :: rest) (i + 1) ((D2.addNode (setUnion c c')).1.addEdge D.node.length D2.node.length f).1) = _
      rw [rd_some r1, bind_ok, rd_some r2, bind_ok, f1, bind_ok, d1]

/-! ## Intersections -/

/-- the state of the loop of `linear_cover_intersection_diagram` before set `i` -/
structure IInv (cs : List (List Nat)) (i : Nat) (D : Diagram (List Nat) (List Nat)) : Prop where
  nodes : D.node.length = 2 * i
  even : ∀ j, j < i → D.node[2 * j]? = cs[j]?
  odd : ∀ j, j < i → ∃ a b, cs[j]? = some a ∧ cs[j + 1]? = some b ∧ D.node[2 * j + 1]? = some (intersectSorted a b)
  len : D.elist.length = 2 * i - 1
  dlen : D.edata.length = 2 * i - 1
  first : ∀ j, j < i → D.elist[2 * j]? = some (2 * j + 1, 2 * j) ∧ ∃ a b f, cs[j]? = some a ∧ cs[j + 1]? = some b ∧ D.edata[2 * j]? = some f ∧ IsInclusionMap (intersectSorted a b) a f
  second : ∀ j, j + 1 < i → D.elist[2 * j + 1]? = some (2 * j + 1, j + 1) ∧
    ∃ a b f, cs[j]? = some a ∧ cs[j + 1]? = some b ∧ D.edata[2 * j + 1]? = some f ∧ IsInclusionMap (intersectSorted a b) b f

theorem inter_back {cs : List (List Nat)} (hc : ∀ c ∈ cs, c.Pairwise (· < ·)) {i : Nat} {D : Diagram (List Nat) (List Nat)} (h : IInv cs i D) {c : List Nat} (hi : cs[i]? = some c) :
    ∃ D2 : Diagram (List Nat) (List Nat), interBack c i D = .ok D2 ∧ D2.node = D.node ++ [c] ∧ D2.elist.length = 2 * i ∧ D2.edata.length = 2 * i ∧
      (∀ j, j < i → D2.elist[2 * j]? = some (2 * j + 1, 2 * j) ∧ ∃ a b f, cs[j]? = some a ∧ cs[j + 1]? = some b ∧ D2.edata[2 * j]? = some f ∧ IsInclusionMap (intersectSorted a b) a f) ∧
      (∀ j, j < i → D2.elist[2 * j + 1]? = some (2 * j + 1, j + 1) ∧
        ∃ a b f, cs[j]? = some a ∧ cs[j + 1]? = some b ∧ D2.edata[2 * j + 1]? = some f ∧ IsInclusionMap (intersectSorted a b) b f) := by
  have hln := h.nodes
  have hle := h.len
  have hde := h.dlen
  unfold interBack
  by_cases h0 : 0 < i
  · rw [if_pos h0]
    obtain ⟨a, b, ha, hb, hn⟩ := h.odd (i - 1) (by omega)
    rw [show i - 1 + 1 = i from by omega, hi] at hb
    cases hb
    have hU := C27_intersect_sorted (hc a (List.mem_of_getElem? ha)) (hc c (List.mem_of_getElem? hi))
    obtain ⟨f, f1, f2⟩ := vertexInclusionMap_ok hU.1 (hc c (List.mem_of_getElem? hi)) (fun x hx => ((hU.2 x).1 hx).2)
    have r1 : (D.node ++ [c])[D.node.length]? = some c := app_get rfl
    have r2 : (D.node ++ [c])[D.node.length - 1]? = some (intersectSorted a c) := by
      apply app_left
      rw [hln, show 2 * i - 1 = 2 * (i - 1) + 1 from by omega]; exact hn
    refine ⟨((D.addNode c).1.addEdge (D.node.length - 1) i f).1, ?_, rfl, ?_, ?_, ?_, ?_⟩
    · show (do
        let s ← rd (D.node ++ [c]) (D.node.length - 1)
        let t ← rd (D.node ++ [c]) D.node.length
        let f ← vertexInclusionMap s t
        pure ((D.addNode c).1.addEdge (D.node.length - 1) i f).1) = _
      rw [rd_some r2, bind_ok, rd_some r1, bind_ok, f1, bind_ok]; rfl
    · show (D.elist ++ [(D.node.length - 1, i)]).length = _
      simp; omega
    · show (D.edata ++ [f]).length = _
      simp; omega
    · intro j hj
      obtain ⟨q1, a', b', f', q2, q3, q4, q5⟩ := h.first j hj
      exact ⟨app_left q1, a', b', f', q2, q3, app_left q4, q5⟩
    · intro j hj
      by_cases hj' : j + 1 < i
      · obtain ⟨q1, a', b', f', q2, q3, q4, q5⟩ := h.second j hj'
        exact ⟨app_left q1, a', b', f', q2, q3, app_left q4, q5⟩
      · have : j = i - 1 := by omega
        subst this
        refine ⟨?_, a, c, f, ha, by rw [show i - 1 + 1 = i from by omega]; exact hi, app_get (show 2 * (i - 1) + 1 = D.edata.length by omega), f2⟩
        show (D.elist ++ [(D.node.length - 1, i)])[2 * (i - 1) + 1]? = _
        rw [app_get (by omega), hln]
        congr 2 <;> omega
  · rw [if_neg h0]
    have h0 : i = 0 := by omega
    subst h0
    exact ⟨(D.addNode c).1, rfl, rfl, by show D.elist.length = _; omega, by show D.edata.length = _; omega, fun j hj => by omega, fun j hj => by omega⟩

theorem interLoop_spec {cs : List (List Nat)} (hc : ∀ c ∈ cs, c.Pairwise (· < ·)) : ∀ (rest : List (List Nat)) (i : Nat) (D : Diagram (List Nat) (List Nat)), rest ≠ [] →
    cs.drop i = rest → IInv cs i D → ∃ D', interLoop rest i D = .ok D' ∧ D'.node.length = 2 * cs.length - 1 ∧ D'.elist.length = 2 * cs.length - 2 ∧ D'.edata.length = 2 * cs.length - 2 ∧
      (∀ j, j < cs.length → D'.node[2 * j]? = cs[j]?) ∧
      (∀ j, j + 1 < cs.length → D'.elist[2 * j]? = some (2 * j + 1, 2 * j) ∧ D'.elist[2 * j + 1]? = some (2 * j + 1, j + 1) ∧
        ∃ a b f g, cs[j]? = some a ∧ cs[j + 1]? = some b ∧ D'.node[2 * j + 1]? = some (intersectSorted a b) ∧ D'.edata[2 * j]? = some f ∧ D'.edata[2 * j + 1]? = some g ∧
          IsInclusionMap (intersectSorted a b) a f ∧ IsInclusionMap (intersectSorted a b) b g) := by
  intro rest
  induction rest with
  | nil => intro i D h; exact absurd rfl h
  | cons c rest ih =>
    intro i D _ hd hI
    have hi : cs[i]? = some c := by
      have := congrArg (fun l => l[0]?) hd
      simpa using this
    have hil := (List.getElem?_eq_some_iff.1 hi).1
    have hlen : cs.length = i + (rest.length + 1) := by
      have := congrArg List.length hd
      simp at this; omega
    obtain ⟨D2, e0, e1, e2, e3, e4, e5⟩ := inter_back hc hI hi
    have hln := hI.nodes
    have heven : ∀ j, j < i + 1 → D2.node[2 * j]? = cs[j]? := by
      intro j hj
      rw [e1]
      by_cases hj' : j < i
      · rw [List.getElem?_append_left (by omega)]; exact hI.even j hj'
      · have : j = i := by omega
        subst this
        rw [app_get (by omega), hi]
    have hodd : ∀ j, j < i → ∃ a b, cs[j]? = some a ∧ cs[j + 1]? = some b ∧ D2.node[2 * j + 1]? = some (intersectSorted a b) := by
      intro j hj
      obtain ⟨a, b, q1, q2, q3⟩ := hI.odd j hj
      exact ⟨a, b, q1, q2, by rw [e1]; exact app_left q3⟩
    cases rest with
    | nil =>
      simp only [List.length_nil] at hlen
      refine ⟨D2, ?_, by rw [e1]; simp; omega, by omega, by omega, fun j hj => heven j (by omega), ?_⟩
      · rw [interLoop, e0, bind_ok]
      · intro j hj
        obtain ⟨q1, a, b, f, a1, b1, q2, q3⟩ := e4 j (by omega)
        obtain ⟨q4, a', b', g, a2, b2, q5, q6⟩ := e5 j (by omega)
        obtain ⟨a'', b'', a3, b3, q7⟩ := hodd j (by omega)
        rw [a1] at a2 a3; cases a2; cases a3
        rw [b1] at b2 b3; cases b2; cases b3
        exact ⟨q1, q4, a, b, f, g, a1, b1, q7, q2, q5, q3, q6⟩
    | cons c' rest =>
      have hi' : cs[i + 1]? = some c' := by
        have := congrArg (fun l => l[1]?) hd
        simpa using this
      have hU := C27_intersect_sorted (hc c (List.mem_of_getElem? hi)) (hc c' (List.mem_of_getElem? hi'))
      obtain ⟨f, f1, f2⟩ := vertexInclusionMap_ok hU.1 (hc c (List.mem_of_getElem? hi)) (fun x hx => ((hU.2 x).1 hx).1)
      have r1 : (D2.node ++ [intersectSorted c c'])[D.node.length]? = some c := by
        apply app_left; rw [e1]; exact app_get rfl
      have r2 : (D2.node ++ [intersectSorted c c'])[D2.node.length]? = some (intersectSorted c c') := app_get rfl
      obtain ⟨D', d1, d2⟩ := ih (i + 1) ((D2.addNode (intersectSorted c c')).1.addEdge D2.node.length D.node.length f).1 (by simp) (by
        rw [← List.drop_drop, hd]; simp) (by
        refine ⟨?_, ?_, ?_, ?_, ?_, ?_, ?_⟩
        · show (D2.node ++ [intersectSorted c c']).length = _
          rw [e1]; simp; omega
        · intro j hj
          show (D2.node ++ [intersectSorted c c'])[2 * j]? = _
          rw [List.getElem?_append_left (by rw [e1]; simp; omega)]
          exact heven j hj
        · intro j hj
          by_cases hj' : j < i
          · obtain ⟨a, b, q1, q2, q3⟩ := hodd j hj'
            exact ⟨a, b, q1, q2, app_left q3⟩
          · have : j = i := by omega
            subst this
            exact ⟨c, c', hi, hi', app_get (by rw [e1]; simp; omega)⟩
        · show (D2.elist ++ [(D2.node.length, D.node.length)]).length = _
          simp; omega
        · show (D2.edata ++ [f]).length = _
          simp; omega
        · intro j hj
          by_cases hj' : j < i
          · obtain ⟨q1, a', b', f', q2, q3, q4, q5⟩ := e4 j hj'
            exact ⟨app_left q1, a', b', f', q2, q3, app_left q4, q5⟩
          · have : j = i := by omega
            subst this
            refine ⟨?_, c, c', f, hi, hi', app_get (show 2 * j = D2.edata.length by omega), f2⟩
            show (D2.elist ++ [(D2.node.length, D.node.length)])[2 * j]? = _
            rw [app_get (by omega), e1, hln]
            simp; omega
        · intro j hj
          obtain ⟨q1, a', b', f', q2, q3, q4, q5⟩ := e5 j (by omega)
          exact ⟨app_left q1, a', b', f', q2, q3, app_left q4, q5⟩)
      refine ⟨D', ?_, d2⟩
      rw [interLoop, e0, bind_ok]
      show (do
        let s ← rd (D2.node ++ [intersectSorted c c']) D2.node.length
        let t ← rd (D2.node ++ [intersectSorted c c']) D.node.length
        let f ← vertexInclusionMap s t
        interLoop (c' :: rest) (i + 1) ((D2.addNode (intersectSorted c c')).1.addEdge D2.node.length D.node.length f).1) = _
      rw [rd_some r2, bind_ok, rd_some r1, bind_ok, f1, bind_ok, d1]

/-! ## The loops of zigzag_zoo.hpp -/

section zoo
variable {T : Type} [Field T] [LinearOrder T]

/-- the loops over the nodes, with the sets and radii (previous, current) of the iterations given -/
def zzFold : List (List Nat × T × T) → Nat → Diagram (List Nat) (List Nat) → List T → Res (Diagram (List Nat) (List Nat) × List T)
  | [], _, D, r => .ok (D, r)
  | (s, p, c) :: its, j, D, r => do
    let q ← zzStep s p c j D r
    zzFold its q.1 q.2.1 q.2.2

theorem set_rep {α : Type} {l : List α} {n : Nat} {x d : α} : (l ++ List.replicate (n + 1) d).set l.length x = (l ++ [x]) ++ List.replicate n d := by
  rw [List.set_append_right _ _ (Nat.le_refl _)]
  simp [List.replicate_succ]

theorem setNode_rep {D : Diagram (List Nat) (List Nat)} {b : List (List Nat)} {n j : Nat} (hD : D.node = b ++ List.replicate (n + 1) []) (hj : j = b.length) (s : List Nat) :
    D.setNode j s = .ok { D with node := (b ++ [s]) ++ List.replicate n [] } := by
  subst hj
  refine setNode_ok.2 ⟨by rw [hD]; simp, ?_⟩
  rw [hD, set_rep]

theorem wr_rep {r b : List T} {n j : Nat} (hr : r = b ++ List.replicate (n + 1) 0) (hj : j = b.length) (x : T) : wr r j x = .ok ((b ++ [x]) ++ List.replicate n 0) := by
  subst hj
  rw [hr]
  unfold wr
  rw [if_pos (by simp), set_rep]

theorem zzFold_spec : ∀ (its : List (List Nat × T × T)) (j : Nat) (D : Diagram (List Nat) (List Nat)) (r : List T) (b : List (List Nat)) (rb : List T), 0 < j → j = b.length →
    j = rb.length → D.node = b ++ List.replicate (2 * its.length) [] → r = rb ++ List.replicate (2 * its.length) 0 →
    zzFold its j D r = .ok ({ D with node := b ++ its.flatMap (fun t => [t.1, t.1]) }, rb ++ its.flatMap (fun t => [t.2.1, t.2.2])) := by
  intro its
  induction its with
  | nil =>
    intro j D r b rb h0 h1 h2 h3 h4
    rw [zzFold]
    simp at h3 h4 ⊢
    rw [← h3, h4]; simp
  | cons t its ih =>
    obtain ⟨s, p, c⟩ := t
    intro j D r b rb h0 h1 h2 h3 h4
    rw [zzFold]
    rw [List.length_cons, show 2 * (its.length + 1) = 2 * its.length + 1 + 1 from by omega] at h3 h4
    have e : zzStep s p c j D r = .ok (j + 1 + 1, { D with node := ((b ++ [s]) ++ [s]) ++ List.replicate (2 * its.length) [] }, ((rb ++ [p]) ++ [c]) ++ List.replicate (2 * its.length) 0) := by
      unfold zzStep zzPrev
      rw [if_pos h0, setNode_rep h3 h1, bind_ok, wr_rep h4 h2, bind_ok]
      show (do
        let D2 ← ({ D with node := (b ++ [s]) ++ List.replicate (2 * its.length + 1) [] } : Diagram (List Nat) (List Nat)).setNode (j + 1) s
        let r2 ← wr ((rb ++ [p]) ++ List.replicate (2 * its.length + 1) 0) (j + 1) c
        pure (j + 1 + 1, D2, r2)) = _
      rw [setNode_rep rfl (by simp [h1]), bind_ok, wr_rep rfl (by simp [h2]), bind_ok]; rfl
    rw [e, bind_ok]
    rw [ih (j + 1 + 1) _ _ ((b ++ [s]) ++ [s]) ((rb ++ [p]) ++ [c]) (by omega) (by simp [h1]) (by simp [h2]) rfl rfl]
    simp

theorem zzFold_first {s : List Nat} {p c : T} {its : List (List Nat × T × T)} {m : Nat} :
    zzFold ((s, p, c) :: its) 0 (Diagram.init (2 * (its.length + 1) - 1) m) (List.replicate (2 * (its.length + 1) - 1) 0) =
      .ok (⟨s :: its.flatMap (fun t => [t.1, t.1]), List.replicate m default, List.replicate m (0, 0)⟩, c :: its.flatMap (fun t => [t.2.1, t.2.2])) := by
  rw [zzFold, show 2 * (its.length + 1) - 1 = 2 * its.length + 1 from by omega]
  have e : zzStep s p c 0 (Diagram.init (2 * its.length + 1) m) (List.replicate (2 * its.length + 1) 0) =
      .ok (1, ⟨[s] ++ List.replicate (2 * its.length) [], List.replicate m default, List.replicate m (0, 0)⟩, [c] ++ List.replicate (2 * its.length) 0) := by
    unfold zzStep zzPrev
    rw [if_neg (by omega)]
    show (do
      let D2 ← (Diagram.init (2 * its.length + 1) m : Diagram (List Nat) (List Nat)).setNode 0 s
      let r2 ← wr (List.replicate (2 * its.length + 1) (0 : T)) 0 c
      pure (0 + 1, D2, r2)) = _
    rw [setNode_rep (D := Diagram.init (2 * its.length + 1) m) (b := []) (n := 2 * its.length) (j := 0) (by simp [Diagram.init]; rfl) rfl, bind_ok, wr_rep (r := List.replicate (2 * its.length + 1) 0) (b := []) (n := 2 * its.length) (j := 0) (by simp) rfl, bind_ok]; rfl
  rw [e, bind_ok, zzFold_spec its 1 _ _ [s] [c] (by omega) rfl rfl rfl rfl]
  rfl

theorem flat_even {α β : Type} (g : α → β × β) : ∀ (l : List α) (m : Nat) (x : α), l[m]? = some x →
    (l.flatMap (fun t => [(g t).1, (g t).2]))[2 * m]? = some (g x).1 ∧ (l.flatMap (fun t => [(g t).1, (g t).2]))[2 * m + 1]? = some (g x).2 := by
  intro l
  induction l with
  | nil => intro m x h; simp at h
  | cons y l ih =>
    intro m x h
    cases m with
    | zero => simp at h; subst h; simp
    | succ m =>
      obtain ⟨h1, h2⟩ := ih m x (by simpa using h)
      rw [show 2 * (m + 1) = 2 * m + 1 + 1 from by omega]
      simp only [List.flatMap_cons, List.cons_append, List.nil_append, List.getElem?_cons_succ]
      exact ⟨h1, h2⟩

theorem flat_length {α β : Type} (g : α → β × β) (l : List α) : (l.flatMap (fun t => [(g t).1, (g t).2])).length = 2 * l.length := by
  induction l with
  | nil => rfl
  | cons y l ih => simp only [List.flatMap_cons, List.length_append, ih, List.length_cons, List.length_nil]; omega

/-- both edges at the node `2 j + 1` are in place -/
def EdgesAt (D : Diagram (List Nat) (List Nat)) (j : Nat) : Prop :=
  D.elist[2 * j]? = some (2 * j, 2 * j + 1) ∧ D.elist[2 * j + 1]? = some (2 * j + 2, 2 * j + 1) ∧
    ∃ s t u f g, D.node[2 * j]? = some s ∧ D.node[2 * j + 1]? = some t ∧ D.node[2 * j + 2]? = some u ∧ D.edata[2 * j]? = some f ∧ D.edata[2 * j + 1]? = some g ∧
      IsInclusionMap s t f ∧ IsInclusionMap u t g

theorem zzEdges_spec : ∀ (c i : Nat) (D : Diagram (List Nat) (List Nat)), D.edata.length = 2 * (i + c) → D.elist.length = 2 * (i + c) → (∀ S ∈ D.node, S.Pairwise (· < ·)) →
    (∀ j, i ≤ j → j < i + c → ∃ s t u, D.node[2 * j]? = some s ∧ D.node[2 * j + 1]? = some t ∧ D.node[2 * j + 2]? = some u ∧ (∀ x ∈ s, x ∈ t) ∧ ∀ x ∈ u, x ∈ t) →
    (∀ j, j < i → EdgesAt D j) →
    ∃ D', zzEdges c i D = .ok D' ∧ D'.node = D.node ∧ D'.edata.length = 2 * (i + c) ∧ D'.elist.length = 2 * (i + c) ∧ ∀ j, j < i + c → EdgesAt D' j := by
  intro c
  induction c with
  | zero => intro i D h1 h2 h3 h4 h5; exact ⟨D, rfl, rfl, h1, h2, h5⟩
  | succ c ih =>
    intro i D h1 h2 h3 h4 h5
    obtain ⟨s, t, u, q1, q2, q3, q4, q5⟩ := h4 i (Nat.le_refl _) (by omega)
    have is := h3 s (List.mem_of_getElem? q1)
    have it := h3 t (List.mem_of_getElem? q2)
    have iu := h3 u (List.mem_of_getElem? q3)
    obtain ⟨f, f1, f2⟩ := vertexInclusionMap_ok is it q4
    obtain ⟨g, g1, g2⟩ := vertexInclusionMap_ok iu it q5
    obtain ⟨D', d1, d2, d3, d4, d5⟩ := ih (i + 1) ⟨D.node, (D.edata.set (2 * i) f).set (2 * i + 1) g, (D.elist.set (2 * i) (2 * i, 2 * i + 1)).set (2 * i + 1) (2 * i + 2, 2 * i + 1)⟩
      (by simp; omega) (by simp; omega) h3 (fun j hj hj' => h4 j (by omega) (by omega)) (by
      intro j hj
      by_cases hj' : j < i
      · obtain ⟨a1, a2, s', t', u', f', g', a3, a4, a5, a6, a7, a8⟩ := h5 j hj'
        refine ⟨?_, ?_, s', t', u', f', g', a3, a4, a5, ?_, ?_, a8⟩
        · show ((D.elist.set (2 * i) _).set (2 * i + 1) _)[2 * j]? = _
          rw [List.getElem?_set_ne (by omega), List.getElem?_set_ne (by omega), a1]
        · show ((D.elist.set (2 * i) _).set (2 * i + 1) _)[2 * j + 1]? = _
          rw [List.getElem?_set_ne (by omega), List.getElem?_set_ne (by omega), a2]
        · show ((D.edata.set (2 * i) _).set (2 * i + 1) _)[2 * j]? = _
          rw [List.getElem?_set_ne (by omega), List.getElem?_set_ne (by omega), a6]
        · show ((D.edata.set (2 * i) _).set (2 * i + 1) _)[2 * j + 1]? = _
          rw [List.getElem?_set_ne (by omega), List.getElem?_set_ne (by omega), a7]
      · have : j = i := by omega
        subst this
        refine ⟨?_, ?_, s, t, u, f, g, q1, q2, q3, ?_, ?_, f2, g2⟩
        · show ((D.elist.set (2 * j) _).set (2 * j + 1) _)[2 * j]? = _
          rw [List.getElem?_set_ne (by omega), List.getElem?_set_self (by omega)]
        · show ((D.elist.set (2 * j) _).set (2 * j + 1) _)[2 * j + 1]? = _
          rw [List.getElem?_set_self (by simp; omega)]
        · show ((D.edata.set (2 * j) _).set (2 * j + 1) _)[2 * j]? = _
          rw [List.getElem?_set_ne (by omega), List.getElem?_set_self (by omega)]
        · show ((D.edata.set (2 * j) _).set (2 * j + 1) _)[2 * j + 1]? = _
          rw [List.getElem?_set_self (by simp; omega)])
    refine ⟨D', ?_, d2, by omega, by omega, fun j hj => d5 j (by omega)⟩
    rw [zzEdges, rd_some q1, bind_ok, rd_some q2, bind_ok, f1, bind_ok]
    rw [show D.setEdge (2 * i) (2 * i) (2 * i + 1) f = .ok { D with edata := D.edata.set (2 * i) f, elist := D.elist.set (2 * i) (2 * i, 2 * i + 1) } from
      setEdge_ok.2 ⟨by omega, by omega, rfl⟩, bind_ok]
    show (do
      let s' ← rd D.node (2 * i + 2)
      let t' ← rd D.node (2 * i + 1)
      let f' ← vertexInclusionMap s' t'
      let D2 ← ({ D with edata := D.edata.set (2 * i) f, elist := D.elist.set (2 * i) (2 * i, 2 * i + 1) } : Diagram (List Nat) (List Nat)).setEdge (2 * i + 1) (2 * i + 2) (2 * i + 1) f'
      zzEdges c (i + 1) D2) = _
    rw [rd_some q3, bind_ok, rd_some q2, bind_ok, g1, bind_ok,
      show ({ D with edata := D.edata.set (2 * i) f, elist := D.elist.set (2 * i) (2 * i, 2 * i + 1) } : Diagram (List Nat) (List Nat)).setEdge (2 * i + 1) (2 * i + 2) (2 * i + 1) g =
        .ok ⟨D.node, (D.edata.set (2 * i) f).set (2 * i + 1) g, (D.elist.set (2 * i) (2 * i, 2 * i + 1)).set (2 * i + 1) (2 * i + 2, 2 * i + 1)⟩ from
        setEdge_ok.2 ⟨by simp; omega, by simp; omega, rfl⟩, bind_ok, d1]

/-- a diagram with all its edges in place -/
theorem edgesAt_shape {D : Diagram (List Nat) (List Nat)} {m : Nat} (h0 : D.node.length = 2 * m - 1) (h1 : D.edata.length = 2 * (m - 1)) (h2 : D.elist.length = 2 * (m - 1))
    (h : ∀ j, j < m - 1 → EdgesAt D j) : IsZigzagShape m D ∧ D.HasEdges IsInclusionMap := by
  refine ⟨⟨h0, by omega, fun i hi => (h i (by omega)).1, fun i hi => (h i (by omega)).2.1⟩, ⟨by omega, ?_⟩⟩
  intro j st f e1 e2
  have hj := (List.getElem?_eq_some_iff.1 e2).1
  rcases Nat.even_or_odd' j with ⟨i, rfl | rfl⟩
  · obtain ⟨a1, a2, s', t', u', f', g', a3, a4, a5, a6, a7, a8, a9⟩ := h i (by omega)
    rw [a1] at e1; cases e1
    rw [a6] at e2; cases e2
    exact ⟨s', t', a3, a4, a8⟩
  · obtain ⟨a1, a2, s', t', u', f', g', a3, a4, a5, a6, a7, a8, a9⟩ := h i (by omega)
    rw [a2] at e1; cases e1
    rw [a7] at e2; cases e2
    exact ⟨u', t', a5, a4, a9⟩

theorem mem_flat {α β : Type} {g : α → β × β} {l : List α} {x : β} (h : x ∈ l.flatMap (fun t => [(g t).1, (g t).2])) : ∃ t ∈ l, x = (g t).1 ∨ x = (g t).2 := by
  rw [List.mem_flatMap] at h
  obtain ⟨t, ht, hx⟩ := h
  refine ⟨t, ht, ?_⟩
  simpa using hx

/-- the diagram and the radii made from nested sets -/
theorem zz_build {its : List (List Nat × T × T)} (hne : its ≠ []) (hinc : ∀ t ∈ its, t.1.Pairwise (· < ·))
    (hsub : ∀ (i : Nat) (a b : List Nat × T × T), its[i]? = some a → its[i + 1]? = some b → ∀ x ∈ a.1, x ∈ b.1) :
    ∃ D0 D r, zzFold its 0 (Diagram.init (2 * its.length - 1) (2 * its.length - 2)) (List.replicate (2 * its.length - 1) 0) = .ok (D0, r) ∧
      zzEdges (its.length - 1) 0 D0 = .ok D ∧ IsZigzagShape its.length D ∧ D.HasEdges IsInclusionMap ∧ r.length = 2 * its.length - 1 ∧
      (∀ S ∈ D.node, ∃ t ∈ its, S = t.1) ∧
      ∀ (i : Nat) (t : List Nat × T × T), its[i]? = some t → D.node[2 * i]? = some t.1 ∧ r[2 * i]? = some t.2.2 ∧
        (0 < i → D.node[2 * i - 1]? = some t.1 ∧ r[2 * i - 1]? = some t.2.1) := by
  obtain ⟨t0, rest, rfl⟩ := List.exists_cons_of_ne_nil hne
  obtain ⟨s, p, c⟩ := t0
  have e1 := zzFold_first (s := s) (p := p) (c := c) (its := rest) (m := 2 * (rest.length + 1) - 2)
  have n1 := fun (i : Nat) (t : List Nat × T × T) (h : rest[i]? = some t) => flat_even (fun t : List Nat × T × T => (t.1, t.1)) rest i t h
  have n2 := fun (i : Nat) (t : List Nat × T × T) (h : rest[i]? = some t) => flat_even (fun t : List Nat × T × T => (t.2.1, t.2.2)) rest i t h
  have l1 := flat_length (fun t : List Nat × T × T => (t.1, t.1)) rest
  have l2 := flat_length (fun t : List Nat × T × T => (t.2.1, t.2.2)) rest
  beta_reduce at l1 l2 n1 n2
  have key : ∀ (i : Nat) (t : List Nat × T × T), ((s, p, c) :: rest)[i]? = some t → (s :: rest.flatMap (fun t => [t.1, t.1]))[2 * i]? = some t.1 ∧
      (c :: rest.flatMap (fun t => [t.2.1, t.2.2]))[2 * i]? = some t.2.2 ∧
        (0 < i → (s :: rest.flatMap (fun t => [t.1, t.1]))[2 * i - 1]? = some t.1 ∧ (c :: rest.flatMap (fun t => [t.2.1, t.2.2]))[2 * i - 1]? = some t.2.1) := by
    intro i t h
    cases i with
    | zero => simp at h; subst h; exact ⟨rfl, rfl, fun h => by omega⟩
    | succ i =>
      rw [List.getElem?_cons_succ] at h
      rw [show 2 * (i + 1) = 2 * i + 1 + 1 from by omega, show 2 * i + 1 + 1 - 1 = 2 * i + 1 from by omega]
      simp only [List.getElem?_cons_succ]
      exact ⟨(n1 i t h).2, (n2 i t h).2, fun _ => ⟨(n1 i t h).1, (n2 i t h).1⟩⟩
  have hmem : ∀ S ∈ s :: rest.flatMap (fun t => [t.1, t.1]), ∃ t ∈ (s, p, c) :: rest, S = t.1 := by
    intro S hS
    rcases List.mem_cons.1 hS with rfl | hS
    · exact ⟨_, List.mem_cons_self, rfl⟩
    · obtain ⟨t, ht, h⟩ := mem_flat (g := fun t : List Nat × T × T => (t.1, t.1)) hS
      exact ⟨t, by simp [ht], by rcases h with h | h <;> exact h⟩
  obtain ⟨D, d1, d2, d3, d4, d5⟩ := zzEdges_spec rest.length 0 ⟨s :: rest.flatMap (fun t => [t.1, t.1]), List.replicate (2 * (rest.length + 1) - 2) default,
      List.replicate (2 * (rest.length + 1) - 2) (0, 0)⟩ (by simp; omega) (by simp; omega) (by
      intro S hS
      obtain ⟨t, ht, rfl⟩ := hmem S hS
      exact hinc t ht) (by
      intro j _ hj
      rw [Nat.zero_add] at hj
      have ha : ((s, p, c) :: rest)[j]? = some (((s, p, c) :: rest)[j]'(by simp; omega)) := List.getElem?_eq_getElem _
      have hb : ((s, p, c) :: rest)[j + 1]? = some (((s, p, c) :: rest)[j + 1]'(by simp; omega)) := List.getElem?_eq_getElem _
      obtain ⟨k1, k2, _⟩ := key _ _ ha
      obtain ⟨k3, k4, k5⟩ := key _ _ hb
      refine ⟨_, _, _, k1, ?_, k3, hsub j _ _ ha hb, fun x hx => hx⟩
      exact (k5 (by omega)).1) (fun j hj => by omega)
  obtain ⟨z1, z2⟩ := edgesAt_shape (m := rest.length + 1) (D := D) (by rw [d2]; simp only [List.length_cons, l1]; omega) (by omega) (by omega) (fun j hj => d5 j (by omega))
  refine ⟨_, D, _, e1, d1, z1, z2, ?_, ?_, ?_⟩
  · simp only [List.length_cons, l2]; omega
  · rw [d2]; exact hmem
  · rw [d2]; exact key

/-! ### Sets of landmarks -/

theorem isSetOf_insert {s l : List Nat} (h : IsSetOf s l) (i : Nat) : IsSetOf (setInsert i s) (l ++ [i]) := by
  obtain ⟨h1, h2⟩ := setInsert_spec i s h.1
  refine ⟨h1, fun x => ?_⟩
  rw [h2, h.2, List.mem_append, List.mem_singleton, or_comm]

/-- the sets and radii of `OscillatingRipsZigzagSets` -/
def oscItems (rho eta : T) : List Nat → List T → List Nat → T → List (List Nat × T × T)
  | i :: is, e :: hs, s, e1 => (setInsert i s, rho * e1, eta * e) :: oscItems rho eta is hs (setInsert i s) e
  | _, _, _, _ => []

theorem oscNodes_eq (rho eta : T) : ∀ (is : List Nat) (hs : List T) (s : List Nat) (e1 : T) (j : Nat) (D : Diagram (List Nat) (List Nat)) (r : List T), is.length = hs.length →
    oscNodes rho eta is hs s e1 j D r = zzFold (oscItems rho eta is hs s e1) j D r ∧ (oscItems rho eta is hs s e1).length = is.length := by
  intro is
  induction is with
  | nil => intro hs s e1 j D r h; exact ⟨by cases hs <;> rfl, by cases hs <;> rfl⟩
  | cons i is ih =>
    intro hs s e1 j D r h
    cases hs with
    | nil => simp at h
    | cons e hs =>
      have hl : is.length = hs.length := by simpa using h
      refine ⟨?_, ?_⟩
      · rw [oscNodes, oscItems, zzFold]
        congr 1
        funext q
        exact (ih hs _ _ _ _ _ hl).1
      · rw [oscItems, List.length_cons, List.length_cons, (ih hs (setInsert i s) e 0 D r hl).2]

theorem oscItems_get (rho eta : T) : ∀ (is : List Nat) (hs : List T) (s l : List Nat) (e1 : T), is.length = hs.length → IsSetOf s l → ∀ m, m < is.length →
    ∃ S, (oscItems rho eta is hs s e1)[m]? = some (S, rho * (e1 :: hs).getD m 0, eta * hs.getD m 0) ∧ IsSetOf S (l ++ is.take (m + 1)) := by
  intro is
  induction is with
  | nil => intro hs s l e1 _ _ m hm; simp at hm
  | cons i is ih =>
    intro hs s l e1 h hset m hm
    cases hs with
    | nil => simp at h
    | cons e hs =>
      have hl : is.length = hs.length := by simpa using h
      have h' := isSetOf_insert hset i
      rw [oscItems]
      cases m with
      | zero => exact ⟨_, rfl, by simpa using h'⟩
      | succ m =>
        obtain ⟨S, s1, s2⟩ := ih hs _ _ e hl h' m (by simpa using hm)
        refine ⟨S, ?_, ?_⟩
        · rw [List.getElem?_cons_succ, s1]; rfl
        · rw [List.take_succ_cons]; simpa using s2

/-- the number of elements of a set of distinct landmarks -/
theorem isSetOf_length {s l : List Nat} (h : IsSetOf s l) (hl : l.Nodup) : s.length = l.length :=
  ((List.perm_ext_iff_of_nodup (h.1.imp (fun h => ne_of_lt h)) hl).2 h.2).length_eq

theorem fillSet_ok {inds : List Nat} (hnd : inds.Nodup) (k : Nat) (hk : k < inds.length) : ∀ (c p : Nat) (s : List Nat), p + c = k + 1 → IsSetOf s (inds.take p) →
    ∃ S, fillSet k (inds.drop p) s = .ok (inds.drop (k + 1), S) ∧ IsSetOf S (inds.take (k + 1)) := by
  intro c
  induction c with
  | zero =>
    intro p s hp hs
    have hlen := isSetOf_length hs (hnd.sublist (List.take_sublist _ _))
    rw [List.length_take] at hlen
    have hp : p = k + 1 := by omega
    subst hp
    refine ⟨s, ?_, hs⟩
    have hno : ¬ s.length ≤ k := by omega
    cases h : inds.drop (k + 1) with
    | nil => rw [fillSet, if_neg hno]
    | cons a as => rw [fillSet, if_neg hno]
  | succ c ih =>
    intro p s hp hs
    have hlen := isSetOf_length hs (hnd.sublist (List.take_sublist _ _))
    rw [List.length_take] at hlen
    have hpl : p < inds.length := by omega
    rw [List.drop_eq_getElem_cons hpl, fillSet, if_pos (by omega)]
    refine ih (p + 1) _ (by omega) ?_
    have := isSetOf_insert hs inds[p]
    rwa [List.take_append_getElem hpl] at this

theorem morozov_items {inds : List Nat} (hnd : inds.Nodup) {hds : List T} (hlen : hds.length = inds.length) (rho : T) : ∀ (ks : List Nat) (p : Nat) (s : List Nat) (prev : T),
    ks.Pairwise (· < ·) → (∀ k ∈ ks, p ≤ k ∧ k < inds.length) → IsSetOf s (inds.take p) →
    ∃ its : List (List Nat × T × T), its.length = ks.length ∧ (∀ j D r, morozovNodes hds rho ks (inds.drop p) s prev j D r = zzFold its j D r) ∧
      ∀ (m k : Nat), ks[m]? = some k → ∃ S, its[m]? = some (S, (prev :: ks.map (fun k => hds.getD k 0 * rho)).getD m 0, hds.getD k 0 * rho) ∧ IsSetOf S (inds.take (k + 1)) := by
  intro ks
  induction ks with
  | nil => intro p s prev _ _ _; exact ⟨[], rfl, fun _ _ _ => rfl, fun m k h => by simp at h⟩
  | cons k ks ih =>
    intro p s prev hp hk hs
    rw [List.pairwise_cons] at hp
    obtain ⟨k1, k2⟩ := hk k (by simp)
    obtain ⟨S, f1, f2⟩ := fillSet_ok hnd k k2 (k + 1 - p) p s (by omega) hs
    obtain ⟨its, i1, i2, i3⟩ := ih (k + 1) S (hds.getD k 0 * rho) hp.2 (fun k' hk' => ⟨hp.1 k' hk', (hk k' (by simp [hk'])).2⟩) f2
    refine ⟨(S, prev, hds.getD k 0 * rho) :: its, by simp [i1], ?_, ?_⟩
    · intro j D r
      rw [morozovNodes, f1, bind_ok]
      have : rd hds k = .ok (hds.getD k 0) := by
        rw [rd_lt (show k < hds.length by omega), List.getD_eq_getElem?_getD, List.getElem?_eq_getElem (show k < hds.length by omega)]; rfl
      rw [this, bind_ok, zzFold]
      congr 1
      funext q
      exact i2 _ _ _
    · intro m k' hm
      cases m with
      | zero => simp at hm; subst hm; exact ⟨S, rfl, f2⟩
      | succ m =>
        obtain ⟨S', s1, s2⟩ := i3 m k' (by simpa using hm)
        exact ⟨S', by rw [List.getElem?_cons_succ, s1]; rfl, s2⟩

end zoo

end Zoo
end BATS
