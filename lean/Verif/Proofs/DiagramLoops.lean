import Verif.Spec.Diagram
import Verif.Proofs.Perm
import Verif.Proofs.Reduction

set_option linter.unusedSectionVars false
set_option linter.unusedVariables false
set_option linter.unusedSimpArgs false

/-! # The loops of the functors do not depend on the schedule -/

namespace BATS
open Reduction

variable {N E N' E' : Type}

theorem setNode_ok {TD TD' : Diagram N' E'} {i : Nat} {y : N'} : TD.setNode i y = .ok TD' ↔ i < TD.node.length ∧ TD' = { TD with node := TD.node.set i y } := by
  unfold Diagram.setNode
  by_cases h : i < TD.node.length
  · rw [wr_lt _ h, bind_ok]
    constructor
    · intro e; cases e; exact ⟨h, rfl⟩
    · rintro ⟨_, rfl⟩; rfl
  · have : wr TD.node i y = .error .ub := by unfold wr; rw [if_neg h]
    rw [this]
    constructor
    · intro e; cases e
    · rintro ⟨h', _⟩; exact absurd h' h

theorem setEdge_ok {TD TD' : Diagram N' E'} {i s t : Nat} {y : E'} : TD.setEdge i s t y = .ok TD' ↔
    i < TD.edata.length ∧ i < TD.elist.length ∧ TD' = { TD with edata := TD.edata.set i y, elist := TD.elist.set i (s, t) } := by
  unfold Diagram.setEdge
  by_cases h : i < TD.edata.length
  · by_cases h2 : i < TD.elist.length
    · rw [wr_lt _ h, bind_ok, wr_lt _ h2, bind_ok]
      constructor
      · intro e; cases e; exact ⟨h, h2, rfl⟩
      · rintro ⟨_, _, rfl⟩; rfl
    · have : wr TD.elist i (s, t) = .error .ub := by unfold wr; rw [if_neg h2]
      rw [wr_lt _ h, bind_ok, this]
      constructor
      · intro e; cases e
      · rintro ⟨_, h', _⟩; exact absurd h' h2
  · have : wr TD.edata i y = .error .ub := by unfold wr; rw [if_neg h]
    rw [this]
    constructor
    · intro e; cases e
    · rintro ⟨h', _⟩; exact absurd h' h

theorem rd_ok_iff {α : Type} {l : List α} {i : Nat} {x : α} : rd l i = .ok x ↔ l[i]? = some x := by
  unfold rd
  cases l[i]? <;> simp

theorem bind_ok_iff {α β : Type} {a : Res α} {f : α → Res β} {y : β} : (a >>= f) = .ok y ↔ ∃ x, a = .ok x ∧ f x = .ok y := by
  cases a with
  | error e => constructor
               · intro h; cases h
               · rintro ⟨x, h, _⟩; cases h
  | ok x => constructor
            · intro h; exact ⟨x, rfl, h⟩
            · rintro ⟨x', h, h'⟩; cases h; exact h'

theorem nodeLoop_sound (D : Diagram N E) (g : N → Res N') : ∀ (sched : List Nat) (TD TD' : Diagram N' E'), nodeLoop D g sched TD = .ok TD' →
    TD'.edata = TD.edata ∧ TD'.elist = TD.elist ∧ TD'.node.length = TD.node.length ∧
    (∀ i ∈ sched, ∃ x y, D.node[i]? = some x ∧ g x = .ok y ∧ TD'.node[i]? = some y) ∧ ∀ i, i ∉ sched → TD'.node[i]? = TD.node[i]?
  | [], TD, TD', h => by
    unfold nodeLoop parFor at h; cases h
    exact ⟨rfl, rfl, rfl, by simp, fun _ _ => rfl⟩
  | i :: is, TD, TD', h => by
    unfold nodeLoop parFor at h
    obtain ⟨S, h1, h2⟩ := bind_ok_iff.1 h
    obtain ⟨x, a1, h1⟩ := bind_ok_iff.1 h1
    obtain ⟨y, a2, h1⟩ := bind_ok_iff.1 h1
    rw [rd_ok_iff] at a1
    obtain ⟨hl, rfl⟩ := setNode_ok.1 h1
    obtain ⟨e1, e2, e3, e4, e5⟩ := nodeLoop_sound D g is _ TD' h2
    refine ⟨e1, e2, by rw [e3, List.length_set], ?_, ?_⟩
    · intro j hj
      by_cases hm : j ∈ is
      · exact e4 j hm
      · have : j = i := by simpa [hm] using hj
        subst this
        refine ⟨x, y, a1, a2, ?_⟩
        rw [e5 j hm]; simp [hl]
    · intro j hj
      rw [List.mem_cons, not_or] at hj
      rw [e5 j hj.2]
      simp only
      rw [List.getElem?_set_ne (fun h => hj.1 h.symm)]

theorem nodeLoop_complete (D : Diagram N E) (g : N → Res N') : ∀ (sched : List Nat) (TD : Diagram N' E'),
    (∀ i ∈ sched, i < TD.node.length ∧ ∃ x y, D.node[i]? = some x ∧ g x = .ok y) → ∃ TD', nodeLoop D g sched TD = .ok TD'
  | [], TD, _ => ⟨TD, rfl⟩
  | i :: is, TD, h => by
    obtain ⟨hl, x, y, a1, a2⟩ := h i (by simp)
    obtain ⟨TD', e⟩ := nodeLoop_complete D g is { TD with node := TD.node.set i y } (by
      intro j hj
      obtain ⟨h1, h2⟩ := h j (by simp [hj])
      exact ⟨by simpa using h1, h2⟩)
    refine ⟨TD', ?_⟩
    unfold nodeLoop parFor
    have : (do let x ← rd D.node i; let y ← g x; TD.setNode i y : Res (Diagram N' E')) = .ok { TD with node := TD.node.set i y } := by
      rw [rd_some a1, bind_ok, a2, bind_ok]
      exact setNode_ok.2 ⟨hl, rfl⟩
    rw [this, bind_ok]; exact e

/-- the node loop: the result does not depend on the order of the iterations -/
theorem nodeLoop_iff {D : Diagram N E} {g : N → Res N'} {sched : List Nat} {TD TD' : Diagram N' E'} (hs : sched.Perm (List.range D.node.length))
    (hl : TD.node.length = D.node.length) :
    nodeLoop D g sched TD = .ok TD' ↔ ∃ ys, List.Forall₂ (fun x y => g x = .ok y) D.node ys ∧ TD' = { TD with node := ys } := by
  have hmem : ∀ i, i ∈ sched ↔ i < D.node.length := fun i => by rw [hs.mem_iff, List.mem_range]
  constructor
  · intro h
    obtain ⟨e1, e2, e3, e4, e5⟩ := nodeLoop_sound D g sched TD TD' h
    refine ⟨TD'.node, ?_, ?_⟩
    · rw [List.forall₂_iff_get]
      refine ⟨by omega, ?_⟩
      intro i h1 h2
      obtain ⟨x, y, a1, a2, a3⟩ := e4 i ((hmem i).2 h1)
      obtain ⟨_, b1⟩ := List.getElem?_eq_some_iff.1 a1
      obtain ⟨_, b3⟩ := List.getElem?_eq_some_iff.1 a3
      rw [List.get_eq_getElem, List.get_eq_getElem, b1, b3]; exact a2
    · cases TD'; cases TD; simp only at e1 e2; subst e1; subst e2; rfl
  · rintro ⟨ys, hf, rfl⟩
    have hlen := hf.length_eq
    rw [List.forall₂_iff_get] at hf
    have hok : ∀ i, i < D.node.length → ∃ x y, D.node[i]? = some x ∧ g x = .ok y ∧ ys[i]? = some y := by
      intro i hi
      have := hf.2 i hi (by omega)
      exact ⟨D.node[i], ys[i], List.getElem?_eq_getElem hi, this, List.getElem?_eq_getElem _⟩
    obtain ⟨TD', e⟩ := nodeLoop_complete D g sched TD (by
      intro i hi
      rw [hmem] at hi
      obtain ⟨x, y, a1, a2, _⟩ := hok i hi
      exact ⟨by omega, x, y, a1, a2⟩)
    rw [e]
    obtain ⟨e1, e2, e3, e4, e5⟩ := nodeLoop_sound D g sched TD TD' e
    have : TD'.node = ys := by
      apply List.ext_getElem?
      intro i
      by_cases hi : i < D.node.length
      · obtain ⟨x, y, a1, a2, a3⟩ := e4 i ((hmem i).2 hi)
        obtain ⟨x', y', b1, b2, b3⟩ := hok i hi
        rw [a1] at b1; cases b1
        rw [a2] at b2; cases b2
        rw [a3, b3]
      · rw [List.getElem?_eq_none (by omega), List.getElem?_eq_none (by omega)]
    congr 1
    cases TD'; cases TD; simp only at e1 e2 this; subst e1; subst e2; subst this; rfl

theorem edgeLoop_sound (D : Diagram N E) (g : List N' → Nat → Nat → E → Res E') : ∀ (sched : List Nat) (TD TD' : Diagram N' E'), edgeLoop D g sched TD = .ok TD' →
    TD'.node = TD.node ∧ TD'.edata.length = TD.edata.length ∧ TD'.elist.length = TD.elist.length ∧
    (∀ i ∈ sched, ∃ st x y, D.elist[i]? = some st ∧ D.edata[i]? = some x ∧ g TD.node st.1 st.2 x = .ok y ∧ TD'.edata[i]? = some y ∧ TD'.elist[i]? = some st) ∧
    ∀ i, i ∉ sched → TD'.edata[i]? = TD.edata[i]? ∧ TD'.elist[i]? = TD.elist[i]?
  | [], TD, TD', h => by
    unfold edgeLoop parFor at h; cases h
    exact ⟨rfl, rfl, rfl, by simp, fun _ _ => ⟨rfl, rfl⟩⟩
  | i :: is, TD, TD', h => by
    unfold edgeLoop parFor at h
    obtain ⟨S, h1, h2⟩ := bind_ok_iff.1 h
    obtain ⟨st, a0, h1⟩ := bind_ok_iff.1 h1
    obtain ⟨x, a1, h1⟩ := bind_ok_iff.1 h1
    obtain ⟨y, a2, h1⟩ := bind_ok_iff.1 h1
    rw [rd_ok_iff] at a0 a1
    obtain ⟨hl, hl2, rfl⟩ := setEdge_ok.1 h1
    obtain ⟨e1, e2, e3, e4, e5⟩ := edgeLoop_sound D g is _ TD' h2
    refine ⟨e1, by rw [e2, List.length_set], by rw [e3, List.length_set], ?_, ?_⟩
    · intro j hj
      by_cases hm : j ∈ is
      · exact e4 j hm
      · have : j = i := by simpa [hm] using hj
        subst this
        refine ⟨st, x, y, a0, a1, a2, ?_⟩
        rw [(e5 j hm).1, (e5 j hm).2]; simp [hl, hl2]
    · intro j hj
      rw [List.mem_cons, not_or] at hj
      rw [(e5 j hj.2).1, (e5 j hj.2).2]
      simp only
      rw [List.getElem?_set_ne (fun h => hj.1 h.symm), List.getElem?_set_ne (fun h => hj.1 h.symm)]
      exact ⟨rfl, rfl⟩

theorem edgeLoop_complete (D : Diagram N E) (g : List N' → Nat → Nat → E → Res E') : ∀ (sched : List Nat) (TD : Diagram N' E'),
    (∀ i ∈ sched, i < TD.edata.length ∧ i < TD.elist.length ∧ ∃ st x y, D.elist[i]? = some st ∧ D.edata[i]? = some x ∧ g TD.node st.1 st.2 x = .ok y) →
    ∃ TD', edgeLoop D g sched TD = .ok TD'
  | [], TD, _ => ⟨TD, rfl⟩
  | i :: is, TD, h => by
    obtain ⟨hl, hl2, st, x, y, a0, a1, a2⟩ := h i (by simp)
    obtain ⟨TD', e⟩ := edgeLoop_complete D g is { TD with edata := TD.edata.set i y, elist := TD.elist.set i (st.1, st.2) } (by
      intro j hj
      obtain ⟨h1, h2, h3⟩ := h j (by simp [hj])
      exact ⟨by simpa using h1, by simpa using h2, h3⟩)
    refine ⟨TD', ?_⟩
    unfold edgeLoop parFor
    have : (do let st ← rd D.elist i; let e ← rd D.edata i; let e' ← g TD.node st.1 st.2 e; TD.setEdge i st.1 st.2 e' : Res (Diagram N' E')) =
        .ok { TD with edata := TD.edata.set i y, elist := TD.elist.set i (st.1, st.2) } := by
      rw [rd_some a0, bind_ok, rd_some a1, bind_ok, a2, bind_ok]
      exact setEdge_ok.2 ⟨hl, hl2, rfl⟩
    rw [this, bind_ok]; exact e

/-- the edge loop: the result does not depend on the order of the iterations -/
theorem edgeLoop_iff {D : Diagram N E} {g : List N' → Nat → Nat → E → Res E'} {sched : List Nat} {TD TD' : Diagram N' E'} (hs : sched.Perm (List.range D.edata.length))
    (hD : D.elist.length = D.edata.length) (hl : TD.edata.length = D.edata.length) (hl2 : TD.elist.length = D.edata.length) :
    edgeLoop D g sched TD = .ok TD' ↔ ∃ ys, ys.length = D.edata.length ∧
      (∀ (j : Nat) (st : Nat × Nat) (x : E), D.elist[j]? = some st → D.edata[j]? = some x → ∃ y, ys[j]? = some y ∧ g TD.node st.1 st.2 x = .ok y) ∧
      TD' = ⟨TD.node, ys, D.elist⟩ := by
  have hmem : ∀ i, i ∈ sched ↔ i < D.edata.length := fun i => by rw [hs.mem_iff, List.mem_range]
  have fin : ∀ TD', edgeLoop D g sched TD = .ok TD' → TD'.node = TD.node ∧ TD'.edata.length = D.edata.length ∧ TD'.elist = D.elist ∧
      (∀ (j : Nat) (st : Nat × Nat) (x : E), D.elist[j]? = some st → D.edata[j]? = some x → ∃ y, TD'.edata[j]? = some y ∧ g TD.node st.1 st.2 x = .ok y) := by
    intro TD' h
    obtain ⟨e1, e2, e3, e4, e5⟩ := edgeLoop_sound D g sched TD TD' h
    refine ⟨e1, by omega, ?_, ?_⟩
    · apply List.ext_getElem?
      intro i
      by_cases hi : i < D.edata.length
      · obtain ⟨st, x, y, a0, _, _, _, a4⟩ := e4 i ((hmem i).2 hi)
        rw [a4, a0]
      · rw [List.getElem?_eq_none (by omega), List.getElem?_eq_none (by omega)]
    · intro j st x h1 h2
      have hj : j < D.edata.length := (List.getElem?_eq_some_iff.1 h2).1
      obtain ⟨st', x', y, a0, a1, a2, a3, a4⟩ := e4 j ((hmem j).2 hj)
      rw [h1] at a0; cases a0
      rw [h2] at a1; cases a1
      exact ⟨y, a3, a2⟩
  constructor
  · intro h
    obtain ⟨f1, f2, f3, f4⟩ := fin TD' h
    refine ⟨TD'.edata, f2, f4, ?_⟩
    cases TD'; simp only at f1 f3; subst f1; subst f3; rfl
  · rintro ⟨ys, hy, hf, rfl⟩
    obtain ⟨TD', e⟩ := edgeLoop_complete D g sched TD (by
      intro i hi
      rw [hmem] at hi
      obtain ⟨y, y1, y2⟩ := hf i _ _ (List.getElem?_eq_getElem (by omega : i < D.elist.length)) (List.getElem?_eq_getElem hi)
      exact ⟨by omega, by omega, _, _, y, List.getElem?_eq_getElem (by omega), List.getElem?_eq_getElem hi, y2⟩)
    rw [e]
    obtain ⟨f1, f2, f3, f4⟩ := fin TD' e
    have : TD'.edata = ys := by
      apply List.ext_getElem?
      intro i
      by_cases hi : i < D.edata.length
      · obtain ⟨y, y1, y2⟩ := hf i _ _ (List.getElem?_eq_getElem (by omega : i < D.elist.length)) (List.getElem?_eq_getElem hi)
        obtain ⟨y', y1', y2'⟩ := f4 i _ _ (List.getElem?_eq_getElem (by omega : i < D.elist.length)) (List.getElem?_eq_getElem hi)
        rw [y2] at y2'; cases y2'
        rw [y1, y1']
      · rw [List.getElem?_eq_none (by omega), List.getElem?_eq_none (by omega)]
    congr 1
    cases TD'; simp only at f1 f3 this; subst f1; subst f3; subst this; rfl

end BATS
