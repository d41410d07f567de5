import Verif.Proofs.Sublevel

set_option linter.unusedSectionVars false
set_option linter.unusedVariables false
set_option linter.unusedSimpArgs false

/-! # C29: filtrations (include/filtration/filtration.hpp, include/filtration/extension.hpp)

`Op`, `run` are histories of the calls `add`, `add_directed`, `add_recursive` with a value and a simplex; `specRun`, `Represents`,
`Monotone`, `Good`, `IsMaxVertex` are in `Verif/Spec/Filtration.lean`. -/

namespace BATS
open Filt

variable {T : Type} [Zero T] [LinearOrder T]

/-- a filtration without cells: `Filtration()` or `Filtration(SimplicialComplex(m))` -/
def NewFilt (Φ : Filt T) : Prop := Φ = Filt.empty ∨ ∃ m, Filt.ofCpx (SCpx.init m) = .ok Φ

theorem NewFilt.inv {Φ : Filt T} (h : NewFilt Φ) : FInv Φ (fun _ => []) (fun _ => none) := by
  rcases h with rfl | ⟨m, hm⟩
  · exact empty_inv
  · obtain ⟨Ψ, h1, h2⟩ := ofCpx_init_inv (T := T) m
    rw [hm] at h1; cases h1; exact h2

/-- C29: a history of additions to a new filtration in which every simplex added with `add` or `add_directed` finds its faces
present ends in a filtration whose queries describe exactly the specified simplices and values. If some `add` or `add_directed`
finds a face missing, the history has undefined behaviour (the value is written at index `NO_IND`). -/
theorem C29_history {Φ : Filt T} (hΦ : NewFilt Φ) (ops : List (Filt.Op T)) (ho : ∀ o ∈ ops, o.simplex ≠ []) :
    (∀ v, Filt.specRun (fun _ => none) ops = some v → ∃ Ψ, Φ.run ops = .ok Ψ ∧ Filt.Represents Ψ v) ∧
    (Filt.specRun (fun _ => none) ops = none → Φ.run ops = .error .ub) := by
  obtain ⟨h1, h2⟩ := run_inv ops hΦ.inv ho
  refine ⟨fun v hv => ?_, h2⟩
  obtain ⟨Ψ, c, e1, e2, _⟩ := h1 v hv
  exact ⟨Ψ, e1, e2.represents⟩

/-- a call that sorts its simplex -/
def Filt.Op.sorting : Filt.Op T → Prop
  | .addDirected _ _ => False
  | _ => True

theorem sorted_mergeSort_le (s : List Nat) : (s.mergeSort (· ≤ ·)).Pairwise (· ≤ ·) := by
  rw [SCpx.mergeSort_eq]
  exact List.pairwise_insertionSort (· ≤ ·) s

theorem specRun_dom_sorted : ∀ (ops : List (Filt.Op T)) (v w : List Nat → Option T), (∀ o ∈ ops, o.sorting) →
    (∀ s, v s ≠ none → s.Pairwise (· ≤ ·)) → Filt.specRun v ops = some w → ∀ s, w s ≠ none → s.Pairwise (· ≤ ·) := by
  intro ops
  induction ops with
  | nil => intro v w _ hv h; cases h; exact hv
  | cons o os ih =>
    intro v w ho hv h
    unfold Filt.specRun at h
    rcases hs : Filt.specStep v o with _ | v'
    · rw [hs] at h; cases h
    · rw [hs] at h
      refine ih v' w (fun o hm => ho o (by simp [hm])) ?_ h
      have hso := ho o (by simp)
      intro s hne
      cases o with
      | add t u =>
        simp only [Filt.specStep, Filt.specAdd] at hs
        split at hs
        · cases hs
          by_cases e : s = u.mergeSort (· ≤ ·)
          · rw [e]; exact sorted_mergeSort_le u
          · simp only [if_neg e] at hne; exact hv s hne
        · cases hs
      | addDirected t u => exact absurd hso (by simp [Filt.Op.sorting])
      | addRecursive t u =>
        simp only [Filt.specStep, Filt.specAddRec, Option.some.injEq] at hs
        subst hs
        split at hne
        · by_cases e : s = u.mergeSort (· ≤ ·)
          · rw [e]; exact sorted_mergeSort_le u
          · simp only [if_neg e] at hne; exact hv s hne
        · simp only at hne
          split at hne
          · rename_i h; exact (sorted_mergeSort_le u).sublist h.2.1
          · exact hv s hne

/-- C29: after any legal history of `add` and `add_recursive`, `sublevelset(a)` succeeds for every threshold; its simplices are
exactly those present with value at most `a` all of whose faces have value at most `a`. So it is a subcomplex for arbitrary
values; these sets grow with `a`; and if the values are monotone it is the set of all simplices with value at most `a`. -/
theorem C29_sublevel {Φ : Filt T} (hΦ : NewFilt Φ) (ops : List (Filt.Op T)) (ho : ∀ o ∈ ops, o.simplex ≠ [] ∧ o.sorting)
    {v : List Nat → Option T} (hv : Filt.specRun (fun _ => none) ops = some v) :
    ∃ Ψ, Φ.run ops = .ok Ψ ∧ ∀ a, ∃ Y, Ψ.sublevelset a = .ok Y ∧
      SCpx.Represents Y {s | Good v a s} ∧
      (Filt.Monotone v → SCpx.Represents Y {s | ∃ x, v s = some x ∧ x ≤ a}) := by
  obtain ⟨h1, _⟩ := run_inv ops hΦ.inv (fun o h => (ho o h).1)
  obtain ⟨Ψ, c, e1, e2, _⟩ := h1 v hv
  have hd := specRun_dom_sorted ops _ v (fun o h => (ho o h).2) (by intro s h; exact absurd rfl h) hv
  refine ⟨Ψ, e1, fun a => ?_⟩
  obtain ⟨Y, c', f1, f2, _, f4⟩ := sublevelset_spec e2 (fun d s hs => hd s ((e2.dom s).2 ((SCpx.mem_setOf (e2.inv.ok.len d s hs)).2 hs))) a
  have hr := f2.represents
  rw [f4] at hr
  refine ⟨Y, f1, hr, fun hm => ?_⟩
  have hnil : v [] = none := by
    by_contra hc
    exact ((e2.dom []).1 hc).1 rfl
  have : {s | Good v a s} = {s | ∃ x, v s = some x ∧ x ≤ a} := by
    ext s; exact good_of_monotone hm hnil a s
  rw [← this]; exact hr

/-- C29: the sets of `C29_sublevel` are closed under faces and nested. -/
theorem C29_sublevel_nested (v : List Nat → Option T) {a b : T} (hab : a ≤ b) {s u : List Nat} (hs : Good v a s) (hu : u ≠ [])
    (hsub : u.Sublist s) : Good v b u :=
  ⟨hu, fun w hw hwu => by
    obtain ⟨y, h1, h2⟩ := hs.2 w hw (hwu.trans hsub)
    exact ⟨y, h1, le_trans h2 hab⟩⟩

/-- edge {0,1} gets value 1, although vertex 1 has value 2: below 2 the edge is left out of the sublevel set -/
example : ((Filt.empty : Filt Nat).run [.add 0 [0], .add 2 [1], .add 1 [1, 0]]).bind (fun Φ => (Φ.sublevelset 1).bind (fun Y =>
      (Φ.sublevelset 2).map (fun Z => (Y.ncells, Z.ncells)))) = .ok ([1, 0], [2, 1]) := by decide +kernel

/-- adding an edge before its vertices -/
example : ((Filt.empty : Filt Nat).run [.add 0 [0], .add 2 [0, 1]]).map (fun Φ => Φ.val) = .error .ub := by decide +kernel

/-- C29: for every reachable complex and every function on its vertices, `lower_star_filtration` succeeds and assigns to each
simplex the maximum of its vertex values together with a vertex where it is attained. -/
theorem C29_lower_star {X : SCpx} (h : SCpx.Reachable X) (f0 : List T) (hf : ∀ s i, s ≠ [] → X.findIdx s = some i → ∀ j ∈ s, j < f0.length) :
    ∃ vals inds, lowerStar X f0 = .ok (vals, inds) ∧ vals.length = X.maxdim + 1 ∧ inds.length = X.maxdim + 1 ∧
      (∀ d, d ≤ X.maxdim → X.numCells d = .ok (vals.getD d []).length ∧ X.numCells d = .ok (inds.getD d []).length) ∧
      ∀ s i, s ≠ [] → X.findIdx s = some i → ∃ r, IsMaxVertex f0 s r ∧
        (vals.getD (s.length - 1) [])[i]? = some r.1 ∧ (inds.getD (s.length - 1) [])[i]? = some r.2 := by
  obtain ⟨cells, hI⟩ := h.inv
  have hmem : ∀ d, ∀ s ∈ cells d, ∀ j ∈ s, j < f0.length := by
    intro d s hs
    have hs' := (SCpx.mem_setOf (hI.ok.len d s hs)).2 hs
    obtain ⟨i, hi⟩ := (hI.represents.found s hs'.1).1 hs'
    exact hf s i hs'.1 hi
  obtain ⟨g, hg, e⟩ := lowerStar_spec hI f0 hmem
  have hne := hI.sizes.ne
  have hlen : X.ncells.length = X.maxdim + 1 := by unfold SCpx.maxdim; omega
  have hgd : ∀ {β : Type} (p : Nat → List β) d, d ≤ X.maxdim → ((List.range X.ncells.length).map p).getD d [] = p d := by
    intro β p d hd
    rw [List.getD_eq_getElem?_getD, List.getElem?_map, List.getElem?_range (by omega)]; rfl
  refine ⟨_, _, e, by simp [hlen], by simp [hlen], ?_, ?_⟩
  · intro d hd
    rw [hgd _ d hd, hgd _ d hd, List.length_map, List.length_map]
    have := (hI.dim d (by omega)).nc
    exact ⟨BATS.rd_some this, BATS.rd_some this⟩
  · intro s i hs hi
    have hgi := (hI.trie s hs i).1 hi
    have hd : s.length - 1 ≤ X.maxdim := by
      by_contra hc
      rw [hI.top _ (by omega)] at hgi; simp at hgi
    refine ⟨g s, hg _ s (List.mem_of_getElem? hgi), ?_, ?_⟩
    · rw [hgd _ _ hd, List.getElem?_map, hgi]; rfl
    · rw [hgd _ _ hd, List.getElem?_map, hgi]; rfl

/-- C29: the filtration built from a complex of sorted simplices and its lower-star values is monotone, and its sublevel set at
`a` consists of the simplices all of whose vertices have value at most `a`. -/
theorem C29_lower_star_sublevel {X : SCpx} (h : SCpx.Reachable X) (hsort : ∀ s i, s ≠ [] → X.findIdx s = some i → s.Pairwise (· ≤ ·))
    (f0 : List T) (hf : ∀ s i, s ≠ [] → X.findIdx s = some i → ∀ j ∈ s, j < f0.length) :
    ∃ vals inds v, lowerStar X f0 = .ok (vals, inds) ∧ Filt.Represents (Filt.ofVals X vals) v ∧ Filt.Monotone v ∧
      ∀ a, ∃ Y, (Filt.ofVals X vals).sublevelset a = .ok Y ∧
        SCpx.Represents Y {s | s ≠ [] ∧ (∃ i, X.findIdx s = some i) ∧ ∀ j ∈ s, ∃ y, f0[j]? = some y ∧ y ≤ a} := by
  classical
  obtain ⟨cells, hI⟩ := h.inv
  have hfound : ∀ d, ∀ s ∈ cells d, s ≠ [] ∧ ∃ i, X.findIdx s = some i := by
    intro d s hs
    have hs' := (SCpx.mem_setOf (hI.ok.len d s hs)).2 hs
    exact ⟨hs'.1, (hI.represents.found s hs'.1).1 hs'⟩
  have hmem : ∀ d, ∀ s ∈ cells d, ∀ j ∈ s, j < f0.length := by
    intro d s hs
    obtain ⟨h1, i, hi⟩ := hfound d s hs
    exact hf s i h1 hi
  obtain ⟨g, hg, e⟩ := lowerStar_spec hI f0 hmem
  have hne := hI.sizes.ne
  have hv : FInv (Filt.ofVals X ((List.range X.ncells.length).map (fun d => (cells d).map (fun s => (g s).1)))) cells
      (fun s => if s ∈ SCpx.setOf cells then some (g s).1 else none) := by
    refine ⟨hI, Or.inl (by simp [Filt.ofVals]), ?_, ?_⟩
    · intro d
      show (((List.range X.ncells.length).map (fun d => (cells d).map (fun s => (g s).1))).getD d []).map some = _
      by_cases hd : d < X.ncells.length
      · rw [List.getD_eq_getElem?_getD, List.getElem?_map, List.getElem?_range hd]
        show ((cells d).map (fun s => (g s).1)).map some = _
        rw [List.map_map]
        apply List.map_congr_left
        intro s hs
        rw [if_pos ((SCpx.mem_setOf (hI.ok.len d s hs)).2 hs)]; rfl
      · rw [List.getD_eq_getElem?_getD, List.getElem?_eq_none (by simp; omega), hI.top d (by omega)]; rfl
    · intro s
      by_cases hs : s ∈ SCpx.setOf cells
      · simp [hs]
      · simp [hs]
  have hset : ∀ s, s ∈ SCpx.setOf cells → s ≠ [] ∧ s ∈ cells (s.length - 1) := fun s hs => hs
  have hmono : Filt.Monotone (fun s => if s ∈ SCpx.setOf cells then some (g s).1 else none) := by
    intro s u hu hsub x hx
    by_cases hs : s ∈ SCpx.setOf cells
    · simp only [if_pos hs, Option.some.injEq] at hx
      subst hx
      obtain ⟨h1, h2⟩ := hset s hs
      have hu2 := hI.ok.sublist _ _ s u h2 hsub hu rfl
      have hu3 : u ∈ SCpx.setOf cells := ⟨hu, hu2⟩
      refine ⟨(g u).1, by simp only [if_pos hu3], ?_⟩
      obtain ⟨a1, a2, _⟩ := hg _ u hu2
      obtain ⟨_, _, b3⟩ := hg _ s h2
      obtain ⟨y, c1, c2⟩ := b3 _ (hsub.subset a1)
      rw [a2] at c1; cases c1; exact c2
    · simp only [if_neg hs] at hx; cases hx
  refine ⟨_, _, _, e, hv.represents, hmono, fun a => ?_⟩
  obtain ⟨Y, c', f1, f2, _, f4⟩ := sublevelset_spec hv (fun d s hs => by
    obtain ⟨h1, i, hi⟩ := hfound d s hs
    exact hsort s i h1 hi) a
  refine ⟨Y, f1, ?_⟩
  have hr := f2.represents
  rw [f4] at hr
  convert hr using 1
  ext s
  rw [Set.mem_ofPred_eq, Set.mem_ofPred_eq, good_of_monotone hmono (by
    have : ([] : List Nat) ∉ SCpx.setOf cells := fun h => h.1 rfl
    simp only [if_neg this]) a s]
  constructor
  · rintro ⟨h1, h2, h3⟩
    have hs : s ∈ SCpx.setOf cells := (hI.represents.found s h1).2 h2
    refine ⟨(g s).1, by simp only [if_pos hs], ?_⟩
    obtain ⟨a1, a2, _⟩ := hg _ s (hset s hs).2
    obtain ⟨y, c1, c2⟩ := h3 _ a1
    rw [a2] at c1; cases c1; exact c2
  · rintro ⟨x, hx, hxa⟩
    by_cases hs : s ∈ SCpx.setOf cells
    · simp only [if_pos hs, Option.some.injEq] at hx
      subst hx
      refine ⟨hs.1, (hI.represents.found s hs.1).1 hs, fun j hj => ?_⟩
      obtain ⟨_, _, b3⟩ := hg _ s (hset s hs).2
      obtain ⟨y, c1, c2⟩ := b3 j hj
      exact ⟨y, c1, le_trans c2 hxa⟩
    · simp only [if_neg hs] at hx; cases hx

/-- the solid triangle with vertex values 5, 3, 8 -/
example : ((SCpx.init 0).run [.addRecursive [0, 1, 2]]).bind (fun X => lowerStar X [5, 3, 8]) =
    .ok ([[5, 3, 8], [5, 8, 8], [8]], [[0, 1, 2], [0, 2, 2], [2]]) := by decide +kernel

end BATS
