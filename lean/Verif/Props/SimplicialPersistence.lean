import Verif.Proofs.SimplicialPersistence
import Verif.Props.Simplicial
import Verif.Props.Filtration
import Verif.Props.Persistence

set_option linter.unusedSectionVars false
set_option linter.unusedVariables false
set_option linter.unusedSimpArgs false

/-! # C52: end to end persistent homology of a simplicial filtration

`Filt.specRun` is in `Verif/Spec/Filtration.lean`, `IsASC`, `simpInclusion` (the map between simplicial homology groups induced by
an inclusion of abstract simplicial complexes) in `Verif/Spec/SimplicialPersistence.lean`. -/

namespace BATS
open Filt SCpx

variable {F : Type} [Field F] [DecidableEq F] {T : Type} [Zero T] [LinearOrder T]

/-- `add` and `add_recursive` with simplices on distinct vertices -/
def PlainFiltOp : Filt.Op T → Prop
  | .add _ s | .addRecursive _ s => s ≠ [] ∧ s.Nodup
  | _ => False

theorem PlainFiltOp.ne {o : Filt.Op T} (h : PlainFiltOp o) : o.simplex ≠ [] := by
  cases o <;> simp only [PlainFiltOp] at h
  · exact h.1
  · exact h.1

theorem specRun_dom_strict : ∀ (ops : List (Filt.Op T)) (v w : List Nat → Option T), (∀ o ∈ ops, PlainFiltOp o) →
    (∀ s, v s ≠ none → s.Pairwise (· < ·)) → Filt.specRun v ops = some w → ∀ s, w s ≠ none → s.Pairwise (· < ·) := by
  intro ops
  induction ops with
  | nil => intro v w _ hv h; cases h; exact hv
  | cons o os ih =>
    intro v w ho hv h
    unfold Filt.specRun at h
    rcases hs : Filt.specStep v o with _ | v'
    · rw [hs] at h; cases h
    · rw [hs] at h
      refine ih v' w (fun o hm => ho o (by simp [hm])) ?_ h
      have hso := ho o (by simp)
      intro s hne
      cases o with
      | add t u =>
        simp only [Filt.specStep, Filt.specAdd] at hs
        split at hs
        · cases hs
          by_cases e : s = u.mergeSort (· ≤ ·)
          · rw [e]; exact sorted_mergeSort hso.2
          · simp only [if_neg e] at hne; exact hv s hne
        · cases hs
      | addDirected t u => exact hso.elim
      | addRecursive t u =>
        simp only [Filt.specStep, Filt.specAddRec, Option.some.injEq] at hs
        subst hs
        split at hne
        · by_cases e : s = u.mergeSort (· ≤ ·)
          · rw [e]; exact sorted_mergeSort hso.2
          · simp only [if_neg e] at hne; exact hv s hne
        · simp only at hne
          split at hne
          · rename_i h; exact (sorted_mergeSort hso.2).sublist h.2.1
          · exact hv s hne

theorem exists_vertexSets {X : SCpx} {cells : Cells} (h : SCpx.Inv X cells) (hs : ∀ d s, s ∈ cells d → s.Pairwise (· < ·)) :
    ∃ K : Finset (Finset Nat), VertexSets cells K := by
  refine ⟨((List.range X.ncells.length).flatMap (fun d => (cells d).map List.toFinset)).toFinset, hs, ?_⟩
  intro σ
  rw [List.mem_toFinset, List.mem_flatMap]
  constructor
  · rintro ⟨d, _, hm⟩
    rw [List.mem_map] at hm
    obtain ⟨s, hs', rfl⟩ := hm
    rw [sort_toFinset_of_sorted (hs d s hs')]
    exact (mem_setOf (h.ok.len d s hs')).2 hs'
  · intro hm
    refine ⟨(σ.sort (· ≤ ·)).length - 1, ?_, ?_⟩
    · rw [List.mem_range]
      by_contra hc
      have := hm.2
      rw [h.top _ (by omega)] at this
      simp at this
    · rw [List.mem_map]
      exact ⟨_, hm.2, Finset.sort_toFinset _ _⟩

theorem sort_sublist {σ τ : Finset Nat} (h : σ ⊆ τ) : (σ.sort (· ≤ ·)).Sublist (τ.sort (· ≤ ·)) := by
  have h1 : (σ.sort (· ≤ ·)).Subperm (τ.sort (· ≤ ·)) := by
    apply List.subperm_of_subset (σ.sort_nodup _)
    intro a ha
    exact (Finset.mem_sort _).2 (h ((Finset.mem_sort _).1 ha))
  exact List.sublist_of_subperm_of_pairwise (r := (· < ·)) h1 (pairwise_sort_lt σ) (pairwise_sort_lt τ)

/-- the computation on any filtration that holds sorted simplices with monotone values -/
theorem persistence_core (v : Variant) {Ψ : Filt T} {cells : Cells} {w : List Nat → Option T} (hF : Filt.FInv Ψ cells w)
    (hsort : ∀ d s, s ∈ cells d → s.Pairwise (· < ·)) (hm : Filt.Monotone w) (h1 : 1 ≤ Ψ.X.maxdim)
    (K : T → Finset (Finset Nat)) (hK : ∀ a σ, σ ∈ K a ↔ ∃ x, w (σ.sort (· ≤ ·)) = some x ∧ x ≤ a) :
    ∃ (B : List (CMat F)) (R : RedFiltCpx T F) (hasc : ∀ a, IsASC (K a)) (hsub : ∀ s t, s ≤ t → K s ⊆ K t),
      Ψ.X.chainComplex = .ok B ∧ RedFiltCpx.ofFiltration v.reduce Ψ.val B = .ok R ∧
      ∀ k, k ≤ Ψ.X.maxdim → ∃ ps, R.persistencePairs k false = .ok ps ∧
        ∀ (s t : T) (hst : s ≤ t),
          ps.countP (fun q => decide (q.birth ≤ s) && (match q.death with | none => true | some d => decide (t < d))) =
            Module.finrank F (LinearMap.range (simpInclusion F (hasc s) (hasc t) (hsub s t hst) k)) := by
  obtain ⟨K0, hv⟩ := exists_vertexSets hF.inv hsort
  obtain ⟨B, b1, b2, b3, b4⟩ := chainComplex_spec (F := F) hF.inv
  have hC := isChainComplex_of hF.inv (fun d s hs => (hsort d s hs).imp (fun h => ne_of_lt h)) b3 b2 b4
  have hc := cdim_eq hF.inv b3 b2 b4
  have hne := hF.inv.sizes.ne
  have hmd : Ψ.X.maxdim + 1 = Ψ.X.ncells.length := by unfold SCpx.maxdim; omega
  have hz : ZeroBdry0 B := by
    intro c hc
    rw [List.getD_eq_getElem?_getD, b3, Option.getD_some] at hc
    simp [CMat.zero] at hc; exact hc.2
  have hb0 : bdry B 0 = 0 := by
    ext i m
    show coef ((B.getD 0 ⟨0, []⟩).cols.getD m []) i = 0
    rw [List.getD_eq_getElem?_getD (l := B), b3, Option.getD_some]
    simp only [CMat.zero, List.getD_eq_getElem?_getD, List.getElem?_replicate]
    split <;> simp
  have hvals : ValuesFor B Ψ.val := by
    refine ⟨?_, ?_⟩
    · rcases hF.len with h | ⟨_, h, _⟩
      · omega
      · omega
    · intro k _
      rw [hF.rowLen, hc]
  have hnil : w [] = none := by
    by_contra hcon
    exact ((hF.dom []).1 hcon).1 rfl
  have hASC0 : ∀ σ, σ ∈ K0 → σ.Nonempty := by
    intro σ hσ
    rw [Finset.nonempty_iff_ne_empty]
    rintro rfl
    exact ((hv.mem ∅).1 hσ).1 (by simp)
  have hK0 : IsASC K0 := by
    refine ⟨hASC0, ?_⟩
    intro σ hσ τ hτ hτn
    have hs1 := (hv.mem σ).1 hσ
    have hne' : τ.sort (· ≤ ·) ≠ [] := by rw [← List.length_pos_iff, Finset.length_sort, Finset.card_pos]; exact hτn
    exact (hv.mem τ).2 ⟨hne', hF.inv.ok.sublist _ _ _ _ hs1.2 (sort_sublist hτ) hne' rfl⟩
  have hsub0 : ∀ a, K a ⊆ K0 := by
    intro a σ hσ
    obtain ⟨x, hx, _⟩ := (hK a σ).1 hσ
    exact (hv.mem σ).2 ((hF.dom _).1 (by rw [hx]; simp))
  have hasc : ∀ a, IsASC (K a) := by
    intro a
    refine ⟨fun σ hσ => hASC0 σ (hsub0 a hσ), ?_⟩
    intro σ hσ τ hτ hτn
    obtain ⟨x, hx, hxa⟩ := (hK a σ).1 hσ
    have hne' : τ.sort (· ≤ ·) ≠ [] := by rw [← List.length_pos_iff, Finset.length_sort, Finset.card_pos]; exact hτn
    obtain ⟨y, hy, hyx⟩ := hm _ _ hne' (sort_sublist hτ) x hx
    exact (hK a τ).2 ⟨y, hy, le_trans hyx hxa⟩
  have hsub : ∀ s t, s ≤ t → K s ⊆ K t := by
    intro s t hst σ hσ
    obtain ⟨x, hx, hxs⟩ := (hK s σ).1 hσ
    exact (hK t σ).2 ⟨x, hx, le_trans hxs hst⟩
  obtain ⟨R, r1, r2⟩ := C32_persistent_betti v hC (by omega) hz hvals
  refine ⟨B, R, hasc, hsub, b1, r1, fun k hk => ?_⟩
  obtain ⟨ps, p1, p2⟩ := r2 k (by omega)
  refine ⟨ps, p1, fun s t hst => ?_⟩
  exact (p2 s t hst).trans <| persistent_simplicial hF hv hc hb0 b4 hK hsub0 hasc hK0 k hst (hsub s t hst)

/-- C52: build a filtration by any legal history of `add` / `add_recursive` calls (distinct vertices, faces first) whose values
are monotone, form its filtered chain complex over any field and reduce it with any of the algorithms. Let `K a` be the abstract
complex of the vertex sets with value at most `a`. Then all calls succeed, the `K a` are nested simplicial complexes, and for all
`s ≤ t` and all `k` the number of reported bars of dimension `k` born at or before `s` and still alive at `t` is the rank of
`H_k(K s) → H_k(K t)`. -/
theorem C52_persistence (v : Variant) {Φ Ψ : Filt T} (hΦ : NewFilt Φ) (ops : List (Filt.Op T)) (ho : ∀ o ∈ ops, PlainFiltOp o)
    {w : List Nat → Option T} (hw : Filt.specRun (fun _ => none) ops = some w) (hm : Filt.Monotone w)
    (hrun : Φ.run ops = .ok Ψ) (h1 : 1 ≤ Ψ.X.maxdim)
    (K : T → Finset (Finset Nat)) (hK : ∀ a σ, σ ∈ K a ↔ ∃ x, w (σ.sort (· ≤ ·)) = some x ∧ x ≤ a) :
    ∃ (B : List (CMat F)) (R : RedFiltCpx T F) (hasc : ∀ a, IsASC (K a)) (hsub : ∀ s t, s ≤ t → K s ⊆ K t),
      Ψ.X.chainComplex = .ok B ∧ RedFiltCpx.ofFiltration v.reduce Ψ.val B = .ok R ∧
      ∀ k, k ≤ Ψ.X.maxdim → ∃ ps, R.persistencePairs k false = .ok ps ∧
        ∀ (s t : T) (hst : s ≤ t),
          ps.countP (fun q => decide (q.birth ≤ s) && (match q.death with | none => true | some d => decide (t < d))) =
            Module.finrank F (LinearMap.range (simpInclusion F (hasc s) (hasc t) (hsub s t hst) k)) := by
  obtain ⟨hrI, _⟩ := run_inv ops hΦ.inv (fun o h => (ho o h).ne)
  obtain ⟨Ψ', cells, e1, hF, _⟩ := hrI w hw
  rw [hrun] at e1; cases e1
  have hsort : ∀ d s, s ∈ cells d → s.Pairwise (· < ·) := by
    intro d s hs
    have hmem := (mem_setOf (hF.inv.ok.len d s hs)).2 hs
    exact specRun_dom_strict ops _ w ho (by intro s h; exact absurd rfl h) hw s ((hF.dom s).2 hmem)
  exact persistence_core v hF hsort hm h1 K hK

/-- a triangle boundary filled at value 5: the loop is born at 3 and dies at 5 -/
def triangleFiltOps : List (Filt.Op Nat) :=
  [.add 0 [0], .add 1 [1], .add 1 [2], .add 1 [0, 1], .add 2 [0, 2], .add 3 [2, 1], .add 5 [0, 1, 2]]

/-- the history is legal and its values are monotone -/
example : ∃ w, Filt.specRun (fun _ => none) triangleFiltOps = some w ∧ Filt.Monotone w ∧ w [1, 2] = some 3 := by
  have hs : ∀ v : List Nat → Option Nat, ∀ t s, (s.length = 1 ∨ ∀ k, k < s.length → v (s.eraseIdx k) ≠ none) →
      Filt.specAdd v t s = some (fun u => if u = s then some t else v u) := by
    intro v t s h
    unfold Filt.specAdd
    rw [if_pos h]
  have hm : ([2, 1] : List Nat).mergeSort (· ≤ ·) = [1, 2] := by rw [mergeSort_eq]; decide
  refine ⟨fun u => if u = [0, 1, 2] then some 5 else if u = [1, 2] then some 3 else if u = [0, 2] then some 2 else if u = [0, 1] then some 1 else
    if u = [2] then some 1 else if u = [1] then some 1 else if u = [0] then some 0 else none, ?_, ?_, ?_⟩
  · simp only [triangleFiltOps, Filt.specRun, Filt.specStep, hm]
    simp only [show ([0] : List Nat).mergeSort (· ≤ ·) = [0] by rw [mergeSort_eq]; decide, show ([1] : List Nat).mergeSort (· ≤ ·) = [1] by rw [mergeSort_eq]; decide,
      show ([2] : List Nat).mergeSort (· ≤ ·) = [2] by rw [mergeSort_eq]; decide, show ([0, 1] : List Nat).mergeSort (· ≤ ·) = [0, 1] by rw [mergeSort_eq]; decide,
      show ([0, 2] : List Nat).mergeSort (· ≤ ·) = [0, 2] by rw [mergeSort_eq]; decide, show ([0, 1, 2] : List Nat).mergeSort (· ≤ ·) = [0, 1, 2] by rw [mergeSort_eq]; decide]
    rw [hs _ _ _ (by decide), Option.bind_some, hs _ _ _ (by decide), Option.bind_some, hs _ _ _ (by decide), Option.bind_some,
      hs _ _ _ (by decide), Option.bind_some, hs _ _ _ (by decide), Option.bind_some, hs _ _ _ (by decide), Option.bind_some,
      hs _ _ _ (by decide), Option.bind_some]
  · intro s u hu hsub x hx
    have key : ∀ s ∈ ([[0, 1, 2], [1, 2], [0, 2], [0, 1], [2], [1], [0]] : List (List Nat)), ∀ u ∈ s.sublists, u ≠ [] →
        ∀ x ∈ (if s = [0, 1, 2] then some 5 else if s = [1, 2] then some 3 else if s = [0, 2] then some 2 else if s = [0, 1] then some 1 else
          if s = [2] then some 1 else if s = [1] then some 1 else if s = [0] then some 0 else none : Option Nat),
        ∃ y ∈ (if u = [0, 1, 2] then some 5 else if u = [1, 2] then some 3 else if u = [0, 2] then some 2 else if u = [0, 1] then some 1 else
          if u = [2] then some 1 else if u = [1] then some 1 else if u = [0] then some 0 else none : Option Nat), y ≤ x := by decide +kernel
    apply key s ?_ u (List.mem_sublists.2 hsub) hu x hx
    by_contra hc
    simp only [List.mem_cons, List.not_mem_nil, or_false, not_or] at hc
    obtain ⟨c1, c2, c3, c4, c5, c6, c7⟩ := hc
    simp only [if_neg c1, if_neg c2, if_neg c3, if_neg c4, if_neg c5, if_neg c6, if_neg c7] at hx
    cases hx
  · decide

/-- its bars -/
example : ((Filt.empty : Filt Nat).run triangleFiltOps).bind (fun Ψ => (Ψ.X.chainComplex : Res (List (CMat ℚ))).bind (fun B =>
    (RedFiltCpx.ofFiltration Variant.standard.reduce Ψ.val B).bind (fun R => (R.persistencePairs 0 false).bind (fun p0 =>
      (R.persistencePairs 1 false).map (fun p1 => (p0.map (fun q => (q.birth, q.death)), p1.map (fun q => (q.birth, q.death)))))))) =
    .ok ([(0, none), (1, some 1), (1, some 2)], [(3, some 5)]) := by decide +kernel

end BATS
