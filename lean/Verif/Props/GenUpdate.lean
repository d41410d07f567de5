import Verif.Proofs.GenUpd8
import Verif.Spec.GenUpdate

set_option linter.unusedSectionVars false
set_option linter.unusedVariables false
set_option linter.unusedSimpArgs false

/-! # C73: general updates of a reduced filtered DG vector space -/

namespace BATS
open Reduction Matrix DG SCpx UpdInfo GenUpd

variable {F : Type} [Field F] [DecidableEq F] {T : Type} [LinearOrder T] [Zero T]

/-- filtrations built by calls with distinct vertices -/
def BuiltFilt (Φ : Filt T) : Prop := ∃ (Φ0 : Filt T) (ops : List (Filt.Op T)), NewFilt Φ0 ∧ (∀ o ∈ ops, PlainFiltOp o) ∧ Φ0.run ops = .ok Φ

theorem BuiltFilt.sfilt {Φ : Filt T} (h : BuiltFilt Φ) (h1 : 1 ≤ Φ.X.maxdim) :
    ∃ (cells : Cells) (B : List (CMat F)), Φ.X.chainComplex = .ok B ∧ SFilt Φ cells (Φ.X.maxdim + 1) B := by
  obtain ⟨Φ0, ops, n, ho, hr⟩ := h
  obtain ⟨hrI, hrE⟩ := Filt.run_inv ops n.inv (fun o h => (ho o h).ne)
  rcases hw : Filt.specRun (fun _ => none) ops with _ | w
  · rw [hrE hw] at hr; cases hr
  obtain ⟨Ψ', cells, e1, hF, _⟩ := hrI w hw
  rw [hr] at e1; cases e1
  have hsort : ∀ d s, s ∈ cells d → s.Pairwise (· < ·) := by
    intro d s hs
    have hmem := (mem_setOf (hF.inv.ok.len d s hs)).2 hs
    exact specRun_dom_strict ops _ w ho (by intro s h; exact absurd rfl h) hw s ((hF.dom s).2 hmem)
  obtain ⟨B, b1, b2, b3, b4⟩ := chainComplex_spec (F := F) hF.inv
  have hne := hF.inv.sizes.ne
  have hmd : Φ.X.maxdim + 1 = Φ.X.ncells.length := by unfold SCpx.maxdim; omega
  have hvl : Φ.val.length = Φ.X.ncells.length := by
    rcases hF.len with h | ⟨_, h, _⟩
    · exact h
    · omega
  exact ⟨cells, B, b1, ⟨hF.inv, hmd.symm, by rw [hvl, hmd], hF.rowLen⟩, by omega, fun d s hs => (hsort d s hs).imp (fun h => ne_of_lt h), b3, b2, b4⟩

theorem vertices_of {Φ Ψ : Filt T} {cells cells' : Cells} (h1 : Inv Φ.X cells) (h2 : Inv Ψ.X cells')
    (hv : ∀ v, Ψ.X.findIdx [v] ≠ none → Φ.X.findIdx [v] ≠ none) : ∀ s ∈ cells' 0, s ∈ cells 0 := by
  intro s hs
  have hl := h2.ok.len 0 s hs
  obtain ⟨v, rfl⟩ := List.length_eq_one_iff.1 hl
  have h3 := hv v (by rw [findIdx_spec h2 (d := 0) rfl, if_pos hs]; simp)
  rw [findIdx_spec h1 (d := 0) rfl] at h3
  by_contra hc
  rw [if_neg hc] at h3
  exact h3 rfl

theorem gstate_history {b : Bool} {top N : Nat} : ∀ (hist : List (Filt T)) {Φ : Filt T} {cells : Cells} {B : List (CMat F)} {X : RedFiltDG T F}, SFilt Φ cells N B → Φ.X.maxdim + 1 = N →
    GState b N top Φ cells B X → (∀ Ψ ∈ hist, BuiltFilt Ψ) → UpdateHist top Φ hist →
    ∃ (cells' : Cells) (B' : List (CMat F)) (X' : RedFiltDG T F), X.updateAllFilt Φ hist = .ok X' ∧ (hist.getLastD Φ).X.maxdim + 1 = N ∧ SFilt (hist.getLastD Φ) cells' N B' ∧
      GState b N top (hist.getLastD Φ) cells' B' X' ∧ (hist ≠ [] → (hist.getLastD Φ).X.chainComplex = .ok B') ∧ (hist = [] → B' = B)
  | [], Φ, cells, B, X, h, hN, hX, _, _ => ⟨cells, B, X, rfl, hN, h, hX, fun h => absurd rfl h, fun _ => rfl⟩
  | Ψ :: rest, Φ, cells, B, X, h, hN, hX, hb, hh => by
    obtain ⟨st, hrest⟩ := hh
    have hN' : Ψ.X.maxdim + 1 = N := by rw [st.dim]; exact hN
    obtain ⟨cells', B', c1, c2⟩ := (hb Ψ (by simp)).sfilt (F := F) (by have := h.two; omega)
    rw [hN'] at c2
    have htop : (cells' (N - 1)).length ≤ top := by
      apply st.top
      unfold SCpx.numCells
      rw [show N - 1 = Ψ.X.maxdim by omega]
      exact rd_some (c2.side.inv.dim _ (by rw [c2.side.num]; omega)).nc
    obtain ⟨u, X1, u1, u2, u3⟩ := h.update c2 (vertices_of h.side.inv c2.side.inv st.vert) htop hX
    obtain ⟨cells'', B'', X', d1, d2, d3, d4, d5, d6⟩ := gstate_history rest c2 hN' u3 (fun Ψ' h' => hb Ψ' (by simp [h'])) hrest
    have hlast : (Ψ :: rest).getLastD Φ = rest.getLastD Ψ := by cases rest <;> rfl
    rw [hlast]
    refine ⟨cells'', B'', X', ?_, d2, d3, d4, fun _ => ?_, fun h => by cases h⟩
    · rw [RedFiltDG.updateAllFilt, u1, bind_ok, u2, bind_ok]; exact d1
    · by_cases hr : rest = []
      · subst hr
        rw [d6 rfl]; exact c1
      · exact d5 hr

/-- C73: reduce a filtered simplicial complex with a basis (degree `-1`, augmented or not), then let `update_basis` apply any history of
filtrations, each described by `UpdateInfo2` built from the previous and the next one (simplices removed, added and given new values; no
vertices added, the highest dimension never larger than at the start). All calls succeed, and values, permutations, Betti numbers and bars
are those of the reduction from scratch, with any flags, of the last filtration. -/
theorem C73_update_equals_recompute (v w : DGVariant) (hvb : v.withBasis) (b : Bool) {Φ : Filt T} (hΦ : BuiltFilt Φ) (h1 : 1 ≤ Φ.X.maxdim) {top : Nat}
    (ht : Φ.X.numCells Φ.X.maxdim = .ok top) (hist : List (Filt T)) (hb : ∀ Ψ ∈ hist, BuiltFilt Ψ) (hh : UpdateHist top Φ hist) :
    ∃ (B B' : List (CMat F)) (X X' Z : RedFiltDG T F), Φ.X.chainComplex = .ok B ∧ RedFiltDG.ofFiltration v.reduce (-1) b Φ.val B = .ok X ∧
      X.updateAllFilt Φ hist = .ok X' ∧ (hist.getLastD Φ).X.chainComplex = .ok B' ∧ RedFiltDG.ofFiltration w.reduce (-1) b (hist.getLastD Φ).val B' = .ok Z ∧
      X'.val = Z.val ∧ X'.perm = Z.perm ∧
      ∀ k, k ≤ Φ.X.maxdim → X'.RC.hdim k = Z.RC.hdim k ∧ ∃ ps, X'.persistencePairs k = .ok ps ∧ Z.persistencePairs k = .ok ps := by
  obtain ⟨cells, B, b1, b2⟩ := hΦ.sfilt (F := F) h1
  obtain ⟨D, X, x1, x2, x3, x4⟩ := dg_state v false b b2.complex (fun _ => b2.aug) b2.values
  have hbas := x3 hvb
  have hcN : BATS.cdim B B.length = 0 := cdim_of_ge (le_refl _)
  obtain ⟨a, ha⟩ := stale_self (by rw [b2.blen]; omega) hcN hbas.tab
  have htop : BATS.cdim B (B.length - 1) = top := by
    rw [b2.cdim, b2.blen, Nat.add_sub_cancel]
    have := rd_some (b2.side.inv.dim Φ.X.maxdim (by rw [b2.side.num]; omega)).nc
    unfold SCpx.numCells at ht
    rw [this] at ht; cases ht; rfl
  rw [htop, b2.blen] at ha
  have hXe : X = ⟨X.RC, Φ.val, FiltCpx.filtrationSortperm Φ.val⟩ := by
    obtain ⟨RC, val, perm⟩ := X
    have e1 := x2.valEq
    have e2 := x2.perm
    rw [sortPerms_false] at e2
    simp only at e1 e2
    rw [e1, e2]
  have hG : GState b (Φ.X.maxdim + 1) top Φ cells B X := by
    refine ⟨D, X.RC, a, ?_, ⟨?_, hbas, x4⟩⟩
    · rw [ha]; exact hXe
    · rw [← hXe]; exact x2
  obtain ⟨cells', B', X', d1, d2, d3, d4, d5, d6⟩ := gstate_history hist b2 rfl hG hb hh
  obtain ⟨Z, z1, z2, z3, z4⟩ := d4.queries d3 w
  refine ⟨B, B', X, X', Z, b1, x1, d1, ?_, z1, z2, z3, fun k hk => z4 k (by omega)⟩
  by_cases hr : hist = []
  · subst hr
    rw [d6 rfl]; exact b1
  · exact d5 hr

/-- C73, homology: if the last filtration was built with monotone values `u`, the bars after the history of updates count the ranks
of the maps induced in simplicial homology by the inclusions of its sublevel complexes. -/
theorem C73_persistence (v : DGVariant) (hvb : v.withBasis) {Φ : Filt T} (hΦ : BuiltFilt Φ) (h1 : 1 ≤ Φ.X.maxdim) {top : Nat}
    (ht : Φ.X.numCells Φ.X.maxdim = .ok top) (hist : List (Filt T)) (hb : ∀ Ψ ∈ hist, BuiltFilt Ψ) (hh : UpdateHist top Φ hist)
    {Ψ0 : Filt T} (hΨ : NewFilt Ψ0) (ops : List (Filt.Op T)) (ho : ∀ o ∈ ops, PlainFiltOp o) {u : List Nat → Option T} (hu : Filt.specRun (fun _ => none) ops = some u)
    (hm : Filt.Monotone u) (hrun : Ψ0.run ops = .ok (hist.getLastD Φ))
    (K : T → Finset (Finset Nat)) (hK : ∀ a σ, σ ∈ K a ↔ ∃ x, u (σ.sort (· ≤ ·)) = some x ∧ x ≤ a) :
    ∃ (B : List (CMat F)) (X X' : RedFiltDG T F) (hasc : ∀ a, IsASC (K a)) (hsub : ∀ s t, s ≤ t → K s ⊆ K t), Φ.X.chainComplex = .ok B ∧
      RedFiltDG.ofFiltration v.reduce (-1) false Φ.val B = .ok X ∧ X.updateAllFilt Φ hist = .ok X' ∧
      ∀ k, k ≤ Φ.X.maxdim → ∃ ps, X'.persistencePairs k = .ok ps ∧
        ∀ (s t : T) (hst : s ≤ t),
          ps.countP (fun q => decide (q.birth ≤ s) && (match q.death with | none => true | some d => decide (t < d))) =
            Module.finrank F (LinearMap.range (simpInclusion F (hasc s) (hasc t) (hsub s t hst) k)) := by
  obtain ⟨B, B', X, X', Z, b1, x1, x2, b2, z1, _, _, hq⟩ := C73_update_equals_recompute (F := F) v v hvb false hΦ h1 ht hist hb hh
  have hd : (hist.getLastD Φ).X.maxdim = Φ.X.maxdim := by
    clear b2 z1 hrun x2 hq b1 x1
    clear ht hΦ h1
    induction hist generalizing Φ with
    | nil => rfl
    | cons Ψ rest ih =>
      have hlast : (Ψ :: rest).getLastD Φ = rest.getLastD Ψ := by cases rest <;> rfl
      rw [hlast, ← hh.1.dim]
      exact ih (Φ := Ψ) (fun Ψ' h' => hb Ψ' (by simp [h'])) hh.2
  obtain ⟨B2, R, hasc, hsub, c1, c2, c3⟩ := C58_simplicial (F := F) v false hΨ ops ho hu hm hrun (by rw [hd]; exact h1) K hK
  rw [b2] at c1; cases c1
  have c2' : RedFiltDG.ofFiltration v.reduce (-1) false (hist.getLastD Φ).val B' = .ok R := c2
  rw [z1] at c2'; cases c2'
  refine ⟨B, X, X', hasc, hsub, b1, x1, x2, fun k hk => ?_⟩
  obtain ⟨ps, p1, p2⟩ := (hq k hk).2
  obtain ⟨ps', q1, q2⟩ := c3 k (by rw [hd]; exact hk)
  rw [p2] at q1; cases q1
  exact ⟨ps, p1, q2⟩

/-- C73: what `UpdateInfo2` records in dimension `k`, for two filtrations of the same dimension such that no vertex is new. `L1` and `L2`
are the `k`-simplices of the two complexes; `inOrder` lists them in filtration order. The recorded permutation takes the old order to
the order in which first come the simplices in both complexes, sorted by the new filtration, then the removed ones; `ndeletions` counts the
removed ones; `insertion_indices` are the positions of the new ones in the new order. -/
theorem C73_update_info {Φ Ψ : Filt T} (hΦ : BuiltFilt Φ) (hΨ : BuiltFilt Ψ) (h1 : 1 ≤ Φ.X.maxdim) (hd : Ψ.X.maxdim = Φ.X.maxdim)
    (hv : ∀ x, Ψ.X.findIdx [x] ≠ none → Φ.X.findIdx [x] ≠ none) :
    ∃ u : UpdInfo T, UpdInfo.ofFilt Φ Ψ = .ok u ∧ u.newval = Ψ.val ∧ u.perms2 = FiltCpx.filtrationSortperm Ψ.val ∧
      ∀ k, k ≤ Φ.X.maxdim → ∃ (L1 L2 : List (List Nat)) (perm ins : List Nat) (nd : Nat), Φ.X.getSimplices k = .ok L1 ∧ Ψ.X.getSimplices k = .ok L2 ∧
        u.perm[k]? = some perm ∧ u.insIdx[k]? = some ins ∧ u.ndel[k]? = some nd ∧ IsPermOf L1.length perm ∧
        nd = L1.countP (fun σ => decide (σ ∉ L2)) ∧
        ((inOrder (inOrder L1 (Perm.stableSortperm (Φ.val.getD k []))) perm).take (L1.length - nd) =
          (inOrder L2 (Perm.stableSortperm (Ψ.val.getD k []))).filter (fun σ => decide (σ ∈ L1))) ∧
        (∀ σ ∈ (inOrder (inOrder L1 (Perm.stableSortperm (Φ.val.getD k []))) perm).drop (L1.length - nd), σ ∉ L2) ∧
        ins.Pairwise (· < ·) ∧ ∀ f, f ∈ ins ↔ ∃ σ, (inOrder L2 (Perm.stableSortperm (Ψ.val.getD k [])))[f]? = some σ ∧ σ ∉ L1 := by
  obtain ⟨cells1, B1, _, s1⟩ := hΦ.sfilt (F := ℚ) h1
  obtain ⟨cells2, B2, _, s2⟩ := hΨ.sfilt (F := ℚ) (by omega)
  rw [hd] at s2
  obtain ⟨u, u1, u2, u3, _, l1, l2, l3, l4, hr⟩ := ofFilt_rows (F := ℚ) s1.side s2.side s2.nodup (vertices_of s1.side.inv s2.side.inv hv)
  refine ⟨u, u1, u2, u3, fun k hk => ?_⟩
  have hrow := (hr k (by omega)).row
  simp only at hrow
  have hget : ∀ {α : Type} (l : List α) (dflt : α), k < l.length → l[k]? = some (l.getD k dflt) := by
    intro α l dflt h
    rw [List.getD_eq_getElem?_getD, List.getElem?_eq_getElem h]; rfl
  have ho1 : ordOf Φ k = Perm.stableSortperm (Φ.val.getD k []) := filtrationSortperm_getD _ _
  have ho2 : ordOf Ψ k = Perm.stableSortperm (Ψ.val.getD k []) := filtrationSortperm_getD _ _
  have hp1 : IsPermOf (cells1 k).length (ordOf Φ k) := s1.side.perm k
  have hp2 : IsPermOf (cells2 k).length (ordOf Ψ k) := s2.side.perm k
  rw [← ho1, ← ho2]
  have hio : ∀ {L : List (List Nat)} {p : List Nat}, IsPermOf L.length p → inOrder L p = (List.range L.length).map (cellAt L p) := by
    intro L p hp
    apply List.ext_getElem?
    intro i
    unfold inOrder
    rw [List.getElem?_map, List.getElem?_map]
    have hl := Perm.isPerm_length hp
    by_cases hi : i < L.length
    · rw [List.getElem?_eq_getElem (by omega : i < p.length), List.getElem?_range hi]
      simp only [Option.map_some, cellAt]
      rw [List.getD_eq_getElem?_getD (l := p), List.getElem?_eq_getElem (by omega : i < p.length)]; rfl
    · rw [List.getElem?_eq_none (by omega), List.getElem?_eq_none (by simpa using hi)]; rfl
  have hdbl : inOrder (inOrder (cells1 k) (ordOf Φ k)) (u.perm.getD k []) = (u.perm.getD k []).map (cellAt (cells1 k) (ordOf Φ k)) := by
    unfold inOrder
    apply List.map_congr_left
    intro x hx
    have hx' := (Perm.isPerm_mem hrow.isPerm).1 hx
    rw [List.getD_eq_getElem?_getD, List.getElem?_map, List.getElem?_eq_getElem (by rw [Perm.isPerm_length hp1]; exact hx'), Option.map_some, Option.getD_some, cellAt,
      List.getD_eq_getElem?_getD (l := ordOf Φ k), List.getElem?_eq_getElem (by rw [Perm.isPerm_length hp1]; exact hx')]
    rfl
  have hpl := Perm.isPerm_length hrow.isPerm
  have hgone : ∀ σ ∈ ((u.perm.getD k []).map (cellAt (cells1 k) (ordOf Φ k))).drop ((cells1 k).length - u.ndel.getD k 0), σ ∉ cells2 k := by
    intro σ hσ
    obtain ⟨i, hi, rfl⟩ := List.getElem_of_mem hσ
    simp only [List.length_drop, List.length_map] at hi
    rw [List.getElem_drop, List.getElem_map]
    have := hrow.gone ((cells1 k).length - u.ndel.getD k 0 + i) (by omega) (by omega)
    rw [List.getD_eq_getElem?_getD (l := u.perm.getD k []), List.getElem?_eq_getElem (by omega)] at this
    exact this
  refine ⟨cells1 k, cells2 k, u.perm.getD k [], u.insIdx.getD k [], u.ndel.getD k 0, getSimplices_spec s1.side.inv (by rw [s1.side.num]; omega),
    getSimplices_spec s2.side.inv (by rw [s2.side.num]; omega), hget _ _ (by omega), hget _ _ (by omega), hget _ _ (by omega), hrow.isPerm, ?_, ?_, ?_, hrow.sorted, ?_⟩
  · -- the count
    have hperm : ((u.perm.getD k []).map (cellAt (cells1 k) (ordOf Φ k))).Perm (cells1 k) := by
      have h1 : ((u.perm.getD k []).map (cellAt (cells1 k) (ordOf Φ k))).Perm ((List.range (cells1 k).length).map (cellAt (cells1 k) (ordOf Φ k))) := hrow.isPerm.map _
      refine h1.trans ?_
      rw [← hio hp1]
      have h2 : (inOrder (cells1 k) (ordOf Φ k)).Perm ((List.range (cells1 k).length).map (fun i => (cells1 k).getD i [])) := hp1.map _
      refine h2.trans (List.Perm.of_eq ?_)
      apply List.ext_getElem?
      intro i
      rw [List.getElem?_map]
      by_cases hi : i < (cells1 k).length
      · rw [List.getElem?_range hi, Option.map_some, List.getD_eq_getElem?_getD, List.getElem?_eq_getElem hi]; rfl
      · rw [List.getElem?_eq_none (by simpa using hi), List.getElem?_eq_none (by omega)]; rfl
    have e := List.take_append_drop ((cells1 k).length - u.ndel.getD k 0) ((u.perm.getD k []).map (cellAt (cells1 k) (ordOf Φ k)))
    rw [← hperm.countP_eq, ← e, List.countP_append, List.countP_eq_zero.2, Nat.zero_add, List.countP_eq_length.2]
    · rw [List.length_drop, List.length_map]; have := hrow.ndLe; omega
    · intro σ hσ; simpa using hgone σ hσ
    · intro σ hσ
      rw [← List.map_take, hrow.keptList, List.mem_filter, List.mem_map] at hσ
      obtain ⟨⟨f, hf, rfl⟩, _⟩ := hσ
      simpa using cellAt_mem hp2 (List.mem_range.1 hf)
  · rw [hdbl, ← List.map_take, hrow.keptList, ← hio hp2]
  · rw [hdbl]; exact hgone
  · intro f
    rw [hrow.insMem, hio hp2]
    constructor
    · rintro ⟨hf, hm⟩
      exact ⟨_, by rw [List.getElem?_map, List.getElem?_range hf]; rfl, hm⟩
    · rintro ⟨σ, hσ, hm⟩
      rw [List.getElem?_map] at hσ
      by_cases hf : f < (cells2 k).length
      · rw [List.getElem?_range hf] at hσ
        cases hσ
        exact ⟨hf, hm⟩
      · rw [List.getElem?_eq_none (by simpa using hf)] at hσ; cases hσ

/-! ### examples -/

/-- a filled triangle with a tail -/
def updBefore : List (Filt.Op Nat) :=
  [.add 0 [0], .add 1 [1], .add 1 [2], .add 2 [3], .add 3 [0, 1], .add 4 [0, 2], .add 5 [1, 2], .add 6 [1, 3], .add 7 [0, 1, 2]]

/-- the triangle 012 and its edge 01 are removed; the edges 23 and 03 and the triangle 023 are new; all values change -/
def updAfter : List (Filt.Op Nat) :=
  [.add 1 [3], .add 0 [2], .add 2 [1], .add 0 [0], .add 4 [1, 2], .add 3 [1, 3], .add 6 [2, 3], .add 5 [0, 2], .add 8 [0, 3], .add 9 [0, 2, 3]]

/-- the bars of dimensions 0 and 1 of a filtration after one update from another -/
def updRun (deg : Int) (before after : List (Filt.Op Nat)) : Res (List (Nat × Option Nat) × List (Nat × Option Nat)) :=
  ((Filt.empty : Filt Nat).run before).bind fun Φ => ((Filt.empty : Filt Nat).run after).bind fun Ψ =>
    (Φ.X.chainComplex : Res (List (CMat ℚ))).bind fun B => (RedFiltDG.ofFiltration DGVariant.clearingBasis.reduce deg false Φ.val B).bind fun X =>
      (X.updateAllFilt Φ [Ψ]).bind fun X' => (X'.persistencePairs 0).bind fun p0 => (X'.persistencePairs 1).map fun p1 =>
        (p0.map (fun q => (q.birth, q.death)), p1.map (fun q => (q.birth, q.death)))

/-- the bars of dimensions 0 and 1 of a filtration computed from scratch -/
def recRun (deg : Int) (after : List (Filt.Op Nat)) : Res (List (Nat × Option Nat) × List (Nat × Option Nat)) :=
  ((Filt.empty : Filt Nat).run after).bind fun Ψ =>
    (Ψ.X.chainComplex : Res (List (CMat ℚ))).bind fun B => (RedFiltDG.ofFiltration DGVariant.clearingBasis.reduce deg false Ψ.val B).bind fun X' =>
      (X'.persistencePairs 0).bind fun p0 => (X'.persistencePairs 1).map fun p1 =>
        (p0.map (fun q => (q.birth, q.death)), p1.map (fun q => (q.birth, q.death)))

theorem builtFilt_of {ops : List (Filt.Op Nat)} {Φ : Filt Nat} (ho : ∀ o ∈ ops, PlainFiltOp o) (h : (Filt.empty : Filt Nat).run ops = .ok Φ) : BuiltFilt Φ :=
  ⟨Filt.empty, ops, Or.inl rfl, ho, h⟩

/-- the hypotheses of C73 hold for the step from `updBefore` to `updAfter`: three simplices are added and two removed -/
example : (∀ o ∈ updBefore, PlainFiltOp o) ∧ (∀ o ∈ updAfter, PlainFiltOp o) ∧ ∃ Φ Ψ : Filt Nat, (Filt.empty : Filt Nat).run updBefore = .ok Φ ∧
    (Filt.empty : Filt Nat).run updAfter = .ok Ψ ∧ BuiltFilt Φ ∧ BuiltFilt Ψ ∧ Φ.X.maxdim = 2 ∧ Φ.X.numCells Φ.X.maxdim = .ok 1 ∧ UpdateHist 1 Φ [Ψ] := by
  have h1 : ∀ o ∈ updBefore, PlainFiltOp o := by
    intro o ho
    simp only [updBefore, List.mem_cons, List.not_mem_nil, or_false] at ho
    rcases ho with rfl | rfl | rfl | rfl | rfl | rfl | rfl | rfl | rfl <;> simp [PlainFiltOp]
  have h2 : ∀ o ∈ updAfter, PlainFiltOp o := by
    intro o ho
    simp only [updAfter, List.mem_cons, List.not_mem_nil, or_false] at ho
    rcases ho with rfl | rfl | rfl | rfl | rfl | rfl | rfl | rfl | rfl | rfl <;> simp [PlainFiltOp]
  refine ⟨h1, h2, ?_⟩
  have key : (((Filt.empty : Filt Nat).run updBefore).bind fun Φ => ((Filt.empty : Filt Nat).run updAfter).map fun Ψ =>
      decide (Φ.X.maxdim = 2 ∧ Ψ.X.maxdim = 2 ∧ Φ.X.ncells = [4, 4, 1] ∧ Ψ.X.ncells = [4, 5, 1])) = .ok true := by decide +kernel
  rcases hA : (Filt.empty : Filt Nat).run updBefore with e | Φ
  · rw [hA] at key; cases key
  rcases hB : (Filt.empty : Filt Nat).run updAfter with e | Ψ
  · rw [hA, hB] at key; cases key
  rw [hA, hB] at key
  have key' : Φ.X.maxdim = 2 ∧ Ψ.X.maxdim = 2 ∧ Φ.X.ncells = [4, 4, 1] ∧ Ψ.X.ncells = [4, 5, 1] := by
    have : decide (Φ.X.maxdim = 2 ∧ Ψ.X.maxdim = 2 ∧ Φ.X.ncells = [4, 4, 1] ∧ Ψ.X.ncells = [4, 5, 1]) = true := by injection key
    exact of_decide_eq_true this
  obtain ⟨k1, k2, k3, k4⟩ := key'
  refine ⟨Φ, Ψ, rfl, rfl, builtFilt_of h1 hA, builtFilt_of h2 hB, k1, by rw [k1]; unfold SCpx.numCells; rw [k3]; rfl, ⟨by rw [k1, k2], ?_, ?_⟩, trivial⟩
  · intro v hv
    by_contra hc
    have hA' : ∀ v < 4, (((Filt.empty : Filt Nat).run updBefore).map fun Φ => decide (Φ.X.findIdx [v] ≠ none)) = .ok true := by decide +kernel
    have hv4 : v < 4 := by
      by_contra h4
      apply hv
      obtain ⟨cells, B, _, s⟩ := (builtFilt_of h2 hB).sfilt (F := ℚ) (by omega)
      obtain ⟨r1, r2⟩ := (C29_history (Φ := (Filt.empty : Filt Nat)) (Or.inl rfl) updAfter (fun o h => (h2 o h).ne))
      have hg : (Ψ.X.getSimplices 0).map (fun L => decide (∀ s ∈ L, s.headD 0 < 4)) = .ok true := by
        have : (((Filt.empty : Filt Nat).run updAfter).bind fun Ψ => (Ψ.X.getSimplices 0).map (fun L => decide (∀ s ∈ L, s.headD 0 < 4))) = .ok true := by decide +kernel
        rw [hB] at this; exact this
      rw [getSimplices_spec s.side.inv (by rw [s.side.num]; omega)] at hg
      have hg' : decide (∀ s ∈ cells 0, s.headD 0 < 4) = true := by injection hg
      have hg'' := of_decide_eq_true hg'
      rw [findIdx_spec s.side.inv (d := 0) rfl, if_neg]
      intro hm
      have := hg'' _ hm
      simp at this; omega
    have := hA' v hv4
    rw [hA] at this
    have h' : decide (Φ.X.findIdx [v] ≠ none) = true := by injection this
    exact (of_decide_eq_true h') hc
  · intro n hn
    rw [k2] at hn
    unfold SCpx.numCells at hn
    rw [k4] at hn
    have : n = 1 := by cases hn; rfl
    omega

/-- the update of that example, and the same bars from scratch -/
example : updRun (-1) updBefore updAfter = .ok ([(0, none), (0, some 5), (1, some 4), (2, some 3)], [(6, none), (8, some 9)]) ∧
    recRun (-1) updAfter = .ok ([(0, none), (0, some 5), (1, some 4), (2, some 3)], [(6, none), (8, some 9)]) := by
  constructor <;> decide +kernel

/-- what `UpdateInfo2` records in that example -/
example : (((Filt.empty : Filt Nat).run updBefore).bind fun Φ => ((Filt.empty : Filt Nat).run updAfter).bind fun Ψ =>
    (UpdInfo.ofFilt Φ Ψ).map fun u => (u.ndel, u.insIdx, u.perm)) = .ok ([0, 1, 1], [[], [3, 4], [0]], [[2, 0, 3, 1], [3, 2, 1, 0], [0]]) ∧
    (((Filt.empty : Filt Nat).run updBefore).bind fun Φ => ((Filt.empty : Filt Nat).run updAfter).bind fun Ψ => (UpdInfo.ofFilt Φ Ψ).map fun u => u.insCols) =
      .ok [[], [[(0, -1), (2, 1)], [(1, -1), (2, 1)]], [[(2, -1), (3, -1), (4, 1)]]] := by
  constructor <;> decide +kernel

/-! ### the restrictions are needed -/

/-- C73: if the highest dimension gets more simplices than at the start, `update_basis` reads past the end of a table that it never resizes. -/
theorem C73_top_grows_ub : updRun (-1) [.add 0 [0], .add 0 [1], .add 0 [2], .add 1 [0, 1], .add 2 [0, 2]]
      [.add 0 [0], .add 0 [1], .add 0 [2], .add 1 [0, 1], .add 2 [0, 2], .add 3 [1, 2]] = .error .ub ∧
    recRun (-1) [.add 0 [0], .add 0 [1], .add 0 [2], .add 1 [0, 1], .add 2 [0, 2], .add 3 [1, 2]] =
      .ok ([(0, none), (0, some 1), (0, some 2)], [(3, none)]) := by
  constructor <;> decide +kernel

/-- C73: if a vertex is new, `UpdateInfo2` asks for the boundary of a vertex, out of bounds. -/
theorem C73_new_vertex_ub : (((Filt.empty : Filt Nat).run [.add 0 [0], .add 0 [1], .add 1 [0, 1]]).bind fun Φ =>
    ((Filt.empty : Filt Nat).run [.add 0 [0], .add 0 [1], .add 0 [2], .add 1 [0, 1]]).bind fun Ψ => (UpdInfo.ofFilt Φ Ψ).map fun u => u.ndel) = .error .ub := by decide +kernel

/-- C73: with degree `+1` the update is wrong as soon as two simplices are inserted in one dimension: in the step from `updBefore` to
`updAfter` it reports that a component dies at 6 and a loop is born at 5, while it dies at 5 and the loop is born at 6. -/
theorem C73_cohomology_wrong : updRun 1 updBefore updAfter = .ok ([(2, some 3), (1, some 4), (0, some 6), (0, none)], [(8, some 9), (5, none)]) ∧
    recRun 1 updAfter = .ok ([(2, some 3), (1, some 4), (0, some 5), (0, none)], [(8, some 9), (6, none)]) := by
  constructor <;> decide +kernel

end BATS
