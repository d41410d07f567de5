import Verif.Proofs.CoverFilt
import Verif.Props.Witness

set_option linter.unusedSectionVars false
set_option linter.unusedVariables false
set_option linter.unusedSimpArgs false

/-! # C70: filtrations relative to a cover (include/topology/rips_cover.hpp, dowker_cover.hpp), `Filtration::union_add`

The specification is in `Verif/Spec/Witness.lean`. -/

namespace BATS
namespace Wit
open Lmk BATS.Flag

section order
variable {T : Type} [LinearOrder T] [Zero T]

/-- C70: `F.union_add(F2)` for filtrations built by `add` and `add_recursive`: the result contains the simplices of both; a simplex of `F2` has its value in `F2`, the others
keep their value (the value of a common simplex is *replaced*, not the smaller one). -/
theorem C70_union_add {Φ Φ2 : Filt T} (hΦ : NewFilt Φ) (hΦ2 : NewFilt Φ2) (ops ops2 : List (Filt.Op T)) (ho : ∀ o ∈ ops, o.simplex ≠ []) (ho2 : ∀ o ∈ ops2, o.simplex ≠ [])
    (hs : ∀ o ∈ ops2, o.sorting) {v v2 : List Nat → Option T} (hv : Filt.specRun (fun _ => none) ops = some v) (hv2 : Filt.specRun (fun _ => none) ops2 = some v2) :
    ∃ Ψ Ψ2 Ω, Φ.run ops = .ok Ψ ∧ Φ2.run ops2 = .ok Ψ2 ∧ unionAdd Ψ Ψ2 = .ok Ω ∧ Filt.Represents Ω (fun s => (v2 s).or (v s)) := by
  obtain ⟨Ψ, c, a1, a2, _⟩ := (Filt.run_inv ops hΦ.inv ho).1 v hv
  obtain ⟨Ψ2, c2, b1, b2, _⟩ := (Filt.run_inv ops2 hΦ2.inv ho2).1 v2 hv2
  obtain ⟨Ω, c', d1, d2, _⟩ := unionAdd_spec a2 b2 (by
    intro d s hm
    exact specRun_dom_sorted ops2 _ v2 hs (by intro s h; exact absurd rfl h) hv2 s ((b2.dom s).2 ((SCpx.mem_setOf (b2.inv.ok.len d s hm)).2 hm)))
  exact ⟨Ψ, Ψ2, Ω, a1, b1, d1, d2.represents⟩

theorem ripsCover_inv (dist : Nat → Nat → T) {n : Nat} {cover : List (List Nat)} (hc : Nrv.IsCover cover) (hn : ∀ U ∈ cover, ∀ a ∈ U, a < n) (rmax : T) (dmax : Nat) :
    ∃ Ψ cells w, ripsCoverFiltration dist n cover rmax dmax = .ok Ψ ∧ Filt.FInv Ψ cells w ∧ dmax ≤ Ψ.X.maxdim ∧
      ∀ s x, w s = some x ↔ IsFlagSimplex (fun a b => InCommon cover a b ∧ dist a b < rmax) n (max dmax 1) s ∧ IsDiam dist s x := by
  obtain ⟨es, Ψ, cells, w, h1, h2, h3, h4, h5⟩ := coverFiltration_spec (d := dataDist dist n) (D := dist) (rmax := rmax) hc hn (by
    intro U hU i hi j hj _
    unfold dataDist
    rw [if_pos ⟨hn U hU i hi, hn U hU j hj⟩]) dmax
  refine ⟨Ψ, cells, w, ?_, h3, h4, h5⟩
  unfold ripsCoverFiltration
  rw [h1]; exact h2

/-- C70: `RipsFiltration(X, cover, dist, rmax, dmax)` contains exactly the sets of at most `dmax + 1` points (at least the edges) any two of which lie in a common set of the
cover and have distance less than `rmax`; its values are the diameters. -/
theorem C70_rips_cover (dist : Nat → Nat → T) {n : Nat} {cover : List (List Nat)} (hc : Nrv.IsCover cover) (hn : ∀ U ∈ cover, ∀ a ∈ U, a < n) (rmax : T) (dmax : Nat) :
    ∃ Ψ w, ripsCoverFiltration dist n cover rmax dmax = .ok Ψ ∧ Filt.Represents Ψ w ∧
      ∀ s x, w s = some x ↔ IsFlagSimplex (fun a b => InCommon cover a b ∧ dist a b < rmax) n (max dmax 1) s ∧ IsDiam dist s x := by
  obtain ⟨Ψ, cells, w, h1, h2, _, h4⟩ := ripsCover_inv dist hc hn rmax dmax
  exact ⟨Ψ, w, h1, h2.represents, h4⟩

/-- C70: a cover by one set of all points gives the Vietoris–Rips filtration (with `<` in place of `≤`). -/
theorem C70_rips_trivial_cover (dist : Nat → Nat → T) (n : Nat) (rmax : T) (dmax : Nat) :
    ∃ Ψ w, ripsCoverFiltration dist n [List.range n] rmax dmax = .ok Ψ ∧ Filt.Represents Ψ w ∧
      ∀ s x, w s = some x ↔ IsFlagSimplex (fun a b => dist a b < rmax) n (max dmax 1) s ∧ IsDiam dist s x := by
  obtain ⟨Ψ, w, h1, h2, h3⟩ := C70_rips_cover dist (n := n) (cover := [List.range n]) (by
    intro s hs; rw [List.mem_singleton] at hs; rw [hs]; exact List.pairwise_lt_range) (by
    intro U hU a ha; rw [List.mem_singleton] at hU; subst hU; exact List.mem_range.1 ha) rmax dmax
  refine ⟨Ψ, w, h1, h2, fun s x => ?_⟩
  rw [h3, isFlag_congr (E' := fun a b => dist a b < rmax)]
  intro a b hab hbn
  refine ⟨fun h => h.2, fun h => ⟨⟨List.range n, by simp, ?_, ?_⟩, h⟩⟩ <;> rw [List.mem_range] <;> omega

/-- the pairs of a filtration of a graph count ranks between the flag complexes of the graphs at two scales -/
theorem flag_pairs {F : Type} [Field F] [DecidableEq F] (v : Variant) {E : Nat → Nat → Prop} {dist : Nat → Nat → T} {n dmax : Nat} (hd : 1 ≤ dmax)
    (h0 : ∀ a b, a < b → b < n → 0 ≤ dist a b) {Ψ : Filt T} {cells : SCpx.Cells} {w : List Nat → Option T} (h2 : Filt.FInv Ψ cells w) (h3 : dmax ≤ Ψ.X.maxdim)
    (h4 : ∀ s x, w s = some x ↔ IsFlagSimplex E n dmax s ∧ IsDiam dist s x) (K : T → Finset (Finset Nat)) (hA : ∀ t, IsASC (K t)) (hM : ∀ s t, s ≤ t → K s ⊆ K t) (bd : T)
    (hK : ∀ t, 0 ≤ t → t < bd → flagComplexOf (fun b c => E b c ∧ dist b c ≤ t) n dmax = K t) :
    ∃ (B : List (CMat F)) (R : RedFiltCpx T F), Ψ.X.chainComplex = .ok B ∧ RedFiltCpx.ofFiltration v.reduce Ψ.val B = .ok R ∧
      ∀ k, k ≤ dmax → ∃ ps, R.persistencePairs k false = .ok ps ∧
        ∀ (s t : T) (hs : 0 ≤ s) (hst : s ≤ t) (ht : t < bd),
          ps.countP (fun q => decide (q.birth ≤ s) && (match q.death with | none => true | some d => decide (t < d))) =
            Module.finrank F (LinearMap.range (simpInclusion F (hA s) (hA t) (hM s t hst) k)) := by
  have hsort : ∀ d s, s ∈ cells d → s.Pairwise (· < ·) := by
    intro d s hs
    have hmem := (SCpx.mem_setOf (h2.inv.ok.len d s hs)).2 hs
    obtain ⟨x, hx⟩ := Option.ne_none_iff_exists'.1 ((h2.dom s).2 hmem)
    exact ((h4 s x).1 hx).1.inc
  obtain ⟨B, C, hasc, hsub, b1, b2, b3⟩ := persistence_core (F := F) v h2 hsort (flag_monotone h0 h4) (by omega) _ (mem_flag_iff h0 h4)
  refine ⟨B, C, b1, b2, fun k hk => ?_⟩
  obtain ⟨ps, p1, p2⟩ := b3 k (by omega)
  refine ⟨ps, p1, fun s t hs hst ht => ?_⟩
  exact (p2 s t hst).trans (finrank_inclusion_congr _ _ _ _ _ _ (by rw [if_pos hs]; exact hK s hs (lt_of_le_of_lt hst ht)) (by rw [if_pos (le_trans hs hst)]; exact hK t (le_trans hs hst) ht) k)

/-- the points `a` and `b` lie in a common set of the cover and have distance at most `t` -/
def CommonWithin (dist : Nat → Nat → T) (cover : List (List Nat)) (t : T) (a b : Nat) : Prop := InCommon cover a b ∧ dist a b ≤ t

theorem CommonWithin.mono {dist : Nat → Nat → T} {cover : List (List Nat)} {s t : T} (h : s ≤ t) (a b : Nat) : CommonWithin dist cover s a b → CommonWithin dist cover t a b :=
  fun q => ⟨q.1, le_trans q.2 h⟩

/-- C70: persistence of `RipsFiltration(X, cover, ..)` -/
theorem C70_rips_cover_persistence {F : Type} [Field F] [DecidableEq F] (v : Variant) (dist : Nat → Nat → T) {n : Nat} {cover : List (List Nat)} (hc : Nrv.IsCover cover)
    (hn : ∀ U ∈ cover, ∀ a ∈ U, a < n) (h0 : ∀ a b, a < b → b < n → 0 ≤ dist a b) (rmax : T) (dmax : Nat) (hd : 1 ≤ dmax) :
    ∃ (Ψ : Filt T) (B : List (CMat F)) (R : RedFiltCpx T F), ripsCoverFiltration dist n cover rmax dmax = .ok Ψ ∧
      Ψ.X.chainComplex = .ok B ∧ RedFiltCpx.ofFiltration v.reduce Ψ.val B = .ok R ∧
      ∀ k, k ≤ dmax → ∃ ps, R.persistencePairs k false = .ok ps ∧
        ∀ (s t : T) (hs : 0 ≤ s) (hst : s ≤ t) (ht : t < rmax),
          ps.countP (fun q => decide (q.birth ≤ s) && (match q.death with | none => true | some d => decide (t < d))) =
            Module.finrank F (LinearMap.range (simpInclusion F (isASC_flagComplexOf (CommonWithin dist cover s) n dmax) (isASC_flagComplexOf (CommonWithin dist cover t) n dmax)
              (flagComplexOf_mono n dmax (CommonWithin.mono hst)) k)) := by
  obtain ⟨Ψ, cells, w, h1, h2, h3, h4⟩ := ripsCover_inv dist hc hn rmax dmax
  rw [Nat.max_eq_left hd] at h4
  obtain ⟨B, R, b1, b2, b3⟩ := flag_pairs (F := F) v hd h0 h2 h3 h4 (fun t => flagComplexOf (CommonWithin dist cover t) n dmax)
    (fun t => isASC_flagComplexOf (CommonWithin dist cover t) n dmax) (fun s t hst => flagComplexOf_mono n dmax (CommonWithin.mono hst)) rmax (by
      intro t _ ht
      ext σ
      rw [mem_flagComplexOf, mem_flagComplexOf]
      refine and_congr_right (fun hlt => and_congr_right (fun _ => and_congr_right (fun _ => ?_)))
      refine forall_congr' fun a => forall_congr' fun ha => forall_congr' fun b => forall_congr' fun hb' => forall_congr' fun hab => ?_
      exact ⟨fun h => ⟨h.1.1, h.2⟩, fun h => ⟨⟨h.1, lt_of_le_of_lt h.2 ht⟩, h.2⟩⟩)
  exact ⟨Ψ, B, R, h1, b1, b2, b3⟩

/-- C70: `DowkerFiltration(pdist, cover, rmax, dmax)` contains exactly the sets of landmarks any two of which lie in a common set of the cover and have a common witness at
distance less than `rmax`. -/
theorem C70_dowker_cover {tmax : T} (h0 : 0 ≤ tmax) {p : List (List T)} {nL nX : Nat} (hp : IsMat p nL nX) (hb : ∀ r ∈ p, ∀ x ∈ r, x ≤ tmax)
    {cover : List (List Nat)} (hc : Nrv.IsCover cover) (hn : ∀ U ∈ cover, ∀ a ∈ U, a < nL) {rmax : T} (hr : rmax ≤ tmax) (dmax : Nat) :
    ∃ Ψ w, dowkerCoverFiltration tmax p nX cover rmax dmax = .ok Ψ ∧ Filt.Represents Ψ w ∧
      ∀ s x, w s = some x ↔ IsFlagSimplex (fun a b => InCommon cover a b ∧ HasWitness p nX rmax a b) nL (max dmax 1) s ∧ IsDowkerValue p nX s x := by
  obtain ⟨R, r1, hR⟩ := dowkerParam_spec tmax hp
  -- the values of `dowker_edge_param(pdist, i, j)`
  have hex : ∀ i j, ∃ x, i < nL → j < nL → edgeParam tmax p nX i j = .ok x ∧ ParamOf tmax p nX i j x := by
    intro i j
    by_cases h : i < nL ∧ j < nL
    · obtain ⟨x, h1, h2⟩ := edgeParam_spec (tmax := tmax) hp h.1 h.2
      exact ⟨x, fun _ _ => ⟨h1, h2⟩⟩
    · exact ⟨0, fun h1 h2 => absurd ⟨h1, h2⟩ h⟩
  choose D hD using hex
  have hle : ∀ a b, a < nL → b < nL → 0 < nX → ∀ t, D a b ≤ t ↔ WitnessWithin p nX t a b := by
    intro a b ha hb' hX t
    obtain ⟨⟨k, k1, k2, k3⟩, h2⟩ := (hD a b ha hb').2.2 hX (tab_le h0 hb)
    exact ⟨fun h => ⟨k, k1, le_trans k2 h, le_trans k3 h⟩, fun h => h2 h⟩
  have hlt : ∀ a b, a < nL → b < nL → (D a b < rmax ↔ HasWitness p nX rmax a b) := by
    intro a b ha hb'
    rcases Nat.eq_zero_or_pos nX with hX | hX
    · rw [(hD a b ha hb').2.1 hX]
      constructor
      · intro h; exact absurd hr (not_le.2 h)
      · rintro ⟨k, k1, _⟩; omega
    · obtain ⟨⟨k, k1, k2, k3⟩, h2⟩ := (hD a b ha hb').2.2 hX (tab_le h0 hb)
      constructor
      · intro h; exact ⟨k, k1, lt_of_le_of_lt k2 h, lt_of_le_of_lt k3 h⟩
      · rintro ⟨k, k1, k2, k3⟩
        exact lt_of_le_of_lt (h2 ⟨k, k1, le_max_left _ _, le_max_right _ _⟩) (max_lt k2 k3)
  obtain ⟨es, Ψ, cells, w, h1, h2, h3, h4, h5⟩ := coverFiltration_spec (d := edgeParam tmax p nX) (D := D) (rmax := rmax) hc hn
    (fun U hU i hi j hj _ => (hD i j (hn U hU i hi) (hn U hU j hj)).1) dmax
  refine ⟨Ψ, w, ?_, h3.represents, fun s x => ?_⟩
  · unfold dowkerCoverFiltration
    rw [h1, hp.len]; exact h2
  · rw [h5, isFlag_congr (E' := fun a b => InCommon cover a b ∧ HasWitness p nX rmax a b) (fun a b hab hbn => and_congr_right (fun _ => hlt a b (by omega) hbn))]
    refine and_congr_right (fun hs => ?_)
    unfold IsDiam IsDowkerValue
    refine and_congr_right (fun _ => ?_)
    have key : ∀ y, 2 ≤ s.length → IsGreatest {r | ∃ a ∈ s, ∃ b ∈ s, a < b ∧ D a b = r} y →
        IsLeast {t | ∀ a ∈ s, ∀ b ∈ s, a < b → ∃ k, k < nX ∧ tab p a k ≤ t ∧ tab p b k ≤ t} y := by
      intro y hl h
      obtain ⟨⟨a, ha, b, hb', hab, e⟩, hmax⟩ := h
      have hX : 0 < nX := by obtain ⟨k, k1, _⟩ := (hs.joined a ha b hb' hab).2; omega
      constructor
      · intro c hc d hd hcd
        exact (hle c d (hs.lt c hc) (hs.lt d hd) hX y).1 (hmax ⟨c, hc, d, hd, hcd, rfl⟩)
      · intro t ht
        rw [← e]
        exact (hle a b (hs.lt a ha) (hs.lt b hb') hX t).2 (ht a ha b hb' hab)
    constructor
    · intro h hl; exact key x hl (h hl)
    · intro h hl
      obtain ⟨y, hy⟩ := exists_diam D s hs.inc
      rw [(h hl).unique (key y hl (hy.2 hl))]
      exact hy.2 hl

/-! ### `StrictRipsCoverFiltration` -/

theorem strict_inv (dist : Nat → Nat → T) {n : Nat} {cover : List (List Nat)} (hc : Nrv.IsCover cover) (hn : ∀ U ∈ cover, ∀ a ∈ U, a < n) (rmax : T) (dmax : Nat) :
    ∃ Ψ cells w, strictRipsCoverFiltration dist n cover rmax dmax = .ok Ψ ∧ Filt.FInv Ψ cells w ∧ dmax ≤ Ψ.X.maxdim ∧
      ∀ s x, w s = some x ↔ (∃ U ∈ cover, IsFlagSimplex (fun a b => (a ∈ U ∧ b ∈ U) ∧ dist a b < rmax) n (max dmax 1) s) ∧ IsDiam dist s x := by
  obtain ⟨Φ, h1, h2⟩ := Filt.ofCpx_init_inv (T := T) dmax
  obtain ⟨Ψ, c, w, r1, r2, r3, r4⟩ := strictLoop_spec (dist := dist) (n := n) (rmax := rmax) (dmax := dmax) cover [] Φ _ _ hc hn h2 (by
    intro s x; constructor
    · intro h; cases h
    · rintro ⟨⟨U, hU, _⟩, _⟩; simp at hU)
  rw [List.nil_append] at r4
  have hX : dmax ≤ Φ.X.maxdim := by
    have hm : (SCpx.init dmax).maxdim = dmax := by unfold SCpx.maxdim; rw [(SCpx.init_inv dmax).2]; omega
    have hcx : Φ.X = SCpx.init dmax := by
      unfold Filt.ofCpx at h1
      rw [bind_ok_iff] at h1
      obtain ⟨v, _, h1⟩ := h1
      cases h1; rfl
    rw [hcx, hm]
  refine ⟨Ψ, c, w, ?_, r2, le_trans hX r3, r4⟩
  unfold strictRipsCoverFiltration
  rw [h1]; exact r1

/-- C70: `StrictRipsCoverFiltration(X, cover, dist, rmax, dmax)` contains exactly the simplices of the Vietoris–Rips complexes of the single sets of the cover (with distances
less than `rmax`), and all points as vertices if the cover is not empty; the values are the diameters. -/
theorem C70_strict_rips_cover (dist : Nat → Nat → T) {n : Nat} {cover : List (List Nat)} (hc : Nrv.IsCover cover) (hn : ∀ U ∈ cover, ∀ a ∈ U, a < n) (rmax : T) (dmax : Nat) :
    ∃ Ψ w, strictRipsCoverFiltration dist n cover rmax dmax = .ok Ψ ∧ Filt.Represents Ψ w ∧
      ∀ s x, w s = some x ↔ (∃ U ∈ cover, IsFlagSimplex (fun a b => (a ∈ U ∧ b ∈ U) ∧ dist a b < rmax) n (max dmax 1) s) ∧ IsDiam dist s x := by
  obtain ⟨Ψ, cells, w, h1, h2, _, h4⟩ := strict_inv dist hc hn rmax dmax
  exact ⟨Ψ, w, h1, h2.represents, h4⟩

/-- C70: the strict filtration is contained in the other one, with the same values. -/
theorem C70_strict_subset (dist : Nat → Nat → T) {n : Nat} {cover : List (List Nat)} (hc : Nrv.IsCover cover) (hn : ∀ U ∈ cover, ∀ a ∈ U, a < n) (rmax : T) (dmax : Nat) :
    ∃ Ψ Ψ' w w', strictRipsCoverFiltration dist n cover rmax dmax = .ok Ψ ∧ Filt.Represents Ψ w ∧ ripsCoverFiltration dist n cover rmax dmax = .ok Ψ' ∧ Filt.Represents Ψ' w' ∧
      ∀ s x, w s = some x → w' s = some x := by
  obtain ⟨Ψ, w, h1, h2, h3⟩ := C70_strict_rips_cover dist hc hn rmax dmax
  obtain ⟨Ψ', w', h1', h2', h3'⟩ := C70_rips_cover dist hc hn rmax dmax
  refine ⟨Ψ, Ψ', w, w', h1, h2, h1', h2', fun s x hx => ?_⟩
  obtain ⟨⟨U, hU, q⟩, hd⟩ := (h3 s x).1 hx
  exact (h3' s x).2 ⟨⟨q.ne, q.inc, q.lt, q.len, fun a ha b hb hab => ⟨⟨U, hU, (q.joined a ha b hb hab).1⟩, (q.joined a ha b hb hab).2⟩⟩, hd⟩

/-- C70: persistence of `StrictRipsCoverFiltration` -/
theorem C70_strict_persistence {F : Type} [Field F] [DecidableEq F] (v : Variant) (dist : Nat → Nat → T) {n : Nat} {cover : List (List Nat)} (hc : Nrv.IsCover cover)
    (hn : ∀ U ∈ cover, ∀ a ∈ U, a < n) (h0 : ∀ a b, a < b → b < n → 0 ≤ dist a b) (rmax : T) (dmax : Nat) (hd : 1 ≤ dmax) :
    ∃ (Ψ : Filt T) (B : List (CMat F)) (R : RedFiltCpx T F), strictRipsCoverFiltration dist n cover rmax dmax = .ok Ψ ∧
      Ψ.X.chainComplex = .ok B ∧ RedFiltCpx.ofFiltration v.reduce Ψ.val B = .ok R ∧
      ∀ k, k ≤ dmax → ∃ ps, R.persistencePairs k false = .ok ps ∧
        ∀ (s t : T) (hs : 0 ≤ s) (hst : s ≤ t) (ht : t < rmax),
          ps.countP (fun q => decide (q.birth ≤ s) && (match q.death with | none => true | some d => decide (t < d))) =
            Module.finrank F (LinearMap.range (simpInclusion F (isASC_strictRipsComplex dist cover n dmax s) (isASC_strictRipsComplex dist cover n dmax t)
              (strictRipsComplex_mono dist cover n dmax hst) k)) := by
  obtain ⟨Ψ, cells, w, h1, h2, h3, h4⟩ := strict_inv dist hc hn rmax dmax
  rw [Nat.max_eq_left hd] at h4
  have hsort : ∀ d s, s ∈ cells d → s.Pairwise (· < ·) := by
    intro d s hs
    have hmem := (SCpx.mem_setOf (h2.inv.ok.len d s hs)).2 hs
    obtain ⟨x, hx⟩ := Option.ne_none_iff_exists'.1 ((h2.dom s).2 hmem)
    obtain ⟨⟨U, _, q⟩, _⟩ := (h4 s x).1 hx
    exact q.inc
  have hmono : Filt.Monotone w := by
    intro s u hu hsub x hx
    obtain ⟨⟨U, hU, q⟩, hdm⟩ := (h4 s x).1 hx
    classical
    -- inside one set this is the flag filtration
    obtain ⟨y, hy⟩ := exists_diam dist u (q.inc.sublist hsub)
    refine ⟨y, (h4 u y).2 ⟨⟨U, hU, flag_sublist q hu hsub⟩, hy⟩, ?_⟩
    have hup : 0 < u.length := List.length_pos_iff.2 hu
    have hle := hsub.length_le
    rcases Nat.lt_or_ge s.length 2 with hs | hs
    · rw [hy.1 (by omega), hdm.1 (by omega)]
    · obtain ⟨⟨a, ha, b, hb, hab, e⟩, hmax⟩ := hdm.2 hs
      rcases Nat.lt_or_ge u.length 2 with hu' | hu'
      · rw [hy.1 (by omega), ← e]; exact h0 a b hab (q.lt b hb)
      · obtain ⟨⟨a', ha', b', hb', hab', e'⟩, _⟩ := hy.2 hu'
        exact hmax ⟨a', hsub.subset ha', b', hsub.subset hb', hab', e'⟩
  -- the sublevel complexes
  obtain ⟨K, hKm⟩ : ∃ K : T → Finset (Finset Nat), ∀ t σ, σ ∈ K t ↔ 0 ≤ t ∧ σ ∈ strictRipsComplex dist cover n dmax t ∧
      ∀ a ∈ σ, ∀ b ∈ σ, a < b → dist a b < rmax := by
    classical
    refine ⟨fun t => if 0 ≤ t then (strictRipsComplex dist cover n dmax t).filter (fun σ => ∀ a ∈ σ, ∀ b ∈ σ, a < b → dist a b < rmax) else ∅, fun t σ => ?_⟩
    by_cases ht : 0 ≤ t
    · simp only [ht, if_true, Finset.mem_filter, true_and]
    · simp only [ht, if_false, false_and, Finset.notMem_empty]
  have hK : ∀ (t : T) (σ : Finset Nat), σ ∈ K t ↔ ∃ x, w (σ.sort (· ≤ ·)) = some x ∧ x ≤ t := by
    intro t σ
    have hmem : ∀ b, b ∈ σ.sort (· ≤ ·) ↔ b ∈ σ := fun b => Finset.mem_sort _
    have hlen : (σ.sort (· ≤ ·)).length = σ.card := Finset.length_sort _
    constructor
    · intro h
      · obtain ⟨ht, h, hr⟩ := (hKm t σ).1 h
        obtain ⟨q1, q2, q3, U, hU, q4⟩ := (mem_strictRipsComplex ..).1 h
        obtain ⟨x, hx⟩ := exists_diam dist (σ.sort (· ≤ ·)) (pairwise_sort_lt σ)
        refine ⟨x, (h4 _ x).2 ⟨⟨U, hU, ?_, pairwise_sort_lt σ, ?_, ?_, ?_⟩, hx⟩, ?_⟩
        · rw [← List.length_pos_iff, hlen, Finset.card_pos]; exact q2
        · intro b hb; exact q1 b ((hmem b).1 hb)
        · rw [hlen]; exact q3
        · intro b hb c hc hbc
          have := q4 b ((hmem b).1 hb) c ((hmem c).1 hc) hbc
          exact ⟨⟨this.1, this.2.1⟩, hr b ((hmem b).1 hb) c ((hmem c).1 hc) hbc⟩
        · rcases Nat.lt_or_ge σ.card 2 with hs | hs
          · rw [hx.1 (by rw [hlen]; have := Finset.card_pos.2 q2; omega)]; exact ht
          · obtain ⟨⟨b, hb, c, hc, hbc, e⟩, _⟩ := hx.2 (by rw [hlen]; exact hs)
            rw [← e]
            exact (q4 b ((hmem b).1 hb) c ((hmem c).1 hc) hbc).2.2
    · rintro ⟨x, hx, hxt⟩
      obtain ⟨⟨U, hU, q⟩, hdm⟩ := (h4 _ x).1 hx
      have hpos : 0 < σ.card := by rw [← hlen]; exact List.length_pos_iff.2 q.ne
      have hx0 : 0 ≤ x := by
        rcases Nat.lt_or_ge σ.card 2 with hs | hs
        · rw [hdm.1 (by rw [hlen]; omega)]
        · obtain ⟨⟨b, hb, c, hc, hbc, e⟩, _⟩ := hdm.2 (by rw [hlen]; exact hs)
          rw [← e]; exact h0 b c hbc (q.lt c hc)
      rw [hKm, mem_strictRipsComplex]
      refine ⟨le_trans hx0 hxt, ⟨fun b hb => q.lt b ((hmem b).2 hb), Finset.card_pos.1 hpos, by rw [← hlen]; exact q.len, U, hU, ?_⟩, ?_⟩
      · intro b hb c hc hbc
        have hj := q.joined b ((hmem b).2 hb) c ((hmem c).2 hc) hbc
        refine ⟨hj.1.1, hj.1.2, ?_⟩
        have hl2 : 2 ≤ (σ.sort (· ≤ ·)).length := by rw [hlen]; exact Finset.one_lt_card.2 ⟨b, hb, c, hc, ne_of_lt hbc⟩
        exact le_trans ((hdm.2 hl2).2 ⟨b, (hmem b).2 hb, c, (hmem c).2 hc, hbc, rfl⟩) hxt
      · intro b hb c hc hbc
        exact (q.joined b ((hmem b).2 hb) c ((hmem c).2 hc) hbc).2
  obtain ⟨B, C, hasc, hsub, b1, b2, b3⟩ := persistence_core (F := F) v h2 hsort hmono (by omega) K hK
  refine ⟨Ψ, B, C, h1, b1, b2, fun k hk => ?_⟩
  obtain ⟨ps, p1, p2⟩ := b3 k (by omega)
  refine ⟨ps, p1, fun s t hs hst ht => ?_⟩
  have hcx : ∀ t, 0 ≤ t → t < rmax → K t = strictRipsComplex dist cover n dmax t := by
    intro t ht0 ht
    ext σ
    rw [hKm]
    refine ⟨fun h => h.2.1, fun hσ => ⟨ht0, hσ, fun a ha b hb hab => ?_⟩⟩
    obtain ⟨_, _, _, U, _, q⟩ := (mem_strictRipsComplex ..).1 hσ
    exact lt_of_le_of_lt (q a ha b hb hab).2.2 ht
  exact (p2 s t hst).trans (finrank_inclusion_congr _ _ _ _ _ _ (hcx s hs (lt_of_le_of_lt hst ht)) (hcx t (le_trans hs hst) ht) k)

end order

/-! ### examples -/

/-- four points on a line, two overlapping sets -/
def lineDist (a b : Nat) : Nat := if a < b then b - a else a - b

def lineCover : List (List Nat) := [[0, 1, 2], [1, 2, 3]]

example : Nrv.IsCover lineCover ∧ ∀ U ∈ lineCover, ∀ a ∈ U, a < 4 := by unfold Nrv.IsCover; decide

example : (ripsCoverFiltration lineDist 4 lineCover 10 2).map (fun Φ => (Φ.val, Φ.X.ncells)) =
    .ok ([[0, 0, 0, 0], [1, 1, 1, 2, 2], [2, 2]], [4, 5, 2]) := by decide +kernel

/-- three pairwise overlapping sets without a common one: the triangle is in the first complex, not in the second -/
example : (ripsCoverFiltration lineDist 3 [[0, 1], [0, 2], [1, 2]] 10 2).map (fun Φ => Φ.X.ncells) = .ok [3, 3, 1] ∧
    (strictRipsCoverFiltration lineDist 3 [[0, 1], [0, 2], [1, 2]] 10 2).map (fun Φ => Φ.X.ncells) = .ok [3, 3, 0] := by decide +kernel

/-- `union_add` replaces values, so that the union of two filtrations need not be a filtration: the vertex 0 gets value 5, the edge keeps value 1 -/
example : (do
    let Φ ← Filt.ofCpx (SCpx.init 1)
    let Ψ ← Φ.run [Filt.Op.addRecursive 0 [0], Filt.Op.addRecursive 1 [0, 1]]
    let Ψ2 ← Φ.run [Filt.Op.add 5 [0]]
    let Ω ← unionAdd Ψ Ψ2
    pure Ω.val : Res (List (List Nat))) = .ok [[5, 1], [1]] := by decide +kernel

/-- an index behind the last point -/
example : (ripsCoverFiltration lineDist 3 lineCover 10 2).map (fun Φ => Φ.X.ncells) = .error .ub := by decide +kernel

example : (dowkerCoverFiltration (100 : Int) circleDist 4 [[0, 1], [1, 2, 3]] 5 2).map (fun Φ => Φ.X.ncells) = .ok [4, 4, 1] := by decide +kernel

end Wit
end BATS
