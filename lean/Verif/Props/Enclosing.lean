import Verif.Proofs.Cone
import Verif.Props.RipsDiagram
import Verif.Model.Landmark
import Verif.Spec.Landmark
import Mathlib.Algebra.Order.Ring.Int

set_option linter.unusedSectionVars false
set_option linter.unusedVariables false

/-! # C72: the enclosing radius (include/topology/metric.hpp) -/

namespace BATS
open Lmk BATS.Flag Zoo

section
variable {T : Type} [LinearOrder T] [AddCommGroup T]

/-- `r` is the smallest radius of a ball around a data point that contains all points -/
def IsEnclosingRadius (rows : List (List T)) (r : T) : Prop :=
  (∃ i, i < rows.length ∧ ∀ j, j < rows.length → tab rows i j ≤ r) ∧ ∀ i, i < rows.length → ∃ j, j < rows.length ∧ r ≤ tab rows i j

theorem foldl_max_spec (row : List T) : ∀ r0 : T, (∀ x ∈ row, x ≤ row.foldl (fun r x => if r < x then x else r) r0) ∧ r0 ≤ row.foldl (fun r x => if r < x then x else r) r0 ∧
    (row.foldl (fun r x => if r < x then x else r) r0 = r0 ∨ row.foldl (fun r x => if r < x then x else r) r0 ∈ row) := by
  induction row with
  | nil => intro r0; exact ⟨by simp, le_refl _, Or.inl rfl⟩
  | cons y row ih =>
    intro r0
    obtain ⟨h1, h2, h3⟩ := ih (if r0 < y then y else r0)
    rw [List.foldl_cons]
    by_cases h : r0 < y
    · rw [if_pos h] at h1 h2 h3 ⊢
      refine ⟨fun x hx => ?_, le_trans (le_of_lt h) h2, Or.inr ?_⟩
      · rcases List.mem_cons.1 hx with rfl | hx
        · exact h2
        · exact h1 x hx
      · rcases h3 with h3 | h3
        · rw [h3]; exact List.mem_cons_self
        · exact List.mem_cons_of_mem _ h3
    · rw [if_neg h] at h1 h2 h3 ⊢
      refine ⟨fun x hx => ?_, h2, ?_⟩
      · rcases List.mem_cons.1 hx with rfl | hx
        · exact le_trans (not_lt.1 h) h2
        · exact h1 x hx
      · rcases h3 with h3 | h3
        · exact Or.inl h3
        · exact Or.inr (List.mem_cons_of_mem _ h3)

theorem foldl_min_spec (D : List (List T)) : ∀ r0 : T, (∀ row ∈ D, D.foldl (fun r row => if r < rowMax row then r else rowMax row) r0 ≤ rowMax row) ∧
    D.foldl (fun r row => if r < rowMax row then r else rowMax row) r0 ≤ r0 ∧
    (D.foldl (fun r row => if r < rowMax row then r else rowMax row) r0 = r0 ∨ ∃ row ∈ D, D.foldl (fun r row => if r < rowMax row then r else rowMax row) r0 = rowMax row) := by
  induction D with
  | nil => intro r0; exact ⟨by simp, le_refl _, Or.inl rfl⟩
  | cons y D ih =>
    intro r0
    obtain ⟨h1, h2, h3⟩ := ih (if r0 < rowMax y then r0 else rowMax y)
    rw [List.foldl_cons]
    by_cases h : r0 < rowMax y
    · rw [if_pos h] at h1 h2 h3 ⊢
      refine ⟨fun x hx => ?_, h2, ?_⟩
      · rcases List.mem_cons.1 hx with rfl | hx
        · exact le_trans h2 (le_of_lt h)
        · exact h1 x hx
      · rcases h3 with h3 | ⟨row, hr, h3⟩
        · exact Or.inl h3
        · exact Or.inr ⟨row, List.mem_cons_of_mem _ hr, h3⟩
    · rw [if_neg h] at h1 h2 h3 ⊢
      refine ⟨fun x hx => ?_, le_trans h2 (not_lt.1 h), ?_⟩
      · rcases List.mem_cons.1 hx with rfl | hx
        · exact h2
        · exact h1 x hx
      · rcases h3 with h3 | ⟨row, hr, h3⟩
        · exact Or.inr ⟨y, List.mem_cons_self, h3⟩
        · exact Or.inr ⟨row, List.mem_cons_of_mem _ hr, h3⟩

theorem tab_mem {rows : List (List T)} (h : IsTable rows) {i j : Nat} (hi : i < rows.length) (hj : j < rows.length) :
    tab rows i j ∈ rows[i] := by
  unfold tab
  rw [List.getD_eq_getElem?_getD (l := rows), List.getElem?_eq_getElem hi, Option.getD_some, List.getD_eq_getElem?_getD,
    List.getElem?_eq_getElem (by rw [h _ (List.getElem_mem hi)]; exact hj), Option.getD_some]
  exact List.getElem_mem _

theorem mem_tab {rows : List (List T)} (h : IsTable rows) {i : Nat} (hi : i < rows.length) {x : T} (hx : x ∈ rows[i]) : ∃ j, j < rows.length ∧ tab rows i j = x := by
  obtain ⟨j, hj, e⟩ := List.getElem_of_mem hx
  refine ⟨j, by rw [← h _ (List.getElem_mem hi)]; exact hj, ?_⟩
  unfold tab
  rw [List.getD_eq_getElem?_getD (l := rows), List.getElem?_eq_getElem hi, Option.getD_some, List.getD_eq_getElem?_getD, List.getElem?_eq_getElem hj, Option.getD_some, e]

/-- C72: `enclosing_radius(D)` of a nonempty table of distances is the smallest radius of a ball around a data point that contains all points. -/
theorem C72_enclosing_radius {rows : List (List T)} (h : IsDistance rows) (hne : rows ≠ []) {tmax : T} (ht : ∀ i j, i < rows.length → j < rows.length → tab rows i j ≤ tmax) :
    IsEnclosingRadius rows (enclosingRadius tmax rows) := by
  have hpos : 0 < rows.length := List.length_pos_iff.2 hne
  -- the largest entry of a row
  have hrow : ∀ i (hi : i < rows.length), (∀ j, j < rows.length → tab rows i j ≤ rowMax rows[i]) ∧ ∃ j, j < rows.length ∧ rowMax rows[i] = tab rows i j := by
    intro i hi
    obtain ⟨h1, h2, h3⟩ := foldl_max_spec rows[i] 0
    refine ⟨fun j hj => h1 _ (tab_mem h.table hi hj), ?_⟩
    rcases h3 with h3 | h3
    · exact ⟨i, hi, by rw [h.self i hi]; exact h3⟩
    · obtain ⟨j, hj, e⟩ := mem_tab h.table hi h3
      exact ⟨j, hj, e.symm⟩
  obtain ⟨h1, h2, h3⟩ := foldl_min_spec rows tmax
  constructor
  · rcases h3 with h3 | ⟨row, hr, h3⟩
    · exact ⟨0, hpos, fun j hj => le_trans (ht 0 j hpos hj) (le_of_eq h3.symm)⟩
    · obtain ⟨i, hi, rfl⟩ := List.getElem_of_mem hr
      exact ⟨i, hi, fun j hj => le_trans ((hrow i hi).1 j hj) (le_of_eq h3.symm)⟩
  · intro i hi
    obtain ⟨j, hj, e⟩ := (hrow i hi).2
    exact ⟨j, hj, by rw [← e]; exact h1 _ (List.getElem_mem hi)⟩

/-- C72: of no points the enclosing radius is the largest number. -/
theorem C72_no_points (tmax : T) : enclosingRadius tmax ([] : List (List T)) = tmax := rfl

theorem enclosing_nonneg {rows : List (List T)} (h : IsDistance rows) {r : T} (hr : IsEnclosingRadius rows r) : 0 ≤ r := by
  obtain ⟨i, hi, h1⟩ := hr.1
  rw [← h.self i hi]; exact h1 i hi

/-- above the enclosing radius the Rips complex is a cone -/
theorem rips_cone {rows : List (List T)} (hs : ∀ i j, i < rows.length → j < rows.length → tab rows i j = tab rows j i) {r ρ : T}
    {i : Nat} (hi : i < rows.length) (hc : ∀ j, j < rows.length → tab rows i j ≤ r) (hρ : r ≤ ρ) (D : Nat) :
    {i} ∈ ripsComplex (tab rows) rows.length D ρ ∧ ∀ k, k < D → ∀ σ ∈ ripsComplex (tab rows) rows.length D ρ, σ.card ≤ k + 1 → insert i σ ∈ ripsComplex (tab rows) rows.length D ρ := by
  constructor
  · rw [mem_ripsComplex]
    refine ⟨by simpa using hi, by simp, by simp, ?_⟩
    intro a ha b hb hab
    rw [Finset.mem_singleton] at ha hb
    omega
  · intro k hk σ hσ hcard
    rw [mem_ripsComplex] at hσ ⊢
    obtain ⟨h1, h2, h3, h4⟩ := hσ
    refine ⟨?_, by simp, ?_, ?_⟩
    · intro a ha
      rcases Finset.mem_insert.1 ha with rfl | ha
      · exact hi
      · exact h1 a ha
    · have := Finset.card_insert_le i σ
      omega
    · intro a ha b hb hab
      rcases Finset.mem_insert.1 ha with ea | ha'
      · rcases Finset.mem_insert.1 hb with eb | hb'
        · omega
        · rw [ea]; exact le_trans (hc b (h1 b hb')) hρ
      · rcases Finset.mem_insert.1 hb with eb | hb'
        · rw [eb, hs a i (h1 a ha') hi]
          exact le_trans (hc a (h1 a ha')) hρ
        · exact h4 a ha' b hb' hab

/-- C72: at every scale from the enclosing radius on the Vietoris–Rips complex has the homology of a point (over every field). -/
theorem C72_rips_acyclic (F : Type) [Field F] [DecidableEq F] {rows : List (List T)} (hs : ∀ i j, i < rows.length → j < rows.length → tab rows i j = tab rows j i) {r : T}
    (hr : IsEnclosingRadius rows r) {ρ : T} (hρ : r ≤ ρ) {D k : Nat} (hk : k < D) :
    simplicialBetti F (ripsComplex (tab rows) rows.length D ρ) k = if k = 0 then 1 else 0 := by
  obtain ⟨i, hi, hc⟩ := hr.1
  obtain ⟨h1, h2⟩ := rips_cone hs hi hc hρ D
  by_cases h0 : k = 0
  · subst h0
    rw [if_pos rfl]
    exact Cone.betti_cone_zero (isASC_ripsComplex _ _ _ _) h1 (h2 0 hk)
  · rw [if_neg h0]
    exact Cone.betti_cone_pos (isASC_ripsComplex _ _ _ _) h1 (h2 k hk) (by omega)

/-- C72: so the Betti numbers computed from `RipsComplex(X, dist, rmax, dmax)`, for `rmax` at least `enclosing_radius`, are 1 in dimension 0, and 0 between 0 and `dmax`. -/
theorem C72_rips_complex {F : Type} [Field F] [DecidableEq F] (v : Variant) {rows : List (List T)} (hs : ∀ i j, i < rows.length → j < rows.length → tab rows i j = tab rows j i) {r : T}
    (hr : IsEnclosingRadius rows r) {rmax : T} (hρ : r ≤ rmax) (dmax : Nat) :
    ∃ (Y : SCpx) (B : List (CMat F)) (C : RedCpx F), ripsCpx (fun a b => tab rows b a) rows.length rmax dmax = .ok Y ∧ Y.chainComplex = .ok B ∧ v.reduce B = .ok C ∧
      ∀ k, k < dmax → C.hdim k = .ok (if k = 0 then 1 else 0) := by
  obtain ⟨Y, B, C, h1, h2, h3, h4⟩ := C68_betti (F := F) v (fun a b => tab rows b a) rows.length rmax dmax
  refine ⟨Y, B, C, h1, h2, h3, fun k hk => ?_⟩
  rw [h4 k hk, ← ripsComplex_skeleton _ _ _ hk]
  exact congrArg Except.ok (C72_rips_acyclic F hs hr hρ hk)

/-- the persistence theorem for the Rips filtration for scales beyond `rmax`, too -/
theorem rips_persistence_all {F : Type} [Field F] [DecidableEq F] (v : Variant) (pdist : Nat → Nat → T) (n : Nat) (h0 : ∀ a b, a < b → b < n → 0 ≤ pdist a b) (rmax : T) (dmax : Nat)
    (hd : 1 ≤ dmax) :
    ∃ (Ψ : Filt T) (B : List (CMat F)) (R : RedFiltCpx T F), ripsFiltration pdist n rmax dmax = .ok Ψ ∧
      Ψ.X.chainComplex = .ok B ∧ RedFiltCpx.ofFiltration v.reduce Ψ.val B = .ok R ∧
      ∀ k, k ≤ dmax → ∃ ps, R.persistencePairs k false = .ok ps ∧
        ∀ (s t : T) (hs : 0 ≤ s) (hst : s ≤ t),
          ps.countP (fun q => decide (q.birth ≤ s) && (match q.death with | none => true | some d => decide (t < d))) =
            Module.finrank F (LinearMap.range (simpInclusion F (isASC_ripsComplex pdist n dmax (min s rmax)) (isASC_ripsComplex pdist n dmax (min t rmax))
              (ripsComplex_mono pdist n dmax (min_le_min_right rmax hst)) k)) := by
  obtain ⟨Ψ, cells, w, h1, h2, h3, h4⟩ := ripsFiltration_spec pdist n rmax dmax
  rw [Nat.max_eq_left hd] at h4
  have hsort : ∀ d s, s ∈ cells d → s.Pairwise (· < ·) := by
    intro d s hs
    have hmem := (SCpx.mem_setOf (h2.inv.ok.len d s hs)).2 hs
    obtain ⟨x, hx⟩ := Option.ne_none_iff_exists'.1 ((h2.dom s).2 hmem)
    exact ((h4 s x).1 hx).1.inc
  obtain ⟨B, R, hasc, hsub, b1, b2, b3⟩ := persistence_core (F := F) v h2 hsort (rips_monotone h0 h4) (by omega)
    (fun a => if 0 ≤ a then ripsComplex pdist n dmax (min a rmax) else ∅) (mem_rips_iff h0 h4)
  refine ⟨Ψ, B, R, h1, b1, b2, fun k hk => ?_⟩
  obtain ⟨ps, p1, p2⟩ := b3 k (by omega)
  refine ⟨ps, p1, fun s t hs hst => ?_⟩
  exact (p2 s t hst).trans (finrank_inclusion_congr _ _ _ _ _ _ (by rw [if_pos hs]) (by rw [if_pos (le_trans hs hst)]) k)

/-- the number of bars born at or before `s` that are alive at `t` -/
def aliveBars (ps : List (PPair T)) (s t : T) : Nat := ps.countP (fun q => decide (q.birth ≤ s) && (match q.death with | none => true | some d => decide (t < d)))

/-- C72: persistent homology of the Rips filtration with `rmax` at least the enclosing radius, by any of the algorithms: between the dimensions 0 and `dmax` every bar of positive length ends at the enclosing radius or
before; in dimension 0 exactly one bar is alive at every scale from the enclosing radius on. -/
theorem C72_persistence {F : Type} [Field F] [DecidableEq F] (v : Variant) {rows : List (List T)} (h : IsDistance rows)
    (hs : ∀ i j, i < rows.length → j < rows.length → tab rows i j = tab rows j i) {r : T} (hr : IsEnclosingRadius rows r) {rmax : T} (hρ : r ≤ rmax) {dmax : Nat} (hd : 1 ≤ dmax) :
    ∃ (Ψ : Filt T) (B : List (CMat F)) (R : RedFiltCpx T F), ripsFiltration (tab rows) rows.length rmax dmax = .ok Ψ ∧
      Ψ.X.chainComplex = .ok B ∧ RedFiltCpx.ofFiltration v.reduce Ψ.val B = .ok R ∧
      (∃ ps, R.persistencePairs 0 false = .ok ps ∧ ∀ t, r ≤ t → aliveBars ps t t = 1) ∧
      ∀ k, 1 ≤ k → k < dmax → ∃ ps, R.persistencePairs k false = .ok ps ∧ ∀ q ∈ ps, ∃ d, q.death = some d ∧ (d ≤ r ∨ d ≤ q.birth) := by
  obtain ⟨Ψ, B, R, h1, h2, h3, h4⟩ := rips_persistence_all (F := F) v (tab rows) rows.length (fun a b hab hb => h.nonneg a b (by omega) hb) rmax dmax hd
  have hr0 := enclosing_nonneg h hr
  obtain ⟨i, hi, hc⟩ := hr.1
  refine ⟨Ψ, B, R, h1, h2, h3, ?_, ?_⟩
  · obtain ⟨ps, p1, p2⟩ := h4 0 (by omega)
    refine ⟨ps, p1, fun t ht => ?_⟩
    obtain ⟨c1, c2⟩ := rips_cone hs hi hc (le_min ht hρ) dmax
    exact (p2 t t (le_trans hr0 ht) (le_refl _)).trans (Cone.rank_zero _ _ _ c1 c1 (c2 0 (by omega)))
  · intro k hk1 hkd
    obtain ⟨ps, p1, p2⟩ := h4 k (by omega)
    refine ⟨ps, p1, fun q hq => ?_⟩
    have hm : r ≤ max q.birth r := le_max_right _ _
    have hz := p2 (max q.birth r) (max q.birth r) (le_trans hr0 hm) (le_refl _)
    have hb := C72_rips_acyclic F hs hr (le_min hm hρ) hkd
    rw [if_neg (by omega)] at hb
    have hrk := Nat.le_zero.1 (hb ▸ Cone.rank_le_betti (F := F) (isASC_ripsComplex (tab rows) rows.length dmax (min (max q.birth r) rmax))
      (isASC_ripsComplex (tab rows) rows.length dmax (min (max q.birth r) rmax)) (ripsComplex_mono (tab rows) rows.length dmax (le_refl _)) k)
    rw [hrk, List.countP_eq_zero] at hz
    have := hz q hq
    rw [Bool.and_eq_true, decide_eq_true_iff, not_and] at this
    have this := this (le_max_left _ _)
    cases hqd : q.death with
    | none => rw [hqd] at this; exact absurd rfl this
    | some d =>
      rw [hqd] at this
      refine ⟨d, rfl, ?_⟩
      have : ¬ max q.birth r < d := by simpa using this
      rcases le_total q.birth r with e | e
      · rw [max_eq_right e] at this; exact Or.inl (not_lt.1 this)
      · rw [max_eq_left e] at this; exact Or.inr (not_lt.1 this)

/-- C72: cutting the filtration off at the enclosing radius loses nothing: two Rips filtrations of the same points with different `rmax`, both at least the enclosing radius, have below the top dimension the same bars,
up to bars of length zero: the same number of bars born at or before `s` and alive at `t`, for all `0 ≤ s ≤ t`. -/
theorem C72_cutoff {F : Type} [Field F] [DecidableEq F] (v v' : Variant) {rows : List (List T)} (h : IsDistance rows)
    (hs : ∀ i j, i < rows.length → j < rows.length → tab rows i j = tab rows j i) {r : T} (hr : IsEnclosingRadius rows r) {rmax rmax' : T} (hρ : r ≤ rmax) (hρ' : r ≤ rmax')
    {dmax : Nat} (hd : 1 ≤ dmax) :
    ∃ (Ψ Ψ' : Filt T) (B B' : List (CMat F)) (R R' : RedFiltCpx T F), ripsFiltration (tab rows) rows.length rmax dmax = .ok Ψ ∧
      Ψ.X.chainComplex = .ok B ∧ RedFiltCpx.ofFiltration v.reduce Ψ.val B = .ok R ∧ ripsFiltration (tab rows) rows.length rmax' dmax = .ok Ψ' ∧
      Ψ'.X.chainComplex = .ok B' ∧ RedFiltCpx.ofFiltration v'.reduce Ψ'.val B' = .ok R' ∧
      ∀ k, k < dmax → ∃ ps ps', R.persistencePairs k false = .ok ps ∧ R'.persistencePairs k false = .ok ps' ∧
        ∀ s t, 0 ≤ s → s ≤ t → aliveBars ps s t = aliveBars ps' s t := by
  have hn := fun a b (hab : a < b) hb => h.nonneg a b (by omega) hb
  obtain ⟨Ψ, B, R, a1, a2, a3, a4⟩ := rips_persistence_all (F := F) v (tab rows) rows.length hn rmax dmax hd
  obtain ⟨Ψ', B', R', b1, b2, b3, b4⟩ := rips_persistence_all (F := F) v' (tab rows) rows.length hn rmax' dmax hd
  refine ⟨Ψ, Ψ', B, B', R, R', a1, a2, a3, b1, b2, b3, fun k hk => ?_⟩
  obtain ⟨ps, p1, p2⟩ := a4 k (by omega)
  obtain ⟨ps', q1, q2⟩ := b4 k (by omega)
  refine ⟨ps, ps', p1, q1, fun s t hs0 hst => ?_⟩
  have hr0 := enclosing_nonneg h hr
  obtain ⟨i, hi, hc⟩ := hr.1
  refine (p2 s t hs0 hst).trans (Eq.trans ?_ (q2 s t hs0 hst).symm)
  rcases le_or_gt t (min rmax rmax') with ht | ht
  · have e1 : min t rmax = t := min_eq_left (le_trans ht (min_le_left _ _))
    have e2 : min t rmax' = t := min_eq_left (le_trans ht (min_le_right _ _))
    have e3 : min s rmax = s := min_eq_left (le_trans hst (le_trans ht (min_le_left _ _)))
    have e4 : min s rmax' = s := min_eq_left (le_trans hst (le_trans ht (min_le_right _ _)))
    exact finrank_inclusion_congr _ _ _ _ _ _ (by rw [e3, e4]) (by rw [e1, e2]) k
  · -- both targets are cones
    have hrt : r ≤ t := le_trans (le_min hρ hρ') (le_of_lt ht)
    have key : ∀ ρ, r ≤ ρ → Module.finrank F (LinearMap.range (simpInclusion F (isASC_ripsComplex (tab rows) rows.length dmax (min s ρ)) (isASC_ripsComplex (tab rows) rows.length dmax (min t ρ))
        (ripsComplex_mono (tab rows) rows.length dmax (min_le_min_right ρ hst)) k)) = if k = 0 then 1 else 0 := by
      intro ρ hρ
      obtain ⟨c1, c2⟩ := rips_cone hs hi hc (le_min hrt hρ) dmax
      have hv : {i} ∈ ripsComplex (tab rows) rows.length dmax (min s ρ) := by
        rw [mem_ripsComplex]
        refine ⟨by simpa using hi, by simp, by simp, ?_⟩
        intro a ha b hb hab
        rw [Finset.mem_singleton] at ha hb
        omega
      by_cases hk0 : k = 0
      · subst hk0
        rw [if_pos rfl]
        exact Cone.rank_zero _ _ _ hv c1 (c2 0 (by omega))
      · rw [if_neg hk0]
        have hb := Cone.betti_cone_pos (F := F) (isASC_ripsComplex _ _ _ _) c1 (c2 k hk) (by omega)
        exact Nat.le_zero.1 (hb ▸ Cone.rank_le_betti _ _ _ k)
    rw [key rmax hρ, key rmax' hρ']

end

/-! ### Examples -/

/-- four points on a cycle of length four -/
def cycle4 : List (List Int) := [[0, 1, 2, 1], [1, 0, 1, 2], [2, 1, 0, 1], [1, 2, 1, 0]]

example : enclosingRadius 1000 cycle4 = 2 := by decide +kernel
/-- a star: the enclosing radius is half of the diameter -/
def star4 : List (List Int) := [[0, 1, 1, 1], [1, 0, 2, 2], [1, 2, 0, 2], [1, 2, 2, 0]]
example : enclosingRadius 1000 star4 = 1 := by decide +kernel

theorem star4_distance : IsDistance star4 := by
  refine ⟨?_, ?_, ?_⟩
  · unfold IsTable; decide +kernel
  · intro i x hi hx
    have : ∀ i < 4, ∀ x < 4, 0 ≤ tab star4 i x := by decide +kernel
    exact this i hi x hx
  · intro i hi
    have : ∀ i < 4, tab star4 i i = 0 := by decide +kernel
    exact this i hi
theorem star4_symm : ∀ i j, i < star4.length → j < star4.length → tab star4 i j = tab star4 j i := by
  intro i j hi hj
  have : ∀ i < 4, ∀ j < 4, tab star4 i j = tab star4 j i := by decide +kernel
  exact this i hi j hj
example : IsEnclosingRadius star4 (enclosingRadius 1000 star4) := C72_enclosing_radius star4_distance (by decide) (by
  intro i j hi hj
  have : ∀ i < 4, ∀ j < 4, tab star4 i j ≤ 1000 := by decide +kernel
  exact this i hi j hj)
/-- below the enclosing radius there may be homology: the cycle at scale 1 is a circle -/
example : (ripsCpx (fun a b => tab cycle4 b a) 4 1 2).bind (fun Y => (Y.chainComplex : Res (List (CMat ℚ))).bind (fun B =>
    (Variant.standard.reduce B).bind (fun C => C.hdim 1))) = .ok 1 := by decide +kernel
/-- at the enclosing radius the homology in dimensions below `dmax` is that of a point -/
example : (ripsCpx (fun a b => tab cycle4 b a) 4 2 2).bind (fun Y => (Y.chainComplex : Res (List (CMat ℚ))).bind (fun B =>
    (Variant.standard.reduce B).bind (fun C => C.hdim 1))) = .ok 0 := by decide +kernel

end BATS
