import Verif.Proofs.Landmark
import Mathlib.Algebra.Order.Group.Abs
import Mathlib.Data.Fintype.Pigeonhole
import Mathlib.Data.Rat.Defs
import Mathlib.Algebra.Order.Ring.Rat

set_option linter.unusedSectionVars false
set_option linter.unusedVariables false
set_option linter.unusedSimpArgs false

/-! # C67: landmarks (include/topology/landmark.hpp)

`IsTable`, `IsDistance`, `IsMetric`, `IsDistTo`, `IsHausdorff`, `IsFarthestFirst` are in `Verif/Spec/Landmark.lean`. -/

namespace BATS
namespace Lmk
open Reduction Srt

variable {T : Type} [LinearOrder T] [Zero T]

/-! ### Hausdorff distances -/

theorem exists_distTo (rows : List (List T)) {L : List Nat} (hL : L ≠ []) (x : Nat) : ∃ m, IsDistTo rows L x m := by
  induction L with
  | nil => exact absurd rfl hL
  | cons l L ih =>
    by_cases h : L = []
    · subst h; exact ⟨_, ⟨l, by simp, rfl⟩, by simp⟩
    · obtain ⟨m, ⟨a, a1, a2⟩, b⟩ := ih h
      rcases le_total m (tab rows l x) with hm | hm
      · refine ⟨m, ⟨a, List.mem_cons_of_mem _ a1, a2⟩, ?_⟩
        intro z hz
        rcases List.mem_cons.1 hz with rfl | hz
        · exact hm
        · exact b z hz
      · refine ⟨_, ⟨l, by simp, rfl⟩, ?_⟩
        intro z hz
        rcases List.mem_cons.1 hz with rfl | hz
        · exact le_refl _
        · exact hm.trans (b z hz)

theorem hausdorff_mono {rows : List (List T)} {L L' : List Nat} (hL : L ≠ []) (hs : ∀ l ∈ L, l ∈ L') {h h' : T} (hh : IsHausdorff rows L h) (hh' : IsHausdorff rows L' h') :
    h' ≤ h := by
  obtain ⟨⟨x, x1, x2⟩, _⟩ := hh'
  obtain ⟨m, hm⟩ := exists_distTo rows hL x
  have : h' ≤ m := by
    obtain ⟨l, l1, l2⟩ := hm.1
    rw [← l2]; exact x2.2 l (hs l l1)
  exact this.trans (hh.2 x x1 m hm)

theorem dok_hausdorff {rows : List (List T)} {L : List Nat} {d : List T} (hd : DOK rows L d) {p : Nat × T} (hp : d[p.1]? = some p.2) (hmax : ∀ x ∈ d, x ≤ p.2) :
    IsHausdorff rows L p.2 := by
  have h1 : p.1 < rows.length := by
    have := (List.getElem?_eq_some_iff.1 hp).1
    rw [hd.1] at this; exact this
  refine ⟨⟨p.1, h1, ?_⟩, ?_⟩
  · obtain ⟨m, e, hm⟩ := hd.2 p.1 h1
    rw [hp] at e; cases e; exact hm
  · intro x hx m hm
    obtain ⟨m', q1, q2⟩ := hd.2 x hx
    rw [hm.unique q2]
    exact hmax _ (List.mem_of_getElem? q1)

theorem farthest_of {rows : List (List T)} {i0 : Nat} {is : List Nat} {hs : List T} (hi : i0 < rows.length) (g : Greedy rows [i0] is hs) {h : T}
    (hh : IsHausdorff rows ([i0] ++ is) h) : IsFarthestFirst rows i0 (is.length + 1) (i0 :: is) (hs ++ [h]) := by
  refine ⟨by simp, by simp [g.len], rfl, ?_, ?_, ?_⟩
  · intro i hm
    rcases List.mem_cons.1 hm with rfl | hm
    · exact hi
    · exact g.lt i hm
  · intro j h' hj
    rw [List.take_succ_cons]
    by_cases hlt : j < hs.length
    · rw [List.getElem?_append_left hlt] at hj
      exact g.hd j h' hj
    · rw [List.getElem?_append_right (by omega)] at hj
      have hl := (List.getElem?_eq_some_iff.1 hj).1
      simp at hl
      have e : j = hs.length := by omega
      subst e
      simp at hj; subst hj
      rw [g.len, List.take_length]; exact hh
  · intro j i h' hi' hj
    rw [List.take_succ_cons]
    rw [List.getElem?_cons_succ] at hi'
    have hl := (List.getElem?_eq_some_iff.1 hi').1
    rw [List.getElem?_append_left (by rw [g.len]; exact hl)] at hj
    exact g.far j i h' hi' hj

/-- C67: `greedy_landmarks_hausdorff(D, dist, i0, k)` returns `k` landmarks (at least one) in farthest-first order from `i0` and their Hausdorff distances to the data. -/
theorem C67_farthest_first {rows : List (List T)} (ht : IsTable rows) {i0 : Nat} (hi : i0 < rows.length) (k : Nat) :
    ∃ inds hds, greedyHausdorffK rows i0 k = .ok (inds, hds) ∧ IsFarthestFirst rows i0 (max k 1) inds hds := by
  obtain ⟨d, d1, d2⟩ := dok_init ht hi
  obtain ⟨is, hs, d', g1, g2, g3, g4⟩ := hdLoop_spec ht (by omega) (k - 1) [i0] d d2
  obtain ⟨p, p1, p2, p3, _⟩ := maxElement_spec d' (by rintro rfl; have := g4.1; simp at this; omega)
  refine ⟨i0 :: is, hs ++ [p.2], ?_, ?_⟩
  · unfold greedyHausdorffK
    rw [d1]
    show (do
      let r ← hdLoop rows (k - 1) d
      let p ← maxElement r.2.2
      Except.ok (i0 :: r.1, r.2.1 ++ [p.2])) = _
    rw [g1]
    show (do
      let p ← maxElement d'
      Except.ok (i0 :: is, hs ++ [p.2])) = _
    rw [p1]; rfl
  · have := farthest_of hi g3 (dok_hausdorff g4 p2 p3)
    rw [g2] at this
    have e : k - 1 + 1 = max k 1 := by omega
    rwa [e] at this

theorem IsFarthestFirst.anti {rows : List (List T)} {i0 k : Nat} {inds : List Nat} {hds : List T} (hf : IsFarthestFirst rows i0 k inds hds) {a b : Nat} {x y : T}
    (hab : a ≤ b) (hx : hds[a]? = some x) (hy : hds[b]? = some y) : y ≤ x := by
  refine hausdorff_mono ?_ ?_ (hf.hd a x hx) (hf.hd b y hy)
  · have := hf.first
    cases inds with
    | nil => simp at this
    | cons i is => simp
  · intro l hl
    exact (List.take_subset_take_left _ (by omega)) hl

/-- C67: the Hausdorff distances decrease, and the landmarks are spread: any two of the first `j + 2` landmarks have at least the distance `hds[j]`. -/
theorem C67_spread {rows : List (List T)} {i0 k : Nat} {inds : List Nat} {hds : List T} (hf : IsFarthestFirst rows i0 k inds hds) :
    hds.Pairwise (fun x y => y ≤ x) ∧
      ∀ (j a b x y : Nat) (h : T), hds[j]? = some h → a < b → b ≤ j + 1 → inds[a]? = some x → inds[b]? = some y → h ≤ tab rows x y := by
  refine ⟨?_, ?_⟩
  · rw [List.pairwise_iff_getElem]
    intro a b ha hb hab
    exact hf.anti (le_of_lt hab) (List.getElem?_eq_getElem ha) (List.getElem?_eq_getElem hb)
  · intro j a b x y h hj hab hbj hx hy
    obtain ⟨b, rfl⟩ : ∃ b', b = b' + 1 := ⟨b - 1, by omega⟩
    have hl := (List.getElem?_eq_some_iff.1 hj).1
    obtain ⟨h', hb⟩ : ∃ h', hds[b]? = some h' := ⟨_, List.getElem?_eq_getElem (by omega)⟩
    obtain ⟨q1, _⟩ := hf.far b y h' hy hb
    refine (hf.anti (by omega) hb hj).trans (q1.2 x ?_)
    rw [List.mem_take_iff_getElem]
    obtain ⟨l1, rfl⟩ := List.getElem?_eq_some_iff.1 hx
    exact ⟨a, by omega, rfl⟩

theorem last_zero {rows : List (List T)} (hD : IsDistance rows) {i0 k : Nat} (hi : i0 < rows.length) {is : List Nat} {hs : List T} (g : Greedy rows [i0] is hs)
    (hlen : is.length = rows.length - 1) : IsHausdorff rows ([i0] ++ is) 0 := by
  have hdist : ∀ x, x < rows.length → (∃ l ∈ [i0] ++ is, tab rows l x = 0) := by
    by_cases hall : ∀ h ∈ hs, 0 < h
    · have hnd : ([i0] ++ is).Nodup := by
        have key : ∀ m, m ≤ is.length → ([i0] ++ is.take m).Nodup := by
          intro m
          induction m with
          | zero => intro _; simp
          | succ m ih =>
            intro hm
            have hmem : hs[m]? = some (hs[m]'(by rw [g.len]; omega)) := List.getElem?_eq_getElem _
            obtain ⟨f1, _⟩ := g.far m _ _ (List.getElem?_eq_getElem (by omega : m < is.length)) hmem
            rw [List.take_add_one, List.getElem?_eq_getElem (by omega : m < is.length)]
            show ([i0] ++ (is.take m ++ [is[m]])).Nodup
            rw [← List.append_assoc, List.nodup_append]
            refine ⟨ih (by omega), by simp, ?_⟩
            intro a ha b hb
            rw [List.mem_singleton] at hb
            subst hb
            rintro rfl
            have h1 := f1.2 _ ha
            have h2 := hD.self _ (g.lt _ (List.getElem_mem (by omega : m < is.length)))
            rw [h2] at h1
            exact absurd (hall _ (List.getElem_mem (by rw [g.len]; omega : m < hs.length))) (not_lt.2 h1)
        have := key is.length (le_refl _)
        rwa [List.take_length] at this
      have hsub : ([i0] ++ is).toFinset = Finset.range rows.length := by
        apply Finset.eq_of_subset_of_card_le
        · intro x hx
          rw [List.mem_toFinset] at hx
          rw [Finset.mem_range]
          rcases List.mem_append.1 hx with h | h
          · rw [List.mem_singleton.1 h]; exact hi
          · exact g.lt x h
        · rw [List.toFinset_card_of_nodup hnd, Finset.card_range, List.length_append, List.length_singleton]; omega
      intro x hx
      refine ⟨x, ?_, hD.self x hx⟩
      rw [← List.mem_toFinset, hsub, Finset.mem_range]; exact hx
    · push Not at hall
      obtain ⟨h, hm, hle⟩ := hall
      obtain ⟨j, hj, rfl⟩ := List.getElem_of_mem hm
      intro x hx
      have hH := g.hd j _ (List.getElem?_eq_getElem hj)
      obtain ⟨m, hm⟩ := exists_distTo rows (L := [i0] ++ is.take j) (by simp) x
      have := hH.2 x hx m hm
      obtain ⟨l, l1, l2⟩ := hm.1
      have hl : l < rows.length := by
        rcases List.mem_append.1 l1 with h | h
        · rw [List.mem_singleton.1 h]; exact hi
        · exact g.lt l (List.mem_of_mem_take h)
      refine ⟨l, ?_, le_antisymm ?_ (hD.nonneg l x hl hx)⟩
      · rcases List.mem_append.1 l1 with h | h
        · exact List.mem_append_left _ h
        · exact List.mem_append_right _ (List.mem_of_mem_take h)
      · rw [l2]; exact this.trans hle
  have hlt : ∀ l ∈ [i0] ++ is, l < rows.length := by
    intro l hl
    rcases List.mem_append.1 hl with h | h
    · rw [List.mem_singleton.1 h]; exact hi
    · exact g.lt l h
  have hz : ∀ x, x < rows.length → IsDistTo rows ([i0] ++ is) x 0 := fun x hx => ⟨hdist x hx, fun l hl => hD.nonneg l x (hlt l hl) hx⟩
  exact ⟨⟨i0, hi, hz i0 hi⟩, fun x hx m hm => le_of_eq (hm.unique (hz x hx))⟩

/-- C67: `greedy_landmarks_hausdorff(D, dist, i0)` orders all points farthest first; the 0 appended to the distances is the Hausdorff distance of the whole list. -/
theorem C67_all_points {rows : List (List T)} (hD : IsDistance rows) {i0 : Nat} (hi : i0 < rows.length) :
    ∃ inds hds, greedyHausdorff rows i0 = .ok (inds, hds) ∧ IsFarthestFirst rows i0 rows.length inds hds ∧ hds.getLast? = some 0 := by
  obtain ⟨d, d1, d2⟩ := dok_init hD.table hi
  obtain ⟨is, hs, d', g1, g2, g3, g4⟩ := hdLoop_spec hD.table (by omega) (rows.length - 1) [i0] d d2
  refine ⟨i0 :: is, hs ++ [0], ?_, ?_, by simp⟩
  · unfold greedyHausdorff
    rw [d1]
    show (do
      let r ← hdLoop rows (rows.length - 1) d
      Except.ok (i0 :: r.1, r.2.1 ++ [0])) = _
    rw [g1]; rfl
  · have := farthest_of hi g3 (last_zero hD (k := 0) hi g3 g2)
    rw [g2] at this
    have e : rows.length - 1 + 1 = rows.length := by omega
    rwa [e] at this

/-- C67: if different points have positive distance, then every point occurs exactly once in the order. -/
theorem C67_permutation {rows : List (List T)} (hD : IsDistance rows) (hpos : ∀ i x, i < rows.length → x < rows.length → i ≠ x → 0 < tab rows i x) {i0 : Nat}
    {inds : List Nat} {hds : List T} (hf : IsFarthestFirst rows i0 rows.length inds hds) : inds.Perm (List.range rows.length) := by
  have hnd : inds.Nodup := by
    have key : ∀ m, m < inds.length → (inds.take (m + 1)).Nodup := by
      intro m
      induction m with
      | zero =>
        intro hm
        rw [List.take_add_one, List.take_zero, List.getElem?_eq_getElem hm]; simp
      | succ m ih =>
        intro hm
        have hm' : m < hds.length := by rw [hf.hlen, ← hf.len]; omega
        obtain ⟨f1, _⟩ := hf.far m _ _ (List.getElem?_eq_getElem hm) (List.getElem?_eq_getElem hm')
        have hH := hf.hd m _ (List.getElem?_eq_getElem hm')
        have hgt : 0 < hds[m] := by
          obtain ⟨x, hx, hx'⟩ : ∃ x, x < rows.length ∧ x ∉ inds.take (m + 1) := by
            by_contra hcon
            push Not at hcon
            have : Finset.range rows.length ⊆ (inds.take (m + 1)).toFinset := by
              intro x hx
              rw [List.mem_toFinset]; exact hcon x (Finset.mem_range.1 hx)
            have h1 := Finset.card_le_card this
            have h2 := List.toFinset_card_le (inds.take (m + 1))
            rw [Finset.card_range] at h1
            rw [List.length_take] at h2
            have := hf.len
            omega
          obtain ⟨v, hv⟩ := exists_distTo rows (L := inds.take (m + 1)) (by
            intro h0; rw [List.take_eq_nil_iff] at h0
            rcases h0 with h0 | h0
            · omega
            · rw [h0] at hm; simp at hm) x
          have hvle := hH.2 x hx v hv
          obtain ⟨l, l1, l2⟩ := hv.1
          refine lt_of_lt_of_le ?_ hvle
          rw [← l2]
          exact hpos l x (hf.lt l (List.mem_of_mem_take l1)) hx (by rintro rfl; exact hx' l1)
        rw [List.take_add_one, List.getElem?_eq_getElem hm]
        show (inds.take (m + 1) ++ [inds[m + 1]]).Nodup
        rw [List.nodup_append]
        refine ⟨ih (by omega), by simp, ?_⟩
        intro a ha b hb
        rw [List.mem_singleton] at hb
        subst hb
        rintro rfl
        have h1 := f1.2 _ ha
        rw [hD.self _ (hf.lt _ (List.getElem_mem hm))] at h1
        exact absurd hgt (not_lt.2 h1)
    have h0 : 0 < inds.length := by
      have := hf.first
      exact (List.getElem?_eq_some_iff.1 this).1
    have := key (inds.length - 1) (by omega)
    rwa [Nat.sub_add_cancel h0, List.take_length] at this
  refine (List.perm_ext_iff_of_nodup hnd List.nodup_range).2 ?_
  have hsub : inds.toFinset = Finset.range rows.length := by
    apply Finset.eq_of_subset_of_card_le
    · intro x hx
      rw [Finset.mem_range]; exact hf.lt x (List.mem_toFinset.1 hx)
    · rw [List.toFinset_card_of_nodup hnd, Finset.card_range, hf.len]
  intro x
  rw [← List.mem_toFinset, hsub, Finset.mem_range, List.mem_range]

/-! ### k-centres -/

section metric
variable {S : Type} [AddCommGroup S] [LinearOrder S] [IsOrderedAddMonoid S]

/-- C67, Gonzalez: the Hausdorff distance of the `k` landmarks is at most twice that of any set of `k` (or fewer) points. -/
theorem C67_two_approximation {rows : List (List S)} (hM : IsMetric rows) {i0 k : Nat} {inds : List Nat} {hds : List S} (hf : IsFarthestFirst rows i0 k inds hds)
    {h : S} (hh : hds.getLast? = some h) {C : List Nat} (hC : C ≠ []) (hlen : C.length ≤ k) (hlt : ∀ c ∈ C, c < rows.length) {r : S} (hr : IsHausdorff rows C r) : h ≤ r + r := by
  have hk : 0 < k := by have := List.length_pos_iff.2 hC; omega
  have hlast : hds[k - 1]? = some h := by rw [List.getLast?_eq_getElem?, hf.hlen] at hh; exact hh
  have hH := hf.hd _ _ hlast
  rw [Nat.sub_add_cancel hk, show inds.take k = inds by rw [← hf.len, List.take_length]] at hH
  obtain ⟨z, z1, z2⟩ := hH.1
  have hnear : ∀ x, x < rows.length → ∃ a : Fin C.length, tab rows C[a] x ≤ r := by
    intro x hx
    obtain ⟨m, hm⟩ := exists_distTo rows hC x
    have := hr.2 x hx m hm
    obtain ⟨l, l1, l2⟩ := hm.1
    obtain ⟨a, ha, rfl⟩ := List.getElem_of_mem l1
    exact ⟨⟨a, ha⟩, by show tab rows C[a] x ≤ r; rw [l2]; exact this⟩
  have hpl : (inds ++ [z]).length = k + 1 := by simp [hf.len]
  have hplt : ∀ a : Fin (k + 1), (inds ++ [z])[a.1]'(by omega) < rows.length := by
    intro a
    have := List.getElem_mem (l := inds ++ [z]) (n := a.1) (by omega)
    rcases List.mem_append.1 this with hm | hm
    · exact hf.lt _ hm
    · rw [List.mem_singleton.1 hm]; exact z1
  choose f hfn using fun a : Fin (k + 1) => hnear _ (hplt a)
  obtain ⟨a, b, hne, hab⟩ := Fintype.exists_ne_map_eq_of_card_lt f (by simp; omega)
  have main : ∀ a b : Fin (k + 1), a.1 < b.1 → f a = f b → h ≤ r + r := by
    intro a b hlt' hab
    have ha := hfn a
    have hb := hfn b
    have hc : C[f b] < rows.length := hlt _ (List.getElem_mem _)
    have htri := hM.triangle _ _ _ (hplt a) hc (hplt b)
    have hsym := hM.symm _ _ (hplt a) hc
    rw [hab] at ha
    have hup : tab rows ((inds ++ [z])[a.1]'(by omega)) ((inds ++ [z])[b.1]'(by omega)) ≤ r + r := by
      refine htri.trans (add_le_add ?_ hb)
      rw [hsym]; exact ha
    refine le_trans ?_ hup
    have hak : a.1 < inds.length := by rw [hf.len]; have := b.2; omega
    have ea : (inds ++ [z])[a.1]'(by omega) = inds[a.1] := List.getElem_append_left hak
    by_cases hbk : b.1 < inds.length
    · have eb : (inds ++ [z])[b.1]'(by omega) = inds[b.1] := List.getElem_append_left hbk
      rw [ea, eb]
      exact (C67_spread hf).2 (k - 1) a.1 b.1 _ _ h hlast hlt' (by rw [hf.len] at hbk; omega) (List.getElem?_eq_getElem hak) (List.getElem?_eq_getElem hbk)
    · have eb : (inds ++ [z])[b.1]'(by omega) = z := by
        rw [List.getElem_append_right (by omega)]; simp
      rw [ea, eb]
      exact z2.2 _ (List.getElem_mem hak)
  rcases Nat.lt_or_ge a.1 b.1 with hl | hl
  · exact main a b hl hab
  · exact main b a (by have : a.1 ≠ b.1 := fun e => hne (Fin.ext e); omega) hab.symm

end metric

/-! ### Landmarks up to a radius -/

/-- the state of the two loops which collect a set: `inds` lists the landmarks `L` in increasing order -/
structure SetOK (rows : List (List T)) (L inds : List Nat) (d : List T) : Prop where
  dok : DOK rows L d
  inc : Increasing inds
  mem : ∀ x, x ∈ inds ↔ x ∈ L
  lt : ∀ x ∈ L, x < rows.length

theorem SetOK.step {rows : List (List T)} {L inds : List Nat} {d d' : List T} {i : Nat} (h : SetOK rows L inds d) (hi : i < rows.length) (hd : DOK rows (L ++ [i]) d') :
    SetOK rows (L ++ [i]) (setInsert i inds) d' := by
  obtain ⟨s1, s2⟩ := setInsert_spec i inds h.inc
  refine ⟨hd, s1, ?_, ?_⟩
  · intro x
    rw [s2, h.mem, List.mem_append, List.mem_singleton]
    exact or_comm
  · intro x hx
    rcases List.mem_append.1 hx with hx | hx
    · exact h.lt x hx
    · rw [List.mem_singleton.1 hx]; exact hi

theorem hausdorffLoop_step {rows : List (List T)} {r : T} {fuel : Nat} {inds : List Nat} {d di d' : List T} {p : Nat × T} (h1 : maxElement d = .ok p) (h2 : rd rows p.1 = .ok di)
    (h3 : updateMin d di = .ok d') (hlt : r < p.2) : hausdorffLoop rows r (fuel + 1) inds d = hausdorffLoop rows r fuel (setInsert p.1 inds) d' := by
  rw [hausdorffLoop, h1]
  show (if r < p.2 then (do
        let di ← rd rows p.1
        let d' ← updateMin d di
        hausdorffLoop rows r fuel (setInsert p.1 inds) d') else Except.ok inds) = _
  rw [if_pos hlt, h2]
  show (do
        let d' ← updateMin d di
        hausdorffLoop rows r fuel (setInsert p.1 inds) d') = _
  rw [h3]; rfl

theorem hausdorffLoop_zero {rows : List (List T)} {r : T} {inds : List Nat} {d : List T} {p : Nat × T} (h1 : maxElement d = .ok p) (hlt : r < p.2) :
    hausdorffLoop rows r 0 inds d = .error .diverge := by
  rw [hausdorffLoop, h1]
  show (if r < p.2 then (Except.error Err.diverge : Res (List Nat)) else Except.ok inds) = _
  rw [if_pos hlt]

theorem hausdorffLoop_stop {rows : List (List T)} {r : T} {fuel : Nat} {inds : List Nat} {d : List T} {p : Nat × T} (h1 : maxElement d = .ok p) (hlt : ¬ r < p.2) :
    hausdorffLoop rows r fuel inds d = .ok inds := by
  cases fuel with
  | zero =>
    rw [hausdorffLoop, h1]
    show (if r < p.2 then (Except.error Err.diverge : Res (List Nat)) else Except.ok inds) = _
    rw [if_neg hlt]
  | succ fuel =>
    rw [hausdorffLoop, h1]
    show (if r < p.2 then (do
          let di ← rd rows p.1
          let d' ← updateMin d di
          hausdorffLoop rows r fuel (setInsert p.1 inds) d') else Except.ok inds) = _
    rw [if_neg hlt]

/-- C67: `hausdorff_landmarks(D, r, dist, i0)` for `r ≥ 0` ends after fewer iterations than there are points and returns a set with `i0`, such that every
point has distance at most `r` to a landmark, and landmarks have a distance larger than `r` to each other. -/
theorem C67_hausdorff_landmarks {rows : List (List T)} (hD : IsDistance rows) {r : T} (hr : 0 ≤ r) {i0 : Nat} (hi : i0 < rows.length) {fuel : Nat} (hfuel : rows.length ≤ fuel + 1) :
    ∃ inds, hausdorffLandmarks fuel rows r i0 = .ok inds ∧ inds.Pairwise (· < ·) ∧ i0 ∈ inds ∧ (∀ i ∈ inds, i < rows.length) ∧
      (∀ x, x < rows.length → ∃ l ∈ inds, tab rows l x ≤ r) ∧ ∀ a ∈ inds, ∀ b ∈ inds, a ≠ b → r < tab rows a b ∨ r < tab rows b a := by
  have key : ∀ (fuel : Nat) (L inds : List Nat) (d : List T), SetOK rows L inds d → L.Nodup → i0 ∈ L → L.Pairwise (fun a b => r < tab rows a b) → rows.length ≤ fuel + L.length →
      ∃ inds', hausdorffLoop rows r fuel inds d = .ok inds' ∧ inds'.Pairwise (· < ·) ∧ i0 ∈ inds' ∧ (∀ i ∈ inds', i < rows.length) ∧
      (∀ x, x < rows.length → ∃ l ∈ inds', tab rows l x ≤ r) ∧ ∀ a ∈ inds', ∀ b ∈ inds', a ≠ b → r < tab rows a b ∨ r < tab rows b a := by
    intro fuel
    induction fuel with
    | zero =>
      intro L inds d hs hnd h0 hsep hf
      obtain ⟨p, di, d', h1, h2, h3, h4, h5, h6, h7, h8⟩ := dok_step hD.table hs.dok (by omega)
      have hle : ¬ r < p.2 := by
        -- all points are landmarks
        have hsub : L.toFinset = Finset.range rows.length := by
          apply Finset.eq_of_subset_of_card_le
          · intro x hx
            rw [Finset.mem_range]; exact hs.lt x (List.mem_toFinset.1 hx)
          · rw [List.toFinset_card_of_nodup hnd, Finset.card_range]; omega
        have hm : p.1 ∈ L := by rw [← List.mem_toFinset, hsub, Finset.mem_range]; exact h4
        have := h6.2 _ hm
        rw [hD.self _ h4] at this
        exact not_lt.2 (this.trans hr)
      refine ⟨inds, hausdorffLoop_stop h1 hle, hs.inc, (hs.mem _).2 h0, fun i him => hs.lt i ((hs.mem i).1 him), ?_, ?_⟩
      · intro x hx
        obtain ⟨m, hm⟩ := exists_distTo rows (L := L) (by rintro rfl; simp at h0) x
        obtain ⟨l, l1, l2⟩ := hm.1
        exact ⟨l, (hs.mem l).2 l1, by rw [l2]; exact (h5.2 x hx m hm).trans (not_lt.1 hle)⟩
      · intro a ha b hb hab
        obtain ⟨i, hi1, rfl⟩ := List.getElem_of_mem ((hs.mem a).1 ha)
        obtain ⟨j, hj1, rfl⟩ := List.getElem_of_mem ((hs.mem b).1 hb)
        rcases Nat.lt_trichotomy i j with h | h | h
        · exact Or.inl (List.pairwise_iff_getElem.1 hsep i j hi1 hj1 h)
        · subst h; exact absurd rfl hab
        · exact Or.inr (List.pairwise_iff_getElem.1 hsep j i hj1 hi1 h)
    | succ fuel ih =>
      intro L inds d hs hnd h0 hsep hf
      obtain ⟨p, di, d', h1, h2, h3, h4, h5, h6, h7, h8⟩ := dok_step hD.table hs.dok (by omega)
      by_cases hle : r < p.2
      · rw [hausdorffLoop_step h1 h2 h3 hle]
        refine ih _ _ _ (hs.step h4 h8) ?_ (List.mem_append_left _ h0) ?_ ?_
        · rw [List.nodup_append]
          refine ⟨hnd, by simp, ?_⟩
          intro a ha b hb
          rw [List.mem_singleton] at hb
          subst hb
          rintro rfl
          have := h6.2 _ ha
          rw [hD.self _ h4] at this
          exact absurd (hr.trans_lt hle) (not_lt.2 this)
        · rw [List.pairwise_append]
          refine ⟨hsep, by simp, ?_⟩
          intro a ha b hb
          rw [List.mem_singleton] at hb
          subst hb
          exact hle.trans_le (h6.2 _ ha)
        · rw [List.length_append, List.length_singleton]; omega
      · refine ⟨inds, hausdorffLoop_stop h1 hle, hs.inc, (hs.mem _).2 h0, fun i him => hs.lt i ((hs.mem i).1 him), ?_, ?_⟩
        · intro x hx
          obtain ⟨m, hm⟩ := exists_distTo rows (L := L) (by rintro rfl; simp at h0) x
          obtain ⟨l, l1, l2⟩ := hm.1
          exact ⟨l, (hs.mem l).2 l1, by rw [l2]; exact (h5.2 x hx m hm).trans (not_lt.1 hle)⟩
        · intro a ha b hb hab
          obtain ⟨i, hi1, rfl⟩ := List.getElem_of_mem ((hs.mem a).1 ha)
          obtain ⟨j, hj1, rfl⟩ := List.getElem_of_mem ((hs.mem b).1 hb)
          rcases Nat.lt_trichotomy i j with h | h | h
          · exact Or.inl (List.pairwise_iff_getElem.1 hsep i j hi1 hj1 h)
          · subst h; exact absurd rfl hab
          · exact Or.inr (List.pairwise_iff_getElem.1 hsep j i hj1 hi1 h)
  obtain ⟨d, d1, d2⟩ := dok_init hD.table hi
  have e : hausdorffLandmarks fuel rows r i0 = hausdorffLoop rows r fuel [i0] d := by
    unfold hausdorffLandmarks; rw [d1]; rfl
  rw [e]
  exact key fuel [i0] [i0] d ⟨d2, by simp [Increasing], by simp, by simpa using hi⟩ (by simp) (by simp) (by simp) (by simpa using hfuel)

/-- C67: for `r < 0` the loop of `hausdorff_landmarks` does not end. -/
theorem C67_negative_radius_diverges {rows : List (List T)} (hD : IsDistance rows) {r : T} (hr : r < 0) {i0 : Nat} (hi : i0 < rows.length) (fuel : Nat) :
    hausdorffLandmarks fuel rows r i0 = .error .diverge := by
  have key : ∀ (fuel : Nat) (L inds : List Nat) (d : List T), SetOK rows L inds d → L ≠ [] → hausdorffLoop rows r fuel inds d = .error .diverge := by
    intro fuel
    induction fuel with
    | zero =>
      intro L inds d hs hne
      obtain ⟨p, di, d', h1, h2, h3, h4, h5, h6, h7, h8⟩ := dok_step hD.table hs.dok (by omega)
      obtain ⟨l, l1, l2⟩ := h6.1
      exact hausdorffLoop_zero h1 (by rw [← l2]; exact hr.trans_le (hD.nonneg _ _ (hs.lt l l1) h4))
    | succ fuel ih =>
      intro L inds d hs hne
      obtain ⟨p, di, d', h1, h2, h3, h4, h5, h6, h7, h8⟩ := dok_step hD.table hs.dok (by omega)
      obtain ⟨l, l1, l2⟩ := h6.1
      rw [hausdorffLoop_step h1 h2 h3 (by rw [← l2]; exact hr.trans_le (hD.nonneg _ _ (hs.lt l l1) h4))]
      exact ih _ _ _ (hs.step h4 h8) (by simp)
  obtain ⟨d, d1, d2⟩ := dok_init hD.table hi
  have e : hausdorffLandmarks fuel rows r i0 = hausdorffLoop rows r fuel [i0] d := by
    unfold hausdorffLandmarks; rw [d1]; rfl
  rw [e]
  exact key fuel [i0] [i0] d ⟨d2, by simp [Increasing], by simp, by simpa using hi⟩ (by simp)

/-! ### A given number of landmarks -/

theorem increasing_nodup {l : List Nat} (h : Increasing l) : l.Nodup := h.imp (fun hab => ne_of_lt hab)

theorem greedyLoop_step {rows : List (List T)} {k fuel : Nat} {inds : List Nat} {d di d' : List T} {p : Nat × T} (h1 : maxElement d = .ok p) (h2 : rd rows p.1 = .ok di)
    (h3 : updateMin d di = .ok d') (hlt : inds.length < k) : greedyLoop rows k (fuel + 1) inds d = greedyLoop rows k fuel (setInsert p.1 inds) d' := by
  rw [greedyLoop, if_pos hlt, h1]
  show (do
        let di ← rd rows p.1
        let d' ← updateMin d di
        greedyLoop rows k fuel (setInsert p.1 inds) d') = _
  rw [h2]
  show (do
        let d' ← updateMin d di
        greedyLoop rows k fuel (setInsert p.1 inds) d') = _
  rw [h3]; rfl

theorem greedyLoop_zero {rows : List (List T)} {k : Nat} {inds : List Nat} {d : List T} (hlt : inds.length < k) : greedyLoop rows k 0 inds d = .error .diverge := by
  rw [greedyLoop, if_pos hlt]

theorem greedyLoop_stop {rows : List (List T)} {k fuel : Nat} {inds : List Nat} {d : List T} (hlt : ¬ inds.length < k) : greedyLoop rows k fuel inds d = .ok inds := by
  cases fuel <;> rw [greedyLoop, if_neg hlt]

/-- C67: `greedy_landmarks(D, k, dist, i0)`, `k ≥ 1`, if no set of fewer than `k` points has distance 0 to all points: the loop ends after `k - 1`
iterations, and the result are the `k` landmarks of the farthest-first order, each once. -/
theorem C67_greedy_landmarks {rows : List (List T)} (hD : IsDistance rows) {i0 k : Nat} (hi : i0 < rows.length) (hk : 1 ≤ k)
    (hpos : ∀ L : List Nat, L ≠ [] → (∀ l ∈ L, l < rows.length) → L.length < k → ∃ x, x < rows.length ∧ ∀ l ∈ L, 0 < tab rows l x) {fuel : Nat} (hfuel : k ≤ fuel + 1) :
    ∃ inds inds' hds, greedyLandmarks fuel rows k i0 = .ok inds ∧ inds.Pairwise (· < ·) ∧ greedyHausdorffK rows i0 k = .ok (inds', hds) ∧ inds.Perm inds' ∧ inds.length = k := by
  have key : ∀ (m fuel : Nat) (L inds : List Nat) (d : List T), SetOK rows L inds d → L ≠ [] → L.Nodup → L.length + m = k → m ≤ fuel →
      ∃ is hs d' inds', hdLoop rows m d = .ok (is, hs, d') ∧ greedyLoop rows k fuel inds d = .ok inds' ∧ Increasing inds' ∧ inds'.Perm (L ++ is) := by
    intro m
    induction m with
    | zero =>
      intro fuel L inds d hs hne hnd hlen hf
      have hperm : inds.Perm L := (List.perm_ext_iff_of_nodup (increasing_nodup hs.inc) hnd).2 hs.mem
      exact ⟨[], [], d, inds, rfl, greedyLoop_stop (by rw [hperm.length_eq]; omega), hs.inc, by simpa using hperm⟩
    | succ m ih =>
      intro fuel L inds d hs hne hnd hlen hf
      obtain ⟨fuel, rfl⟩ : ∃ f, fuel = f + 1 := ⟨fuel - 1, by omega⟩
      obtain ⟨p, di, d', h1, h2, h3, h4, h5, h6, h7, h8⟩ := dok_step hD.table hs.dok (by omega)
      have hperm : inds.Perm L := (List.perm_ext_iff_of_nodup (increasing_nodup hs.inc) hnd).2 hs.mem
      have hgt : 0 < p.2 := by
        obtain ⟨x, x1, x2⟩ := hpos L hne hs.lt (by omega)
        obtain ⟨v, hv⟩ := exists_distTo rows hne x
        obtain ⟨l, l1, l2⟩ := hv.1
        exact (x2 l l1).trans_le (by rw [l2]; exact h5.2 x x1 v hv)
      have hnd' : (L ++ [p.1]).Nodup := by
        rw [List.nodup_append]
        refine ⟨hnd, by simp, ?_⟩
        intro a ha b hb
        rw [List.mem_singleton] at hb
        subst hb
        rintro rfl
        have := h6.2 _ ha
        rw [hD.self _ h4] at this
        exact absurd hgt (not_lt.2 this)
      obtain ⟨is, hs', d'', inds', q1, q2, q3, q4⟩ := ih fuel _ _ _ (hs.step h4 h8) (by simp) hnd' (by rw [List.length_append, List.length_singleton]; omega) (by omega)
      refine ⟨p.1 :: is, p.2 :: hs', d'', inds', ?_, ?_, q3, by rw [List.append_assoc] at q4; exact q4⟩
      · rw [hdLoop, h1]
        show (do
          let di ← rd rows p.1
          let d' ← updateMin d di
          let r ← hdLoop rows m d'
          Except.ok (p.1 :: r.1, p.2 :: r.2.1, r.2.2)) = _
        rw [h2]
        show (do
          let d' ← updateMin d di
          let r ← hdLoop rows m d'
          Except.ok (p.1 :: r.1, p.2 :: r.2.1, r.2.2)) = _
        rw [h3]
        show (do
          let r ← hdLoop rows m d'
          Except.ok (p.1 :: r.1, p.2 :: r.2.1, r.2.2)) = _
        rw [q1]; rfl
      · rw [greedyLoop_step h1 h2 h3 (by rw [hperm.length_eq]; omega)]; exact q2
  obtain ⟨d, d1, d2⟩ := dok_init hD.table hi
  obtain ⟨is, hs, d', inds, q1, q2, q3, q4⟩ := key (k - 1) fuel [i0] [i0] d ⟨d2, by simp [Increasing], by simp, by simpa using hi⟩ (by simp) (by simp) (by rw [List.length_singleton]; omega) (by omega)
  obtain ⟨inds', hds, g1, g2⟩ := C67_farthest_first hD.table hi k
  have e : inds' = i0 :: is := by
    unfold greedyHausdorffK at g1
    rw [d1] at g1
    have g1 : (do
      let r ← hdLoop rows (k - 1) d
      let p ← maxElement r.2.2
      Except.ok (i0 :: r.1, r.2.1 ++ [p.2])) = (Except.ok (inds', hds) : Res _) := g1
    rw [q1] at g1
    have g1 : (do
      let p ← maxElement d'
      Except.ok (i0 :: is, hs ++ [p.2])) = (Except.ok (inds', hds) : Res _) := g1
    obtain ⟨p, p1⟩ : ∃ p, maxElement d' = .ok p := by
      cases h : maxElement d' with
      | error e => rw [h] at g1; cases g1
      | ok p => exact ⟨p, rfl⟩
    rw [p1] at g1
    cases g1; rfl
  subst e
  refine ⟨inds, i0 :: is, hds, ?_, q3, g1, q4, ?_⟩
  · unfold greedyLandmarks; rw [d1]; exact q2
  · rw [q4.length_eq]; have := g2.len; simp only [List.length_append, List.length_cons, List.length_nil] at this ⊢; omega

section metric
variable {S : Type} [AddCommGroup S] [LinearOrder S] [IsOrderedAddMonoid S]

/-- C67: if some `k - 2` (or fewer) points have distance 0 to all points — `k` exceeds the number of different points by at least 2 — then the loop of
`greedy_landmarks` does not end. -/
theorem C67_too_many_diverges {rows : List (List S)} (hM : IsMetric rows) {i0 k : Nat} (hi : i0 < rows.length) {C : List Nat} (hC : ∀ c ∈ C, c < rows.length)
    (hzero : ∀ x, x < rows.length → ∃ c ∈ C, tab rows c x = 0) (hk : C.length + 2 ≤ k) (fuel : Nat) : greedyLandmarks fuel rows k i0 = .error .diverge := by
  have hsmall : ∀ P : List Nat, (∀ x ∈ P, x < rows.length) → P.Nodup → (∀ a ∈ P, ∀ b ∈ P, a ≠ b → 0 < tab rows a b) → P.length ≤ C.length := by
    intro P hlt hnd hsep
    have hz : ∀ a : Fin P.length, ∃ c : Fin C.length, tab rows C[c] P[a] = 0 := by
      intro a
      obtain ⟨c, c1, c2⟩ := hzero _ (hlt _ (List.getElem_mem a.2))
      obtain ⟨j, hj, rfl⟩ := List.getElem_of_mem c1
      exact ⟨⟨j, hj⟩, c2⟩
    choose f hf using hz
    by_contra hcon
    obtain ⟨a, b, hne, hab⟩ := Fintype.exists_ne_map_eq_of_card_lt f (by simp; omega)
    have ha := hf a
    have hb := hf b
    rw [hab] at ha
    have hcl : C[f b] < rows.length := hC _ (List.getElem_mem _)
    have la := hlt _ (List.getElem_mem a.2)
    have lb := hlt _ (List.getElem_mem b.2)
    have htri := hM.triangle _ _ _ la hcl lb
    rw [hM.symm _ _ la hcl] at htri
    have hle : tab rows P[a.1] P[b.1] ≤ 0 := by
      refine htri.trans (le_of_eq ?_)
      have e1 : tab rows C[f b] P[a.1] = 0 := ha
      have e2 : tab rows C[f b] P[b.1] = 0 := hb
      rw [e1, e2, add_zero]
    have hne' : P[a.1] ≠ P[b.1] := fun e => hne (Fin.ext ((List.Nodup.getElem_inj_iff hnd).1 e))
    exact absurd (hsep _ (List.getElem_mem a.2) _ (List.getElem_mem b.2) hne') (not_lt.2 hle)
  have key : ∀ (fuel : Nat) (L inds P : List Nat) (d : List S), SetOK rows L inds d → L ≠ [] → (∀ x ∈ P, x < rows.length) → P.Nodup →
      (∀ a ∈ P, ∀ b ∈ P, a ≠ b → 0 < tab rows a b) → (∀ x ∈ inds, x = 0 ∨ x ∈ P) → ((∀ x, x ∈ P ↔ x ∈ L) ∨ IsHausdorff rows L 0) →
      greedyLoop rows k fuel inds d = .error .diverge := by
    intro fuel
    induction fuel with
    | zero =>
      intro L inds P d hs hne hlt hnd hsep hsub hph
      apply greedyLoop_zero
      have h1 : inds.toFinset ⊆ (0 :: P).toFinset := by
        intro x hx
        rw [List.mem_toFinset] at hx ⊢
        exact List.mem_cons.2 (hsub x hx)
      have h2 := Finset.card_le_card h1
      rw [List.toFinset_card_of_nodup (increasing_nodup hs.inc)] at h2
      have h3 := List.toFinset_card_le (0 :: P)
      have h4 := hsmall P hlt hnd hsep
      rw [List.length_cons] at h3
      omega
    | succ fuel ih =>
      intro L inds P d hs hne hlt hnd hsep hsub hph
      have hlen : inds.length < k := by
        have h1 : inds.toFinset ⊆ (0 :: P).toFinset := by
          intro x hx
          rw [List.mem_toFinset] at hx ⊢
          exact List.mem_cons.2 (hsub x hx)
        have h2 := Finset.card_le_card h1
        rw [List.toFinset_card_of_nodup (increasing_nodup hs.inc)] at h2
        have h3 := List.toFinset_card_le (0 :: P)
        have h4 := hsmall P hlt hnd hsep
        rw [List.length_cons] at h3
        omega
      obtain ⟨p, di, d', h1, h2, h3, h4, h5, h6, h7, h8⟩ := dok_step hM.table hs.dok (by omega)
      rw [greedyLoop_step h1 h2 h3 hlen]
      have hins := setInsert_spec p.1 inds hs.inc
      have hp0 : 0 ≤ p.2 := by
        obtain ⟨l, l1, l2⟩ := h6.1
        rw [← l2]; exact hM.nonneg _ _ (hs.lt l l1) h4
      rcases hp0.lt_or_eq with hp | hp
      · -- a new point
        have hP : ∀ x, x ∈ P ↔ x ∈ L := by
          rcases hph with h | h
          · exact h
          · exact absurd hp (by rw [h5.unique h]; exact lt_irrefl _)
        have hgt : ∀ a ∈ P, 0 < tab rows a p.1 := fun a ha => hp.trans_le (h6.2 a ((hP a).1 ha))
        have hnew : p.1 ∉ P := fun hm => by
          have := hgt _ hm
          rw [hM.self _ h4] at this
          exact lt_irrefl _ this
        refine ih _ _ (p.1 :: P) _ (hs.step h4 h8) (by simp) ?_ (List.nodup_cons.2 ⟨hnew, hnd⟩) ?_ ?_ (Or.inl ?_)
        · intro x hx
          rcases List.mem_cons.1 hx with rfl | hx
          · exact h4
          · exact hlt x hx
        · intro a ha b hb hab
          rcases List.mem_cons.1 ha with rfl | ha <;> rcases List.mem_cons.1 hb with rfl | hb
          · exact absurd rfl hab
          · rw [hM.symm _ _ h4 (hlt b hb)]; exact hgt b hb
          · exact hgt a ha
          · exact hsep a ha b hb hab
        · intro x hx
          rcases (hins.2 x).1 hx with rfl | hx
          · exact Or.inr (by simp)
          · rcases hsub x hx with h | h
            · exact Or.inl h
            · exact Or.inr (List.mem_cons_of_mem _ h)
        · intro x
          rw [List.mem_cons, List.mem_append, List.mem_singleton, hP]; exact or_comm
      · -- all distances are 0: the first maximum is point 0
        have hpz : p.1 = 0 := by
          by_contra hcon
          obtain ⟨m, hm⟩ := exists_distTo rows hne 0
          have := h7 0 (by omega) m hm
          obtain ⟨l, l1, l2⟩ := hm.1
          have h0 := hM.nonneg l 0 (hs.lt l l1) (by omega)
          rw [l2] at h0
          rw [← hp] at this
          exact absurd this (not_lt.2 h0)
        have hH : IsHausdorff rows (L ++ [p.1]) 0 := by
          have hz : ∀ x, x < rows.length → IsDistTo rows (L ++ [p.1]) x 0 := by
            intro x hx
            obtain ⟨m, hm⟩ := exists_distTo rows hne x
            have h' := h5.2 x hx m hm
            rw [← hp] at h'
            obtain ⟨l, l1, l2⟩ := hm.1
            have h0 := hM.nonneg l x (hs.lt l l1) hx
            refine ⟨⟨l, List.mem_append_left _ l1, le_antisymm (by rw [l2]; exact h') h0⟩, ?_⟩
            intro l' hl'
            rcases List.mem_append.1 hl' with hl' | hl'
            · exact hM.nonneg l' x (hs.lt l' hl') hx
            · rw [List.mem_singleton.1 hl']; exact hM.nonneg _ x h4 hx
          exact ⟨⟨p.1, h4, hz _ h4⟩, fun x hx m hm => le_of_eq (hm.unique (hz x hx))⟩
        refine ih _ _ P _ (hs.step h4 h8) (by simp) hlt hnd hsep ?_ (Or.inr hH)
        intro x hx
        rcases (hins.2 x).1 hx with rfl | hx
        · exact Or.inl hpz
        · exact hsub x hx
  obtain ⟨d, d1, d2⟩ := dok_init hM.table hi
  have e : greedyLandmarks fuel rows k i0 = greedyLoop rows k fuel [i0] d := by
    unfold greedyLandmarks; rw [d1]; rfl
  rw [e]
  exact key fuel [i0] [i0] [i0] d ⟨d2, by simp [Increasing], by simp, by simpa using hi⟩ (by simp) (by simpa using hi) (by simp) (by
    intro a ha b hb hab
    rw [List.mem_singleton] at ha hb
    exact absurd (ha.trans hb.symm) hab) (by simp) (Or.inl (by simp))

end metric

/-! ### Centres -/

/-- `m` holds the largest distances to the set `L` -/
def MOK (rows : List (List T)) (L : List Nat) (d : List T) : Prop :=
  d.length = rows.length ∧ ∀ x, x < rows.length → ∃ m, d[x]? = some m ∧ IsMaxDistTo rows L x m

theorem IsMaxDistTo.unique {rows : List (List T)} {L : List Nat} {x : Nat} {a b : T} (h : IsMaxDistTo rows L x a) (h' : IsMaxDistTo rows L x b) : a = b := by
  obtain ⟨⟨l, l1, l2⟩, h2⟩ := h
  obtain ⟨⟨m, m1, m2⟩, h2'⟩ := h'
  exact le_antisymm (by rw [← l2]; exact h2' l l1) (by rw [← m2]; exact h2 m m1)

theorem updateMax_spec (d di : List T) (h : d.length ≤ di.length) :
    ∃ r, updateMax d di = .ok r ∧ r.length = d.length ∧ ∀ (k : Nat) (x y : T), d[k]? = some x → di[k]? = some y → r[k]? = some (max x y) := by
  obtain ⟨r, h1, h2, h3⟩ := updateMin_spec (T := Tᵒᵈ) d di h
  exact ⟨r, by rw [updateMax_eq]; exact h1, h2, h3⟩

theorem centerLoop_spec {rows : List (List T)} (ht : IsTable rows) (hn : 0 < rows.length) (m : Nat) :
    ∀ (L : List Nat) (d e : List T), DOK rows L d → MOK rows L e → ∃ is hs d' e', hdLoop rows m d = .ok (is, hs, d') ∧ centerLoop rows m d e = .ok e' ∧ MOK rows (L ++ is) e' := by
  induction m with
  | zero =>
    intro L d e hd he
    exact ⟨[], [], d, e, rfl, rfl, by simpa using he⟩
  | succ m ih =>
    intro L d e hd he
    obtain ⟨p, di, d', h1, h2, h3, h4, h5, h6, h7, h8⟩ := dok_step ht hd hn
    obtain ⟨di', e1, e2, e3⟩ := tab_row ht h4
    have hdi : di' = di := by
      unfold rd at h2; rw [e1] at h2; cases h2; rfl
    subst hdi
    obtain ⟨e', u1, u2, u3⟩ := updateMax_spec e di' (by rw [he.1, e2])
    have hm : MOK rows (L ++ [p.1]) e' := by
      refine ⟨u2.trans he.1, ?_⟩
      intro x hx
      obtain ⟨m, q1, q2⟩ := he.2 x hx
      refine ⟨_, u3 x _ _ q1 (e3 x hx), ?_, ?_⟩
      · rcases le_total (tab rows p.1 x) m with h | h
        · rw [max_eq_left h]
          obtain ⟨l, l1, l2⟩ := q2.1
          exact ⟨l, List.mem_append_left _ l1, l2⟩
        · rw [max_eq_right h]
          exact ⟨p.1, by simp, rfl⟩
      · intro l hl
        rcases List.mem_append.1 hl with h | h
        · exact (q2.2 l h).trans (le_max_left _ _)
        · rw [List.mem_singleton.1 h]; exact le_max_right _ _
    obtain ⟨is, hs, d'', e'', g1, g2, g3⟩ := ih _ _ _ h8 hm
    refine ⟨p.1 :: is, p.2 :: hs, d'', e'', ?_, ?_, by rw [List.append_assoc] at g3; exact g3⟩
    · rw [hdLoop, h1]
      show (do
        let di ← rd rows p.1
        let d' ← updateMin d di
        let r ← hdLoop rows m d'
        Except.ok (p.1 :: r.1, p.2 :: r.2.1, r.2.2)) = _
      rw [h2]
      show (do
        let d' ← updateMin d di'
        let r ← hdLoop rows m d'
        Except.ok (p.1 :: r.1, p.2 :: r.2.1, r.2.2)) = _
      rw [h3]
      show (do
        let r ← hdLoop rows m d'
        Except.ok (p.1 :: r.1, p.2 :: r.2.1, r.2.2)) = _
      rw [g1]; rfl
    · rw [centerLoop, h1]
      show (do
        let di ← rd rows p.1
        let d' ← updateMin d di
        let e' ← updateMax e di
        centerLoop rows m d' e') = _
      rw [h2]
      show (do
        let d' ← updateMin d di'
        let e' ← updateMax e di'
        centerLoop rows m d' e') = _
      rw [h3]
      show (do
        let e' ← updateMax e di'
        centerLoop rows m d' e') = _
      rw [u1]; exact g2

/-- C67: `approx_center(D, dist, k, i0)` returns the first point whose largest distance to the `k + 1` farthest-first landmarks (`D.dim() + 2` for `k = 0`) is
smallest. -/
theorem C67_approx_center {rows : List (List T)} (ht : IsTable rows) {i0 : Nat} (hi : i0 < rows.length) (dim k : Nat) :
    ∃ c inds hds m, approxCenter rows dim k i0 = .ok c ∧ greedyHausdorffK rows i0 ((if k = 0 then dim + 1 else k) + 1) = .ok (inds, hds) ∧ c < rows.length ∧
      IsMaxDistTo rows inds c m ∧ ∀ x, x < rows.length → ∀ m', IsMaxDistTo rows inds x m' → m ≤ m' ∧ (x < c → m < m') := by
  obtain ⟨d, d1, d2⟩ := dok_init ht hi
  have hm : MOK rows [i0] d := by
    refine ⟨d2.1, fun x hx => ?_⟩
    obtain ⟨m, q1, ⟨l, l1, l2⟩, _⟩ := d2.2 x hx
    rw [List.mem_singleton] at l1
    subst l1
    exact ⟨m, q1, ⟨l, by simp, l2⟩, by simp [l2]⟩
  obtain ⟨is, hs, d', e', g1, g2, g3⟩ := centerLoop_spec ht (by omega) (if k = 0 then dim + 1 else k) [i0] d d d2 hm
  obtain ⟨inds, hds, f1, f2⟩ := C67_farthest_first ht hi ((if k = 0 then dim + 1 else k) + 1)
  obtain ⟨v, v1, v2, v3⟩ := minIndex_spec e' (by rintro rfl; have := g3.1; simp at this; omega)
  have hc : minIndex e' < rows.length := by
    have := (List.getElem?_eq_some_iff.1 v1).1
    rw [g3.1] at this; exact this
  have e : inds = [i0] ++ is := by
    unfold greedyHausdorffK at f1
    rw [d1] at f1
    have f1 : (do
      let r ← hdLoop rows (if k = 0 then dim + 1 else k) d
      let p ← maxElement r.2.2
      Except.ok (i0 :: r.1, r.2.1 ++ [p.2])) = (Except.ok (inds, hds) : Res _) := f1
    rw [g1] at f1
    have f1 : (do
      let p ← maxElement d'
      Except.ok (i0 :: is, hs ++ [p.2])) = (Except.ok (inds, hds) : Res _) := f1
    obtain ⟨p, p1⟩ : ∃ p, maxElement d' = .ok p := by
      cases h : maxElement d' with
      | error e => rw [h] at f1; cases f1
      | ok p => exact ⟨p, rfl⟩
    rw [p1] at f1
    cases f1; rfl
  refine ⟨minIndex e', inds, hds, v, ?_, f1, hc, ?_, ?_⟩
  · unfold approxCenter
    rw [d1]
    show (do
      let mind ← centerLoop rows (if k = 0 then dim + 1 else k) d d
      Except.ok (minIndex mind)) = _
    rw [g2]; rfl
  · rw [e]
    obtain ⟨m, q1, q2⟩ := g3.2 _ hc
    rw [v1] at q1; cases q1; exact q2
  · intro x hx m' hm'
    rw [e] at hm'
    obtain ⟨m, q1, q2⟩ := g3.2 x hx
    rw [hm'.unique q2]
    exact ⟨v2 _ (List.mem_of_getElem? q1), fun h => v3 x h _ q1⟩

section metric
variable {S : Type} [AddCommGroup S] [LinearOrder S] [IsOrderedAddMonoid S]

/-- C67: in a metric the point returned by `approx_center` is a centre up to the Hausdorff distance `h` of the landmarks: if all points have distance at
most `R` from some point, then at most `R + h` from the point returned. -/
theorem C67_center_quality {rows : List (List S)} (hM : IsMetric rows) {i0 : Nat} (hi : i0 < rows.length) {dim k c : Nat} (hc : approxCenter rows dim k i0 = .ok c)
    {inds : List Nat} {hds : List S} {h : S} (hg : greedyHausdorffK rows i0 ((if k = 0 then dim + 1 else k) + 1) = .ok (inds, hds)) (hh : hds.getLast? = some h)
    {x : Nat} (hx : x < rows.length) {R : S} (hR : ∀ y, y < rows.length → tab rows x y ≤ R) : ∀ y, y < rows.length → tab rows c y ≤ R + h := by
  obtain ⟨c', inds', hds', m, e1, e2, e3, e4, e5⟩ := C67_approx_center hM.table hi dim k
  rw [hc] at e1; cases e1
  rw [hg] at e2; cases e2
  obtain ⟨inds', hds', f1, hf⟩ := C67_farthest_first hM.table hi ((if k = 0 then dim + 1 else k) + 1)
  rw [hg] at f1; cases f1
  obtain ⟨kk, hkk⟩ : ∃ kk, kk = max ((if k = 0 then dim + 1 else k) + 1) 1 := ⟨_, rfl⟩
  rw [← hkk] at hf
  have hpos : 0 < kk := by omega
  have hlast : hds[kk - 1]? = some h := by rw [List.getLast?_eq_getElem?, hf.hlen] at hh; exact hh
  have hH := hf.hd _ _ hlast
  rw [Nat.sub_add_cancel hpos, show inds.take kk = inds by rw [← hf.len, List.take_length]] at hH
  have hne : inds ≠ [] := by
    intro h0
    have h1 := hf.len
    rw [h0, List.length_nil] at h1
    omega
  intro y hy
  -- the nearest landmark of y
  obtain ⟨v, hv⟩ := exists_distTo rows hne y
  have hvh := hH.2 y hy v hv
  obtain ⟨l, l1, l2⟩ := hv.1
  have hl := hf.lt l l1
  -- the largest distance of x to a landmark
  obtain ⟨m', ⟨a, a1, a2⟩, hm'⟩ : ∃ m', IsMaxDistTo rows inds x m' := by
    clear hH hv l1 hlast hf hg hc e4 e5 hh
    induction inds with
    | nil => exact absurd rfl hne
    | cons l L ih =>
      by_cases h : L = []
      · subst h; exact ⟨_, ⟨l, by simp, rfl⟩, by simp⟩
      · obtain ⟨m, ⟨a, a1, a2⟩, b⟩ := ih h
        rcases le_total (tab rows l x) m with hm | hm
        · refine ⟨m, ⟨a, List.mem_cons_of_mem _ a1, a2⟩, ?_⟩
          intro z hz
          rcases List.mem_cons.1 hz with rfl | hz
          · exact hm
          · exact b z hz
        · refine ⟨_, ⟨l, by simp, rfl⟩, ?_⟩
          intro z hz
          rcases List.mem_cons.1 hz with rfl | hz
          · exact le_refl _
          · exact (b z hz).trans hm
  have hmR : m' ≤ R := by
    rw [← a2, hM.symm _ _ (hf.lt a a1) hx]; exact hR a (hf.lt a a1)
  have hmm := (e5 x hx m' ⟨⟨a, a1, a2⟩, hm'⟩).1
  calc tab rows c y ≤ tab rows c l + tab rows l y := hM.triangle _ _ _ e3 hl hy
    _ ≤ R + h := by
        refine add_le_add ?_ (by rw [l2]; exact hvh)
        rw [hM.symm _ _ e3 hl]
        exact (e4.2 l l1).trans (hmm.trans hmR)

end metric

/-! ### The version for a matrix of distances -/

theorem matCol_spec {pdist : List (List T)} (ht : IsTable pdist) (hs : ∀ i x, i < pdist.length → x < pdist.length → tab pdist i x = tab pdist x i) {j : Nat} (hj : j < pdist.length) :
    matCol pdist j = rd pdist j := by
  obtain ⟨row, r1, r2, r3⟩ := tab_row ht hj
  have key : ∀ l : List (List T), (∀ r ∈ l, r.length = pdist.length) → l.mapM (fun row => rd row j) = .ok (l.map (fun row => row.getD j 0)) := by
    intro l
    induction l with
    | nil => intro _; rfl
    | cons r l ih =>
      intro h
      rw [List.mapM_cons, ih (fun r hr => h r (List.mem_cons_of_mem _ hr))]
      have : rd r j = .ok (r.getD j 0) := by
        unfold rd
        have hl := h r (by simp)
        rw [List.getD_eq_getElem?_getD, List.getElem?_eq_getElem (by omega)]; rfl
      rw [this]; rfl
  unfold matCol
  rw [key pdist ht]
  unfold rd
  rw [r1]
  show Except.ok _ = Except.ok _
  congr 1
  apply List.ext_getElem?
  intro i
  by_cases hi : i < pdist.length
  · rw [List.getElem?_map, List.getElem?_eq_getElem hi, r3 i hi, hs j i hj hi]
    unfold tab
    rw [List.getD_eq_getElem?_getD (l := pdist), List.getElem?_eq_getElem hi]; rfl
  · rw [List.getElem?_eq_none (by simpa using hi), List.getElem?_eq_none (by omega)]

/-- C67: for a symmetric matrix `greedy_landmarks_hausdorff(pdist, i0)` returns what the version for data sets does. (It reads row `i0` and then columns, so
that for a matrix which is not symmetric directed distances are mixed; see the example.) -/
theorem C67_matrix {pdist : List (List T)} (ht : IsTable pdist) (hs : ∀ i x, i < pdist.length → x < pdist.length → tab pdist i x = tab pdist x i) {i0 : Nat} (hi : i0 < pdist.length) :
    greedyHausdorffMat pdist pdist.length i0 = greedyHausdorff pdist i0 := by
  have key : ∀ (m : Nat) (L : List Nat) (d : List T), DOK pdist L d → hdLoopMat pdist m d = hdLoop pdist m d := by
    intro m
    induction m with
    | zero => intro L d _; rfl
    | succ m ih =>
      intro L d hd
      obtain ⟨p, di, d', h1, h2, h3, h4, h5, h6, h7, h8⟩ := dok_step ht hd (by omega)
      rw [hdLoopMat, hdLoop, h1]
      show (do
        let di ← matCol pdist p.1
        let d' ← updateMin d di
        let r ← hdLoopMat pdist m d'
        Except.ok (p.1 :: r.1, p.2 :: r.2.1, r.2.2)) = (do
        let di ← rd pdist p.1
        let d' ← updateMin d di
        let r ← hdLoop pdist m d'
        Except.ok (p.1 :: r.1, p.2 :: r.2.1, r.2.2))
      rw [matCol_spec ht hs h4, h2]
      show (do
        let d' ← updateMin d di
        let r ← hdLoopMat pdist m d'
        Except.ok (p.1 :: r.1, p.2 :: r.2.1, r.2.2)) = (do
        let d' ← updateMin d di
        let r ← hdLoop pdist m d'
        Except.ok (p.1 :: r.1, p.2 :: r.2.1, r.2.2))
      rw [h3]
      show (do
        let r ← hdLoopMat pdist m d'
        Except.ok (p.1 :: r.1, p.2 :: r.2.1, r.2.2)) = (do
        let r ← hdLoop pdist m d'
        Except.ok (p.1 :: r.1, p.2 :: r.2.1, r.2.2))
      rw [ih _ _ h8]
  obtain ⟨d, d1, d2⟩ := dok_init ht hi
  unfold greedyHausdorffMat greedyHausdorff
  rw [d1]
  show (do
    let r ← hdLoopMat pdist (pdist.length - 1) d
    Except.ok (i0 :: r.1, r.2.1 ++ [0])) = (do
    let r ← hdLoop pdist (pdist.length - 1) d
    Except.ok (i0 :: r.1, r.2.1 ++ [0]))
  rw [key _ _ _ d2]

/-! ### Metrics -/

section metric
variable {S : Type} [AddCommGroup S] [LinearOrder S] [IsOrderedAddMonoid S]

theorem absT_eq (x : S) : absT x = |x| := by
  unfold absT
  by_cases h : x < 0
  · rw [if_pos h, abs_of_neg h]
  · rw [if_neg h, abs_of_nonneg (not_lt.1 h)]

theorem l1Dist_acc (n : S) (x y : List S) (h : x.length = y.length) : l1Dist n x y = .ok (n + (List.zipWith (fun a b => |a - b|) x y).sum) := by
  induction x generalizing n y with
  | nil => rw [l1Dist]; simp
  | cons a x ih =>
    cases y with
    | nil => simp at h
    | cons b y =>
      rw [l1Dist, ih _ _ (by simpa using h), absT_eq]
      simp [add_assoc]

theorem lInfDist_acc (n : S) (x y : List S) (h : x.length = y.length) : lInfDist n x y = .ok ((List.zipWith (fun a b => |a - b|) x y).foldl max n) := by
  induction x generalizing n y with
  | nil => rw [lInfDist]; simp
  | cons a x ih =>
    cases y with
    | nil => simp at h
    | cons b y =>
      rw [lInfDist, ih _ _ (by simpa using h), absT_eq, List.zipWith_cons_cons, List.foldl_cons]
      congr 2
      by_cases hh : |a - b| < n
      · rw [if_pos hh, max_eq_left (le_of_lt hh)]
      · rw [if_neg hh, max_eq_right (not_lt.1 hh)]

theorem mapM_ok {α β : Type} {f : α → Res β} {g : α → β} (l : List α) (h : ∀ a ∈ l, f a = .ok (g a)) : l.mapM f = .ok (l.map g) := by
  induction l with
  | nil => rfl
  | cons a l ih =>
    rw [List.mapM_cons, h a (by simp), ih (fun b hb => h b (List.mem_cons_of_mem _ hb))]; rfl

theorem pairwise_spec {dist : List S → List S → Res S} {g : List S → List S → S} {X : List (List S)} (h : ∀ x ∈ X, ∀ y ∈ X, dist x y = .ok (g x y)) :
    ∃ rows, pairwise dist X = .ok rows ∧ rows.length = X.length ∧ IsTable rows ∧ ∀ (i j : Nat) (x y : List S), X[i]? = some x → X[j]? = some y → tab rows i j = g x y := by
  refine ⟨X.map (fun x => X.map (fun y => g x y)), ?_, by simp, ?_, ?_⟩
  · exact mapM_ok X (fun x hx => mapM_ok X (fun y hy => h x hx y hy))
  · intro r hr
    rw [List.mem_map] at hr
    obtain ⟨x, _, rfl⟩ := hr
    simp
  · intro i j x y hx hy
    unfold tab
    rw [List.getD_eq_getElem?_getD (l := X.map _), List.getElem?_map, hx]
    show (X.map (fun y => g x y)).getD j 0 = _
    rw [List.getD_eq_getElem?_getD, List.getElem?_map, hy]; rfl

theorem isMetric_of {g : List S → List S → S} {X rows : List (List S)} (hlen : rows.length = X.length) (ht : IsTable rows)
    (htab : ∀ (i j : Nat) (x y : List S), X[i]? = some x → X[j]? = some y → tab rows i j = g x y) (hnn : ∀ x ∈ X, ∀ y ∈ X, 0 ≤ g x y) (hself : ∀ x ∈ X, g x x = 0)
    (hsymm : ∀ x ∈ X, ∀ y ∈ X, g x y = g y x) (htri : ∀ x ∈ X, ∀ y ∈ X, ∀ z ∈ X, g x z ≤ g x y + g y z) : IsMetric rows := by
  have hg : ∀ i, i < rows.length → ∃ x, X[i]? = some x ∧ x ∈ X := fun i hi => ⟨X[i]'(by omega), List.getElem?_eq_getElem _, List.getElem_mem _⟩
  refine ⟨⟨ht, ?_, ?_⟩, ?_, ?_⟩
  · intro i x hi hx
    obtain ⟨a, a1, a2⟩ := hg i hi
    obtain ⟨b, b1, b2⟩ := hg x hx
    rw [htab i x a b a1 b1]; exact hnn a a2 b b2
  · intro i hi
    obtain ⟨a, a1, a2⟩ := hg i hi
    rw [htab i i a a a1 a1]; exact hself a a2
  · intro i x hi hx
    obtain ⟨a, a1, a2⟩ := hg i hi
    obtain ⟨b, b1, b2⟩ := hg x hx
    rw [htab i x a b a1 b1, htab x i b a b1 a1]; exact hsymm a a2 b b2
  · intro i j x hi hj hx
    obtain ⟨a, a1, a2⟩ := hg i hi
    obtain ⟨b, b1, b2⟩ := hg j hj
    obtain ⟨c, c1, c2⟩ := hg x hx
    rw [htab i x a c a1 c1, htab i j a b a1 b1, htab j x b c b1 c1]; exact htri a a2 b b2 c c2

/-- C67: the table of `L1Dist` of points with the same number of coordinates holds the sums of the absolute differences; it is a metric, which separates
points. -/
theorem C67_L1 {X : List (List S)} {dim : Nat} (hX : ∀ x ∈ X, x.length = dim) :
    ∃ rows, pairwise (l1Dist 0) X = .ok rows ∧ rows.length = X.length ∧ IsMetric rows ∧ ∀ (i j : Nat) (x y : List S), X[i]? = some x → X[j]? = some y →
      tab rows i j = (List.zipWith (fun a b => |a - b|) x y).sum ∧ (tab rows i j = 0 ↔ x = y) := by
  obtain ⟨rows, h1, h2, h3, h4⟩ := pairwise_spec (dist := l1Dist 0) (g := fun x y => (List.zipWith (fun a b => |a - b|) x y).sum) (X := X) (by
    intro x hx y hy
    rw [l1Dist_acc _ _ _ (by rw [hX x hx, hX y hy]), zero_add])
  have hnn : ∀ x y : List S, 0 ≤ (List.zipWith (fun a b => |a - b|) x y).sum := by
    intro x y
    apply List.sum_nonneg
    intro a ha
    rw [List.mem_iff_getElem] at ha
    obtain ⟨n, hn, rfl⟩ := ha
    rw [List.getElem_zipWith]; exact abs_nonneg _
  have hzero : ∀ (x y : List S), x.length = y.length → ((List.zipWith (fun a b => |a - b|) x y).sum = 0 ↔ x = y) := by
    intro x
    induction x with
    | nil => intro y h; cases y with
      | nil => simp
      | cons b y => simp at h
    | cons a x ih =>
      intro y h
      cases y with
      | nil => simp at h
      | cons b y =>
        rw [List.zipWith_cons_cons, List.sum_cons, List.cons.injEq, ← ih y (by simpa using h)]
        constructor
        · intro e
          have := (add_eq_zero_iff_of_nonneg (abs_nonneg _) (hnn x y)).1 e
          exact ⟨sub_eq_zero.1 (abs_eq_zero.1 this.1), this.2⟩
        · rintro ⟨rfl, e⟩; rw [e]; simp
  have htri : ∀ x y z : List S, x.length = y.length → y.length = z.length → (List.zipWith (fun a b => |a - b|) x z).sum ≤
      (List.zipWith (fun a b => |a - b|) x y).sum + (List.zipWith (fun a b => |a - b|) y z).sum := by
    intro x
    induction x with
    | nil => intro y z _ _; simpa using hnn y z
    | cons a x ih =>
      intro y z h1 h2
      cases y with
      | nil => simp at h1
      | cons b y =>
        cases z with
        | nil => simp at h2
        | cons c z =>
          simp only [List.zipWith_cons_cons, List.sum_cons]
          rw [add_add_add_comm]
          exact add_le_add (abs_sub_le a b c) (ih y z (by simpa using h1) (by simpa using h2))
  have hsymm : ∀ x y : List S, (List.zipWith (fun a b => |a - b|) x y).sum = (List.zipWith (fun a b => |a - b|) y x).sum := by
    intro x y
    rw [List.zipWith_comm]
    congr 2
    funext a b
    rw [abs_sub_comm]
  refine ⟨rows, h1, h2, isMetric_of h2 h3 h4 (fun x _ y _ => hnn x y) (fun x hx => (hzero x x rfl).2 rfl) (fun x _ y _ => hsymm x y)
    (fun x hx y hy z hz => htri x y z (by rw [hX x hx, hX y hy]) (by rw [hX y hy, hX z hz])), ?_⟩
  intro i j x y hx hy
  have e := h4 i j x y hx hy
  exact ⟨e, by rw [e]; exact hzero x y (by rw [hX x (List.mem_of_getElem? hx), hX y (List.mem_of_getElem? hy)])⟩

theorem foldl_max_le (l : List S) (n B : S) : l.foldl max n ≤ B ↔ n ≤ B ∧ ∀ a ∈ l, a ≤ B := by
  induction l generalizing n with
  | nil => simp
  | cons a l ih => rw [List.foldl_cons, ih, max_le_iff]; simp [and_assoc]

/-- C67: the table of `LInfDist`: the largest absolute difference of coordinates; it is a metric, which separates points. -/
theorem C67_LInf {X : List (List S)} {dim : Nat} (hX : ∀ x ∈ X, x.length = dim) :
    ∃ rows, pairwise (lInfDist 0) X = .ok rows ∧ rows.length = X.length ∧ IsMetric rows ∧ ∀ (i j : Nat) (x y : List S), X[i]? = some x → X[j]? = some y →
      (∀ B, 0 ≤ B → (tab rows i j ≤ B ↔ ∀ c, c < dim → |x.getD c 0 - y.getD c 0| ≤ B)) ∧ (tab rows i j = 0 ↔ x = y) := by
  obtain ⟨rows, h1, h2, h3, h4⟩ := pairwise_spec (dist := lInfDist 0) (g := fun x y => (List.zipWith (fun a b => |a - b|) x y).foldl max 0) (X := X) (by
    intro x hx y hy
    rw [lInfDist_acc _ _ _ (by rw [hX x hx, hX y hy])])
  have hle : ∀ (x y : List S), x.length = dim → y.length = dim → ∀ B, (List.zipWith (fun a b => |a - b|) x y).foldl max 0 ≤ B ↔
      0 ≤ B ∧ ∀ c, c < dim → |x.getD c 0 - y.getD c 0| ≤ B := by
    intro x y hx hy B
    rw [foldl_max_le]
    refine and_congr_right (fun _ => ?_)
    have hg : ∀ (l : List S) (c : Nat) (hc : c < l.length), l.getD c 0 = l[c] := by
      intro l c hc
      rw [List.getD_eq_getElem?_getD, List.getElem?_eq_getElem hc]; rfl
    constructor
    · intro h c hc
      apply h
      rw [hg x c (by omega), hg y c (by omega), List.mem_iff_getElem]
      exact ⟨c, by rw [List.length_zipWith]; omega, by rw [List.getElem_zipWith]⟩
    · intro h a ha
      rw [List.mem_iff_getElem] at ha
      obtain ⟨c, hc, rfl⟩ := ha
      rw [List.length_zipWith] at hc
      have := h c (by omega)
      rw [hg x c (by omega), hg y c (by omega)] at this
      rw [List.getElem_zipWith]; exact this
  have hnn : ∀ x y : List S, 0 ≤ (List.zipWith (fun a b => |a - b|) x y).foldl max 0 := fun x y =>
    ((foldl_max_le _ _ _).1 (le_refl ((List.zipWith (fun a b => |a - b|) x y).foldl max 0))).1
  have hzero : ∀ (x y : List S), x.length = dim → y.length = dim → ((List.zipWith (fun a b => |a - b|) x y).foldl max 0 = 0 ↔ x = y) := by
    intro x y hx hy
    rw [← (hnn x y).ge_iff_eq', hle x y hx hy]
    constructor
    · rintro ⟨_, h⟩
      apply List.ext_getElem (by omega)
      intro c c1 c2
      have := h c (by omega)
      have := sub_eq_zero.1 (abs_eq_zero.1 (le_antisymm this (abs_nonneg _)))
      rw [List.getD_eq_getElem?_getD, List.getElem?_eq_getElem c1, List.getD_eq_getElem?_getD, List.getElem?_eq_getElem c2] at this
      exact this
    · rintro rfl; exact ⟨le_refl _, fun c _ => by simp⟩
  have hcoord : ∀ (x y : List S), x.length = dim → y.length = dim → ∀ c, c < dim → |x.getD c 0 - y.getD c 0| ≤ (List.zipWith (fun a b => |a - b|) x y).foldl max 0 :=
    fun x y hx hy => ((hle x y hx hy _).1 (le_refl _)).2
  refine ⟨rows, h1, h2, isMetric_of h2 h3 h4 (fun x _ y _ => hnn x y) (fun x hx => (hzero x x (hX x hx) (hX x hx)).2 rfl) ?_ ?_, ?_⟩
  · intro x hx y hy
    apply le_antisymm
    · rw [hle x y (hX x hx) (hX y hy)]
      exact ⟨hnn _ _, fun c hc => by rw [abs_sub_comm]; exact hcoord y x (hX y hy) (hX x hx) c hc⟩
    · rw [hle y x (hX y hy) (hX x hx)]
      exact ⟨hnn _ _, fun c hc => by rw [abs_sub_comm]; exact hcoord x y (hX x hx) (hX y hy) c hc⟩
  · intro x hx y hy z hz
    rw [hle x z (hX x hx) (hX z hz)]
    refine ⟨add_nonneg (hnn _ _) (hnn _ _), fun c hc => (abs_sub_le _ (y.getD c 0) _).trans (add_le_add ?_ ?_)⟩
    · exact hcoord x y (hX x hx) (hX y hy) c hc
    · exact hcoord y z (hX y hy) (hX z hz) c hc
  · intro i j x y hx hy
    have e := h4 i j x y hx hy
    have lx := hX x (List.mem_of_getElem? hx)
    have ly := hX y (List.mem_of_getElem? hy)
    exact ⟨fun B hB => by rw [e, hle x y lx ly]; exact ⟨fun h => h.2, fun h => ⟨hB, h⟩⟩, by rw [e]; exact hzero x y lx ly⟩

end metric

/-! ### Examples -/

/-- five points on a line, one of them twice: 0, 4, 1, 4, 10 -/
def lineTable : List (List Int) := [[0, 4, 1, 4, 10], [4, 0, 3, 0, 6], [1, 3, 0, 3, 9], [4, 0, 3, 0, 6], [10, 6, 9, 6, 0]]

example : pairwise (l1Dist 0) [[(0 : Int)], [4], [1], [4], [10]] = .ok lineTable := by decide +kernel

example : IsMetric lineTable := by
  obtain ⟨rows, h1, h2, h3, _⟩ := C67_L1 (X := [[(0 : Int)], [4], [1], [4], [10]]) (dim := 1) (by simp)
  have e : pairwise (l1Dist 0) [[(0 : Int)], [4], [1], [4], [10]] = .ok lineTable := by decide +kernel
  rw [e] at h1; cases h1; exact h3

example : greedyHausdorffK lineTable 0 3 = .ok ([0, 4, 1], [10, 4, 1]) := by decide +kernel

/-- with points occurring twice the order repeats index 0 and leaves out a point -/
theorem C67_repeated_index : greedyHausdorff lineTable 0 = .ok ([0, 4, 1, 2, 0], [10, 4, 1, 0, 0]) := by decide +kernel

example : hausdorffLandmarks 4 lineTable 3 0 = .ok [0, 1, 4] := by decide +kernel
example : greedyLandmarks 10 lineTable 4 0 = .ok [0, 1, 2, 4] := by decide +kernel
/-- four different points, five landmarks: 0 is a landmark already, and the loop does not end -/
example : greedyLandmarks 100 lineTable 5 0 = .error .diverge := by decide +kernel
/-- five different positions in `C67_too_many_diverges` -/
example : ∀ fuel, greedyLandmarks fuel lineTable 6 0 = .error .diverge := by
  intro fuel
  obtain ⟨rows, h1, h2, h3, _⟩ := C67_L1 (X := [[(0 : Int)], [4], [1], [4], [10]]) (dim := 1) (by simp)
  have e : pairwise (l1Dist 0) [[(0 : Int)], [4], [1], [4], [10]] = .ok lineTable := by decide +kernel
  rw [e] at h1; cases h1
  refine C67_too_many_diverges h3 (C := [0, 1, 2, 4]) (by decide) (by decide) ?_ (by decide) fuel
  intro x hx
  have hx : x < 5 := hx
  interval_cases x
  · exact ⟨0, by decide, by decide⟩
  · exact ⟨1, by decide, by decide⟩
  · exact ⟨2, by decide, by decide⟩
  · exact ⟨1, by decide, by decide⟩
  · exact ⟨4, by decide, by decide⟩

example : approxCenter lineTable 1 0 0 = .ok 1 := by decide +kernel

/-- a matrix which is not symmetric: the version for matrices mixes rows and columns -/
theorem C67_matrix_asymmetric : greedyHausdorffMat [[(0 : Int), 2, 3], [5, 0, 5], [9, 0, 0]] 3 0 = .ok ([0, 2, 1], [3, 2, 0]) ∧
    greedyHausdorff [[(0 : Int), 2, 3], [5, 0, 5], [9, 0, 0]] 0 = .ok ([0, 2, 0], [3, 0, 0]) := by decide +kernel

end Lmk
end BATS
