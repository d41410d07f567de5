import Verif.Spec.ZZLevelsets
import Verif.Proofs.ZZLevelsets

set_option linter.unusedSectionVars false
set_option linter.unusedVariables false
set_option linter.unusedSimpArgs false

/-! # C87: zigzags of level sets (include/topology/levelset.hpp:235-291)

`WindowCells`, `IsWindows`, `IsLevelZigzag` are in `Verif/Spec/ZZLevelsets.lean`. -/

namespace BATS
namespace Zigzag
open SCpx Reduction SMap

section windows
variable {T : Type} [LinearOrder T] [AddCommGroup T] [IsOrderedAddMonoid T]

/-- C87: for a positive window size the windows are computed: windows of width `eps` from `t0` on until `t1` is reached, alternating with the unions of two
consecutive windows -/
theorem C87_windows [Archimedean T] {eps : T} (he : 0 < eps) (t0 t1 : T) :
    ∃ m sets, IsWindows eps t0 t1 m sets ∧ ∀ fuel, m < fuel → windows fuel eps t0 t1 = .ok sets := by
  have hex : ∃ m : Nat, ¬ t0 + m • eps < t1 - eps := by
    obtain ⟨m, hm⟩ := Archimedean.arch (t1 - eps - t0) he
    refine ⟨m, not_lt.2 ?_⟩
    rw [sub_le_iff_le_add, add_comm] at hm
    exact hm
  classical
  have h2 := Nat.find_spec hex
  have h1 := fun j (hj : j < Nat.find hex) => not_not.1 (Nat.find_min hex hj)
  generalize hm : Nat.find hex = m at h1 h2
  refine ⟨m, (t0, t0 + eps) :: winList eps t0 m, ⟨?_, ?_, ?_, ?_, ?_⟩, ?_⟩
  · rw [List.length_cons, winList_length]
  · intro j hj
    cases j with
    | zero => simp
    | succ j =>
      rw [show 2 * (j + 1) = 2 * j + 1 + 1 by omega, List.getElem?_cons_succ]
      exact (winList_get eps m t0 j (by omega)).2
  · intro j hj
    rw [List.getElem?_cons_succ]
    exact (winList_get eps m t0 j hj).1
  · rw [not_lt, sub_le_iff_le_add] at h2
    rw [succ_nsmul, ← add_assoc]
    exact h2
  · intro j hj
    have := h1 j hj
    rw [lt_sub_iff_add_lt] at this
    rw [succ_nsmul, ← add_assoc]
    exact this
  · intro fuel hf
    unfold windows
    rw [windowLoop_steps eps t1 m t0 fuel hf h1 h2]
    rfl

/-- finding: for a window size which is not positive the loop does not end (with `t0 < t1 - eps`) -/
theorem C87_windows_diverge {eps t0 t1 : T} (he : eps ≤ 0) (h : t0 < t1 - eps) (fuel : Nat) : windows fuel eps t0 t1 = .error .diverge := by
  unfold windows
  rw [windowLoop_diverge eps t1 he fuel t0 h]
  rfl

end windows

section diagram
variable {T : Type} [LinearOrder T] [AddCommGroup T] [IsOrderedAddMonoid T]

theorem windowCells_mono (iv : List Nat → List (T × T)) {w w' : T × T} (h1 : w'.1 ≤ w.1) (h2 : w.2 ≤ w'.2) : WindowCells iv w ⊆ WindowCells iv w' := by
  rintro s ⟨hs, h⟩
  refine ⟨hs, ?_⟩
  intro u hu hus
  obtain ⟨v, v1, v2⟩ := h u hu hus
  refine ⟨v, v1, ?_⟩
  rcases v2 with v2 | v2
  · exact Or.inl ⟨lt_of_le_of_lt h1 v2.1, lt_of_lt_of_le v2.2 h2⟩
  · exact Or.inr ⟨lt_of_le_of_lt h1 v2.1, lt_of_lt_of_le v2.2 h2⟩

theorem windows_nested {eps t0 t1 : T} (he : 0 < eps) {m : Nat} {sets : List (T × T)} (hw : IsWindows eps t0 t1 m sets) {i s t : Nat}
    (h : ((List.range (sets.length - 1)).map fun i => if i % 2 = 0 then (i, i + 1) else (i + 1, i))[i]? = some (s, t)) :
    ∃ w w', sets[s]? = some w ∧ sets[t]? = some w' ∧ w'.1 ≤ w.1 ∧ w.2 ≤ w'.2 := by
  have hi : i < 2 * m := by
    have := (List.getElem?_eq_some_iff.1 h).1
    rw [List.length_map, List.length_range, hw.len] at this
    omega
  rw [List.getElem?_map, List.getElem?_range (by rw [hw.len]; omega), Option.map_some, Option.some.injEq] at h
  have hn : ∀ {a b : Nat}, a ≤ b → t0 + a • eps ≤ t0 + b • eps := fun hab => by
    have := nsmul_le_nsmul_left he.le hab
    exact add_le_add_right this t0
  split at h
  · rename_i hp
    obtain ⟨j, rfl⟩ : ∃ j, i = 2 * j := ⟨i / 2, by omega⟩
    cases h
    exact ⟨_, _, hw.even j (by omega), hw.odd j (by omega), le_refl _, hn (by omega)⟩
  · rename_i hp
    obtain ⟨j, rfl⟩ : ∃ j, i = 2 * j + 1 := ⟨i / 2, by omega⟩
    cases h
    have e : 2 * j + 1 + 1 = 2 * (j + 1) := by omega
    rw [e]
    exact ⟨_, _, hw.even (j + 1) (by omega), hw.odd j (by omega), hn (by omega), le_refl _⟩

/-- C87: build a zigzag filtration by any allowed history of calls; for a positive window size `zigzag_levelsets` succeeds in every schedule of its two
loops, and its result is the zigzag of the level sets of the windows with the inclusions -/
theorem C87_zigzag [Archimedean T] (ops : List (ZOp T)) (ho : ∀ o ∈ ops, o.simplex ≠ []) {iv : List Nat → List (T × T)} (hiv : specRun (fun _ => []) ops = some iv)
    {eps : T} (he : 0 < eps) (t0 t1 : T) :
    ∃ Φ m sets TD, ZFilt.run ZFilt.empty ops = .ok Φ ∧ IsWindows eps t0 t1 m sets ∧ IsLevelZigzag iv Φ.X.maxdim sets TD ∧
      ∀ sc : Schedule, sc.nodes.Perm (List.range sets.length) → sc.edges.Perm (List.range (sets.length - 1)) → ∀ fuel, m < fuel →
        zigzagLevelsets fuel sc Φ eps t0 t1 = .ok TD := by
  obtain ⟨Φ, cells, e1, h, _⟩ := (run_inv ops (empty_hinv (T := T)) ho).1 iv hiv
  have hsort : ∀ d s, s ∈ cells d → s.Pairwise (· ≤ ·) := by
    intro d s hs
    exact specRun_iv_le ops hiv (by intro s hs; exact absurd rfl hs) s (h.cells_of hs)
  obtain ⟨m, sets, hw, hf⟩ := C87_windows he t0 t1
  have hlev : ∀ w : T × T, ∃ Y c, levelset Φ w.1 w.2 = .ok Y ∧ Inv Y c ∧ Y.maxdim = Φ.X.maxdim ∧ SCpx.setOf c = WindowCells iv w := by
    intro w
    obtain ⟨Y, c, f1, f2, f3, f4⟩ := levelset_spec h hsort w.1 w.2
    refine ⟨Y, c, f1, f2, f3, ?_⟩
    rw [f4]
    simp only [endInside, Bool.or_eq_true, Bool.and_eq_true, decide_eq_true_eq, WindowCells]
  choose Yf cf g1 g2 g3 g4 using hlev
  have hrep : ∀ w, SCpx.Represents (Yf w) (WindowCells iv w) := fun w => by rw [← g4]; exact (g2 w).represents
  have hcon : ∀ {w w' : T × T}, w'.1 ≤ w.1 → w.2 ≤ w'.2 → ∃ M, SMap.inclusion (Yf w) (Yf w') = .ok M ∧ Contained (Yf w) (Yf w') := by
    intro w w' h1 h2
    have hc : Contained (Yf w) (Yf w') := by
      intro x hx hi
      exact ((hrep w').found x hx).1 (windowCells_mono iv h1 h2 (((hrep w).found x hx).2 hi))
    have hl : (Yf w).ncells.length ≤ (Yf w').ncells.length := by
      have a := g3 w
      have b := g3 w'
      have a' := (g2 w).sizes.ne
      have b' := (g2 w').sizes.ne
      unfold maxdim at a b
      omega
    exact ⟨_, inclusion_spec (g2 w) (g2 w') ((contained_iff (g2 w) (g2 w')).2 hc) hl, hc⟩
  set D := windowDiagram sets with hD
  have hDl : D.elist.length = D.edata.length := by simp [hD, windowDiagram]
  obtain ⟨Ms, m1, m2⟩ := BATS.edges_list (E' := List (CMat Int)) hDl (P := fun j st f M => ∃ w w', sets[st.1]? = some w ∧ sets[st.2]? = some w' ∧
      Contained (Yf w) (Yf w') ∧ SMap.inclusion (Yf w) (Yf w') = .ok M) (fun j st f e1 e2 => by
    obtain ⟨w, w', a1, a2, a3, a4⟩ := windows_nested he hw e1
    obtain ⟨M, b1, b2⟩ := hcon a3 a4
    exact ⟨M, w, w', a1, a2, b2, b1⟩)
  have hel : ∀ (i : Nat) (st : Nat × Nat), D.elist[i]? = some st → D.edata[i]? = some () := by
    intro i st hi
    have := (List.getElem?_eq_some_iff.1 hi).1
    rw [List.getElem?_eq_getElem (by rw [← hDl]; exact this)]
  refine ⟨Φ, m, sets, ⟨sets.map Yf, Ms, D.elist⟩, e1, hw, ⟨by simp, ?_, rfl, ?_, ?_⟩, ?_⟩
  · show Ms.length = _
    rw [m1]; simp [hD, windowDiagram]
  · intro i w hi
    refine ⟨Yf w, ?_, levelset_reachable (g1 w), g3 w, hrep w⟩
    show (sets.map Yf)[i]? = _
    rw [List.getElem?_map, hi]; rfl
  · intro i st f hi hf'
    obtain ⟨M, b1, w, w', a1, a2, a3, a4⟩ := m2 i st () hi (hel i st hi)
    have : Ms[i]? = some f := hf'
    rw [b1] at this; cases this
    refine ⟨Yf w, Yf w', ?_, ?_, a3, a4⟩
    · show (sets.map Yf)[st.1]? = _
      rw [List.getElem?_map, a1]; rfl
    · show (sets.map Yf)[st.2]? = _
      rw [List.getElem?_map, a2]; rfl
  · intro sc hs1 hs2 fuel hfuel
    have hsc : sc.For D := ⟨hs1, by
      show sc.edges.Perm (List.range (List.replicate _ _).length)
      rw [List.length_replicate]; exact hs2⟩
    unfold zigzagLevelsets
    rw [hf fuel hfuel, bind_ok]
    apply (Nrv.spaceLoops_iff (g := fun w : T × T => levelset Φ w.1 w.2) (h := fun X Y (_ : Unit) => SMap.inclusion X Y) hsc hDl).2
    refine ⟨sets.map Yf, Ms, ?_, m1, ?_, rfl⟩
    · rw [List.forall₂_map_right_iff]
      exact List.forall₂_same.2 (fun w _ => g1 w)
    · intro j st f e1 e2
      obtain ⟨M, b1, w, w', a1, a2, a3, a4⟩ := m2 j st f e1 e2
      refine ⟨M, Yf w, Yf w', b1, ?_, ?_, a4⟩
      · rw [List.getElem?_map, a1]; rfl
      · rw [List.getElem?_map, a2]; rfl

variable {F : Type} [Field F] [DecidableEq F]

/-- C87, from level sets to barcodes: for a zigzag of at least two level sets the functors `Chain`, `Hom` and the computation of the barcode succeed in every
schedule, the barcode is an interval decomposition of the homology of the zigzag, and the number of pairs alive at node `i` is the Betti number of the level
set of the `i`-th window -/
theorem C87_barcode [Archimedean T] (ops : List (ZOp T)) (ho : ∀ o ∈ ops, o.simplex ≠ [] ∧ o.simplex.Nodup) {iv : List Nat → List (T × T)}
    (hiv : specRun (fun _ => []) ops = some iv) {eps : T} (he : 0 < eps) (t0 t1 : T) (h2 : t0 + eps < t1) :
    ∃ Φ m sets TD, ZFilt.run ZFilt.empty ops = .ok Φ ∧ IsWindows eps t0 t1 m sets ∧ 1 ≤ m ∧
      ∀ sc : Schedule, sc.nodes.Perm (List.range sets.length) → sc.edges.Perm (List.range (sets.length - 1)) → ∀ fuel, m < fuel →
        zigzagLevelsets fuel sc Φ eps t0 t1 = .ok TD ∧ ∀ k, k ≤ Φ.X.maxdim → ∀ a : Quiver.Algo,
        ∃ (CD : Diagram (List (CMat F)) (List (CMat F))) (HD : Diagram (RedCpx F) (CMat F)) (bars : List QBar),
          chainFunctor F sc TD = .ok CD ∧ homFunctor sc CD k = .ok HD ∧
          Quiver.barcode HD.toDgm k a = .ok (bars.map fun b => ⟨k, b.startInd, some b.stopInd, b.start, some b.stop⟩) ∧ IsHomologyDecomposition CD k bars ∧
          ∀ (i : Nat) (w : T × T) (K : Finset (Finset Nat)), sets[i]? = some w → (∀ σ : Finset Nat, σ ∈ K ↔ σ.sort (· ≤ ·) ∈ WindowCells iv w) →
            (bars.filter (fun q => decide (q.start ≤ i ∧ i ≤ q.stop))).length = simplicialBetti F K k := by
  obtain ⟨Φ, m, sets, TD, e1, hw, hz, hrun⟩ := C87_zigzag ops (fun o h => (ho o h).1) hiv he t0 t1
  have hm : 1 ≤ m := by
    by_contra hc
    have hm0 : m = 0 := by omega
    have := hw.covers
    rw [hm0, Nat.zero_add, one_nsmul] at this
    exact absurd h2 (not_lt.2 this)
  have hstrict : ∀ s w, s ∈ WindowCells iv w → s.Pairwise (· < ·) := by
    intro s w hs
    obtain ⟨v, v1, _⟩ := hs.2 s hs.1 (List.Sublist.refl s)
    refine specRun_iv_sorted ops (fun o hh => (ho o hh).2) hiv (by intro s hs; exact absurd rfl hs) s ?_
    intro e
    rw [e] at v1; cases v1
  have hnode : ∀ X ∈ TD.node, ∃ (i : Nat) (w : T × T), sets[i]? = some w ∧ Reachable X ∧ X.maxdim = Φ.X.maxdim ∧ SCpx.Represents X (WindowCells iv w) := by
    intro X hX
    obtain ⟨i, hi, rfl⟩ := List.getElem_of_mem hX
    have hs : sets[i]? = some (sets[i]'(by rw [← hz.nodes]; exact hi)) := List.getElem?_eq_getElem _
    obtain ⟨Y, y1, y2⟩ := hz.node i _ hs
    rw [List.getElem?_eq_getElem hi] at y1; cases y1
    exact ⟨i, _, hs, y2⟩
  have hspace : IsSpaceDiagram TD := by
    refine ⟨?_, ⟨?_, ?_⟩⟩
    · intro X hX
      obtain ⟨i, w, _, x1, x2, x3⟩ := hnode X hX
      exact ⟨x1, fun s j hs hj => hstrict s w ((x3.found s hs).2 ⟨j, hj⟩)⟩
    · rw [hz.elist, hz.edges]; simp
    · intro j st f a1 a2
      obtain ⟨X, Y, x1, x2, x3, x4⟩ := hz.edge j st f a1 a2
      refine ⟨X, Y, x1, x2, Or.inr ⟨?_, x4⟩⟩
      obtain ⟨_, _, _, _, p, _⟩ := hnode X (List.mem_of_getElem? x1)
      obtain ⟨_, _, _, _, q, _⟩ := hnode Y (List.mem_of_getElem? x2)
      rw [p, q]
  have hline : TD.IsLine := by
    have hlen := hw.len
    refine ⟨?_, ?_, ?_, ?_⟩
    · intro e
      have := hz.edges
      rw [e] at this
      simp only [List.length_nil] at this
      omega
    · rw [hz.nodes, hz.edges]; omega
    · rw [hz.elist, hz.edges]; simp
    · intro k hk
      rw [hz.edges] at hk
      rw [hz.elist, List.getD_eq_getElem?_getD, List.getElem?_map, List.getElem?_range hk]
      simp only [Option.map_some, Option.getD_some]
      split
      · exact Or.inr rfl
      · exact Or.inl rfl
  refine ⟨Φ, m, sets, TD, e1, hw, hm, ?_⟩
  intro sc hs1 hs2 fuel hfuel
  refine ⟨hrun sc hs1 hs2 fuel hfuel, ?_⟩
  intro k hk a
  have hsc : sc.For TD := ⟨by rw [hz.nodes]; exact hs1, by rw [hz.edges]; exact hs2⟩
  obtain ⟨CD, HD, bars, c1, c2, c3, c4, c5⟩ := C65_spaces (F := F) hspace hline hsc (k := k) (fun X hX => by
    obtain ⟨_, _, _, _, p, _⟩ := hnode X hX
    rw [p]; exact hk) a
  refine ⟨CD, HD, bars, c1, c2, c3, c4, ?_⟩
  intro i w K hi hK
  obtain ⟨X, x1, _, _, x2⟩ := hz.node i w hi
  refine c5 i X K x1 ?_
  intro σ
  rw [hK]
  constructor
  · intro hσ
    have hne : σ.sort (· ≤ ·) ≠ [] := hσ.1
    refine ⟨?_, (x2.found _ hne).1 hσ⟩
    rw [← Finset.card_pos, ← Finset.length_sort (· ≤ ·)]; exact List.length_pos_iff.2 hne
  · rintro ⟨hne, hi⟩
    have hs0 : σ.sort (· ≤ ·) ≠ [] := by
      rw [← List.length_pos_iff, Finset.length_sort, Finset.card_pos]; exact hne
    exact (x2.found _ hs0).2 hi

end diagram

/-! ### examples -/

/-- an edge whose ends appear and disappear at different times -/
def zzOps : List (ZOp Int) := [.add (1, 6) [0], .add (3, 9) [1], .add (3, 6) [0, 1]]

example : (do
    let Φ ← ZFilt.run ZFilt.empty zzOps
    let TD ← zigzagLevelsets 5 ⟨[4, 0, 2, 1, 3], [1, 3, 0, 2]⟩ Φ 3 0 8
    pure (TD.node.map (fun X => X.ncells), TD.elist) : Res _) =
    .ok ([[1, 0], [2, 1], [0, 0], [1, 0], [0, 0]], [(0, 1), (2, 1), (2, 3), (4, 3)]) := by decide +kernel

theorem zzOps_spec : ∃ iv, specRun (fun _ => []) zzOps = some iv := by
  rcases h : specRun (fun _ => []) zzOps with _ | iv
  · have e := (run_inv zzOps (empty_hinv (T := Int)) (by decide)).2 h
    have e2 : (ZFilt.run ZFilt.empty zzOps).map (fun _ => ()) = .ok () := by decide +kernel
    rw [e] at e2; cases e2
  · exact ⟨iv, rfl⟩

/-- the hypotheses of `C87_barcode` are met -/
example : ∃ iv, specRun (fun _ => []) zzOps = some iv ∧ (∀ o ∈ zzOps, o.simplex ≠ [] ∧ o.simplex.Nodup) ∧ (0 : Int) < 3 ∧ (0 : Int) + 3 < 8 := by
  obtain ⟨iv, h⟩ := zzOps_spec
  exact ⟨iv, h, by decide, by decide, by decide⟩

/-- finding: the condition of `levelset` asks for an end of the interval strictly inside of the window, so that a vertex present from 0 to 20 is in none of
the level sets of the windows of size 1 from 5 to 8, and one whose interval starts at the border of a window is missing in it -/
theorem C87_misses : (do
    let Φ ← ZFilt.run ZFilt.empty [ZOp.add ((0, 20) : Int × Int) [0]]
    let TD ← zigzagLevelsets 5 ⟨[0, 1, 2, 3, 4], [0, 1, 2, 3]⟩ Φ 1 5 8
    pure (TD.node.map (fun X => X.ncells)) : Res _) = .ok [[0], [0], [0], [0], [0]] := by decide +kernel

end Zigzag
end BATS
