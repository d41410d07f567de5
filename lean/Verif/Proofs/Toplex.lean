import Verif.Proofs.ToplexMem

set_option linter.unusedSectionVars false
set_option linter.unusedVariables false
set_option linter.unusedSimpArgs false

/-! # The loops of `zigzag_toplex` -/

namespace BATS
namespace Zigzag
open Cub Reduction
open SCpx (Cells)

variable {T : Type} [LinearOrder T] {img : List (List (List T))} {N1 N2 N3 : Nat}

theorem mem_triples {a b c : Nat} (t : Nat × Nat × Nat) : t ∈ triples a b c ↔ t.1 < a ∧ t.2.1 < b ∧ t.2.2 < c := by
  obtain ⟨i, j, k⟩ := t
  simp only [triples, List.mem_flatMap, List.mem_range, List.mem_map, Prod.mk.injEq]
  constructor
  · rintro ⟨i', h1, j', h2, k', h3, rfl, rfl, rfl⟩; exact ⟨h1, h2, h3⟩
  · rintro ⟨h1, h2, h3⟩; exact ⟨i, h1, j, h2, k, h3, rfl, rfl, rfl⟩

theorem nodup_triples (a b c : Nat) : (triples a b c).Nodup := by
  unfold triples
  rw [List.nodup_flatMap]
  constructor
  · intro i _
    rw [List.nodup_flatMap]
    constructor
    · intro j _
      exact List.nodup_range.map (fun x y h => by injection h with _ h; injection h)
    · refine List.Pairwise.imp ?_ List.nodup_range
      intro j j' hne
      intro t h1 h2
      simp only [List.mem_map] at h1 h2
      obtain ⟨k, _, rfl⟩ := h1
      obtain ⟨k', _, h⟩ := h2
      simp only [Prod.mk.injEq] at h
      exact hne h.2.1.symm
  · refine List.Pairwise.imp ?_ List.nodup_range
    intro i i' hne
    intro t h1 h2
    simp only [List.mem_flatMap, List.mem_map] at h1 h2
    obtain ⟨j, _, k, _, rfl⟩ := h1
    obtain ⟨j', _, k', _, h⟩ := h2
    simp only [Prod.mk.injEq] at h
    exact hne h.1.symm

theorem toplexLoop_run (f : Nat → Nat → Nat → Res (T × T)) (mk : Nat → Nat → Nat → List Nat) (v : Nat × Nat × Nat → T × T) :
    ∀ (l : List (Nat × Nat × Nat)) (Φ : CZFilt T), (∀ t ∈ l, f t.1 t.2.1 t.2.2 = .ok (v t)) →
      toplexLoop f mk l Φ = Φ.run (l.map (fun t => (v t, mk t.1 t.2.1 t.2.2)))
  | [], Φ, _ => rfl
  | (i, j, k) :: l, Φ, h => by
    rw [toplexLoop, List.map_cons, CZFilt.run, h (i, j, k) (by simp), bind_ok]
    cases hx : Φ.add (v (i, j, k)) (mk i j k) with
    | error e => rfl
    | ok Ψ =>
      rw [bind_ok, bind_ok]
      exact toplexLoop_run f mk v l Ψ (fun t ht => h t (by simp [ht]))

/-- the cube at `(i, j, k)` of shape `(a, b, c)` -/
def boxCube (i j k a b c : Nat) : List Nat := [i, i + a, j, j + b, k, k + c]

theorem boxCube_inj {i j k a b c i' j' k' a' b' c' : Nat} (h : boxCube i j k a b c = boxCube i' j' k' a' b' c') :
    (i = i' ∧ j = j' ∧ k = k') ∧ a = a' ∧ b = b' ∧ c = c' := by
  simp only [boxCube, List.cons.injEq, and_true] at h
  omega

theorem isCube3 {i j k a b c : Nat} (ha : a ≤ 1) (hb : b ≤ 1) (hc : c ≤ 1) : IsCube 3 (boxCube i j k a b c) := by
  refine ⟨rfl, fun m hm => ?_⟩
  rcases (show m = 0 ∨ m = 1 ∨ m = 2 by omega) with rfl | rfl | rfl
  · show i + a = i ∨ i + a = i + 1
    omega
  · show j + b = j ∨ j + b = j + 1
    omega
  · show k + c = k ∨ k + c = k + 1
    omega

theorem isCube3_iff (s : List Nat) : IsCube 3 s ↔ ∃ i j k a b c, s = boxCube i j k a b c ∧ a ≤ 1 ∧ b ≤ 1 ∧ c ≤ 1 := by
  constructor
  · rintro ⟨h1, h2⟩
    match s, h1 with
    | [i, i', j, j', k, k'], _ =>
      have a0 := h2 0 (by omega)
      have a1 := h2 1 (by omega)
      have a2 := h2 2 (by omega)
      change i' = i ∨ i' = i + 1 at a0
      change j' = j ∨ j' = j + 1 at a1
      change k' = k ∨ k' = k + 1 at a2
      refine ⟨i, j, k, i' - i, j' - j, k' - k, ?_, by omega, by omega, by omega⟩
      show [i, i', j, j', k, k'] = [i, i + (i' - i), j, j + (j' - j), k, k + (k' - k)]
      rw [show i + (i' - i) = i' by omega, show j + (j' - j) = j' by omega, show k + (k' - k) = k' by omega]
  · rintro ⟨i, j, k, a, b, c, rfl, ha, hb, hc⟩
    exact isCube3 ha hb hc

theorem cubeDim3 {i j k a b c : Nat} (ha : a ≤ 1) (hb : b ≤ 1) (hc : c ≤ 1) : cubeDimension 3 (boxCube i j k a b c) = a + b + c := by
  rw [cubeDimension_eq (isCube3 ha hb hc)]
  show (i + a - i) + ((j + b - j) + ((k + c - k) + 0)) = _
  omega

theorem inBox_iff (s : List Nat) : InBox N1 N2 N3 s ↔ ∃ i j k a b c, s = boxCube i j k a b c ∧ (a ≤ 1 ∧ b ≤ 1 ∧ c ≤ 1) ∧ i + a ≤ N1 ∧ j + b ≤ N2 ∧ k + c ≤ N3 := by
  constructor
  · rintro ⟨h1, h2, h3, h4⟩
    obtain ⟨i, j, k, a, b, c, rfl, ha, hb, hc⟩ := (isCube3_iff s).1 h1
    exact ⟨i, j, k, a, b, c, rfl, ⟨ha, hb, hc⟩, h2, h3, h4⟩
  · rintro ⟨i, j, k, a, b, c, rfl, ⟨ha, hb, hc⟩, h2, h3, h4⟩
    exact ⟨isCube3 ha hb hc, h2, h3, h4⟩

/-- the codimension-one faces -/
theorem faces3 {i j k a b c m : Nat} (ha : a ≤ 1) (hb : b ≤ 1) (hc : c ≤ 1) (hm : m ∈ dirs 3 (boxCube i j k a b c)) :
    (m = 0 ∧ a = 1 ∧ upperFace (boxCube i j k a b c) m = boxCube (i + 1) j k 0 b c ∧ lowerFace (boxCube i j k a b c) m = boxCube i j k 0 b c) ∨
    (m = 1 ∧ b = 1 ∧ upperFace (boxCube i j k a b c) m = boxCube i (j + 1) k a 0 c ∧ lowerFace (boxCube i j k a b c) m = boxCube i j k a 0 c) ∨
    (m = 2 ∧ c = 1 ∧ upperFace (boxCube i j k a b c) m = boxCube i j (k + 1) a b 0 ∧ lowerFace (boxCube i j k a b c) m = boxCube i j k a b 0) := by
  rw [dirs, Finset.mem_filter, Finset.mem_range] at hm
  obtain ⟨h1, h2⟩ := hm
  rcases (show m = 0 ∨ m = 1 ∨ m = 2 by omega) with rfl | rfl | rfl
  · change i ≠ i + a at h2
    have : a = 1 := by omega
    subst this
    exact Or.inl ⟨rfl, rfl, rfl, rfl⟩
  · change j ≠ j + b at h2
    have : b = 1 := by omega
    subst this
    exact Or.inr (Or.inl ⟨rfl, rfl, rfl, rfl⟩)
  · change k ≠ k + c at h2
    have : c = 1 := by omega
    subst this
    exact Or.inr (Or.inr ⟨rfl, rfl, rfl, rfl⟩)

/-- the cubes of the shapes in `Δ` inside the box -/
def shapes (N1 N2 N3 : Nat) (Δ : List (Nat × Nat × Nat)) : Set (List Nat) :=
  {s | ∃ i j k a b c, s = boxCube i j k a b c ∧ (a, b, c) ∈ Δ ∧ i + a ≤ N1 ∧ j + b ≤ N2 ∧ k + c ≤ N3}

/-- the state after the loops for the shapes in `Δ`; `P s p`: the interval of `s` is `p` -/
structure BlockInv (P : List Nat → T × T → Prop) (N1 N2 N3 : Nat) (Δ : List (Nat × Nat × Nat)) (Φ : CZFilt T) : Prop where
  ex : ∃ cells g, CZInv Φ 3 cells g ∧ Cub.setOf cells = shapes N1 N2 N3 Δ ∧ ∀ s ∈ shapes N1 N2 N3 Δ, ∃ p, g s = [p] ∧ P s p

theorem intervalsOf_map (v : Nat × Nat × Nat → T × T) (a b c : Nat) : ∀ (l : List (Nat × Nat × Nat)), l.Nodup → ∀ t ∈ l,
    intervalsOf (l.map (fun t => (v t, boxCube t.1 t.2.1 t.2.2 a b c))) (boxCube t.1 t.2.1 t.2.2 a b c) = [v t] := by
  have hnone : ∀ (l : List (Nat × Nat × Nat)) (t : Nat × Nat × Nat), t ∉ l →
      intervalsOf (l.map (fun t => (v t, boxCube t.1 t.2.1 t.2.2 a b c))) (boxCube t.1 t.2.1 t.2.2 a b c) = [] := by
    intro l t ht
    unfold intervalsOf
    rw [List.map_eq_nil_iff, List.filter_eq_nil_iff]
    intro o ho
    obtain ⟨u, hu, rfl⟩ := List.mem_map.1 ho
    simp only [decide_eq_true_eq]
    intro h
    obtain ⟨⟨h1, h2, h3⟩, _⟩ := boxCube_inj h
    apply ht
    have : u = t := Prod.ext h1 (Prod.ext h2 h3)
    rw [← this]; exact hu
  intro l
  induction l with
  | nil => intro _ t ht; cases ht
  | cons u l ih =>
    intro hn t ht
    rw [List.nodup_cons] at hn
    rw [List.map_cons, intervalsOf_cons]
    rcases List.mem_cons.1 ht with rfl | ht
    · rw [if_pos rfl, hnone l t hn.1]; rfl
    · rw [if_neg ?_, List.nil_append]
      · exact ih hn.2 t ht
      · intro h
        obtain ⟨⟨h1, h2, h3⟩, _⟩ := boxCube_inj h
        have : u = t := Prod.ext h1 (Prod.ext h2 h3)
        rw [this] at hn; exact hn.1 ht

/-- one of the eight loops -/
theorem block_step {P : List Nat → T × T → Prop} {Δ : List (Nat × Nat × Nat)} {Φ : CZFilt T} (h : BlockInv P N1 N2 N3 Δ Φ) {a b c : Nat} (ha : a ≤ 1) (hb : b ≤ 1) (hc : c ≤ 1)
    (hΔ : (a, b, c) ∉ Δ) (h1 : a = 1 → (0, b, c) ∈ Δ) (h2 : b = 1 → (a, 0, c) ∈ Δ) (h3 : c = 1 → (a, b, 0) ∈ Δ) {f : Nat → Nat → Nat → Res (T × T)}
    (hf : ∀ i j k, i + a ≤ N1 → j + b ≤ N2 → k + c ≤ N3 → ∃ p, f i j k = .ok p ∧ P (boxCube i j k a b c) p) :
    ∃ Ψ, toplexLoop f (fun i j k => boxCube i j k a b c) (triples (N1 + 1 - a) (N2 + 1 - b) (N3 + 1 - c)) Φ = .ok Ψ ∧ BlockInv P N1 N2 N3 (Δ ++ [(a, b, c)]) Ψ := by
  obtain ⟨cells, g, hI, hset, hg⟩ := h.ex
  have hmem : ∀ t, t ∈ triples (N1 + 1 - a) (N2 + 1 - b) (N3 + 1 - c) ↔ t.1 + a ≤ N1 ∧ t.2.1 + b ≤ N2 ∧ t.2.2 + c ≤ N3 := by
    intro t; rw [mem_triples]; omega
  have hv : ∀ t : Nat × Nat × Nat, ∃ x : Option (T × T), t ∈ triples (N1 + 1 - a) (N2 + 1 - b) (N3 + 1 - c) → ∃ p, x = some p ∧ f t.1 t.2.1 t.2.2 = .ok p ∧ P (boxCube t.1 t.2.1 t.2.2 a b c) p := by
    intro t
    by_cases ht : t ∈ triples (N1 + 1 - a) (N2 + 1 - b) (N3 + 1 - c)
    · obtain ⟨p, hp⟩ := hf t.1 t.2.1 t.2.2 ((hmem t).1 ht).1 ((hmem t).1 ht).2.1 ((hmem t).1 ht).2.2
      exact ⟨some p, fun _ => ⟨p, rfl, hp⟩⟩
    · exact ⟨none, fun h => absurd h ht⟩
  choose x hx using hv
  by_cases hempty : triples (N1 + 1 - a) (N2 + 1 - b) (N3 + 1 - c) = []
  · rw [hempty]
    refine ⟨Φ, rfl, cells, g, hI, ?_, ?_⟩
    · rw [hset]
      ext s
      constructor
      · rintro ⟨i, j, k, a', b', c', e, hm, q⟩; exact ⟨i, j, k, a', b', c', e, List.mem_append_left _ hm, q⟩
      · rintro ⟨i, j, k, a', b', c', e, hm, q⟩
        rcases List.mem_append.1 hm with hm | hm
        · exact ⟨i, j, k, a', b', c', e, hm, q⟩
        · simp only [List.mem_singleton, Prod.mk.injEq] at hm
          obtain ⟨rfl, rfl, rfl⟩ := hm
          have := (hmem (i, j, k)).2 q
          rw [hempty] at this; cases this
    · rintro s ⟨i, j, k, a', b', c', e, hm, q⟩
      rcases List.mem_append.1 hm with hm | hm
      · exact hg s ⟨i, j, k, a', b', c', e, hm, q⟩
      · simp only [List.mem_singleton, Prod.mk.injEq] at hm
        obtain ⟨rfl, rfl, rfl⟩ := hm
        have := (hmem (i, j, k)).2 q
        rw [hempty] at this; cases this
  obtain ⟨t0, ht0⟩ := List.exists_mem_of_ne_nil _ hempty
  obtain ⟨p0, -⟩ := hx t0 ht0
  obtain ⟨v, hvx⟩ : ∃ v : Nat × Nat × Nat → T × T, ∀ t ∈ triples (N1 + 1 - a) (N2 + 1 - b) (N3 + 1 - c), f t.1 t.2.1 t.2.2 = .ok (v t) ∧ P (boxCube t.1 t.2.1 t.2.2 a b c) (v t) := by
    refine ⟨fun t => (x t).getD p0, fun t ht => ?_⟩
    obtain ⟨p, e1, e2⟩ := hx t ht
    simp only [e1, Option.getD_some]; exact e2
  rw [toplexLoop_run f _ v _ Φ (fun t ht => (hvx t ht).1)]
  obtain ⟨Ψ, cells', e1, e2, e3⟩ := run_ok (D := 3) ((triples (N1 + 1 - a) (N2 + 1 - b) (N3 + 1 - c)).map (fun t => (v t, boxCube t.1 t.2.1 t.2.2 a b c))) hI (by
    intro o ho
    obtain ⟨t, _, rfl⟩ := List.mem_map.1 ho
    exact isCube3 ha hb hc) (by
    intro pre o post he m hm
    have ho : o ∈ (triples (N1 + 1 - a) (N2 + 1 - b) (N3 + 1 - c)).map (fun t => (v t, boxCube t.1 t.2.1 t.2.2 a b c)) := by rw [he]; simp
    obtain ⟨t, ht, rfl⟩ := List.mem_map.1 ho
    obtain ⟨q1, q2, q3⟩ := (hmem t).1 ht
    rw [hset]
    simp only at hm ⊢
    rcases faces3 ha hb hc hm with ⟨rfl, rfl, u, w⟩ | ⟨rfl, rfl, u, w⟩ | ⟨rfl, rfl, u, w⟩
    · rw [u, w]
      exact ⟨Or.inl ⟨_, _, _, _, _, _, rfl, h1 rfl, by omega, q2, q3⟩, Or.inl ⟨_, _, _, _, _, _, rfl, h1 rfl, by omega, q2, q3⟩⟩
    · rw [u, w]
      exact ⟨Or.inl ⟨_, _, _, _, _, _, rfl, h2 rfl, q1, by omega, q3⟩, Or.inl ⟨_, _, _, _, _, _, rfl, h2 rfl, q1, by omega, q3⟩⟩
    · rw [u, w]
      exact ⟨Or.inl ⟨_, _, _, _, _, _, rfl, h3 rfl, q1, q2, by omega⟩, Or.inl ⟨_, _, _, _, _, _, rfl, h3 rfl, q1, q2, by omega⟩⟩)
  refine ⟨Ψ, e1, cells', _, e2, ?_, ?_⟩
  · rw [e3, hset]
    ext s
    simp only [List.map_map, List.mem_map, Function.comp]
    constructor
    · rintro (⟨i, j, k, a', b', c', e, hm, q⟩ | ⟨t, ht, rfl⟩)
      · exact ⟨i, j, k, a', b', c', e, List.mem_append_left _ hm, q⟩
      · exact ⟨_, _, _, a, b, c, rfl, by simp, (hmem t).1 ht⟩
    · rintro ⟨i, j, k, a', b', c', e, hm, q⟩
      rcases List.mem_append.1 hm with hm | hm
      · exact Or.inl ⟨i, j, k, a', b', c', e, hm, q⟩
      · simp only [List.mem_singleton, Prod.mk.injEq] at hm
        obtain ⟨rfl, rfl, rfl⟩ := hm
        exact Or.inr ⟨(i, j, k), (hmem _).2 q, e.symm⟩
  · rintro s ⟨i, j, k, a', b', c', e, hm, q⟩
    rcases List.mem_append.1 hm with hm | hm
    · obtain ⟨p, p1, p2⟩ := hg s ⟨i, j, k, a', b', c', e, hm, q⟩
      refine ⟨p, ?_, p2⟩
      rw [p1]
      have : intervalsOf ((triples (N1 + 1 - a) (N2 + 1 - b) (N3 + 1 - c)).map (fun t => (v t, boxCube t.1 t.2.1 t.2.2 a b c))) s = [] := by
        unfold intervalsOf
        rw [List.map_eq_nil_iff, List.filter_eq_nil_iff]
        intro o ho
        obtain ⟨u, hu, rfl⟩ := List.mem_map.1 ho
        simp only [decide_eq_true_eq]
        rw [e]
        intro h
        obtain ⟨_, rfl, rfl, rfl⟩ := boxCube_inj h
        exact hΔ hm
      rw [this, List.append_nil]
    · simp only [List.mem_singleton, Prod.mk.injEq] at hm
      obtain ⟨rfl, rfl, rfl⟩ := hm
      have ht := (hmem (i, j, k)).2 q
      refine ⟨v (i, j, k), ?_, by rw [e]; exact (hvx _ ht).2⟩
      have hout : g s = [] := by
        apply hI.out
        rw [hset]
        rintro ⟨i', j', k', a', b', c', e', hm', _⟩
        rw [e] at e'
        obtain ⟨_, rfl, rfl, rfl⟩ := boxCube_inj e'
        exact hΔ hm'
      rw [hout, List.nil_append, e]
      exact intervalsOf_map v a' b' c' _ (nodup_triples _ _ _) (i, j, k) ht

theorem toplex_spec (hI : IsImage img N1 N2 N3) {tmax tlow : T} (hb : ∀ p v, pixel3 img p = some v → tlow ≤ v ∧ v ≤ tmax) :
    ∃ Φ cells g, zigzagToplex tmax tlow img = .ok Φ ∧ CZInv Φ 3 cells g ∧ Cub.setOf cells = {s | InBox N1 N2 N3 s} ∧
      ∀ s, InBox N1 N2 N3 s → ∃ p, g s = [p] ∧ ToplexInterval img N1 N2 N3 s p := by
  obtain ⟨p1, p2, p3⟩ := hI.pos
  have hlen := hI.len
  obtain ⟨r, rs, rfl⟩ : ∃ r rs, img = r :: rs := by
    cases img with
    | nil => simp at hlen; omega
    | cons r rs => exact ⟨r, rs, rfl⟩
  have hr := hI.row r (by simp)
  obtain ⟨c, cs, rfl⟩ : ∃ c cs, r = c :: cs := by
    cases r with
    | nil => simp at hr; omega
    | cons c cs => exact ⟨c, cs, rfl⟩
  have hc := hr.2 c (by simp)
  obtain ⟨img, himg⟩ : ∃ x, x = (c :: cs) :: rs := ⟨_, rfl⟩
  have hdef : zigzagToplex tmax tlow img = (do
      let p0 := (tmax, tlow)
      let A0 ← toplexLoop (fun i j k => voxelLoop widen img (voxV (N1 + 1) (N2 + 1) (N3 + 1) i j k) p0) (fun i j k => boxCube i j k 0 0 0) (triples (N1 + 1) (N2 + 1) (N3 + 1)) (CZFilt.init 3)
      let A1 ← toplexLoop (fun i j k => voxelLoop widenEdge img (voxE1 (N2 + 1) (N3 + 1) i j k) p0) (fun i j k => boxCube i j k 1 0 0) (triples (N1 + 1 - 1) (N2 + 1) (N3 + 1)) A0
      let A2 ← toplexLoop (fun i j k => voxelLoop widenEdge img (voxE2 (N1 + 1) (N3 + 1) i j k) p0) (fun i j k => boxCube i j k 0 1 0) (triples (N1 + 1) (N2 + 1 - 1) (N3 + 1)) A1
      let A3 ← toplexLoop (fun i j k => voxelLoop widenEdge img (voxE3 (N1 + 1) (N2 + 1) i j k) p0) (fun i j k => boxCube i j k 0 0 1) (triples (N1 + 1) (N2 + 1) (N3 + 1 - 1)) A2
      let A4 ← toplexLoop (fun i j k => voxelLoop widen img (voxF12 (N3 + 1) i j k) p0) (fun i j k => boxCube i j k 1 1 0) (triples (N1 + 1 - 1) (N2 + 1 - 1) (N3 + 1)) A3
      let A5 ← toplexLoop (fun i j k => voxelLoop widen img (voxF23 (N1 + 1) i j k) p0) (fun i j k => boxCube i j k 0 1 1) (triples (N1 + 1) (N2 + 1 - 1) (N3 + 1 - 1)) A4
      let A6 ← toplexLoop (fun i j k => voxelLoop widen img (voxF13 (N2 + 1) i j k) p0) (fun i j k => boxCube i j k 1 0 1) (triples (N1 + 1 - 1) (N2 + 1) (N3 + 1 - 1)) A5
      toplexLoop (fun i j k => voxelInterval img i j k) (fun i j k => boxCube i j k 1 1 1) (triples (N1 + 1 - 1) (N2 + 1 - 1) (N3 + 1 - 1)) A6 : Res (CZFilt T)) := by
    rw [← hlen, ← hr.1, ← hc, himg]
    rfl
  rw [← himg] at hI hb ⊢
  have hpix := fun i j k a b c ha hb hc hi hj hk => vox_exists hI (i := i) (j := j) (k := k) (a := a) (b := b) (c := c) ha hb hc hi hj hk
  have h0 : BlockInv (ToplexInterval img N1 N2 N3) N1 N2 N3 [] (CZFilt.init 3 : CZFilt T) := by
    refine ⟨fun _ => [], fun _ => [], init_czinv (by omega), ?_, ?_⟩
    · ext s
      constructor
      · intro h; simp [Cub.setOf] at h
      · rintro ⟨_, _, _, _, _, _, _, h, _⟩; cases h
    · rintro s ⟨_, _, _, _, _, _, _, h, _⟩; cases h
  have hW : ∀ {l : List (Bool × Nat × Nat × Nat)} {i j k a b c : Nat}, a ≤ 1 → b ≤ 1 → c ≤ 1 → a + b + c ≠ 1 → i + a ≤ N1 → j + b ≤ N2 → k + c ≤ N3 →
      (∀ x y z, (true, x, y, z) ∈ l ↔ VoxelOf [x, y, z] (boxCube i j k a b c) ∧ ∃ v, pixel3 img [x, y, z] = some v) →
      ∃ p, voxelLoop widen img l (tmax, tlow) = .ok p ∧ ToplexInterval img N1 N2 N3 (boxCube i j k a b c) p := by
    intro l i j k a b c ha hb' hc' hd hi hj hk hl
    obtain ⟨x, y, z, hx⟩ := hpix i j k a b c ha hb' hc' hi hj hk
    obtain ⟨b', d, e1, e2, e3⟩ := voxelLoop_widen hb hl ⟨x, y, z, (hl x y z).2 hx⟩
    exact ⟨_, e1, e2, fun _ => e3, fun h => absurd h (by rw [cubeDim3 ha hb' hc']; exact hd)⟩
  have hE : ∀ {l : List (Bool × Nat × Nat × Nat)} {i j k a b c x1 y1 z1 : Nat}, a ≤ 1 → b ≤ 1 → c ≤ 1 → a + b + c = 1 → i + a ≤ N1 → j + b ≤ N2 → k + c ≤ N3 →
      (∀ x y z, (true, x, y, z) ∈ l ↔ VoxelOf [x, y, z] (boxCube i j k a b c) ∧ ∃ v, pixel3 img [x, y, z] = some v) →
      lastVox l = some (x1, y1, z1) → edgeExit N1 N2 N3 (boxCube i j k a b c) = [x1, y1, z1] →
      ∃ p, voxelLoop widenEdge img l (tmax, tlow) = .ok p ∧ ToplexInterval img N1 N2 N3 (boxCube i j k a b c) p := by
    intro l i j k a b c x1 y1 z1 ha hb' hc' hd hi hj hk hl hlast hex
    obtain ⟨x, y, z, hx⟩ := hpix i j k a b c ha hb' hc' hi hj hk
    obtain ⟨b', d, e1, e2, e3⟩ := voxelLoop_widenEdge hb hl ⟨x, y, z, (hl x y z).2 hx⟩ hlast
    exact ⟨_, e1, e2, fun h => absurd (by rw [cubeDim3 ha hb' hc']; exact hd) h, fun _ => by rw [hex]; exact e3⟩
  obtain ⟨A0, f0, g0⟩ := block_step h0 (a := 0) (b := 0) (c := 0) (by omega) (by omega) (by omega) (by simp) (by omega) (by omega) (by omega)
    (f := fun i j k => voxelLoop widen img (voxV (N1 + 1) (N2 + 1) (N3 + 1) i j k) (tmax, tlow))
    (fun i j k hi hj hk => hW (by omega) (by omega) (by omega) (by omega) hi hj hk (mem_voxV hI hi hj hk))
  obtain ⟨A1, f1, g1⟩ := block_step g0 (a := 1) (b := 0) (c := 0) (by omega) (by omega) (by omega) (by simp) (by simp) (by omega) (by omega)
    (f := fun i j k => voxelLoop widenEdge img (voxE1 (N2 + 1) (N3 + 1) i j k) (tmax, tlow))
    (fun i j k hi hj hk => hE (by omega) (by omega) (by omega) (by omega) hi hj hk (mem_voxE1 hI hi hj hk) (lastVox_E1 p2 p3 hj hk) (if_pos (by show i ≠ i + 1; omega)))
  obtain ⟨A2, f2, g2⟩ := block_step g1 (a := 0) (b := 1) (c := 0) (by omega) (by omega) (by omega) (by simp) (by omega) (by simp) (by omega)
    (f := fun i j k => voxelLoop widenEdge img (voxE2 (N1 + 1) (N3 + 1) i j k) (tmax, tlow))
    (fun i j k hi hj hk => hE (by omega) (by omega) (by omega) (by omega) hi hj hk (mem_voxE2 hI hi hj hk) (lastVox_E2 p1 p3 hi hk)
      ((if_neg (by show ¬ (i ≠ i + 0); omega)).trans (if_pos (by show j ≠ j + 1; omega))))
  obtain ⟨A3, f3, g3⟩ := block_step g2 (a := 0) (b := 0) (c := 1) (by omega) (by omega) (by omega) (by simp) (by omega) (by omega) (by simp)
    (f := fun i j k => voxelLoop widenEdge img (voxE3 (N1 + 1) (N2 + 1) i j k) (tmax, tlow))
    (fun i j k hi hj hk => hE (by omega) (by omega) (by omega) (by omega) hi hj hk (mem_voxE3 hI hi hj hk) (lastVox_E3 p1 p2 hi hj)
      ((if_neg (by show ¬ (i ≠ i + 0); omega)).trans (if_neg (by show ¬ (j ≠ j + 0); omega))))
  obtain ⟨A4, f4, g4⟩ := block_step g3 (a := 1) (b := 1) (c := 0) (by omega) (by omega) (by omega) (by simp) (by simp) (by simp) (by omega)
    (f := fun i j k => voxelLoop widen img (voxF12 (N3 + 1) i j k) (tmax, tlow))
    (fun i j k hi hj hk => hW (by omega) (by omega) (by omega) (by omega) hi hj hk (mem_voxF12 hI hi hj hk))
  obtain ⟨A5, f5, g5⟩ := block_step g4 (a := 0) (b := 1) (c := 1) (by omega) (by omega) (by omega) (by simp) (by omega) (by simp) (by simp)
    (f := fun i j k => voxelLoop widen img (voxF23 (N1 + 1) i j k) (tmax, tlow))
    (fun i j k hi hj hk => hW (by omega) (by omega) (by omega) (by omega) hi hj hk (mem_voxF23 hI hi hj hk))
  obtain ⟨A6, f6, g6⟩ := block_step g5 (a := 1) (b := 0) (c := 1) (by omega) (by omega) (by omega) (by simp) (by simp) (by omega) (by simp)
    (f := fun i j k => voxelLoop widen img (voxF13 (N2 + 1) i j k) (tmax, tlow))
    (fun i j k hi hj hk => hW (by omega) (by omega) (by omega) (by omega) hi hj hk (mem_voxF13 hI hi hj hk))
  obtain ⟨A7, f7, g7⟩ := block_step g6 (a := 1) (b := 1) (c := 1) (by omega) (by omega) (by omega) (by simp) (by simp) (by simp) (by simp)
    (f := fun i j k => voxelInterval img i j k)
    (fun i j k hi hj hk => by
      obtain ⟨v, hv⟩ := (isImage_pixel hI i j k).2 ⟨hi, hj, hk⟩
      have honly : ∀ p, VoxelOf p (boxCube i j k 1 1 1) → p = [i, j, k] := by
        intro p hp
        match p, hp.1 with
        | [x, y, z], _ =>
          have := (voxelOf_iff x y z i (i + 1) j (j + 1) k (k + 1)).1 hp
          simp only [List.cons.injEq, and_true]
          omega
      have hself : VoxelOf [i, j, k] (boxCube i j k 1 1 1) := (voxelOf_iff ..).2 (by omega)
      refine ⟨(v, v), ?_, ⟨⟨_, hself, hv⟩, ?_⟩, fun _ => ⟨⟨_, hself, hv⟩, ?_⟩, fun h => ?_⟩
      · unfold voxelInterval
        rw [Cub.pix3_iff.2 hv]; rfl
      · intro p y hp hy
        rw [honly p hp, hv] at hy; cases hy; exact le_rfl
      · intro p y hp hy
        rw [honly p hp, hv] at hy; cases hy; exact le_rfl
      · rw [cubeDim3 (by omega) (by omega) (by omega)] at h; omega)
  obtain ⟨cells, g, q1, q2, q3⟩ := g7.ex
  have hbox : shapes N1 N2 N3 ([] ++ [(0, 0, 0)] ++ [(1, 0, 0)] ++ [(0, 1, 0)] ++ [(0, 0, 1)] ++ [(1, 1, 0)] ++ [(0, 1, 1)] ++ [(1, 0, 1)] ++ [(1, 1, 1)]) =
      {s | InBox N1 N2 N3 s} := by
    ext s
    refine Iff.trans ?_ (inBox_iff s).symm
    constructor
    · rintro ⟨i, j, k, a, b, c, e, hm, q⟩
      refine ⟨i, j, k, a, b, c, e, ?_, q⟩
      simp only [List.nil_append, List.cons_append, List.mem_cons, Prod.mk.injEq, List.not_mem_nil, or_false] at hm
      omega
    · rintro ⟨i, j, k, a, b, c, e, ⟨ha, hb, hc⟩, q⟩
      refine ⟨i, j, k, a, b, c, e, ?_, q⟩
      rcases (show a = 0 ∨ a = 1 by omega) with rfl | rfl <;> rcases (show b = 0 ∨ b = 1 by omega) with rfl | rfl <;>
        rcases (show c = 0 ∨ c = 1 by omega) with rfl | rfl <;> simp
  rw [hbox] at q2 q3
  refine ⟨A7, cells, g, ?_, q1, q2, q3⟩
  rw [hdef]
  simp only
  rw [show triples (N1 + 1) (N2 + 1) (N3 + 1) = triples (N1 + 1 - 0) (N2 + 1 - 0) (N3 + 1 - 0) from rfl, f0, bind_ok]
  rw [show triples (N1 + 1 - 1) (N2 + 1) (N3 + 1) = triples (N1 + 1 - 1) (N2 + 1 - 0) (N3 + 1 - 0) from rfl, f1, bind_ok]
  rw [show triples (N1 + 1) (N2 + 1 - 1) (N3 + 1) = triples (N1 + 1 - 0) (N2 + 1 - 1) (N3 + 1 - 0) from rfl, f2, bind_ok]
  rw [show triples (N1 + 1) (N2 + 1) (N3 + 1 - 1) = triples (N1 + 1 - 0) (N2 + 1 - 0) (N3 + 1 - 1) from rfl, f3, bind_ok]
  rw [show triples (N1 + 1 - 1) (N2 + 1 - 1) (N3 + 1) = triples (N1 + 1 - 1) (N2 + 1 - 1) (N3 + 1 - 0) from rfl, f4, bind_ok]
  rw [show triples (N1 + 1) (N2 + 1 - 1) (N3 + 1 - 1) = triples (N1 + 1 - 0) (N2 + 1 - 1) (N3 + 1 - 1) from rfl, f5, bind_ok]
  rw [show triples (N1 + 1 - 1) (N2 + 1) (N3 + 1 - 1) = triples (N1 + 1 - 1) (N2 + 1 - 0) (N3 + 1 - 1) from rfl, f6, bind_ok]
  exact f7

end Zigzag
end BATS
