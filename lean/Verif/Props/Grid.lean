import Verif.Proofs.GridCub2
import Verif.Props.Light
import Verif.Props.Cubical

set_option linter.unusedSectionVars false
set_option linter.unusedVariables false
set_option linter.unusedSimpArgs false

/-! # C83, C84: grids (include/topology/grid.hpp)

`IsChain`, `triangulation`, `rowMajor2`, `rowMajor3`, `box3`, `corners`, `CubeIn` are in `Verif/Spec/Grid.lean`. -/

namespace BATS
namespace Grid
open SCpx

/-- C83: the vertex names are injective on the grid -/
theorem C83_names (n2 n3 : Nat) : (∀ p q : Nat × Nat, p.2 < n2 → q.2 < n2 → rowMajor2 n2 p = rowMajor2 n2 q → p = q) ∧
    ∀ p q : Nat × Nat × Nat, p.2.1 < n2 → q.2.1 < n2 → p.2.2 < n3 → q.2.2 < n3 → rowMajor3 n2 n3 p = rowMajor3 n2 n3 q → p = q := by
  have key : ∀ a b c d n : Nat, b < n → d < n → a * n + b = c * n + d → a = c ∧ b = d := by
    intro a b c d n hb hd h
    have h1 := congrArg (· / n) h
    have h2 := congrArg (· % n) h
    have hn : 0 < n := by omega
    simp only [Nat.mul_comm _ n, Nat.mul_add_mod, Nat.mod_eq_of_lt hb, Nat.mod_eq_of_lt hd] at h2
    simp only [Nat.mul_comm _ n, Nat.mul_add_div hn, Nat.div_eq_of_lt hb, Nat.div_eq_of_lt hd, Nat.add_zero] at h1
    exact ⟨h1, h2⟩
  refine ⟨?_, ?_⟩
  · rintro ⟨a, b⟩ ⟨c, d⟩ hb hd h
    obtain ⟨rfl, rfl⟩ := key a b c d n2 hb hd h; rfl
  · rintro ⟨a, b, c⟩ ⟨d, e, f⟩ h1 h2 h3 h4 h
    obtain ⟨h5, rfl⟩ := key _ c _ f n3 h3 h4 h
    obtain ⟨rfl, rfl⟩ := key a b d e n2 h1 h2 h5; rfl

/-- C83: `Freudenthal(m, n)` with `m, n ≥ 2` is the Freudenthal triangulation of the `m × n` grid -/
theorem C83_plane {m n : Nat} (hm : 2 ≤ m) (hn : 2 ≤ n) :
    ∃ X, freudenthal2 m n = .ok X ∧ Represents X (triangulation {p : Nat × Nat | p.1 < m ∧ p.2 < n} (rowMajor2 n)) := by
  rw [← squares_set hm hn]
  exact run_grid 2 (sortedRec_loop2 (square_sorted n))

/-- C83: `Freudenthal(n1, n2, n3)` with all sides at least 2 is the Freudenthal triangulation of the grid -/
theorem C83_space {n1 n2 n3 : Nat} (h1 : 2 ≤ n1) (h2 : 2 ≤ n2) (h3 : 2 ≤ n3) :
    ∃ X, freudenthal3 n1 n2 n3 = .ok X ∧ Represents X (triangulation (box3 0 n1 0 n2 0 n3) (rowMajor3 n2 n3)) := by
  rw [← voxels_set h1 h2 h3]
  exact run_grid 3 (sortedRec_loop3 (voxel_sorted n2 n3))

/-- C83: with a single row, column or layer the result is the empty complex, without even the vertices -/
theorem C83_degenerate {n1 n2 n3 : Nat} :
    (n1 = 1 ∨ n2 = 1 → ∃ X, freudenthal2 n1 n2 = .ok X ∧ Represents X ∅) ∧
    (n1 = 1 ∨ n2 = 1 ∨ n3 = 1 → ∃ X, freudenthal3 n1 n2 n3 = .ok X ∧ Represents X ∅) := by
  have he : simplexSet [] = (∅ : Set (List Nat)) := by ext t; simp [simplexSet]
  refine ⟨fun h => ?_, fun h => ?_⟩
  · rw [freudenthal2, loop2_nil (h.imp (fun h => steps_nil (by omega)) (fun h => steps_nil (by omega))), ← he]
    exact run_grid 2 (by intro o ho; cases ho)
  · rw [freudenthal3, loop3_nil (by
      rcases h with h | h | h
      · exact Or.inl (steps_nil (by omega))
      · exact Or.inr (Or.inl (steps_nil (by omega)))
      · exact Or.inr (Or.inr (steps_nil (by omega)))), ← he]
    exact run_grid 3 (by intro o ho; cases ho)

/-- C83: `Freudenthal` of the box `[i0, i1) × [j0, j1) × [k0, k1)`, at most one of whose sides has length one, is the part of the triangulation inside the
box, with the same vertex names as in the whole grid -/
theorem C83_box (n1 n2 n3 : Nat) {i0 i1 j0 j1 k0 k1 : Nat} (hi : i0 < i1) (hj : j0 < j1) (hk : k0 < k1)
    (h : (i1 = i0 + 1 → j1 ≠ j0 + 1) ∧ (i1 = i0 + 1 → k1 ≠ k0 + 1) ∧ (j1 = j0 + 1 → k1 ≠ k0 + 1)) :
    ∃ X, freudenthalBox n1 n2 n3 i0 i1 j0 j1 k0 k1 = .ok X ∧ Represents X (triangulation (box3 i0 i1 j0 j1 k0 k1) (rowMajor3 n2 n3)) := by
  rw [← boxOps_set hi hj hk h]
  exact run_grid 3 boxOps_sorted

/-- C83: if two of the sides have length one the result is empty -/
theorem C83_box_line (n1 n2 n3 : Nat) {i0 i1 j0 j1 k0 k1 : Nat}
    (h : (i1 = i0 + 1 ∧ j1 = j0 + 1) ∨ (i1 = i0 + 1 ∧ k1 = k0 + 1) ∨ (j1 = j0 + 1 ∧ k1 = k0 + 1)) :
    ∃ X, freudenthalBox n1 n2 n3 i0 i1 j0 j1 k0 k1 = .ok X ∧ Represents X ∅ := by
  have he : boxOps n2 n3 i0 i1 j0 j1 k0 k1 = [] := by
    unfold boxOps
    rcases h with ⟨h1, h2⟩ | ⟨h1, h2⟩ | ⟨h1, h2⟩
    · rw [steps_nil (show i1 ≤ i0 + 1 by omega), steps_nil (show j1 ≤ j0 + 1 by omega), loop3_nil (Or.inl rfl), loop3_nil (Or.inr (Or.inl rfl)),
        loop3_nil (Or.inl rfl), loop3_nil (Or.inl rfl)]; rfl
    · rw [steps_nil (show i1 ≤ i0 + 1 by omega), steps_nil (show k1 ≤ k0 + 1 by omega), loop3_nil (Or.inl rfl), loop3_nil (Or.inr (Or.inr rfl)),
        loop3_nil (Or.inl rfl), loop3_nil (Or.inl rfl)]; rfl
    · rw [steps_nil (show j1 ≤ j0 + 1 by omega), steps_nil (show k1 ≤ k0 + 1 by omega), loop3_nil (Or.inr (Or.inl rfl)), loop3_nil (Or.inr (Or.inl rfl)),
        loop3_nil (Or.inr (Or.inr rfl)), loop3_nil (Or.inr (Or.inl rfl))]; rfl
  have hs : simplexSet [] = (∅ : Set (List Nat)) := by ext t; simp [simplexSet]
  rw [← hs]
  show ∃ X, (SCpx.init 3).run (boxOps n2 n3 i0 i1 j0 j1 k0 k1) = .ok X ∧ _
  rw [he]
  exact run_grid 3 (by intro o ho; cases ho)

/-- C83: the Freudenthal triangulation of any three-dimensional cubical complex: the simplices are those of its cubes. Other complexes are rejected. -/
theorem C83_cubical {X : Cub} {D : Nat} (h : Cub.Reachable X D) (n1 n2 n3 : Nat) :
    (D = 3 → ∃ F, freudenthalCub X n1 n2 n3 = .ok F ∧
      Represents F {t | ∃ s i, s.length = 6 ∧ X.findIdx s = some i ∧ t ∈ triangulation (corners s) (rowMajor3 n2 n3)}) ∧
    (D ≠ 3 → freudenthalCub X n1 n2 n3 = .error .thrown) := by
  obtain ⟨cells, hI⟩ := h.inv
  refine ⟨?_, fun hD => ?_⟩
  · rintro rfl
    obtain ⟨F, e1, e2⟩ := freudenthalCub_spec hI n1 n2 n3
    refine ⟨F, e1, ?_⟩
    have : {t | ∃ s ∈ Cub.setOf cells, t ∈ triangulation (corners s) (rowMajor3 n2 n3)} =
        {t | ∃ s i, s.length = 6 ∧ X.findIdx s = some i ∧ t ∈ triangulation (corners s) (rowMajor3 n2 n3)} := by
      ext t
      constructor
      · rintro ⟨s, hs, ht⟩
        have hl := (hI.represents.cube s hs).1
        obtain ⟨i, hi⟩ := (hI.represents.found s hl).1 hs
        exact ⟨s, i, hl, hi, ht⟩
      · rintro ⟨s, i, hl, hi, ht⟩
        exact ⟨s, (hI.represents.found s hl).2 ⟨i, hi⟩, ht⟩
    rw [← this]; exact e2
  · unfold freudenthalCub
    rw [if_pos (by show X.D ≠ 3; rw [hI.sizes.dim]; exact hD)]

/-! ### light complexes -/

theorem light_run {W n k : Nat} (h1 : 1 < W) (h : n ^ (k + 1) ≤ W) (stray : Nat) {ops : List SCpx.Op} (hs : SortedRec ops)
    (hv : ∀ o ∈ ops, o.simplex.length ≤ k + 1) (hn : ∀ t ∈ simplexSet ops, ∀ x ∈ t, x < n) :
    ∃ L, (Light.init W n k).run stray (ops.map lightOp) = .ok L ∧ Light.Represents L n k (simplexSet ops) := by
  have hval : ∀ o ∈ ops, ∃ s, o = .addRecursive s ∧ Light.Valid n k s := by
    intro o ho
    obtain ⟨s, _, s2, rfl⟩ := hs o ho
    exact ⟨s, rfl, s2, hv _ ho, hn s ⟨s, ho, s2, List.Sublist.refl _⟩⟩
  have hall : ∀ (l : List SCpx.Op) (K : Set (List Nat)), (∀ o ∈ l, ∃ s, o = .addRecursive s ∧ Light.Valid n k s) → Light.AllowedRun n k K (l.map lightOp) := by
    intro l
    induction l with
    | nil => intro K _; trivial
    | cons o l ih =>
      intro K hl
      obtain ⟨s, rfl, hs⟩ := hl o (by simp)
      exact ⟨hs, ih _ (fun o ho => hl o (List.mem_cons_of_mem _ ho))⟩
  have hset : ∀ (l : List SCpx.Op) (K : Set (List Nat)), (∀ o ∈ l, ∃ s, o = .addRecursive s ∧ Light.Valid n k s) →
      (l.map lightOp).foldl Light.specStep K = {t | t ∈ K ∨ t ∈ simplexSet l} := by
    intro l
    induction l with
    | nil => intro K _; ext t; simp [simplexSet]
    | cons o l ih =>
      intro K hl
      obtain ⟨s, rfl, hs⟩ := hl o (by simp)
      rw [List.map_cons, List.foldl_cons, ih _ (fun o ho => hl o (List.mem_cons_of_mem _ ho))]
      ext t
      constructor
      · rintro ((ht | ht) | ⟨s', q1, q2⟩)
        · exact Or.inl ht
        · exact Or.inr ⟨s, by simp, ht⟩
        · exact Or.inr ⟨s', List.mem_cons_of_mem _ q1, q2⟩
      · rintro (ht | ⟨s', q1, q2⟩)
        · exact Or.inl (Or.inl ht)
        · rcases List.mem_cons.1 q1 with q1 | q1
          · injection q1 with q1
            subst q1
            exact Or.inl (Or.inr q2)
          · exact Or.inr ⟨s', q1, q2⟩
  obtain ⟨L, e1, e2⟩ := C54_history h1 h stray (ops.map lightOp) (hall ops ∅ hval)
  refine ⟨L, e1, ?_⟩
  unfold Light.specRun at e2
  rw [hset ops ∅ hval] at e2
  have he : {t | t ∈ (∅ : Set (List Nat)) ∨ t ∈ simplexSet ops} = simplexSet ops := by ext s; simp
  rw [he] at e2
  exact e2

theorem rowMajor2_lt {m n : Nat} {p : Nat × Nat} (h1 : p.1 < m) (h2 : p.2 < n) : rowMajor2 n p < m * n := by
  unfold rowMajor2
  have := Nat.mul_le_mul_right n (Nat.succ_le_of_lt h1)
  rw [Nat.succ_mul] at this
  omega

theorem rowMajor3_lt {n1 n2 n3 : Nat} {p : Nat × Nat × Nat} (h1 : p.1 < n1) (h2 : p.2.1 < n2) (h3 : p.2.2 < n3) : rowMajor3 n2 n3 p < n1 * n2 * n3 :=
  rowMajor2_lt (p := (p.1 * n2 + p.2.1, p.2.2)) (rowMajor2_lt (p := (p.1, p.2.1)) h1 h2) h3

/-- C83: the same for `LightSimplicialComplex`, provided that the keys of all simplices fit: `(m n)^3 ≤ 2^64`, resp. `(n1 n2 n3)^4 ≤ 2^64` -/
theorem C83_light {W n1 n2 n3 : Nat} (hW : 1 < W) (stray : Nat) (h1 : 2 ≤ n1) (h2 : 2 ≤ n2) :
    ((n1 * n2) ^ 3 ≤ W → ∃ L, freudenthal2Light W stray n1 n2 = .ok L ∧
      Light.Represents L (n1 * n2) 2 (triangulation {p : Nat × Nat | p.1 < n1 ∧ p.2 < n2} (rowMajor2 n2))) ∧
    (2 ≤ n3 → (n1 * n2 * n3) ^ 4 ≤ W → ∃ L, freudenthal3Light W stray n1 n2 n3 = .ok L ∧
      Light.Represents L (n1 * n2 * n3) 3 (triangulation (box3 0 n1 0 n2 0 n3) (rowMajor3 n2 n3))) := by
  refine ⟨fun hk => ?_, fun h3 hk => ?_⟩
  · rw [← squares_set h1 h2]
    refine light_run hW hk stray (sortedRec_loop2 (square_sorted n2)) ?_ ?_
    · intro o ho
      obtain ⟨i, _, j, _, h⟩ := mem_loop2.1 ho
      simp only [square, List.mem_cons, List.not_mem_nil, or_false] at h
      rcases h with rfl | rfl <;> simp [SCpx.Op.simplex]
    · intro t ht x hx
      rw [squares_set h1 h2] at ht
      obtain ⟨l, _, hl, rfl⟩ := ht
      obtain ⟨p, hp, rfl⟩ := List.mem_map.1 hx
      exact rowMajor2_lt (hl p hp).1 (hl p hp).2
  · rw [← voxels_set h1 h2 h3]
    refine light_run hW hk stray (sortedRec_loop3 (voxel_sorted n2 n3)) ?_ ?_
    · intro o ho
      obtain ⟨i, _, j, _, k, _, h⟩ := mem_loop3.1 ho
      simp only [voxel, tets, List.mem_cons, List.not_mem_nil, or_false] at h
      rcases h with rfl | rfl | rfl | rfl | rfl | rfl <;> simp [SCpx.Op.simplex]
    · intro t ht x hx
      rw [voxels_set h1 h2 h3] at ht
      obtain ⟨l, _, hl, rfl⟩ := ht
      obtain ⟨p, hp, rfl⟩ := List.mem_map.1 hx
      obtain ⟨q1, q2, q3⟩ := hl p hp
      exact rowMajor3_lt q1.2 q2.2 q3.2

/-- C83: boxes inside the grid, for `LightSimplicialComplex` -/
theorem C83_light_box {W n1 n2 n3 i0 i1 j0 j1 k0 k1 : Nat} (hW : 1 < W) (hk' : (n1 * n2 * n3) ^ 4 ≤ W) (stray : Nat)
    (hi : i0 < i1 ∧ i1 ≤ n1) (hj : j0 < j1 ∧ j1 ≤ n2) (hk : k0 < k1 ∧ k1 ≤ n3)
    (h : (i1 = i0 + 1 → j1 ≠ j0 + 1) ∧ (i1 = i0 + 1 → k1 ≠ k0 + 1) ∧ (j1 = j0 + 1 → k1 ≠ k0 + 1)) :
    ∃ L, freudenthalBoxLight W stray n1 n2 n3 i0 i1 j0 j1 k0 k1 = .ok L ∧
      Light.Represents L (n1 * n2 * n3) 3 (triangulation (box3 i0 i1 j0 j1 k0 k1) (rowMajor3 n2 n3)) := by
  rw [← boxOps_set hi.1 hj.1 hk.1 h]
  refine light_run hW hk' stray boxOps_sorted ?_ ?_
  · intro o ho
    unfold boxOps at ho
    simp only [List.mem_append] at ho
    rcases ho with ((ho | ho) | ho) | ho <;> obtain ⟨i, _, j, _, k, _, h⟩ := mem_loop3.1 ho
    · simp only [sqIJ, List.mem_cons, List.not_mem_nil, or_false] at h
      rcases h with rfl | rfl <;> simp [SCpx.Op.simplex]
    · simp only [sqJK, List.mem_cons, List.not_mem_nil, or_false] at h
      rcases h with rfl | rfl <;> simp [SCpx.Op.simplex]
    · simp only [sqIK, List.mem_cons, List.not_mem_nil, or_false] at h
      rcases h with rfl | rfl <;> simp [SCpx.Op.simplex]
    · simp only [voxel, tets, List.mem_cons, List.not_mem_nil, or_false] at h
      rcases h with rfl | rfl | rfl | rfl | rfl | rfl <;> simp [SCpx.Op.simplex]
  · intro t ht x hx
    have ht : t ∈ simplexSet (boxOps n2 n3 i0 i1 j0 j1 k0 k1) := ht
    rw [boxOps_set hi.1 hj.1 hk.1 h] at ht
    obtain ⟨l, _, hl, rfl⟩ := ht
    obtain ⟨p, hp, rfl⟩ := List.mem_map.1 hx
    obtain ⟨q1, q2, q3⟩ := hl p hp
    exact rowMajor3_lt (by omega) (by omega) (by omega)

/-! ### cubical grids -/

theorem cub_specRun_rec {D : Nat} : ∀ (L : List (List Nat)) (K : Set (List Nat)),
    (L.map Cub.Op.addRecursive).foldl (Cub.specStep D) K = {t | t ∈ K ∨ ∃ s ∈ L, CubeFace D t s}
  | [], K => by ext t; simp
  | s :: L, K => by
    rw [List.map_cons, List.foldl_cons, cub_specRun_rec L]
    ext t
    constructor
    · rintro ((h | h) | ⟨s', h1, h2⟩)
      · exact Or.inl h
      · exact Or.inr ⟨s, by simp, h⟩
      · exact Or.inr ⟨s', List.mem_cons_of_mem _ h1, h2⟩
    · rintro (h | ⟨s', h1, h2⟩)
      · exact Or.inl (Or.inl h)
      · rcases List.mem_cons.1 h1 with rfl | h1
        · exact Or.inl (Or.inr h2)
        · exact Or.inr ⟨s', h1, h2⟩

theorem run_cubes {D : Nat} (hD : 0 < D) (L : List (List Nat)) (hL : ∀ s ∈ L, IsCube D s) :
    ∃ X, (Cub.init D).run (L.map Cub.Op.addRecursive) = .ok X ∧ Cub.Represents X D {t | ∃ s ∈ L, CubeFace D t s} := by
  obtain ⟨X, h1, h2⟩ := C23_history hD (L.map Cub.Op.addRecursive) (by
    intro o ho
    obtain ⟨s, hs, rfl⟩ := List.mem_map.1 ho
    exact hL s hs)
  refine ⟨X, h1, ?_⟩
  unfold Cub.specRun at h2
  rw [cub_specRun_rec] at h2
  have he : {t | t ∈ (∅ : Set (List Nat)) ∨ ∃ s ∈ L, CubeFace D t s} = {t | ∃ s ∈ L, CubeFace D t s} := by ext t; simp
  rw [he] at h2; exact h2

theorem loop3_map {A B : Type} (g : A → B) (I J K : List Nat) (f : Nat → Nat → Nat → A) :
    loop3 I J K (fun i j k => [g (f i j k)]) = (loop3 I J K (fun i j k => [f i j k])).map g := by
  simp only [loop3, List.map_flatMap, List.map_cons, List.map_nil]

theorem loop2_map {A B : Type} (g : A → B) (I J : List Nat) (f : Nat → Nat → A) :
    loop2 I J (fun i j => [g (f i j)]) = (loop2 I J (fun i j => [f i j])).map g := by
  simp only [loop2, List.map_flatMap, List.map_cons, List.map_nil]


theorem isCube2_iff (s : List Nat) : IsCube 2 s ↔ ∃ i j a b, s = [i, i + a, j, j + b] ∧ a ≤ 1 ∧ b ≤ 1 := by
  constructor
  · rintro ⟨h1, h2⟩
    match s, h1 with
    | [p, q, r, t], _ =>
      have e0 : q = p ∨ q = p + 1 := h2 0 (by omega)
      have e1 : t = r ∨ t = r + 1 := h2 1 (by omega)
      exact ⟨p, r, q - p, t - r, by rcases e0 with rfl | rfl <;> rcases e1 with rfl | rfl <;> simp, by omega, by omega⟩
  · rintro ⟨i, j, a, b, rfl, ha, hb⟩
    refine ⟨rfl, fun m hm => ?_⟩
    rcases (show m = 0 ∨ m = 1 by omega) with rfl | rfl
    · show i + a = i ∨ i + a = i + 1
      omega
    · show j + b = j ∨ j + b = j + 1
      omega

open Zigzag (boxCube isCube3 isCube3_iff)

theorem face2 {i j a b i' j' a' b' : Nat} (ha : a ≤ 1) (hb : b ≤ 1) :
    CubeFace 2 [i, i + a, j, j + b] [i', i' + a', j', j' + b'] ↔ (i' ≤ i ∧ i + a ≤ i' + a') ∧ (j' ≤ j ∧ j + b ≤ j' + b') := by
  constructor
  · rintro ⟨_, h⟩
    exact ⟨h 0 (by omega), h 1 (by omega)⟩
  · rintro ⟨h1, h2⟩
    refine ⟨(isCube2_iff _).2 ⟨i, j, a, b, rfl, ha, hb⟩, fun m hm => ?_⟩
    rcases (show m = 0 ∨ m = 1 by omega) with rfl | rfl
    · exact h1
    · exact h2

theorem face3 {i j k a b c i' j' k' a' b' c' : Nat} (ha : a ≤ 1) (hb : b ≤ 1) (hc : c ≤ 1) :
    CubeFace 3 (boxCube i j k a b c) (boxCube i' j' k' a' b' c') ↔
      (i' ≤ i ∧ i + a ≤ i' + a') ∧ (j' ≤ j ∧ j + b ≤ j' + b') ∧ (k' ≤ k ∧ k + c ≤ k' + c') := by
  constructor
  · rintro ⟨_, h⟩
    exact ⟨h 0 (by omega), h 1 (by omega), h 2 (by omega)⟩
  · rintro ⟨h1, h2, h3⟩
    refine ⟨isCube3 ha hb hc, fun m hm => ?_⟩
    rcases (show m = 0 ∨ m = 1 ∨ m = 2 by omega) with rfl | rfl | rfl
    · exact h1
    · exact h2
    · exact h3

theorem cubeIn_box {i j k a b c i0 i1 j0 j1 k0 k1 : Nat} (ha : a ≤ 1) (hb : b ≤ 1) (hc : c ≤ 1) :
    CubeIn i0 i1 j0 j1 k0 k1 (boxCube i j k a b c) ↔ (i0 ≤ i ∧ i + a ≤ i1) ∧ (j0 ≤ j ∧ j + b ≤ j1) ∧ (k0 ≤ k ∧ k + c ≤ k1) :=
  ⟨fun h => h.2, fun h => ⟨isCube3 ha hb hc, h⟩⟩

/-- C84: `Cube(m, n)` with `m, n ≥ 2` consists of all elementary cubes of the rectangle `[0, m - 1] × [0, n - 1]` -/
theorem C84_plane {m n : Nat} (hm : 2 ≤ m) (hn : 2 ≤ n) :
    ∃ X, cube2 m n = .ok X ∧ Cub.Represents X 2 {s | IsCube 2 s ∧ hi s 0 < m ∧ hi s 1 < n} := by
  obtain ⟨X, e1, e2⟩ := run_cubes (D := 2) (by omega) (loop2 (steps 0 m 1) (steps 0 n 1) fun i j => [[i, i + 1, j, j + 1]]) (by
    intro s hs
    obtain ⟨i, _, j, _, h⟩ := mem_loop2.1 hs
    rw [List.mem_singleton.1 h]
    exact (isCube2_iff _).2 ⟨i, j, 1, 1, rfl, le_refl _, le_refl _⟩)
  refine ⟨X, by rw [cube2, loop2_map Cub.Op.addRecursive]; exact e1, ?_⟩
  have he : {t | ∃ s ∈ loop2 (steps 0 m 1) (steps 0 n 1) (fun i j => [[i, i + 1, j, j + 1]]), CubeFace 2 t s} =
      {s | IsCube 2 s ∧ hi s 0 < m ∧ hi s 1 < n} := by
    ext t
    constructor
    · rintro ⟨s, hs, hf⟩
      obtain ⟨i, q1, j, q2, h⟩ := mem_loop2.1 hs
      rw [mem_steps] at q1 q2
      rw [List.mem_singleton.1 h] at hf
      have f0 : hi t 0 ≤ i + 1 := (hf.2 0 (by omega)).2
      have f1 : hi t 1 ≤ j + 1 := (hf.2 1 (by omega)).2
      exact ⟨hf.1, by omega, by omega⟩
    · rintro ⟨hc, h0, h1⟩
      obtain ⟨i, j, a, b, rfl, ha, hb⟩ := (isCube2_iff _).1 hc
      have h0 : i + a < m := h0
      have h1 : j + b < n := h1
      refine ⟨[min i (m - 2), min i (m - 2) + 1, min j (n - 2), min j (n - 2) + 1],
        mem_loop2.2 ⟨min i (m - 2), mem_steps.2 ⟨by omega, by omega⟩, min j (n - 2), mem_steps.2 ⟨by omega, by omega⟩, by simp⟩, ?_⟩
      exact (face2 ha hb).2 ⟨by omega, by omega⟩
  rw [← he]; exact e2

/-- the cubes added by `Cube` of a box -/
def boxCubes (i0 i1 j0 j1 k0 k1 : Nat) : List (List Nat) :=
  loop3 (steps i0 i1 1) (steps j0 j1 1) (steps k0 k1 0) (fun i j k => [boxCube i j k 1 1 0]) ++
  loop3 (steps i0 i1 0) (steps j0 j1 1) (steps k0 k1 1) (fun i j k => [boxCube i j k 0 1 1]) ++
  loop3 (steps i0 i1 1) (steps j0 j1 0) (steps k0 k1 1) (fun i j k => [boxCube i j k 1 0 1]) ++
  loop3 (steps i0 i1 1) (steps j0 j1 1) (steps k0 k1 1) (fun i j k => [boxCube i j k 1 1 1])

theorem mem_boxCubes {i0 i1 j0 j1 k0 k1 : Nat} {s : List Nat} : s ∈ boxCubes i0 i1 j0 j1 k0 k1 ↔
    ∃ i j k a b c, s = boxCube i j k a b c ∧ ((a = 1 ∧ b = 1 ∧ c = 0) ∨ (a = 0 ∧ b = 1 ∧ c = 1) ∨ (a = 1 ∧ b = 0 ∧ c = 1) ∨ (a = 1 ∧ b = 1 ∧ c = 1)) ∧
      (i0 ≤ i ∧ i + a < i1) ∧ (j0 ≤ j ∧ j + b < j1) ∧ (k0 ≤ k ∧ k + c < k1) := by
  unfold boxCubes
  simp only [List.mem_append, mem_loop3, mem_steps, List.mem_singleton]
  constructor
  · rintro (((⟨i, hi, j, hj, k, hk, rfl⟩ | ⟨i, hi, j, hj, k, hk, rfl⟩) | ⟨i, hi, j, hj, k, hk, rfl⟩) | ⟨i, hi, j, hj, k, hk, rfl⟩)
    · exact ⟨i, j, k, 1, 1, 0, rfl, by omega, hi, hj, hk⟩
    · exact ⟨i, j, k, 0, 1, 1, rfl, by omega, hi, hj, hk⟩
    · exact ⟨i, j, k, 1, 0, 1, rfl, by omega, hi, hj, hk⟩
    · exact ⟨i, j, k, 1, 1, 1, rfl, by omega, hi, hj, hk⟩
  · rintro ⟨i, j, k, a, b, c, rfl, ⟨rfl, rfl, rfl⟩ | ⟨rfl, rfl, rfl⟩ | ⟨rfl, rfl, rfl⟩ | ⟨rfl, rfl, rfl⟩, hi, hj, hk⟩
    · exact Or.inl (Or.inl (Or.inl ⟨i, hi, j, hj, k, hk, rfl⟩))
    · exact Or.inl (Or.inl (Or.inr ⟨i, hi, j, hj, k, hk, rfl⟩))
    · exact Or.inl (Or.inr ⟨i, hi, j, hj, k, hk, rfl⟩)
    · exact Or.inr ⟨i, hi, j, hj, k, hk, rfl⟩

theorem cubeBox_run (n1 n2 n3 i0 i1 j0 j1 k0 k1 : Nat) : ∃ X, cubeBox n1 n2 n3 i0 i1 j0 j1 k0 k1 = .ok X ∧
    Cub.Represents X 3 {t | ∃ s ∈ boxCubes i0 i1 j0 j1 k0 k1, CubeFace 3 t s} := by
  obtain ⟨X, e1, e2⟩ := run_cubes (D := 3) (by omega) (boxCubes i0 i1 j0 j1 k0 k1) (by
    intro s hs
    obtain ⟨i, j, k, a, b, c, rfl, h, _⟩ := mem_boxCubes.1 hs
    exact isCube3 (by omega) (by omega) (by omega))
  refine ⟨X, ?_, e2⟩
  rw [← e1, cubeBox, boxCubes, List.map_append, List.map_append, List.map_append, ← loop3_map, ← loop3_map, ← loop3_map, ← loop3_map]
  rfl

/-- C84: `Cube` of the box `[i0, i1) × [j0, j1) × [k0, k1)`, at most one of whose sides has length one, consists of all elementary cubes whose corners are
in the box -/
theorem C84_box (n1 n2 n3 : Nat) {i0 i1 j0 j1 k0 k1 : Nat} (h0 : i0 < i1) (h1 : j0 < j1) (h2 : k0 < k1)
    (h : (i1 = i0 + 1 → j1 ≠ j0 + 1) ∧ (i1 = i0 + 1 → k1 ≠ k0 + 1) ∧ (j1 = j0 + 1 → k1 ≠ k0 + 1)) :
    ∃ X, cubeBox n1 n2 n3 i0 i1 j0 j1 k0 k1 = .ok X ∧ Cub.Represents X 3 {s | CubeIn i0 (i1 - 1) j0 (j1 - 1) k0 (k1 - 1) s} := by
  have he : {t | ∃ s ∈ boxCubes i0 i1 j0 j1 k0 k1, CubeFace 3 t s} = {s | CubeIn i0 (i1 - 1) j0 (j1 - 1) k0 (k1 - 1) s} := by
    ext t
    constructor
    · rintro ⟨s, hs, hf⟩
      obtain ⟨i', j', k', a', b', c', rfl, _, q1, q2, q3⟩ := mem_boxCubes.1 hs
      obtain ⟨i, j, k, a, b, c, rfl, ha, hb, hc⟩ := (isCube3_iff t).1 hf.1
      obtain ⟨f1, f2, f3⟩ := (face3 ha hb hc).1 hf
      exact (cubeIn_box ha hb hc).2 ⟨by omega, by omega, by omega⟩
    · intro ht
      obtain ⟨i, j, k, a, b, c, rfl, ha, hb, hc⟩ := (isCube3_iff t).1 ht.1
      obtain ⟨f1, f2, f3⟩ := (cubeIn_box ha hb hc).1 ht
      by_cases c1 : i1 = i0 + 1
      · refine ⟨boxCube i0 (min j (j1 - 2)) (min k (k1 - 2)) 0 1 1, mem_boxCubes.2 ⟨_, _, _, _, _, _, rfl, by omega, by omega, by omega, by omega⟩, ?_⟩
        exact (face3 ha hb hc).2 ⟨by omega, by omega, by omega⟩
      · by_cases c2 : j1 = j0 + 1
        · refine ⟨boxCube (min i (i1 - 2)) j0 (min k (k1 - 2)) 1 0 1, mem_boxCubes.2 ⟨_, _, _, _, _, _, rfl, by omega, by omega, by omega, by omega⟩, ?_⟩
          exact (face3 ha hb hc).2 ⟨by omega, by omega, by omega⟩
        · by_cases c3 : k1 = k0 + 1
          · refine ⟨boxCube (min i (i1 - 2)) (min j (j1 - 2)) k0 1 1 0, mem_boxCubes.2 ⟨_, _, _, _, _, _, rfl, by omega, by omega, by omega, by omega⟩, ?_⟩
            exact (face3 ha hb hc).2 ⟨by omega, by omega, by omega⟩
          · refine ⟨boxCube (min i (i1 - 2)) (min j (j1 - 2)) (min k (k1 - 2)) 1 1 1,
              mem_boxCubes.2 ⟨_, _, _, _, _, _, rfl, by omega, by omega, by omega, by omega⟩, ?_⟩
            exact (face3 ha hb hc).2 ⟨by omega, by omega, by omega⟩
  rw [← he]
  exact cubeBox_run n1 n2 n3 i0 i1 j0 j1 k0 k1

/-- C84: if two of the sides have length one the result is empty, without vertices -/
theorem C84_box_line (n1 n2 n3 : Nat) {i0 i1 j0 j1 k0 k1 : Nat}
    (h : (i1 = i0 + 1 ∧ j1 = j0 + 1) ∨ (i1 = i0 + 1 ∧ k1 = k0 + 1) ∨ (j1 = j0 + 1 ∧ k1 = k0 + 1)) :
    ∃ X, cubeBox n1 n2 n3 i0 i1 j0 j1 k0 k1 = .ok X ∧ Cub.Represents X 3 ∅ := by
  have he : {t | ∃ s ∈ boxCubes i0 i1 j0 j1 k0 k1, CubeFace 3 t s} = ∅ := by
    ext t
    simp only [Set.mem_ofPred_eq, Set.mem_empty_iff_false, iff_false]
    rintro ⟨s, hs, _⟩
    obtain ⟨i, j, k, a, b, c, _, q0, q1, q2, q3⟩ := mem_boxCubes.1 hs
    omega
  rw [← he]
  exact cubeBox_run n1 n2 n3 i0 i1 j0 j1 k0 k1

/-- C84: `Cube(n1, n2, n3)` with all sides at least 2 consists of all elementary cubes of `[0, n1 - 1] × [0, n2 - 1] × [0, n3 - 1]` -/
theorem C84_space {n1 n2 n3 : Nat} (h1 : 2 ≤ n1) (h2 : 2 ≤ n2) (h3 : 2 ≤ n3) :
    ∃ X, cube3 n1 n2 n3 = .ok X ∧ Cub.Represents X 3 {s | CubeIn 0 (n1 - 1) 0 (n2 - 1) 0 (n3 - 1) s} := by
  obtain ⟨X, e1, e2⟩ := run_cubes (D := 3) (by omega) (loop3 (steps 0 n1 1) (steps 0 n2 1) (steps 0 n3 1) fun i j k => [boxCube i j k 1 1 1]) (by
    intro s hs
    obtain ⟨i, _, j, _, k, _, h⟩ := mem_loop3.1 hs
    rw [List.mem_singleton.1 h]
    exact isCube3 (le_refl _) (le_refl _) (le_refl _))
  refine ⟨X, by rw [← e1, ← loop3_map]; rfl, ?_⟩
  have he : {t | ∃ s ∈ loop3 (steps 0 n1 1) (steps 0 n2 1) (steps 0 n3 1) (fun i j k => [boxCube i j k 1 1 1]), CubeFace 3 t s} =
      {s | CubeIn 0 (n1 - 1) 0 (n2 - 1) 0 (n3 - 1) s} := by
    ext t
    constructor
    · rintro ⟨s, hs, hf⟩
      obtain ⟨i', q1, j', q2, k', q3, h⟩ := mem_loop3.1 hs
      rw [mem_steps] at q1 q2 q3
      rw [List.mem_singleton.1 h] at hf
      obtain ⟨i, j, k, a, b, c, rfl, ha, hb, hc⟩ := (isCube3_iff t).1 hf.1
      obtain ⟨f1, f2, f3⟩ := (face3 ha hb hc).1 hf
      exact (cubeIn_box ha hb hc).2 ⟨by omega, by omega, by omega⟩
    · intro ht
      obtain ⟨i, j, k, a, b, c, rfl, ha, hb, hc⟩ := (isCube3_iff t).1 ht.1
      obtain ⟨f1, f2, f3⟩ := (cubeIn_box ha hb hc).1 ht
      refine ⟨boxCube (min i (n1 - 2)) (min j (n2 - 2)) (min k (n3 - 2)) 1 1 1, mem_loop3.2 ⟨min i (n1 - 2), mem_steps.2 ⟨by omega, by omega⟩,
        min j (n2 - 2), mem_steps.2 ⟨by omega, by omega⟩, min k (n3 - 2), mem_steps.2 ⟨by omega, by omega⟩, by simp⟩, ?_⟩
      exact (face3 ha hb hc).2 ⟨by omega, by omega, by omega⟩
  rw [← he]; exact e2

/-- C84: with a single row, column or layer the result is the empty complex -/
theorem C84_degenerate {n1 n2 n3 : Nat} :
    (n1 = 1 ∨ n2 = 1 → ∃ X, cube2 n1 n2 = .ok X ∧ Cub.Represents X 2 ∅) ∧
    (n1 = 1 ∨ n2 = 1 ∨ n3 = 1 → ∃ X, cube3 n1 n2 n3 = .ok X ∧ Cub.Represents X 3 ∅) := by
  refine ⟨fun h => ?_, fun h => ?_⟩
  · rw [cube2, loop2_nil (h.imp (fun h => steps_nil (by omega)) (fun h => steps_nil (by omega)))]
    have he : {t | ∃ s ∈ ([] : List (List Nat)), CubeFace 2 t s} = ∅ := by ext t; simp
    rw [← he]
    exact run_cubes (by omega) [] (by simp)
  · rw [cube3, loop3_nil (by
      rcases h with h | h | h
      · exact Or.inl (steps_nil (by omega))
      · exact Or.inr (Or.inl (steps_nil (by omega)))
      · exact Or.inr (Or.inr (steps_nil (by omega))))]
    have he : {t | ∃ s ∈ ([] : List (List Nat)), CubeFace 3 t s} = ∅ := by ext t; simp
    rw [← he]
    exact run_cubes (by omega) [] (by simp)

/-! ### witnesses -/

/-- the square of side 1: two triangles, five edges, four vertices -/
example : (do let X ← freudenthal2 2 2; pure (X.getSimplices 0, X.getSimplices 1, X.getSimplices 2)) =
    .ok (.ok [[0], [2], [3], [1]], .ok [[0, 2], [0, 3], [2, 3], [0, 1], [1, 3]], .ok [[0, 2, 3], [0, 1, 3]]) := by decide +kernel

/-- a simplex of the triangulation of space: `(0,0,0) < (0,1,0) < (1,1,1)` -/
example : IsChain [((0, 0, 0) : Nat × Nat × Nat), (0, 1, 0), (1, 1, 1)] := by
  refine ⟨by simp, by simp [List.pairwise_cons, Prod.lt_iff], by simp [Prod.le_def]⟩

/-- not a simplex: the other diagonal of a square -/
example : ¬ IsChain [((0, 1) : Nat × Nat), (1, 0)] := by
  rintro ⟨_, h, _⟩
  simp [List.pairwise_cons, Prod.lt_iff] at h

/-- a box which is a layer, in a `3 × 3 × 3` grid -/
example : ∃ X, freudenthalBox 3 3 3 1 2 0 3 1 3 = .ok X ∧ SCpx.Represents X (triangulation (box3 1 2 0 3 1 3) (rowMajor3 3 3)) :=
  C83_box 3 3 3 (by omega) (by omega) (by omega) (by omega)

/-- the keys of the light complex: with 64 bits a grid of 2^16 vertices is fine -/
example : 1 < 2 ^ 64 ∧ (32 * 32 * 64) ^ 4 ≤ 2 ^ 64 := by decide

example : ∃ X, cubeBox 3 3 3 0 3 1 2 0 2 = .ok X ∧ Cub.Represents X 3 {s | CubeIn 0 2 1 1 0 1 s} :=
  C84_box 3 3 3 (by omega) (by omega) (by omega) (by omega)

/-- a cubical complex of dimension 3 which is not a grid, and its triangulation -/
example : (do
    let X ← (Cub.init 3).run [.addRecursive [0, 1, 0, 1, 0, 0], .addRecursive [1, 2, 0, 0, 0, 0]]
    let F ← freudenthalCub X 3 2 1
    pure (F.getSimplices 1)) = .ok (.ok [[2, 3], [0, 1], [1, 3], [0, 2], [2, 4], [0, 3]]) := by decide +kernel

end Grid
end BATS
