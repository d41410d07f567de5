import Verif.Proofs.Toplex
import Verif.Proofs.CubicalLevel

set_option linter.unusedSectionVars false
set_option linter.unusedVariables false
set_option linter.unusedSimpArgs false

/-! # C82: zigzag filtrations of cubical complexes and of images (include/zigzag/zigzag_filtration.hpp, include/topology/levelset.hpp:22-233)

`intervalsOf`, `FacesFirst`, `CubHistRepresents`, `FirstEndIn`, `IsImage`, `InBox`, `VoxelOf`, `IsVoxelMin`, `IsVoxelMax`, `edgeExit`, `ToplexInterval` are
in `Verif/Spec/CubicalZigzag.lean`. -/

namespace BATS
namespace Zigzag
open Cub Reduction

variable {T : Type} [LinearOrder T]

theorem czLevel {Φ : CZFilt T} {D : Nat} {cells : SCpx.Cells} {g : List Nat → List (T × T)} (h : CZInv Φ D cells g)
    (hne : ∀ s ∈ Cub.setOf cells, g s ≠ []) (s0 s1 : T) :
    ∃ Y, cubLevelset Φ s0 s1 = .ok Y ∧ Cub.Represents Y D {s | s ∈ Cub.setOf cells ∧ ∀ t, CubeFace D t s → FirstEndIn s0 s1 (g t)} := by
  obtain ⟨Y, cy, e1, e2, e3⟩ := cubLevelset_spec h hne s0 s1
  exact ⟨Y, e1, by rw [← e3]; exact e2.represents⟩

/-- C82: a history of additions of cubes in which every cube comes after its faces of codimension one (repeated additions allowed) gives a filtration that
holds exactly the added cubes, every cube with all its intervals in the order of the additions; `levelset(s0, s1)` is the largest subcomplex of cubes
one of whose first entry and first exit lies strictly between `s0` and `s1`. -/
theorem C82_history {D : Nat} (hD : 0 < D) (ops : List ((T × T) × List Nat)) (hc : ∀ o ∈ ops, IsCube D o.2) (hf : FacesFirst D ops) :
    ∃ Φ, (CZFilt.init D : CZFilt T).run ops = .ok Φ ∧ CubHistRepresents Φ D {s | s ∈ ops.map Prod.snd} (intervalsOf ops) ∧
      ∀ s0 s1, ∃ Y, cubLevelset Φ s0 s1 = .ok Y ∧
        Cub.Represents Y D {s | s ∈ ops.map Prod.snd ∧ ∀ t, CubeFace D t s → FirstEndIn s0 s1 (intervalsOf ops t)} := by
  obtain ⟨Φ, cells, e1, e2, e3⟩ := run_ok ops (init_czinv (T := T) hD) hc (fun pre o post he i hi =>
    ⟨Or.inr (hf pre o post he i hi).1, Or.inr (hf pre o post he i hi).2⟩)
  have hset : Cub.setOf cells = {s | s ∈ ops.map Prod.snd} := by
    rw [e3]
    ext t
    constructor
    · rintro (h | h)
      · simp [Cub.setOf] at h
      · exact h
    · intro h; exact Or.inr h
  have hg : (fun s => ([] : List (T × T)) ++ intervalsOf ops s) = intervalsOf ops := by funext s; rfl
  rw [hg] at e2
  refine ⟨Φ, e1, by rw [← hset]; exact czinv_represents e2, fun s0 s1 => ?_⟩
  obtain ⟨Y, y1, y2⟩ := czLevel e2 (by
    intro s hs
    rw [hset] at hs
    obtain ⟨o, ho, rfl⟩ := List.mem_map.1 hs
    unfold intervalsOf
    intro h
    rw [List.map_eq_nil_iff, List.filter_eq_nil_iff] at h
    exact h o ho (by simp)) s0 s1
  rw [hset] at y2
  exact ⟨Y, y1, y2⟩

/-- C82: if some cube is added before one of its faces, the interval is written out of range -/
theorem C82_history_error {D : Nat} (hD : 0 < D) (ops : List ((T × T) × List Nat)) (hc : ∀ o ∈ ops, IsCube D o.2) (hf : ¬ FacesFirst D ops) :
    (CZFilt.init D : CZFilt T).run ops = .error .ub := run_fail ops hD hc hf

/-- C82: `zigzag_toplex` of an image with `n1 × n2 × n3` voxels holds exactly the cubes of the box, every one with one interval: from the least to the
greatest value of the voxels that contain it, except that the exit of an edge is the value of one particular voxel that contains it. Its level sets are
as in `C82_history`. -/
theorem C82_toplex {img : List (List (List T))} {n1 n2 n3 : Nat} (hI : IsImage img n1 n2 n3) {tmax tlow : T}
    (hb : ∀ p v, pixel3 img p = some v → tlow ≤ v ∧ v ≤ tmax) :
    ∃ Φ iv, zigzagToplex tmax tlow img = .ok Φ ∧ CubHistRepresents Φ 3 {s | InBox n1 n2 n3 s} iv ∧
      (∀ s, InBox n1 n2 n3 s → ∃ p, iv s = [p] ∧ ToplexInterval img n1 n2 n3 s p) ∧
      ∀ s0 s1, ∃ Y, cubLevelset Φ s0 s1 = .ok Y ∧
        Cub.Represents Y 3 {s | InBox n1 n2 n3 s ∧ ∀ t, CubeFace 3 t s → FirstEndIn s0 s1 (iv t)} := by
  obtain ⟨Φ, cells, g, e1, e2, e3, e4⟩ := toplex_spec hI hb
  refine ⟨Φ, g, e1, by rw [← e3]; exact czinv_represents e2, e4, fun s0 s1 => ?_⟩
  obtain ⟨Y, y1, y2⟩ := czLevel e2 (by
    intro s hs
    rw [e3] at hs
    obtain ⟨p, hp, _⟩ := e4 s hs
    rw [hp]; simp) s0 s1
  rw [e3] at y2
  exact ⟨Y, y1, y2⟩

theorem exitVoxel_range {m n p q : Nat} (hm : 0 < m) (hn : 0 < n) (hp : p ≤ m) (hq : q ≤ n) :
    (exitVoxel m n p q).1 ≤ p ∧ p ≤ (exitVoxel m n p q).1 + 1 ∧ (exitVoxel m n p q).2 ≤ q ∧ q ≤ (exitVoxel m n p q).2 + 1 := by
  unfold exitVoxel
  split
  · omega
  · split
    · omega
    · split <;> simp only <;> omega

theorem edgeExit_voxelOf {n1 n2 n3 : Nat} (h1 : 0 < n1) (h2 : 0 < n2) (h3 : 0 < n3) {s : List Nat} (hs : InBox n1 n2 n3 s) (hd : cubeDimension 3 s = 1) :
    VoxelOf (edgeExit n1 n2 n3 s) s := by
  obtain ⟨i, j, k, a, b, c, rfl, ⟨ha, hb, hc⟩, q1, q2, q3⟩ := (inBox_iff s).1 hs
  rw [cubeDim3 ha hb hc] at hd
  have hcase : (a = 1 ∧ b = 0 ∧ c = 0) ∨ (a = 0 ∧ b = 1 ∧ c = 0) ∨ (a = 0 ∧ b = 0 ∧ c = 1) := by omega
  rcases hcase with ⟨rfl, rfl, rfl⟩ | ⟨rfl, rfl, rfl⟩ | ⟨rfl, rfl, rfl⟩
  · have := exitVoxel_range h2 h3 (show j ≤ n2 by omega) (show k ≤ n3 by omega)
    rw [show edgeExit n1 n2 n3 (boxCube i j k 1 0 0) = [i, (exitVoxel n2 n3 j k).1, (exitVoxel n2 n3 j k).2] from if_pos (by show i ≠ i + 1; omega)]
    exact (voxelOf_iff ..).2 (by omega)
  · have := exitVoxel_range h1 h3 (show i ≤ n1 by omega) (show k ≤ n3 by omega)
    rw [show edgeExit n1 n2 n3 (boxCube i j k 0 1 0) = [(exitVoxel n1 n3 i k).1, j, (exitVoxel n1 n3 i k).2] from
      (if_neg (by show ¬ (i ≠ i + 0); omega)).trans (if_pos (by show j ≠ j + 1; omega))]
    exact (voxelOf_iff ..).2 (by omega)
  · have := exitVoxel_range h1 h2 (show i ≤ n1 by omega) (show j ≤ n2 by omega)
    rw [show edgeExit n1 n2 n3 (boxCube i j k 0 0 1) = [(exitVoxel n1 n2 i j).1, (exitVoxel n1 n2 i j).2, k] from
      (if_neg (by show ¬ (i ≠ i + 0); omega)).trans (if_neg (by show ¬ (j ≠ j + 0); omega))]
    exact (voxelOf_iff ..).2 (by omega)

/-- C82: the intervals of `zigzag_toplex` are not empty, no face enters after a cube, and no face other than an edge exits before it -/
theorem C82_toplex_nested {img : List (List (List T))} {n1 n2 n3 : Nat} (hI : IsImage img n1 n2 n3) {s t : List Nat} (hs : InBox n1 n2 n3 s)
    (ht : CubeFace 3 t s) {p q : T × T} (hp : ToplexInterval img n1 n2 n3 s p) (hq : ToplexInterval img n1 n2 n3 t q) :
    p.1 ≤ p.2 ∧ q.1 ≤ p.1 ∧ (cubeDimension 3 t ≠ 1 → p.2 ≤ q.2) := by
  have hup : ∀ x, VoxelOf x s → VoxelOf x t := fun x hx => ⟨hx.1, fun i hi => ⟨(hx.2 i hi).1.trans (ht.2 i hi).1, (ht.2 i hi).2.trans (hx.2 i hi).2⟩⟩
  have hexit : ∃ x, VoxelOf x s ∧ pixel3 img x = some p.2 := by
    by_cases hd : cubeDimension 3 s = 1
    · exact ⟨_, edgeExit_voxelOf hI.pos.1 hI.pos.2.1 hI.pos.2.2 hs hd, hp.2.2 hd⟩
    · exact (hp.2.1 hd).1
  obtain ⟨x, x1, x2⟩ := hexit
  obtain ⟨y, y1, y2⟩ := hp.1.1
  exact ⟨hp.1.2 x _ x1 x2, hq.1.2 y _ (hup y y1) y2, fun hd => (hq.2.1 hd).2 x _ (hup x x1) x2⟩

/-- the intervals of the cube `s` in `Φ` -/
def storedIntervals (Φ : CZFilt T) (s : List Nat) : Option (List (T × T)) := (Φ.X.findIdx s).bind fun i => (Φ.val.getD (cubeDim s) [])[i]?

/-- C82: an edge may exit before a square that contains it, and even before it enters: the result is not always a zigzag filtration. Here the voxels have
the values `0` and `5`, the edge between them lives on `[0, 0]`, the square between them on `[0, 5]`, and the second voxel on `[5, 5]`. -/
theorem C82_toplex_edge_wrong : ∃ Φ, zigzagToplex 9 0 [[[0, 5]]] = .ok Φ ∧
    storedIntervals Φ [0, 1, 0, 0, 1, 1] = some [(0, 0)] ∧ storedIntervals Φ [0, 1, 0, 1, 1, 1] = some [(0, 5)] ∧
    storedIntervals Φ [0, 1, 0, 1, 1, 2] = some [(5, 5)] := by
  refine ⟨_, rfl, ?_, ?_, ?_⟩ <;> decide +kernel

/-- C82: so the level set `(4, 6)` lacks the voxel of value `5`; and the level set `(1, 2)` is empty, although the vertices between the voxels live on
`[0, 5]` -/
theorem C82_levelset_wrong :
    (do let Φ ← zigzagToplex 9 0 [[[0, 5]]]
        let Y ← cubLevelset Φ 4 6
        let Z ← cubLevelset Φ 1 2
        pure (storedIntervals Φ [0, 0, 0, 0, 1, 1], Y.findIdx [0, 0, 0, 0, 1, 1], Y.findIdx [0, 1, 0, 1, 1, 2], Z.findIdx [0, 0, 0, 0, 1, 1]) :
        Res (Option (List (Nat × Nat)) × Option Nat × Option Nat × Option Nat)) = .ok (some [(0, 5)], some 0, none, none) := by
  decide +kernel

/-- C82: the image must not be empty -/
theorem C82_toplex_empty (tmax tlow : T) (rest : List (List (List T))) :
    zigzagToplex tmax tlow [] = .error .ub ∧ zigzagToplex tmax tlow ([] :: rest) = .error .ub := ⟨rfl, rfl⟩

/-! ### the hypotheses are met -/

/-- an image of `1 × 1 × 2` voxels -/
example : IsImage [[[0, 5]]] 1 1 2 ∧ ∀ p v, pixel3 [[[0, 5]]] p = some v → 0 ≤ v ∧ v ≤ 9 := by
  refine ⟨⟨by omega, rfl, by simp⟩, ?_⟩
  intro p v h
  obtain ⟨x, y, z, e⟩ : ∃ x y z, pixel3 [[[0, 5]]] p = ((([[[0, 5]]] : List (List (List Nat)))[x]?.bind fun a => a[y]?).bind fun a => a[z]?) :=
    ⟨p.getD 0 0, p.getD 1 0, p.getD 2 0, by simp [pixel3, Option.bind_assoc]⟩
  rw [e] at h
  rcases x with _ | x
  · rcases y with _ | y
    · rcases z with _ | _ | z
      · simp at h; omega
      · simp at h; omega
      · simp at h
    · simp at h
  · simp at h

/-- a history: two vertices, the edge, and the second vertex again -/
example : FacesFirst 1 [((0, 1), [0, 0]), ((0, 2), [1, 1]), ((1, 2), [0, 1]), ((3, 4), [1, 1])] := by
  intro pre o post h
  rcases pre with _ | ⟨a, _ | ⟨b, _ | ⟨c, _ | ⟨d, pre⟩⟩⟩⟩ <;> simp only [List.nil_append, List.cons_append, List.cons.injEq] at h
  · obtain ⟨rfl, rfl⟩ := h; decide
  · obtain ⟨rfl, rfl, rfl⟩ := h; decide
  · obtain ⟨rfl, rfl, rfl, rfl⟩ := h; decide
  · obtain ⟨rfl, rfl, rfl, rfl, rfl⟩ := h; decide
  · obtain ⟨_, _, _, _, h⟩ := h
    cases pre <;> simp at h

end Zigzag
end BATS
