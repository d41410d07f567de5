import Verif.Proofs.CubicalZigzag

set_option linter.unusedSectionVars false
set_option linter.unusedVariables false
set_option linter.unusedSimpArgs false

/-! # The intervals computed by `zigzag_toplex` -/

namespace BATS
namespace Zigzag
open Cub Reduction

variable {T : Type} [LinearOrder T] {img : List (List (List T))}

theorem stdMin_eq (a b : T) : stdMin a b = min a b := by
  unfold stdMin
  split
  · rename_i h; exact (min_eq_right h.le).symm
  · rename_i h; exact (min_eq_left (not_lt.1 h)).symm

theorem stdMax_eq_max (a b : T) : stdMax a b = max a b := by
  unfold stdMax
  split
  · rename_i h; exact (max_eq_right h.le).symm
  · rename_i h; exact (max_eq_left (not_lt.1 h)).symm

/-- the last voxel whose guard holds -/
def lastVox : List (Bool × Nat × Nat × Nat) → Option (Nat × Nat × Nat)
  | [] => none
  | (c, x) :: l => match lastVox l with
    | some y => some y
    | none => if c then some x else none

/-- all guarded voxels exist -/
def Readable (img : List (List (List T))) (l : List (Bool × Nat × Nat × Nat)) : Prop := ∀ x y z, (true, x, y, z) ∈ l → ∃ v, pixel3 img [x, y, z] = some v

theorem Readable.tail {e : Bool × Nat × Nat × Nat} {l : List (Bool × Nat × Nat × Nat)} (h : Readable img (e :: l)) : Readable img l :=
  fun x y z hm => h x y z (List.mem_cons_of_mem _ hm)

/-- the entry times -/
theorem voxelLoop_min {w : T × T → T → T × T} (hw : ∀ p v, (w p v).1 = min p.1 v) : ∀ (l : List (Bool × Nat × Nat × Nat)) (p : T × T), Readable img l →
    ∃ q, voxelLoop w img l p = .ok q ∧ q.1 ≤ p.1 ∧ (∀ x y z v, (true, x, y, z) ∈ l → pixel3 img [x, y, z] = some v → q.1 ≤ v) ∧
      (q.1 = p.1 ∨ ∃ x y z, (true, x, y, z) ∈ l ∧ pixel3 img [x, y, z] = some q.1)
  | [], p, _ => ⟨p, rfl, le_rfl, by simp, Or.inl rfl⟩
  | (c, i, j, k) :: l, p, h => by
    cases c with
    | false =>
      obtain ⟨q, h1, h2, h3, h4⟩ := voxelLoop_min hw l p h.tail
      refine ⟨q, by rw [voxelLoop]; exact h1, h2, fun x y z v hm => h3 x y z v (by simpa using hm), ?_⟩
      rcases h4 with h4 | ⟨x, y, z, h5, h6⟩
      · exact Or.inl h4
      · exact Or.inr ⟨x, y, z, by simp [h5], h6⟩
    | true =>
      obtain ⟨v, hv⟩ := h i j k (by simp)
      obtain ⟨q, h1, h2, h3, h4⟩ := voxelLoop_min hw l (w p v) h.tail
      rw [hw] at h2 h4
      refine ⟨q, by rw [voxelLoop, if_pos rfl, Cub.pix3_iff.2 hv, bind_ok]; exact h1, h2.trans (min_le_left _ _), ?_, ?_⟩
      · intro x y z u hm hu
        rcases List.mem_cons.1 hm with he | hm
        · cases he
          rw [hv] at hu; cases hu
          exact h2.trans (min_le_right _ _)
        · exact h3 x y z u hm hu
      · rcases h4 with h4 | ⟨x, y, z, h5, h6⟩
        · rcases min_choice p.1 v with hm | hm
          · exact Or.inl (by rw [h4, hm])
          · exact Or.inr ⟨i, j, k, by simp, by rw [h4, hm, hv]⟩
        · exact Or.inr ⟨x, y, z, by simp [h5], h6⟩

/-- the exit times, except for edges -/
theorem voxelLoop_max : ∀ (l : List (Bool × Nat × Nat × Nat)) (p : T × T), Readable img l →
    ∃ q, voxelLoop widen img l p = .ok q ∧ p.2 ≤ q.2 ∧ (∀ x y z v, (true, x, y, z) ∈ l → pixel3 img [x, y, z] = some v → v ≤ q.2) ∧
      (q.2 = p.2 ∨ ∃ x y z, (true, x, y, z) ∈ l ∧ pixel3 img [x, y, z] = some q.2)
  | [], p, _ => ⟨p, rfl, le_rfl, by simp, Or.inl rfl⟩
  | (c, i, j, k) :: l, p, h => by
    cases c with
    | false =>
      obtain ⟨q, h1, h2, h3, h4⟩ := voxelLoop_max l p h.tail
      refine ⟨q, by rw [voxelLoop]; exact h1, h2, fun x y z v hm => h3 x y z v (by simpa using hm), ?_⟩
      rcases h4 with h4 | ⟨x, y, z, h5, h6⟩
      · exact Or.inl h4
      · exact Or.inr ⟨x, y, z, by simp [h5], h6⟩
    | true =>
      obtain ⟨v, hv⟩ := h i j k (by simp)
      obtain ⟨q, h1, h2, h3, h4⟩ := voxelLoop_max l (widen p v) h.tail
      have hw : (widen p v).2 = max p.2 v := stdMax_eq_max _ _
      rw [hw] at h2 h4
      refine ⟨q, by rw [voxelLoop, if_pos rfl, Cub.pix3_iff.2 hv, bind_ok]; exact h1, (le_max_left _ _).trans h2, ?_, ?_⟩
      · intro x y z u hm hu
        rcases List.mem_cons.1 hm with he | hm
        · cases he
          rw [hv] at hu; cases hu
          exact (le_max_right _ _).trans h2
        · exact h3 x y z u hm hu
      · rcases h4 with h4 | ⟨x, y, z, h5, h6⟩
        · rcases max_choice p.2 v with hm | hm
          · exact Or.inl (by rw [h4, hm])
          · exact Or.inr ⟨i, j, k, by simp, by rw [h4, hm, hv]⟩
        · exact Or.inr ⟨x, y, z, by simp [h5], h6⟩

/-- the exit times of edges: the value of the last voxel -/
theorem voxelLoop_edge : ∀ (l : List (Bool × Nat × Nat × Nat)) (p q : T × T), voxelLoop widenEdge img l p = .ok q →
    (lastVox l = none → q.2 = p.2) ∧ ∀ x y z, lastVox l = some (x, y, z) → pixel3 img [x, y, z] = some q.2
  | [], p, q, h => by cases h; exact ⟨fun _ => rfl, by simp [lastVox]⟩
  | (c, i, j, k) :: l, p, q, h => by
    cases c with
    | false =>
      rw [voxelLoop] at h
      obtain ⟨h1, h2⟩ := voxelLoop_edge l p q h
      have e : lastVox ((false, i, j, k) :: l) = lastVox l := by
        rw [lastVox]
        cases lastVox l <;> simp
      rw [e]; exact ⟨h1, h2⟩
    | true =>
      rw [voxelLoop, if_pos rfl] at h
      obtain ⟨v, hv, h⟩ := bind_ok_iff.1 h
      obtain ⟨h1, h2⟩ := voxelLoop_edge l (widenEdge p v) q h
      have hw : (widenEdge p v).2 = v := by
        show stdMax (stdMin p.1 v) v = v
        rw [stdMax_eq_max, stdMin_eq, max_eq_right (min_le_right _ _)]
      cases hl : lastVox l with
      | some y =>
        have e : lastVox ((true, i, j, k) :: l) = some y := by rw [lastVox, hl]
        rw [e]
        exact ⟨by simp, fun x y' z he => h2 x y' z (by rw [hl]; exact he)⟩
      | none =>
        have e : lastVox ((true, i, j, k) :: l) = some (i, j, k) := by rw [lastVox, hl]; rfl
        rw [e]
        refine ⟨by simp, fun x y z he => ?_⟩
        cases he
        rw [h1 hl, hw]; exact Cub.pix3_iff.1 hv

/-- the result for cubes that are not edges -/
theorem voxelLoop_widen {l : List (Bool × Nat × Nat × Nat)} {s : List Nat} {tmax tlow : T} (hb : ∀ p v, pixel3 img p = some v → tlow ≤ v ∧ v ≤ tmax)
    (hl : ∀ x y z, (true, x, y, z) ∈ l ↔ VoxelOf [x, y, z] s ∧ ∃ v, pixel3 img [x, y, z] = some v) (hne : ∃ x y z, (true, x, y, z) ∈ l) :
    ∃ b d, voxelLoop widen img l (tmax, tlow) = .ok (b, d) ∧ IsVoxelMin img s b ∧ IsVoxelMax img s d := by
  have hr : Readable img l := fun x y z hm => ((hl x y z).1 hm).2
  obtain ⟨q, h1, h2, h3, h4⟩ := voxelLoop_min (w := widen) (fun p v => stdMin_eq _ _) l (tmax, tlow) hr
  obtain ⟨q', g1, g2, g3, g4⟩ := voxelLoop_max l (tmax, tlow) hr
  rw [h1] at g1; cases g1
  have hV : ∀ p, VoxelOf p s → ∃ x y z, p = [x, y, z] := by
    intro p hp
    match p, hp.1 with
    | [x, y, z], _ => exact ⟨x, y, z, rfl⟩
  obtain ⟨x0, y0, z0, hm0⟩ := hne
  obtain ⟨hv0, v0, hp0⟩ := (hl _ _ _).1 hm0
  refine ⟨q.1, q.2, h1, ⟨?_, ?_⟩, ⟨?_, ?_⟩⟩
  · rcases h4 with h4 | ⟨x, y, z, h5, h6⟩
    · have := h3 _ _ _ _ hm0 hp0
      rw [h4] at this
      exact ⟨_, hv0, by rw [hp0, h4]; congr 1; exact le_antisymm (hb _ _ hp0).2 this⟩
    · exact ⟨_, ((hl _ _ _).1 h5).1, h6⟩
  · intro p y hp hy
    obtain ⟨x, y', z, rfl⟩ := hV p hp
    exact h3 _ _ _ _ ((hl _ _ _).2 ⟨hp, _, hy⟩) hy
  · rcases g4 with h4 | ⟨x, y, z, h5, h6⟩
    · have := g3 _ _ _ _ hm0 hp0
      rw [h4] at this
      exact ⟨_, hv0, by rw [hp0, h4]; congr 1; exact le_antisymm this (hb _ _ hp0).1⟩
    · exact ⟨_, ((hl _ _ _).1 h5).1, h6⟩
  · intro p y hp hy
    obtain ⟨x, y', z, rfl⟩ := hV p hp
    exact g3 _ _ _ _ ((hl _ _ _).2 ⟨hp, _, hy⟩) hy

/-- the result for edges -/
theorem voxelLoop_widenEdge {l : List (Bool × Nat × Nat × Nat)} {s : List Nat} {tmax tlow : T} (hb : ∀ p v, pixel3 img p = some v → tlow ≤ v ∧ v ≤ tmax)
    (hl : ∀ x y z, (true, x, y, z) ∈ l ↔ VoxelOf [x, y, z] s ∧ ∃ v, pixel3 img [x, y, z] = some v) (hne : ∃ x y z, (true, x, y, z) ∈ l) {x1 y1 z1 : Nat}
    (hlast : lastVox l = some (x1, y1, z1)) :
    ∃ b d, voxelLoop widenEdge img l (tmax, tlow) = .ok (b, d) ∧ IsVoxelMin img s b ∧ pixel3 img [x1, y1, z1] = some d := by
  have hr : Readable img l := fun x y z hm => ((hl x y z).1 hm).2
  obtain ⟨q, h1, h2, h3, h4⟩ := voxelLoop_min (w := widenEdge) (fun p v => stdMin_eq _ _) l (tmax, tlow) hr
  have hV : ∀ p, VoxelOf p s → ∃ x y z, p = [x, y, z] := by
    intro p hp
    match p, hp.1 with
    | [x, y, z], _ => exact ⟨x, y, z, rfl⟩
  obtain ⟨x0, y0, z0, hm0⟩ := hne
  obtain ⟨hv0, v0, hp0⟩ := (hl _ _ _).1 hm0
  refine ⟨q.1, q.2, h1, ⟨?_, ?_⟩, (voxelLoop_edge l _ q h1).2 _ _ _ hlast⟩
  · rcases h4 with h4 | ⟨x, y, z, h5, h6⟩
    · have := h3 _ _ _ _ hm0 hp0
      rw [h4] at this
      exact ⟨_, hv0, by rw [hp0, h4]; congr 1; exact le_antisymm (hb _ _ hp0).2 this⟩
    · exact ⟨_, ((hl _ _ _).1 h5).1, h6⟩
  · intro p y hp hy
    obtain ⟨x, y', z, rfl⟩ := hV p hp
    exact h3 _ _ _ _ ((hl _ _ _).2 ⟨hp, _, hy⟩) hy

/-- the pixels of an image -/
theorem isImage_pixel {n1 n2 n3 : Nat} (h : IsImage img n1 n2 n3) (x y z : Nat) : (∃ v, pixel3 img [x, y, z] = some v) ↔ x < n1 ∧ y < n2 ∧ z < n3 := by
  unfold pixel3
  simp only [List.getD_cons_zero, List.getD_cons_succ]
  constructor
  · rintro ⟨v, hv⟩
    obtain ⟨m, h1, hv⟩ := Option.bind_eq_some_iff.1 hv
    obtain ⟨r, h2, hv⟩ := Option.bind_eq_some_iff.1 hv
    obtain ⟨a1, -⟩ := List.getElem?_eq_some_iff.1 h1
    obtain ⟨a2, -⟩ := List.getElem?_eq_some_iff.1 h2
    obtain ⟨a3, -⟩ := List.getElem?_eq_some_iff.1 hv
    have hm := h.row m (List.mem_of_getElem? h1)
    have hr := hm.2 r (List.mem_of_getElem? h2)
    rw [h.len] at a1; rw [hm.1] at a2; rw [hr] at a3
    exact ⟨a1, a2, a3⟩
  · rintro ⟨a1, a2, a3⟩
    have a1' : x < img.length := by rw [h.len]; exact a1
    have e1 := List.getElem?_eq_getElem a1'
    have hm := h.row _ (List.mem_of_getElem? e1)
    have a2' : y < img[x].length := by rw [hm.1]; exact a2
    have e2 := List.getElem?_eq_getElem a2'
    have hr := hm.2 _ (List.mem_of_getElem? e2)
    have a3' : z < (img[x])[y].length := by rw [hr]; exact a3
    exact ⟨_, by rw [e1, Option.bind_some, e2, Option.bind_some, List.getElem?_eq_getElem a3']⟩

theorem voxelOf_iff (x y z i i' j j' k k' : Nat) : VoxelOf [x, y, z] [i, i', j, j', k, k'] ↔ (x ≤ i ∧ i' ≤ x + 1) ∧ (y ≤ j ∧ j' ≤ y + 1) ∧ (z ≤ k ∧ k' ≤ z + 1) := by
  constructor
  · rintro ⟨_, h⟩
    exact ⟨h 0 (by omega), h 1 (by omega), h 2 (by omega)⟩
  · rintro ⟨h0, h1, h2⟩
    refine ⟨rfl, fun m hm => ?_⟩
    rcases (show m = 0 ∨ m = 1 ∨ m = 2 by omega) with rfl | rfl | rfl
    · exact h0
    · exact h1
    · exact h2

theorem range_iff {n i x : Nat} (hn : 0 < n) (hi : i ≤ n) : (x ≤ i ∧ i ≤ x + 1 ∧ x < n) ↔ ((i < n ∧ x = i) ∨ (0 < i ∧ x = i - 1)) := by omega

end Zigzag
end BATS
