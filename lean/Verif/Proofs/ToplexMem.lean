import Verif.Proofs.ToplexVals

set_option linter.unusedSectionVars false
set_option linter.unusedVariables false
set_option linter.unusedSimpArgs false

/-! # The voxels read by `zigzag_toplex` are those that contain the cube -/

namespace BATS
namespace Zigzag
open Cub Reduction

variable {T : Type} [LinearOrder T] {img : List (List (List T))} {N1 N2 N3 : Nat}

theorem vox_iff (h : IsImage img N1 N2 N3) (x y z i i' j j' k k' : Nat) :
    (VoxelOf [x, y, z] [i, i', j, j', k, k'] ∧ ∃ v, pixel3 img [x, y, z] = some v) ↔
      (x ≤ i ∧ i' ≤ x + 1 ∧ x < N1) ∧ (y ≤ j ∧ j' ≤ y + 1 ∧ y < N2) ∧ (z ≤ k ∧ k' ≤ z + 1 ∧ z < N3) := by
  rw [voxelOf_iff, isImage_pixel h]
  constructor
  · rintro ⟨⟨⟨a, b⟩, ⟨c, d⟩, e, f⟩, g1, g2, g3⟩; exact ⟨⟨a, b, g1⟩, ⟨c, d, g2⟩, e, f, g3⟩
  · rintro ⟨⟨a, b, g1⟩, ⟨c, d, g2⟩, e, f, g3⟩; exact ⟨⟨⟨a, b⟩, ⟨c, d⟩, e, f⟩, g1, g2, g3⟩

theorem edge_iff (n i x : Nat) : (x ≤ i ∧ i + 1 ≤ x + 1 ∧ x < n) ↔ (i < n ∧ x = i) := by omega

theorem mem_voxV (h : IsImage img N1 N2 N3) {i j k : Nat} (hi : i ≤ N1) (hj : j ≤ N2) (hk : k ≤ N3) (x y z : Nat) :
    (true, x, y, z) ∈ voxV (N1 + 1) (N2 + 1) (N3 + 1) i j k ↔ VoxelOf [x, y, z] [i, i, j, j, k, k] ∧ ∃ v, pixel3 img [x, y, z] = some v := by
  rw [vox_iff h, range_iff h.pos.1 hi, range_iff h.pos.2.1 hj, range_iff h.pos.2.2 hk]
  simp only [voxV, List.mem_cons, Prod.mk.injEq, List.not_mem_nil, or_false, Nat.add_sub_cancel, Bool.true_eq, Bool.and_eq_true, decide_eq_true_eq, gt_iff_lt]
  generalize (x = i) = a1
  generalize (x = i - 1) = a2
  generalize (y = j) = b1
  generalize (y = j - 1) = b2
  generalize (z = k) = c1
  generalize (z = k - 1) = c2
  generalize (i < N1) = A1
  generalize (0 < i) = A2
  generalize (j < N2) = B1
  generalize (0 < j) = B2
  generalize (k < N3) = C1
  generalize (0 < k) = C2
  constructor
  · rintro (⟨⟨⟨p, q⟩, r⟩, u, v, w⟩ | ⟨⟨⟨p, q⟩, r⟩, u, v, w⟩ | ⟨⟨⟨p, q⟩, r⟩, u, v, w⟩ | ⟨⟨⟨p, q⟩, r⟩, u, v, w⟩ | ⟨⟨⟨p, q⟩, r⟩, u, v, w⟩ | ⟨⟨⟨p, q⟩, r⟩, u, v, w⟩ |
      ⟨⟨⟨p, q⟩, r⟩, u, v, w⟩ | ⟨⟨⟨p, q⟩, r⟩, u, v, w⟩)
    · exact ⟨Or.inl ⟨p, u⟩, Or.inl ⟨q, v⟩, Or.inl ⟨r, w⟩⟩
    · exact ⟨Or.inr ⟨p, u⟩, Or.inl ⟨q, v⟩, Or.inl ⟨r, w⟩⟩
    · exact ⟨Or.inl ⟨p, u⟩, Or.inr ⟨q, v⟩, Or.inl ⟨r, w⟩⟩
    · exact ⟨Or.inl ⟨p, u⟩, Or.inl ⟨q, v⟩, Or.inr ⟨r, w⟩⟩
    · exact ⟨Or.inl ⟨p, u⟩, Or.inr ⟨q, v⟩, Or.inr ⟨r, w⟩⟩
    · exact ⟨Or.inr ⟨p, u⟩, Or.inl ⟨q, v⟩, Or.inr ⟨r, w⟩⟩
    · exact ⟨Or.inr ⟨p, u⟩, Or.inr ⟨q, v⟩, Or.inl ⟨r, w⟩⟩
    · exact ⟨Or.inr ⟨p, u⟩, Or.inr ⟨q, v⟩, Or.inr ⟨r, w⟩⟩
  · rintro ⟨⟨p, u⟩ | ⟨p, u⟩, ⟨q, v⟩ | ⟨q, v⟩, ⟨r, w⟩ | ⟨r, w⟩⟩ <;> simp [p, u, q, v, r, w]

theorem mem_voxE1 (h : IsImage img N1 N2 N3) {i j k : Nat} (hi : i < N1) (hj : j ≤ N2) (hk : k ≤ N3) (x y z : Nat) :
    (true, x, y, z) ∈ voxE1 (N2 + 1) (N3 + 1) i j k ↔ VoxelOf [x, y, z] [i, i + 1, j, j, k, k] ∧ ∃ v, pixel3 img [x, y, z] = some v := by
  rw [vox_iff h, edge_iff, range_iff h.pos.2.1 hj, range_iff h.pos.2.2 hk]
  simp only [voxE1, List.mem_cons, Prod.mk.injEq, List.not_mem_nil, or_false, Nat.add_sub_cancel, Bool.true_eq, Bool.and_eq_true, decide_eq_true_eq, gt_iff_lt, hi, true_and]
  tauto

theorem mem_voxE2 (h : IsImage img N1 N2 N3) {i j k : Nat} (hi : i ≤ N1) (hj : j < N2) (hk : k ≤ N3) (x y z : Nat) :
    (true, x, y, z) ∈ voxE2 (N1 + 1) (N3 + 1) i j k ↔ VoxelOf [x, y, z] [i, i, j, j + 1, k, k] ∧ ∃ v, pixel3 img [x, y, z] = some v := by
  rw [vox_iff h, edge_iff, range_iff h.pos.1 hi, range_iff h.pos.2.2 hk]
  simp only [voxE2, List.mem_cons, Prod.mk.injEq, List.not_mem_nil, or_false, Nat.add_sub_cancel, Bool.true_eq, Bool.and_eq_true, decide_eq_true_eq, gt_iff_lt, hj, true_and]
  tauto

theorem mem_voxE3 (h : IsImage img N1 N2 N3) {i j k : Nat} (hi : i ≤ N1) (hj : j ≤ N2) (hk : k < N3) (x y z : Nat) :
    (true, x, y, z) ∈ voxE3 (N1 + 1) (N2 + 1) i j k ↔ VoxelOf [x, y, z] [i, i, j, j, k, k + 1] ∧ ∃ v, pixel3 img [x, y, z] = some v := by
  rw [vox_iff h, edge_iff, range_iff h.pos.1 hi, range_iff h.pos.2.1 hj]
  simp only [voxE3, List.mem_cons, Prod.mk.injEq, List.not_mem_nil, or_false, Nat.add_sub_cancel, Bool.true_eq, Bool.and_eq_true, decide_eq_true_eq, gt_iff_lt, hk, true_and]
  tauto

theorem mem_voxF12 (h : IsImage img N1 N2 N3) {i j k : Nat} (hi : i < N1) (hj : j < N2) (hk : k ≤ N3) (x y z : Nat) :
    (true, x, y, z) ∈ voxF12 (N3 + 1) i j k ↔ VoxelOf [x, y, z] [i, i + 1, j, j + 1, k, k] ∧ ∃ v, pixel3 img [x, y, z] = some v := by
  rw [vox_iff h, edge_iff, edge_iff, range_iff h.pos.2.2 hk]
  simp only [voxF12, List.mem_cons, Prod.mk.injEq, List.not_mem_nil, or_false, Nat.add_sub_cancel, Bool.true_eq, Bool.and_eq_true, decide_eq_true_eq, gt_iff_lt, hi, hj, true_and]
  tauto

theorem mem_voxF23 (h : IsImage img N1 N2 N3) {i j k : Nat} (hi : i ≤ N1) (hj : j < N2) (hk : k < N3) (x y z : Nat) :
    (true, x, y, z) ∈ voxF23 (N1 + 1) i j k ↔ VoxelOf [x, y, z] [i, i, j, j + 1, k, k + 1] ∧ ∃ v, pixel3 img [x, y, z] = some v := by
  rw [vox_iff h, edge_iff, edge_iff, range_iff h.pos.1 hi]
  simp only [voxF23, List.mem_cons, Prod.mk.injEq, List.not_mem_nil, or_false, Nat.add_sub_cancel, Bool.true_eq, Bool.and_eq_true, decide_eq_true_eq, gt_iff_lt, hk, hj, true_and]
  tauto

theorem mem_voxF13 (h : IsImage img N1 N2 N3) {i j k : Nat} (hi : i < N1) (hj : j ≤ N2) (hk : k < N3) (x y z : Nat) :
    (true, x, y, z) ∈ voxF13 (N2 + 1) i j k ↔ VoxelOf [x, y, z] [i, i + 1, j, j, k, k + 1] ∧ ∃ v, pixel3 img [x, y, z] = some v := by
  rw [vox_iff h, edge_iff, edge_iff, range_iff h.pos.2.1 hj]
  simp only [voxF13, List.mem_cons, Prod.mk.injEq, List.not_mem_nil, or_false, Nat.add_sub_cancel, Bool.true_eq, Bool.and_eq_true, decide_eq_true_eq, gt_iff_lt, hk, hi, true_and]
  tauto

/-- some voxel contains a cube in the box -/
theorem vox_exists (h : IsImage img N1 N2 N3) {i j k a b c : Nat} (ha : a ≤ 1) (hb : b ≤ 1) (hc : c ≤ 1) (hi : i + a ≤ N1) (hj : j + b ≤ N2) (hk : k + c ≤ N3) :
    ∃ x y z, VoxelOf [x, y, z] [i, i + a, j, j + b, k, k + c] ∧ ∃ v, pixel3 img [x, y, z] = some v := by
  obtain ⟨p1, p2, p3⟩ := h.pos
  refine ⟨min i (N1 - 1), min j (N2 - 1), min k (N3 - 1), (vox_iff h ..).2 ⟨⟨?_, ?_, ?_⟩, ⟨?_, ?_, ?_⟩, ?_, ?_, ?_⟩⟩ <;> omega

/-- the last voxel read for an edge -/
theorem lastVox_E1 {i j k : Nat} (hN2 : 0 < N2) (hN3 : 0 < N3) (hj : j ≤ N2) (hk : k ≤ N3) :
    lastVox (voxE1 (N2 + 1) (N3 + 1) i j k) = some (i, (exitVoxel N2 N3 j k).1, (exitVoxel N2 N3 j k).2) := by
  unfold exitVoxel voxE1
  simp only [lastVox, Nat.add_sub_cancel, Bool.and_eq_true, decide_eq_true_eq, gt_iff_lt]
  by_cases h1 : j < N2 ∧ 0 < k
  · simp only [if_pos h1]
  · by_cases h2 : 0 < j ∧ k < N3
    · simp only [if_neg h1, if_pos h2]
    · by_cases h3 : j < N2 ∧ k < N3
      · simp only [if_neg h1, if_neg h2, if_pos h3]
      · have h4 : 0 < j ∧ 0 < k := by omega
        simp only [if_neg h1, if_neg h2, if_neg h3, if_pos h4]

theorem lastVox_E2 {i j k : Nat} (hN1 : 0 < N1) (hN3 : 0 < N3) (hi : i ≤ N1) (hk : k ≤ N3) :
    lastVox (voxE2 (N1 + 1) (N3 + 1) i j k) = some ((exitVoxel N1 N3 i k).1, j, (exitVoxel N1 N3 i k).2) := by
  unfold exitVoxel voxE2
  simp only [lastVox, Nat.add_sub_cancel, Bool.and_eq_true, decide_eq_true_eq, gt_iff_lt]
  by_cases h1 : i < N1 ∧ 0 < k
  · simp only [if_pos h1]
  · by_cases h2 : 0 < i ∧ k < N3
    · simp only [if_neg h1, if_pos h2]
    · by_cases h3 : i < N1 ∧ k < N3
      · simp only [if_neg h1, if_neg h2, if_pos h3]
      · have h4 : 0 < i ∧ 0 < k := by omega
        simp only [if_neg h1, if_neg h2, if_neg h3, if_pos h4]

theorem lastVox_E3 {i j k : Nat} (hN1 : 0 < N1) (hN2 : 0 < N2) (hi : i ≤ N1) (hj : j ≤ N2) :
    lastVox (voxE3 (N1 + 1) (N2 + 1) i j k) = some ((exitVoxel N1 N2 i j).1, (exitVoxel N1 N2 i j).2, k) := by
  unfold exitVoxel voxE3
  simp only [lastVox, Nat.add_sub_cancel, Bool.and_eq_true, decide_eq_true_eq, gt_iff_lt]
  by_cases h1 : i < N1 ∧ 0 < j
  · simp only [if_pos h1]
  · by_cases h2 : 0 < i ∧ j < N2
    · simp only [if_neg h1, if_pos h2]
    · by_cases h3 : i < N1 ∧ j < N2
      · simp only [if_neg h1, if_neg h2, if_pos h3]
      · have h4 : 0 < i ∧ 0 < j := by omega
        simp only [if_neg h1, if_neg h2, if_neg h3, if_pos h4]

end Zigzag
end BATS
