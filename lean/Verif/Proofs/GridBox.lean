import Verif.Proofs.Grid
import Verif.Proofs.CubicalChain

set_option linter.unusedSectionVars false
set_option linter.unusedVariables false
set_option linter.unusedSimpArgs false

/-! # Freudenthal triangulations of boxes and of cubical complexes -/

namespace BATS
namespace Grid
open SCpx

variable {n2 n3 i0 i1 j0 j1 k0 k1 : Nat}

theorem tri_of {B : Set (Nat × Nat × Nat)} {l : List (Nat × Nat × Nat)} (h : IsChain l) {name : Nat × Nat × Nat → Nat} (hB : ∀ p ∈ l, p ∈ B) :
    l.map name ∈ triangulation B name := ⟨l, h, hB, rfl⟩

/-- the voxels of the box -/
theorem voxels_set (hi : i0 + 2 ≤ i1) (hj : j0 + 2 ≤ j1) (hk : k0 + 2 ≤ k1) :
    simplexSet (loop3 (steps i0 i1 1) (steps j0 j1 1) (steps k0 k1 1) (voxel n2 n3)) = triangulation (box3 i0 i1 j0 j1 k0 k1) (rowMajor3 n2 n3) := by
  ext t
  rw [mem_simplexSet_loop3]
  simp only [voxel_set, mem_steps]
  constructor
  · rintro ⟨i, hi, j, hj, k, hk, ht⟩
    refine triangulation_mono ?_ _ ht
    rintro p ⟨h1, h2, h3⟩
    exact ⟨by omega, by omega, by omega⟩
  · rintro ⟨l, hl, hB, rfl⟩
    obtain ⟨p0, hp0, hall⟩ := chain_head hl
    obtain ⟨b1, b2, b3⟩ := hB p0 hp0
    obtain ⟨i, i1, i2⟩ := clamp hi b1
    obtain ⟨j, j1, j2⟩ := clamp hj b2
    obtain ⟨k, k1, k2⟩ := clamp hk b3
    refine ⟨i, i1, j, j1, k, k1, tri_of hl fun p hp => ?_⟩
    obtain ⟨c1, c2, c3⟩ := hB p hp
    obtain ⟨⟨d1, d2, d3⟩, ⟨e1, e2, e3⟩⟩ := hall p hp
    exact ⟨i2 _ d1 e1 c1.2, j2 _ d2 e2 c2.2, k2 _ d3 e3 c3.2⟩

theorem squaresIJ_set (hi : i0 + 2 ≤ i1) (hj : j0 + 2 ≤ j1) (hk : k1 = k0 + 1) :
    simplexSet (loop3 (steps i0 i1 1) (steps j0 j1 1) (steps k0 k1 0) (sqIJ n2 n3)) = triangulation (box3 i0 i1 j0 j1 k0 k1) (rowMajor3 n2 n3) := by
  ext t
  rw [mem_simplexSet_loop3]
  simp only [sqIJ_set, mem_steps]
  constructor
  · rintro ⟨i, hi, j, hj, k, hk, ht⟩
    refine triangulation_mono ?_ _ ht
    rintro p ⟨h1, h2, h3⟩
    exact ⟨by omega, by omega, by omega⟩
  · rintro ⟨l, hl, hB, rfl⟩
    obtain ⟨p0, hp0, hall⟩ := chain_head hl
    obtain ⟨b1, b2, b3⟩ := hB p0 hp0
    obtain ⟨i, i1, i2⟩ := clamp hi b1
    obtain ⟨j, j1, j2⟩ := clamp hj b2
    refine ⟨i, i1, j, j1, k0, by omega, tri_of hl fun p hp => ?_⟩
    obtain ⟨c1, c2, c3⟩ := hB p hp
    obtain ⟨⟨d1, d2, d3⟩, ⟨e1, e2, e3⟩⟩ := hall p hp
    exact ⟨i2 _ d1 e1 c1.2, j2 _ d2 e2 c2.2, clamp1 hk b3 _ d3 e3 c3.2⟩

theorem squaresJK_set (hi : i1 = i0 + 1) (hj : j0 + 2 ≤ j1) (hk : k0 + 2 ≤ k1) :
    simplexSet (loop3 (steps i0 i1 0) (steps j0 j1 1) (steps k0 k1 1) (sqJK n2 n3)) = triangulation (box3 i0 i1 j0 j1 k0 k1) (rowMajor3 n2 n3) := by
  ext t
  rw [mem_simplexSet_loop3]
  simp only [sqJK_set, mem_steps]
  constructor
  · rintro ⟨i, hi, j, hj, k, hk, ht⟩
    refine triangulation_mono ?_ _ ht
    rintro p ⟨h1, h2, h3⟩
    exact ⟨by omega, by omega, by omega⟩
  · rintro ⟨l, hl, hB, rfl⟩
    obtain ⟨p0, hp0, hall⟩ := chain_head hl
    obtain ⟨b1, b2, b3⟩ := hB p0 hp0
    obtain ⟨j, j1, j2⟩ := clamp hj b2
    obtain ⟨k, k1, k2⟩ := clamp hk b3
    refine ⟨i0, by omega, j, j1, k, k1, tri_of hl fun p hp => ?_⟩
    obtain ⟨c1, c2, c3⟩ := hB p hp
    obtain ⟨⟨d1, d2, d3⟩, ⟨e1, e2, e3⟩⟩ := hall p hp
    exact ⟨clamp1 hi b1 _ d1 e1 c1.2, j2 _ d2 e2 c2.2, k2 _ d3 e3 c3.2⟩

theorem squaresIK_set (hi : i0 + 2 ≤ i1) (hj : j1 = j0 + 1) (hk : k0 + 2 ≤ k1) :
    simplexSet (loop3 (steps i0 i1 1) (steps j0 j1 0) (steps k0 k1 1) (sqIK n2 n3)) = triangulation (box3 i0 i1 j0 j1 k0 k1) (rowMajor3 n2 n3) := by
  ext t
  rw [mem_simplexSet_loop3]
  simp only [sqIK_set, mem_steps]
  constructor
  · rintro ⟨i, hi, j, hj, k, hk, ht⟩
    refine triangulation_mono ?_ _ ht
    rintro p ⟨h1, h2, h3⟩
    exact ⟨by omega, by omega, by omega⟩
  · rintro ⟨l, hl, hB, rfl⟩
    obtain ⟨p0, hp0, hall⟩ := chain_head hl
    obtain ⟨b1, b2, b3⟩ := hB p0 hp0
    obtain ⟨i, i1, i2⟩ := clamp hi b1
    obtain ⟨k, k1, k2⟩ := clamp hk b3
    refine ⟨i, i1, j0, by omega, k, k1, tri_of hl fun p hp => ?_⟩
    obtain ⟨c1, c2, c3⟩ := hB p hp
    obtain ⟨⟨d1, d2, d3⟩, ⟨e1, e2, e3⟩⟩ := hall p hp
    exact ⟨i2 _ d1 e1 c1.2, clamp1 hj b2 _ d2 e2 c2.2, k2 _ d3 e3 c3.2⟩

/-- every call of the loops stays inside the box -/
theorem loops_sub {e1 e2 e3 : Nat} {f : Nat → Nat → Nat → List SCpx.Op}
    (hf : ∀ i j k, simplexSet (f i j k) = triangulation (box3 i (i + 1 + e1) j (j + 1 + e2) k (k + 1 + e3)) (rowMajor3 n2 n3)) {t : List Nat}
    (ht : t ∈ simplexSet (loop3 (steps i0 i1 e1) (steps j0 j1 e2) (steps k0 k1 e3) f)) : t ∈ triangulation (box3 i0 i1 j0 j1 k0 k1) (rowMajor3 n2 n3) := by
  rw [mem_simplexSet_loop3] at ht
  simp only [hf, mem_steps] at ht
  obtain ⟨i, hi, j, hj, k, hk, ht⟩ := ht
  refine triangulation_mono ?_ _ ht
  rintro p ⟨h1, h2, h3⟩
  exact ⟨by omega, by omega, by omega⟩

/-- the calls of `Freudenthal` of a box -/
def boxOps (n2 n3 i0 i1 j0 j1 k0 k1 : Nat) : List SCpx.Op :=
  loop3 (steps i0 i1 1) (steps j0 j1 1) (steps k0 k1 0) (sqIJ n2 n3) ++ loop3 (steps i0 i1 0) (steps j0 j1 1) (steps k0 k1 1) (sqJK n2 n3) ++
    loop3 (steps i0 i1 1) (steps j0 j1 0) (steps k0 k1 1) (sqIK n2 n3) ++ loop3 (steps i0 i1 1) (steps j0 j1 1) (steps k0 k1 1) (voxel n2 n3)

theorem boxOps_sorted : SortedRec (boxOps n2 n3 i0 i1 j0 j1 k0 k1) :=
  (((sortedRec_loop3 (sqIJ_sorted n2 n3)).append (sortedRec_loop3 (sqJK_sorted n2 n3))).append (sortedRec_loop3 (sqIK_sorted n2 n3))).append
    (sortedRec_loop3 (voxel_sorted n2 n3))

theorem boxOps_set (hi : i0 < i1) (hj : j0 < j1) (hk : k0 < k1) (h : (i1 = i0 + 1 → j1 ≠ j0 + 1) ∧ (i1 = i0 + 1 → k1 ≠ k0 + 1) ∧ (j1 = j0 + 1 → k1 ≠ k0 + 1)) :
    simplexSet (boxOps n2 n3 i0 i1 j0 j1 k0 k1) = triangulation (box3 i0 i1 j0 j1 k0 k1) (rowMajor3 n2 n3) := by
  ext t
  unfold boxOps
  rw [simplexSet_append, simplexSet_append, simplexSet_append]
  constructor
  · rintro (((ht | ht) | ht) | ht)
    · exact loops_sub (fun i j k => sqIJ_set n2 n3 i j k) ht
    · exact loops_sub (fun i j k => sqJK_set n2 n3 i j k) ht
    · exact loops_sub (fun i j k => sqIK_set n2 n3 i j k) ht
    · exact loops_sub (fun i j k => voxel_set n2 n3 i j k) ht
  · intro ht
    by_cases c1 : i1 = i0 + 1
    · have := h.1 c1; have := h.2.1 c1
      rw [← squaresJK_set c1 (by omega) (by omega)] at ht
      exact Or.inl (Or.inl (Or.inr ht))
    · by_cases c2 : j1 = j0 + 1
      · have := h.2.2 c2
        rw [← squaresIK_set (by omega) c2 (by omega)] at ht
        exact Or.inl (Or.inr ht)
      · by_cases c3 : k1 = k0 + 1
        · rw [← squaresIJ_set (by omega) (by omega) c3] at ht
          exact Or.inl (Or.inl (Or.inl ht))
        · rw [← voxels_set (by omega) (by omega) (by omega)] at ht
          exact Or.inr ht

theorem loop3_nil {A : Type} {I J K : List Nat} {f : Nat → Nat → Nat → List A} (h : I = [] ∨ J = [] ∨ K = []) : loop3 I J K f = [] := by
  rw [List.eq_nil_iff_forall_not_mem]
  intro x hx
  obtain ⟨i, hi, j, hj, k, hk, _⟩ := mem_loop3.1 hx
  rcases h with rfl | rfl | rfl
  · cases hi
  · cases hj
  · cases hk

theorem loop2_nil {A : Type} {I J : List Nat} {f : Nat → Nat → List A} (h : I = [] ∨ J = []) : loop2 I J f = [] := by
  rw [List.eq_nil_iff_forall_not_mem]
  intro x hx
  obtain ⟨i, hi, j, hj, _⟩ := mem_loop2.1 hx
  rcases h with rfl | rfl
  · cases hi
  · cases hj

theorem steps_nil {a b e : Nat} (h : b ≤ a + e) : steps a b e = [] := by
  rw [List.eq_nil_iff_forall_not_mem]
  intro x hx
  rw [mem_steps] at hx
  omega

/-- the squares of a grid in the plane -/
theorem squares_set {m n : Nat} (hm : 2 ≤ m) (hn : 2 ≤ n) :
    simplexSet (loop2 (steps 0 m 1) (steps 0 n 1) (square n)) = triangulation {p | p.1 < m ∧ p.2 < n} (rowMajor2 n) := by
  ext t
  rw [mem_simplexSet_loop2]
  simp only [square_set, mem_steps]
  constructor
  · rintro ⟨i, hi, j, hj, ht⟩
    refine triangulation_mono ?_ _ ht
    rintro p ⟨h1, h2⟩
    exact ⟨by omega, by omega⟩
  · rintro ⟨l, hl, hB, rfl⟩
    obtain ⟨p0, hp0, hall⟩ := chain_head hl
    obtain ⟨b1, b2⟩ := hB p0 hp0
    obtain ⟨i, i1, i2⟩ := clamp (i0 := 0) hm ⟨Nat.zero_le _, b1⟩
    obtain ⟨j, j1, j2⟩ := clamp (i0 := 0) hn ⟨Nat.zero_le _, b2⟩
    refine ⟨i, i1, j, j1, l, hl, fun p hp => ?_, rfl⟩
    obtain ⟨c1, c2⟩ := hB p hp
    obtain ⟨⟨d1, d2⟩, ⟨e1, e2⟩⟩ := hall p hp
    exact ⟨i2 _ d1 e1 c1, j2 _ d2 e2 c2⟩

end Grid
end BATS
