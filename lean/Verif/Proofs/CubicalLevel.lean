import Verif.Proofs.CubicalZigzag

set_option linter.unusedSectionVars false
set_option linter.unusedVariables false
set_option linter.unusedSimpArgs false

/-! # Level sets of zigzag filtrations of cubical complexes -/

namespace BATS
namespace Zigzag
open Cub Reduction
open SCpx (Cells)

variable {T : Type} [LinearOrder T] {Φ : CZFilt T} {D : Nat} {cells : Cells} {g : List Nat → List (T × T)}

theorem endInside_iff (s0 s1 : T) (q : T × T) : endInside s0 s1 q = true ↔ (s0 < q.1 ∧ q.1 < s1) ∨ (s0 < q.2 ∧ q.2 < s1) := by
  unfold endInside; simp

/-- all faces have an end inside -/
def Good (D : Nat) (s0 s1 : T) (g : List Nat → List (T × T)) (s : List Nat) : Prop := ∀ t, CubeFace D t s → FirstEndIn s0 s1 (g t)

theorem good_iff {s0 s1 : T} {s : List Nat} (hc : IsCube D s) : Good D s0 s1 g s ↔ FirstEndIn s0 s1 (g s) ∧ ∀ p ∈ faces1 s, Good D s0 s1 g p.1 := by
  constructor
  · intro h
    exact ⟨h s (Cub.cubeFace_refl hc), fun p hp t ht => h t ((Cub.cubeFace_iff hc).2 (Or.inr ⟨p, hp, ht⟩))⟩
  · rintro ⟨h1, h2⟩ t ht
    rcases (Cub.cubeFace_iff hc).1 ht with rfl | ⟨p, hp, h⟩
    · exact h1
    · exact h2 p hp t h

/-- what has been added when the loop is at cell `i` of dimension `k` -/
def done (D : Nat) (s0 s1 : T) (cells : Cells) (g : List Nat → List (T × T)) (k i : Nat) : Set (List Nat) :=
  {s | s ∈ Cub.setOf cells ∧ Good D s0 s1 g s ∧ (cubeDim s < k ∨ ∃ m, m < i ∧ (cells k)[m]? = some s)}

theorem done_succ {s0 s1 : T} {k i : Nat} {s : List Nat} (hs : (cells k)[i]? = some s) (hok : Cub.CellsOK D cells) :
    done D s0 s1 cells g k (i + 1) = {t | t ∈ done D s0 s1 cells g k i ∨ (t = s ∧ Good D s0 s1 g s)} := by
  have hm : s ∈ Cub.setOf cells := (hok.mem_iff.1 (List.mem_of_getElem? hs)).1
  ext t
  constructor
  · rintro ⟨h1, h2, h3 | ⟨m, h3, h4⟩⟩
    · exact Or.inl ⟨h1, h2, Or.inl h3⟩
    · by_cases hmi : m = i
      · subst hmi
        rw [hs] at h4; cases h4
        exact Or.inr ⟨rfl, h2⟩
      · exact Or.inl ⟨h1, h2, Or.inr ⟨m, by omega, h4⟩⟩
  · rintro (⟨h1, h2, h3 | ⟨m, h3, h4⟩⟩ | ⟨rfl, h⟩)
    · exact ⟨h1, h2, Or.inl h3⟩
    · exact ⟨h1, h2, Or.inr ⟨m, by omega, h4⟩⟩
    · exact ⟨hm, h, Or.inr ⟨i, by omega, hs⟩⟩

theorem cubLevelRow_spec (h : CZInv Φ D cells g) (hne : ∀ s ∈ Cub.setOf cells, g s ≠ []) (s0 s1 : T) {k : Nat} (hk : k ≤ D) :
    ∀ (n i : Nat) {Y : Cub} {cy : Cells}, i + n = (cells k).length → Cub.Inv Y D cy → Cub.setOf cy = done D s0 s1 cells g k i →
      ∃ Y' cy', cubLevelRow Φ s0 s1 k n i Y = .ok Y' ∧ Cub.Inv Y' D cy' ∧ Cub.setOf cy' = done D s0 s1 cells g k (i + n)
  | 0, i, Y, cy, _, hY, hs => ⟨Y, cy, rfl, hY, hs⟩
  | n + 1, i, Y, cy, hl, hY, hset => by
    have hlt : i < (cells k).length := by omega
    obtain ⟨s, hs⟩ : ∃ s, (cells k)[i]? = some s := ⟨_, List.getElem?_eq_getElem hlt⟩
    obtain ⟨hc, hd⟩ := h.inv.ok.cube k s (List.mem_of_getElem? hs)
    have hm : s ∈ Cub.setOf cells := (h.inv.ok.mem_iff.1 (List.mem_of_getElem? hs)).1
    have hrl : (Φ.val.getD k []).length = (cells k).length := by rw [h.row, List.length_map]
    have hkl : k < Φ.val.length := by
      by_contra hcon
      rw [List.getD_eq_getElem?_getD, List.getElem?_eq_none (by omega)] at hrl
      simp at hrl; omega
    obtain ⟨q, qs, hq⟩ : ∃ q qs, g s = q :: qs := by
      cases hx : g s with
      | nil => exact absurd hx (hne s hm)
      | cons q qs => exact ⟨q, qs, rfl⟩
    have e1 : rd Φ.val k = .ok (Φ.val.getD k []) := BATS.rd_getD _ hkl
    have e2 : rd (Φ.val.getD k []) i = .ok (g s) := by
      apply BATS.rd_some
      rw [h.row, List.getElem?_map, hs]; rfl
    have e3 : rd (g s) 0 = .ok q := by rw [hq]; rfl
    have hin : FirstEndIn s0 s1 (g s) ↔ endInside s0 s1 q = true := by
      rw [endInside_iff, hq]
      constructor
      · rintro ⟨q', h1, h2⟩; cases h1; exact h2
      · intro h2; exact ⟨q, rfl, h2⟩
    have hgc : Φ.X.getCube k i = .ok s := by
      have hR := h.inv.represents
      obtain ⟨m, _, _, h3⟩ := hR.range s hm i ((h.inv.trie s hc.1 i).2 (by rw [hd]; exact hs))
      rw [cubeDimension_eq hc, hd] at h3; exact h3
    have hnext : i + (n + 1) = (i + 1) + n := by omega
    rw [cubLevelRow, e1, bind_ok, e2, bind_ok, e3, bind_ok, hnext]
    by_cases hb : endInside s0 s1 q = true
    · rw [if_pos hb, hgc, bind_ok]
      obtain ⟨Z, cz, r, f1, f2, f3⟩ := Cub.add_spec hY hc
      rw [f1, bind_ok]
      apply cubLevelRow_spec h hne s0 s1 hk n (i + 1) (by omega) f2
      rw [done_succ hs h.inv.ok]
      rcases f3 with ⟨a1, rfl, _⟩ | ⟨a1, a2, rfl, _⟩ | ⟨a1, a2, _, rfl, _⟩
      · rw [hset]
        have hmem : s ∈ done D s0 s1 cells g k i := by rw [← hset]; exact a1
        ext t
        constructor
        · intro ht; exact Or.inl ht
        · rintro (ht | ⟨rfl, _⟩)
          · exact ht
          · exact hmem
      · rw [Cub.setOf_push, hset]
        have hgood : Good D s0 s1 g s := by
          refine (good_iff hc).2 ⟨hin.2 hb, fun p hp => ?_⟩
          have h1 := a2 p hp
          obtain ⟨q1, q2⟩ := Cub.face_cube hc hp
          have h2 : p.1 ∈ Cub.setOf cy := (hY.ok.mem_iff.1 h1).1
          rw [hset] at h2
          exact h2.2.1
        ext t
        constructor
        · rintro (ht | rfl)
          · exact Or.inl ht
          · exact Or.inr ⟨rfl, hgood⟩
        · rintro (ht | ⟨rfl, _⟩)
          · exact Or.inl ht
          · exact Or.inr rfl
      · rw [hset]
        have hbad : ¬ Good D s0 s1 g s := by
          intro hgood
          apply a2
          intro p hp
          obtain ⟨q1, q2⟩ := Cub.face_cube hc hp
          have hpc : p.1 ∈ Cub.setOf cells := by
            have := (facesIn_of_mem h.inv.ok hm) p hp
            exact (h.inv.ok.mem_iff.1 this).1
          have hp2 : p.1 ∈ done D s0 s1 cells g k i := ⟨hpc, ((good_iff hc).1 hgood).2 p hp, Or.inl (by omega)⟩
          rw [← hset] at hp2
          exact hY.ok.mem_iff.2 ⟨hp2, by omega⟩
        ext t
        constructor
        · intro ht; exact Or.inl ht
        · rintro (ht | ⟨rfl, hg⟩)
          · exact ht
          · exact absurd hg hbad
    · rw [if_neg hb]
      apply cubLevelRow_spec h hne s0 s1 hk n (i + 1) (by omega) hY
      rw [done_succ hs h.inv.ok, hset]
      ext t
      constructor
      · intro ht; exact Or.inl ht
      · rintro (ht | ⟨rfl, hg⟩)
        · exact ht
        · exact absurd (hin.1 ((good_iff hc).1 hg).1) hb

theorem done_next {s0 s1 : T} {k : Nat} (hok : Cub.CellsOK D cells) : done D s0 s1 cells g k (cells k).length = done D s0 s1 cells g (k + 1) 0 := by
  ext t
  constructor
  · rintro ⟨h1, h2, h3 | ⟨m, h3, h4⟩⟩
    · exact ⟨h1, h2, Or.inl (by omega)⟩
    · exact ⟨h1, h2, Or.inl (by have := (hok.cube k t (List.mem_of_getElem? h4)).2; omega)⟩
  · rintro ⟨h1, h2, h3 | ⟨m, h3, h4⟩⟩
    · refine ⟨h1, h2, ?_⟩
      by_cases hk : cubeDim t = k
      · right
        have ht : t ∈ cells k := by have h1' : t ∈ cells (cubeDim t) := h1; rw [hk] at h1'; exact h1'
        exact ⟨_, List.idxOf_lt_length_iff.2 ht, by rw [List.getElem?_eq_getElem (List.idxOf_lt_length_iff.2 ht), List.getElem_idxOf]⟩
      · exact Or.inl (by omega)
    · omega

theorem cubLevelLoop_spec (h : CZInv Φ D cells g) (hne : ∀ s ∈ Cub.setOf cells, g s ≠ []) (s0 s1 : T) :
    ∀ (n k : Nat) {Y : Cub} {cy : Cells}, k + n = D + 1 → Cub.Inv Y D cy → Cub.setOf cy = done D s0 s1 cells g k 0 →
      ∃ Y' cy', cubLevelLoop Φ s0 s1 n k Y = .ok Y' ∧ Cub.Inv Y' D cy' ∧ Cub.setOf cy' = done D s0 s1 cells g (D + 1) 0
  | 0, k, Y, cy, hk, hY, hs => by
    have : k = D + 1 := by omega
    subst this
    exact ⟨Y, cy, rfl, hY, hs⟩
  | n + 1, k, Y, cy, hk, hY, hs => by
    have hnc : Φ.X.numCells k = .ok (cells k).length := BATS.rd_some (h.inv.dim k (by omega)).nc
    obtain ⟨Y1, c1, e1, e2, e3⟩ := cubLevelRow_spec h hne s0 s1 (k := k) (by omega) (cells k).length 0 (by omega) hY hs
    rw [cubLevelLoop, hnc, bind_ok, e1, bind_ok]
    rw [Nat.zero_add, done_next h.inv.ok] at e3
    exact cubLevelLoop_spec h hne s0 s1 n (k + 1) (by omega) e2 e3

theorem cubLevelset_spec (h : CZInv Φ D cells g) (hne : ∀ s ∈ Cub.setOf cells, g s ≠ []) (s0 s1 : T) :
    ∃ Y cy, cubLevelset Φ s0 s1 = .ok Y ∧ Cub.Inv Y D cy ∧ Cub.setOf cy = {s | s ∈ Cub.setOf cells ∧ ∀ t, CubeFace D t s → FirstEndIn s0 s1 (g t)} := by
  have hD := h.inv.sizes.pos
  have hm : Φ.X.maxdim = D := h.inv.sizes.dim
  obtain ⟨Y, cy, e1, e2, e3⟩ := cubLevelLoop_spec h hne s0 s1 (D + 1) 0 (by omega) (Cub.init_inv hD) (by
    ext t
    constructor
    · intro ht; simp [Cub.setOf] at ht
    · rintro ⟨_, _, h3 | ⟨m, h3, _⟩⟩
      · omega
      · omega)
  refine ⟨Y, cy, ?_, e2, ?_⟩
  · unfold cubLevelset
    have hnc : Φ.X.numCells 0 = .ok (cells 0).length := BATS.rd_some (h.inv.dim 0 (by omega)).nc
    rw [hnc, bind_ok, hm, e1]
  · rw [e3]
    ext t
    constructor
    · rintro ⟨h1, h2, _⟩; exact ⟨h1, h2⟩
    · rintro ⟨h1, h2⟩
      refine ⟨h1, h2, Or.inl ?_⟩
      have := Cub.cubeDim_le (h.inv.ok.cube _ t h1).1
      omega

end Zigzag
end BATS
