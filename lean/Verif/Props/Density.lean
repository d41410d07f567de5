import Verif.Spec.Density
import Mathlib.Data.List.Sort
import Mathlib.Tactic.Ring

set_option linter.unusedSectionVars false
set_option linter.unusedSimpArgs false

/-! # C89: distances to the k-th nearest neighbours (`kdist`, include/topology/density.hpp)

`NthElement`, `IsKth` are in `Verif/Spec/Density.lean`. -/

namespace BATS
namespace Density
variable {T : Type} [LinearOrder T]

theorem kth_unique {n : Nat} {d : Nat → Nat → T} {k j : Nat} {v w : T} (hv : IsKth n d k j v) (hw : IsKth n d k j w) : v = w := by
  have key : ∀ {v w : T}, IsKth n d k j v → IsKth n d k j w → ¬ v < w := by
    intro v w hv hw h
    have : (List.range n).countP (fun i => decide (d i j ≤ v)) ≤ (List.range n).countP (fun i => decide (d i j < w)) :=
      List.countP_mono_left (fun i _ hi => by
        rw [decide_eq_true_iff] at hi ⊢
        exact lt_of_le_of_lt hi h)
    exact absurd hv.2 (not_lt.2 (le_trans this hw.1))
  exact le_antisymm (not_lt.1 (key hw hv)) (not_lt.1 (key hv hw))

theorem nth_kth {nth : List T → Nat → List T} (hn : NthElement nth) {n : Nat} {d : Nat → Nat → T} {k j : Nat} (hk : k < n) :
    ∃ v, kdistAt nth n d k j = .ok v ∧ IsKth n d k j v := by
  have hl : ((List.range n).map (fun i => d i j)).length = n := by simp
  obtain ⟨p, h⟩ := hn ((List.range n).map (fun i => d i j)) k (by rw [hl]; exact hk.le)
  generalize he : nth ((List.range n).map (fun i => d i j)) k = e at p h
  have hle : k < e.length := by rw [p.length_eq, hl]; exact hk
  obtain ⟨h1, h2⟩ := h e[k] (List.getElem?_eq_getElem hle)
  refine ⟨e[k], ?_, ?_⟩
  · unfold kdistAt
    rw [if_neg (not_lt.2 hk.le), he]
    unfold rd
    rw [List.getElem?_eq_getElem hle]
  · have hsplit : e = e.take k ++ e[k] :: e.drop (k + 1) := by
      rw [List.getElem_cons_drop]; exact (List.take_append_drop k e).symm
    have ht : (e.take k).length = k := by rw [List.length_take]; omega
    have m1 : ∀ w ∈ e.take k, w ≤ e[k] := by
      intro w hw
      obtain ⟨i, hi⟩ := List.getElem?_of_mem hw
      rw [List.getElem?_take] at hi
      split at hi
      · exact h1 i w ‹_› hi
      · cases hi
    have m2 : ∀ w ∈ e.drop (k + 1), e[k] ≤ w := by
      intro w hw
      obtain ⟨i, hi⟩ := List.getElem?_of_mem hw
      rw [List.getElem?_drop] at hi
      exact h2 (k + 1 + i) w (by omega) hi
    have c1 : ∀ q : T → Bool, (List.range n).countP (fun i => q (d i j)) = e.countP q := by
      intro q
      rw [p.countP_eq, List.countP_map]
      rfl
    generalize e[k] = v at *
    refine ⟨?_, ?_⟩
    · rw [c1 (fun w => decide (w < v)), hsplit, List.countP_append, List.countP_cons]
      have z : (e.drop (k + 1)).countP (fun w => decide (w < v)) = 0 := by
        rw [List.countP_eq_zero]
        intro w hw
        simpa using m2 w hw
      have y : (e.take k).countP (fun w => decide (w < v)) ≤ k := le_trans List.countP_le_length ht.le
      rw [z]
      simp
      exact y
    · rw [c1 (fun w => decide (w ≤ v)), hsplit, List.countP_append, List.countP_cons]
      have y : (e.take k).countP (fun w => decide (w ≤ v)) = k := by
        rw [List.countP_eq_length.2 (fun w hw => by simpa using m1 w hw), ht]
      rw [y]
      simp

/-- C89: for `k` below the number of points `kdist` succeeds with every implementation of `nth_element`; its value at a point is the `k`-th smallest distance to
the points, which determines it -/
theorem C89_kdist {nth : List T → Nat → List T} (hn : NthElement nth) (n : Nat) (d : Nat → Nat → T) {k : Nat} (hk : k < n) :
    ∃ dk, kdist nth n d k = .ok dk ∧ dk.length = n ∧ ∀ j, j < n → ∃ v, dk[j]? = some v ∧ ∀ w, IsKth n d k j w ↔ w = v := by
  have main : ∀ m j0, ∃ dk, kdistLoop nth n d k m j0 = .ok dk ∧ dk.length = m ∧ ∀ j, j < m → ∃ v, dk[j]? = some v ∧ IsKth n d k (j0 + j) v := by
    intro m
    induction m with
    | zero => intro j0; exact ⟨[], rfl, rfl, fun j hj => absurd hj (Nat.not_lt_zero _)⟩
    | succ m ih =>
      intro j0
      obtain ⟨v, v1, v2⟩ := nth_kth hn (d := d) (j := j0) hk
      obtain ⟨dk, a, b, c⟩ := ih (j0 + 1)
      refine ⟨v :: dk, ?_, by simp [b], ?_⟩
      · unfold kdistLoop
        rw [v1, a]
        rfl
      · intro j hj
        cases j with
        | zero => exact ⟨v, rfl, v2⟩
        | succ j =>
          obtain ⟨w, w1, w2⟩ := c j (by omega)
          refine ⟨w, w1, ?_⟩
          rw [show j0 + (j + 1) = j0 + 1 + j by omega]
          exact w2
  obtain ⟨dk, a, b, c⟩ := main n 0
  refine ⟨dk, a, b, fun j hj => ?_⟩
  obtain ⟨v, v1, v2⟩ := c j hj
  rw [Nat.zero_add] at v2
  exact ⟨v, v1, fun w => ⟨fun hw => kth_unique hw v2, fun e => by rw [e]; exact v2⟩⟩

/-- C89: the point itself counts: if no point is nearer to `j` than `j` itself, `kdist` for `k = 0` is the distance of `j` to itself -/
theorem C89_zero {nth : List T → Nat → List T} (hn : NthElement nth) {n : Nat} (d : Nat → Nat → T) {j : Nat} (hj : j < n) (h : ∀ i, i < n → d j j ≤ d i j) :
    ∃ dk, kdist nth n d 0 = .ok dk ∧ dk[j]? = some (d j j) := by
  obtain ⟨dk, a, _, c⟩ := C89_kdist hn n d (k := 0) (by omega)
  obtain ⟨v, v1, v2⟩ := c j hj
  refine ⟨dk, a, ?_⟩
  rw [v1, (v2 (d j j)).1 ⟨?_, ?_⟩]
  · rw [Nat.le_zero, List.countP_eq_zero]
    intro i hi
    simpa using h i (List.mem_range.1 hi)
  · rw [List.countP_pos_iff]
    exact ⟨j, List.mem_range.2 hj, by simp⟩

/-- C89: if `k` is not below the number of points, which is not 0, the behaviour is undefined -/
theorem C89_undefined {nth : List T → Nat → List T} (hn : NthElement nth) {n : Nat} (d : Nat → Nat → T) {k : Nat} (h0 : 0 < n) (hk : n ≤ k) :
    kdist nth n d k = .error .ub := by
  obtain ⟨m, rfl⟩ : ∃ m, n = m + 1 := ⟨n - 1, by omega⟩
  have : kdistAt nth (m + 1) d k 0 = .error .ub := by
    unfold kdistAt
    split
    · rfl
    · obtain ⟨p, _⟩ := hn ((List.range (m + 1)).map (fun i => d i 0)) k (by simp; omega)
      have hn' := List.getElem?_eq_none (l := nth ((List.range (m + 1)).map (fun i => d i 0)) k) (i := k) (by rw [p.length_eq]; simp; omega)
      unfold rd
      simp only [hn']
  unfold kdist kdistLoop
  rw [this]
  rfl

/-- sorting is an implementation of `nth_element` -/
theorem nthElement_sort : NthElement (fun (l : List T) (_ : Nat) => l.mergeSort (· ≤ ·)) := by
  intro l k _
  have hs : (l.mergeSort (· ≤ ·)).Pairwise (fun a b : T => a ≤ b) := by
    have := List.pairwise_mergeSort (le := fun a b : T => decide (a ≤ b)) (fun a b c h1 h2 => by simp at *; exact le_trans h1 h2) (fun a b => by simp; exact le_total a b) l
    exact this.imp (fun h => by simpa using h)
  refine ⟨List.mergeSort_perm _ _, fun v hv => ⟨fun i w hi hw => ?_, fun i w hi hw => ?_⟩⟩
  · obtain ⟨a1, rfl⟩ := List.getElem?_eq_some_iff.1 hv
    obtain ⟨a2, rfl⟩ := List.getElem?_eq_some_iff.1 hw
    exact List.pairwise_iff_getElem.1 hs _ _ _ _ hi
  · obtain ⟨a1, rfl⟩ := List.getElem?_eq_some_iff.1 hv
    obtain ⟨a2, rfl⟩ := List.getElem?_eq_some_iff.1 hw
    exact List.pairwise_iff_getElem.1 hs _ _ _ _ hi

/-! ### examples -/

/-- the hypotheses are met: points 0, 1, 5 on the line, `k = 1`: the distance to the nearest other point -/
example : ∃ dk, kdist (fun (l : List Int) _ => l.mergeSort (· ≤ ·)) 3 (fun i j => |[0, 1, 5].getD i (0 : Int) - [0, 1, 5].getD j 0|) 1 = .ok dk ∧ dk.length = 3 := by
  obtain ⟨dk, a, b, _⟩ := C89_kdist nthElement_sort 3 (fun i j => |[0, 1, 5].getD i (0 : Int) - [0, 1, 5].getD j 0|) (k := 1) (by omega)
  exact ⟨dk, a, b⟩

example : IsKth 3 (fun i j => |[0, 1, 5].getD i (0 : Int) - [0, 1, 5].getD j 0|) 1 2 4 := by unfold IsKth; decide +kernel

end Density
end BATS
