import Verif.Proofs.ZZHist
import Verif.Props.ZigzagExt

set_option linter.unusedSectionVars false
set_option linter.unusedVariables false
set_option linter.unusedSimpArgs false

/-!
# C64: histories of additions to a zigzag filtration, their barcodes and level sets (include/zigzag/zigzag_filtration.hpp:105-166)

The specification is in `Verif/Spec/ZigzagHist.lean`: the effect of every call on the function from simplices to lists of intervals.
-/

namespace BATS
namespace Zigzag
open Reduction Matrix SCpx

variable {T : Type}

/-- C64: start from an empty filtration and make any sequence of `add` / `add_recursive` calls. If the codimension-one faces of every simplex passed to `add`
are present, all calls succeed and the queries describe exactly the intervals given by the specification; otherwise memory is accessed out of bounds. -/
theorem C64_history [LinearOrder T] (ops : List (ZOp T)) (ho : ∀ o ∈ ops, o.simplex ≠ []) :
    (∀ iv, specRun (fun _ => []) ops = some iv → ∃ Φ, ZFilt.run ZFilt.empty ops = .ok Φ ∧ HistRepresents Φ iv) ∧
    (specRun (fun _ => []) ops = none → ZFilt.run ZFilt.empty ops = .error .ub) := by
  obtain ⟨h1, h2⟩ := run_inv ops (empty_hinv (T := T)) ho
  refine ⟨fun iv hiv => ?_, h2⟩
  obtain ⟨Φ, c, e1, e2, _⟩ := h1 iv hiv
  exact ⟨Φ, e1, e2.histRepresents⟩

theorem specStep_sorted {iv iv' : List Nat → List (T × T)} {o : ZOp T} (ho : o.simplex.Nodup) (h : specStep iv o = some iv') (hs : ∀ s, iv s ≠ [] → s.Pairwise (· < ·)) :
    ∀ s, iv' s ≠ [] → s.Pairwise (· < ·) := by
  cases o with
  | add p s =>
    unfold specStep specAdd at h
    simp only at h
    split at h
    · cases h
      intro u hu
      by_cases he : u = s.mergeSort (· ≤ ·)
      · rw [he]; exact sorted_mergeSort ho
      · simp only [if_neg he] at hu; exact hs u hu
    · cases h
  | addRecursive p s =>
    unfold specStep at h
    cases h
    intro u hu
    unfold specAddRec at hu
    split at hu
    · by_cases he : u = s.mergeSort (· ≤ ·)
      · rw [he]; exact sorted_mergeSort ho
      · simp only [if_neg he] at hu; exact hs u hu
    · by_cases he : u ≠ [] ∧ u.Sublist (s.mergeSort (· ≤ ·)) ∧ iv u = []
      · exact (sorted_mergeSort ho).sublist he.2.1
      · simp only [if_neg he] at hu; exact hs u hu

theorem specRun_iv_sorted : ∀ (ops : List (ZOp T)) {iv iv' : List Nat → List (T × T)}, (∀ o ∈ ops, o.simplex.Nodup) → specRun iv ops = some iv' →
    (∀ s, iv s ≠ [] → s.Pairwise (· < ·)) → ∀ s, iv' s ≠ [] → s.Pairwise (· < ·)
  | [], iv, iv', _, h, hs => by cases h; exact hs
  | o :: os, iv, iv', ho, h, hs => by
    unfold specRun at h
    rcases ho1 : specStep iv o with _ | iv1
    · rw [ho1] at h; cases h
    · rw [ho1, Option.bind_some] at h
      exact specRun_iv_sorted os (fun o' h' => ho o' (by simp [h'])) h (specStep_sorted (ho o (by simp)) ho1 hs)

theorem le_mergeSort (s : List Nat) : (s.mergeSort (· ≤ ·)).Pairwise (· ≤ ·) := by
  have := List.pairwise_mergeSort (le := fun a b : Nat => decide (a ≤ b)) (by intro a b c; simp; omega) (by intro a b; simp; omega) s
  simpa using this

theorem specStep_le {iv iv' : List Nat → List (T × T)} {o : ZOp T} (h : specStep iv o = some iv') (hs : ∀ s, iv s ≠ [] → s.Pairwise (· ≤ ·)) :
    ∀ s, iv' s ≠ [] → s.Pairwise (· ≤ ·) := by
  cases o with
  | add p s =>
    unfold specStep specAdd at h
    simp only at h
    split at h
    · cases h
      intro u hu
      by_cases he : u = s.mergeSort (· ≤ ·)
      · rw [he]; exact le_mergeSort s
      · simp only [if_neg he] at hu; exact hs u hu
    · cases h
  | addRecursive p s =>
    unfold specStep at h
    cases h
    intro u hu
    unfold specAddRec at hu
    split at hu
    · by_cases he : u = s.mergeSort (· ≤ ·)
      · rw [he]; exact le_mergeSort s
      · simp only [if_neg he] at hu; exact hs u hu
    · by_cases he : u ≠ [] ∧ u.Sublist (s.mergeSort (· ≤ ·)) ∧ iv u = []
      · exact (le_mergeSort s).sublist he.2.1
      · simp only [if_neg he] at hu; exact hs u hu

theorem specRun_iv_le : ∀ (ops : List (ZOp T)) {iv iv' : List Nat → List (T × T)}, specRun iv ops = some iv' →
    (∀ s, iv s ≠ [] → s.Pairwise (· ≤ ·)) → ∀ s, iv' s ≠ [] → s.Pairwise (· ≤ ·)
  | [], iv, iv', h, hs => by cases h; exact hs
  | o :: os, iv, iv', h, hs => by
    unfold specRun at h
    rcases ho1 : specStep iv o with _ | iv1
    · rw [ho1] at h; cases h
    · rw [ho1, Option.bind_some] at h
      exact specRun_iv_le os h (specStep_le ho1 hs)

section barcode
variable {F : Type} [Field F] [DecidableEq F] [LinearOrder T]

theorem HInv.cells_of {Φ : ZFilt T} {cells : Cells} {iv : List Nat → List (T × T)} (h : HInv Φ cells iv) {d : Nat} {s : List Nat} (hs : s ∈ cells d) : iv s ≠ [] :=
  toV_ne.1 ((h.dom s).2 ((mem_setOf (h.inv.ok.len d s hs)).2 hs))

theorem HInv.intervals_eq {Φ : ZFilt T} {cells : Cells} {iv : List Nat → List (T × T)} (h : HInv Φ cells iv) (k i : Nat) :
    (∃ s, (cells k)[i]? = some s ∧ intervals Φ.val k i = iv s) ∨ (intervals Φ.val k i = [] ∧ (cells k).length ≤ i) := by
  by_cases hi : i < (cells k).length
  · exact Or.inl ⟨_, List.getElem?_eq_getElem hi, h.getD k i _ (List.getElem?_eq_getElem hi)⟩
  · right
    refine ⟨?_, by omega⟩
    unfold intervals
    rw [List.getD_eq_getElem?_getD, List.getElem?_eq_none (by rw [h.rowLen]; omega)]; rfl

/-- the specification's condition gives the condition on the chain complex -/
theorem HInv.treatable {Φ : ZFilt T} {cells : Cells} {iv : List Nat → List (T × T)} (h : HInv Φ cells iv) (h1 : 1 ≤ Φ.X.maxdim) (ht : IsTreatable iv)
    {B : List (CMat F)} (hB : Φ.X.chainComplex = .ok B) : Treatable B Φ.val := by
  obtain ⟨B', b1, b2, b3, b4⟩ := SCpx.chainComplex_spec (F := F) h.inv
  rw [hB] at b1; cases b1
  have hlen : Φ.val.length = Φ.X.ncells.length := by
    rcases h.len with g | ⟨_, g, _⟩
    · exact g
    · unfold SCpx.maxdim at h1; omega
  have hcd : ∀ k, cdim B k = (cells k).length := SCpx.cdim_eq h.inv b3 b2 b4
  have hface : ∀ k i j, ent B (k + 1) i j ≠ 0 → ∃ s m, (cells (k + 1))[j]? = some s ∧ s.length = k + 2 ∧ m < k + 2 ∧ (cells k)[i]? = some (s.eraseIdx m) := by
    intro k i j he
    rcases hj : (cells (k + 1))[j]? with _ | s
    · exfalso; apply he
      unfold ent
      rw [List.getD_eq_getElem?_getD (l := (B.getD (k + 1) ⟨0, []⟩).cols), List.getElem?_eq_none ?_]
      · rfl
      · show cdim B (k + 1) ≤ j
        rw [hcd]; exact List.getElem?_eq_none_iff.1 hj
    · have hm := List.mem_of_getElem? hj
      have hl := h.inv.ok.len (k + 1) s hm
      rw [SCpx.ent_eq h.inv b4 hj] at he
      obtain ⟨m, hmr, hme⟩ := Finset.exists_ne_zero_of_sum_ne_zero he
      rw [Finset.mem_range] at hmr
      refine ⟨s, m, rfl, hl, hmr, ?_⟩
      have hcl := h.inv.ok.closed k s hm m hmr
      have hidx : (cells k).idxOf (s.eraseIdx m) = i := by
        by_contra hc
        rw [if_neg hc] at hme; exact hme rfl
      have hlt := List.idxOf_lt_length_iff.2 hcl
      rw [← hidx, List.getElem?_eq_getElem hlt, List.getElem_idxOf]
  have hget : ∀ {k i s}, (cells k)[i]? = some s → intervals Φ.val k i = iv s := fun {k i s} hs => h.getD k i s hs
  refine ⟨⟨?_, ?_, ?_, ?_, ?_, ?_⟩, ?_, ?_⟩
  · rw [hlen, b2]
  · intro k _; rw [h.rowLen, hcd]
  · intro k i hi
    rw [hcd] at hi
    rw [hget (List.getElem?_eq_getElem hi)]
    exact h.cells_of (List.getElem_mem hi)
  · intro k i v hv
    rcases h.intervals_eq k i with ⟨s, _, e⟩ | ⟨e, _⟩
    · rw [e] at hv; exact ht.le s v hv
    · rw [e] at hv; cases hv
  · intro k i
    rcases h.intervals_eq k i with ⟨s, _, e⟩ | ⟨e, _⟩
    · rw [e]; exact ht.disjoint s
    · rw [e]; exact List.Pairwise.nil
  · intro k i j he v hv
    obtain ⟨s, m, hj, hl, hm, hi⟩ := hface k i j he
    rw [hget hj] at hv
    rw [hget hi]
    exact ht.closed s m (by omega) (by omega) v hv
  · intro k i j he v hv
    obtain ⟨s, m, hj, hl, hm, hi⟩ := hface k i j he
    rw [hget hj] at hv
    rw [hget hi]
    exact ht.first s m (by omega) (by omega) v hv
  · intro k i v hv
    rcases h.intervals_eq k i with ⟨s, _, e⟩ | ⟨e, _⟩
    · rw [e] at hv; exact ht.strict s v hv
    · rw [e] at hv; cases hv

/-- C64: build a zigzag filtration by any history of `add` / `add_recursive` calls with distinct vertices whose result `iv` is of the treatable kind and has an
edge, and compute its barcode over any field: all calls succeed, and for every time `t` the number of pairs of dimension `k` alive at `t` is the `k`-th
simplicial Betti number of the complex of the simplices one of whose intervals contains `t`. -/
theorem C64_barcode (S : StdSort) (d : T) (ops : List (ZOp T)) (ho : ∀ o ∈ ops, o.simplex ≠ [] ∧ o.simplex.Nodup) {iv : List Nat → List (T × T)}
    (hiv : specRun (fun _ => []) ops = some iv) (ht : IsTreatable iv) (h1 : ∃ s, iv s ≠ [] ∧ 2 ≤ s.length) :
    ∃ Φ bars, ZFilt.run ZFilt.empty ops = .ok Φ ∧ barcodeSimplicial F S d Φ.X Φ.val none = .ok bars ∧ bars.length = Φ.X.maxdim ∧
      ∀ t, ∃ L : Finset (Finset Nat), (∀ σ, σ ∈ L ↔ ∃ v ∈ iv (σ.sort (· ≤ ·)), v.1 ≤ t ∧ t ≤ v.2) ∧
        ∀ k, k < Φ.X.maxdim → (bars.getD k []).countP (fun p => decide (p.AliveAt t)) = simplicialBetti F L k := by
  obtain ⟨Φ, cells, e1, h, _⟩ := (run_inv ops (empty_hinv (T := T)) (fun o hh => (ho o hh).1)).1 iv hiv
  have hsort : ∀ d s, s ∈ cells d → s.Pairwise (· < ·) := by
    intro d s hs
    exact specRun_iv_sorted ops (fun o hh => (ho o hh).2) hiv (by intro s hs; exact absurd rfl hs) s (h.cells_of hs)
  have hmd : 1 ≤ Φ.X.maxdim := by
    obtain ⟨s, hs, hl⟩ := h1
    have := (h.histRepresents.cpx.dim s hs).2
    omega
  obtain ⟨B, b1, b2, b3⟩ := barcode_simplicial_inv (F := F) S d h.inv hsort hmd
  have hT := h.treatable hmd ht b1
  obtain ⟨bars, c1, c2⟩ := b3 Φ.val hT none (by intro m h; cases h)
  have hn : ndims B none = Φ.X.maxdim := by simp only [ndims]; omega
  rw [hn] at c2
  refine ⟨Φ, bars, e1, c1, c2.len, fun t => ?_⟩
  obtain ⟨K, hK⟩ := exists_vertexSets h.inv hsort
  have hne0 : iv [] = [] := by
    by_contra hc
    exact ((h.histRepresents.cpx.dim [] hc).1) rfl
  have hmem : ∀ σ, σ ∈ K.filter (fun σ => ∃ v ∈ iv (σ.sort (· ≤ ·)), v.1 ≤ t ∧ t ≤ v.2) ↔ ∃ v ∈ iv (σ.sort (· ≤ ·)), v.1 ≤ t ∧ t ≤ v.2 := by
    intro σ
    rw [Finset.mem_filter, hK.mem, h.set]
    refine ⟨fun h => h.2, fun h => ⟨?_, h⟩⟩
    obtain ⟨v, hv, _⟩ := h
    exact List.ne_nil_of_mem hv
  refine ⟨_, hmem, fun k hk => ?_⟩
  rw [c2.betti k hk t]
  refine betti_at h.inv hsort b1 hT.toIsZigzagFiltration ?_ k
  intro σ
  rw [hmem]
  constructor
  · rintro ⟨v, hv, hvt⟩
    have hne := List.ne_nil_of_mem hv
    have hs0 : σ.sort (· ≤ ·) ≠ [] := by intro e; rw [e] at hne; exact hne hne0
    obtain ⟨i, hi⟩ := (h.histRepresents.cpx.found _ hs0).1 hne
    have := h.histRepresents.value _ i hs0 hi
    rw [Finset.length_sort] at this
    refine ⟨?_, i, hi, v, by rw [this]; exact hv, hvt⟩
    rw [← Finset.card_pos, ← Finset.length_sort (· ≤ ·)]; exact List.length_pos_iff.2 hs0
  · rintro ⟨hne, i, hi, v, hv, hvt⟩
    have hs0 : σ.sort (· ≤ ·) ≠ [] := by
      rw [← List.length_pos_iff, Finset.length_sort, Finset.card_pos]; exact hne
    have := h.histRepresents.value _ i hs0 hi
    rw [Finset.length_sort] at this
    exact ⟨v, by rw [← this]; exact hv, hvt⟩

/-- C64: after any history of calls, `levelset(s0, s1)` returns the simplices all of whose faces have a first interval with an end strictly between `s0` and
`s1` -/
theorem C64_levelset (ops : List (ZOp T)) (ho : ∀ o ∈ ops, o.simplex ≠ []) {iv : List Nat → List (T × T)} (hiv : specRun (fun _ => []) ops = some iv) (s0 s1 : T) :
    ∃ Φ Y, ZFilt.run ZFilt.empty ops = .ok Φ ∧ levelset Φ s0 s1 = .ok Y ∧
      SCpx.Represents Y {s | s ≠ [] ∧ ∀ u : List Nat, u ≠ [] → u.Sublist s → ∃ v, (iv u).head? = some v ∧ ((s0 < v.1 ∧ v.1 < s1) ∨ (s0 < v.2 ∧ v.2 < s1))} := by
  obtain ⟨Φ, cells, e1, h, _⟩ := (run_inv ops (empty_hinv (T := T)) ho).1 iv hiv
  have hsort : ∀ d s, s ∈ cells d → s.Pairwise (· ≤ ·) := by
    intro d s hs
    exact specRun_iv_le ops hiv (by intro s hs; exact absurd rfl hs) s (h.cells_of hs)
  obtain ⟨Y, c, f1, f2, _, f4⟩ := levelset_spec h hsort s0 s1
  refine ⟨Φ, Y, e1, f1, ?_⟩
  have := f2.represents
  rw [f4] at this
  simpa only [endInside, Bool.or_eq_true, Bool.and_eq_true, decide_eq_true_eq] using this

end barcode

/-! ### examples -/

/-- two vertices, and an edge which is present twice -/
def edgeOps : List (ZOp Nat) := [.add (0, 20) [0], .add (0, 20) [1], .add (3, 8) [0, 1], .add (10, 15) [1, 0]]

/-- the intervals after `edgeOps` -/
def edgeIv (s : List Nat) : List (Nat × Nat) := if s = [0] then [(0, 20)] else if s = [1] then [(0, 20)] else if s = [0, 1] then [(3, 8), (10, 15)] else []

theorem edgeOps_spec : specRun (fun _ => []) edgeOps = some edgeIv := by
  have m0 : [0].mergeSort (· ≤ ·) = [0] := by rw [mergeSort_eq]; decide
  have m1 : [1].mergeSort (· ≤ ·) = [1] := by rw [mergeSort_eq]; decide
  have m2 : [0, 1].mergeSort (· ≤ ·) = [0, 1] := by rw [mergeSort_eq]; decide
  have m3 : [1, 0].mergeSort (· ≤ ·) = [0, 1] := by rw [mergeSort_eq]; decide
  unfold edgeOps
  have h1 : ∀ (iv : List Nat → List (Nat × Nat)) p a, specAdd iv p [a] = some (fun u => if u = [a] then iv [a] ++ [p] else iv u) := by
    intro iv p a; unfold specAdd; rw [if_pos (Or.inl (by rfl : [a].length = 1))]
  have h2 : ∀ (iv : List Nat → List (Nat × Nat)) p, iv [0] ≠ [] → iv [1] ≠ [] → specAdd iv p [0, 1] = some (fun u => if u = [0, 1] then iv [0, 1] ++ [p] else iv u) := by
    intro iv p g0 g1; unfold specAdd
    have hh : [0, 1].length = 1 ∨ ∀ k < [0, 1].length, iv ([0, 1].eraseIdx k) ≠ [] := by
      right
      intro k hk
      rcases k with _ | _ | k
      · exact g1
      · exact g0
      · simp at hk
    rw [if_pos hh]
  simp only [specRun, specStep, m0, m1, m2, m3, h1, Option.bind_some]
  rw [h2 _ _ (by simp) (by simp), Option.bind_some, h2 _ _ (by simp) (by simp), Option.bind_some]
  congr 1
  funext u
  unfold edgeIv
  by_cases a : u = [0]
  · simp [a]
  · by_cases b : u = [1]
    · simp [b]
    · by_cases c : u = [0, 1]
      · simp [c]
      · simp [a, b, c]

theorem edgeIv_treatable : IsTreatable edgeIv := by
  have hc : ∀ s, s = [0] ∨ s = [1] ∨ s = [0, 1] ∨ edgeIv s = [] := by
    intro s; unfold edgeIv; split
    · exact Or.inl ‹_›
    · split
      · exact Or.inr (Or.inl ‹_›)
      · split
        · exact Or.inr (Or.inr (Or.inl ‹_›))
        · exact Or.inr (Or.inr (Or.inr rfl))
  refine ⟨⟨?_, ?_, ?_⟩, ?_, ?_⟩
  · intro s
    rcases hc s with rfl | rfl | rfl | h
    · decide
    · decide
    · decide
    · rw [h]; simp
  · intro s
    rcases hc s with rfl | rfl | rfl | h
    · decide
    · decide
    · decide
    · rw [h]; simp
  · intro s k h2 hk
    rcases hc s with rfl | rfl | rfl | h
    · simp at h2
    · simp at h2
    · rcases k with _ | _ | k
      · decide
      · decide
      · simp at hk
    · rw [h]; simp
  · intro s k h2 hk
    rcases hc s with rfl | rfl | rfl | h
    · simp at h2
    · simp at h2
    · rcases k with _ | _ | k
      · intro v hv; injection hv with hv; subst hv; exact ⟨(0, 20), rfl, by decide⟩
      · intro v hv; injection hv with hv; subst hv; exact ⟨(0, 20), rfl, by decide⟩
      · simp at hk
    · rw [h]; simp
  · intro s
    rcases hc s with rfl | rfl | rfl | h
    · decide
    · decide
    · decide
    · rw [h]; simp

example : ∃ Φ bars, ZFilt.run ZFilt.empty edgeOps = .ok Φ ∧ barcodeSimplicial ℚ insertionStdSort 0 Φ.X Φ.val none = .ok bars ∧ bars.length = Φ.X.maxdim ∧
    ∀ t, ∃ L : Finset (Finset Nat), (∀ σ, σ ∈ L ↔ ∃ v ∈ edgeIv (σ.sort (· ≤ ·)), v.1 ≤ t ∧ t ≤ v.2) ∧
      ∀ k, k < Φ.X.maxdim → (bars.getD k []).countP (fun p => decide (p.AliveAt t)) = simplicialBetti ℚ L k :=
  C64_barcode insertionStdSort 0 edgeOps (by decide) edgeOps_spec edgeIv_treatable ⟨[0, 1], by decide, by decide⟩

example : ∃ Φ Y, ZFilt.run ZFilt.empty edgeOps = .ok Φ ∧ levelset Φ 2 21 = .ok Y ∧
    SCpx.Represents Y {s | s ≠ [] ∧ ∀ u : List Nat, u ≠ [] → u.Sublist s → ∃ v, (edgeIv u).head? = some v ∧ ((2 < v.1 ∧ v.1 < 21) ∨ (2 < v.2 ∧ v.2 < 21))} :=
  C64_levelset edgeOps (by decide) edgeOps_spec 2 21

/-- the level set between 2 and 21 has all three simplices, the one between 4 and 6 has none, although the three simplices are present from 4 to 6: only the ends
of the intervals are tested -/
theorem C64_levelset_misses : (do let Φ ← ZFilt.run ZFilt.empty edgeOps; let Y ← levelset Φ 2 21; let Z ← levelset Φ 4 6; pure (Y.ncells, Z.ncells)) = Except.ok ([2, 1], [0, 0]) := by
  decide +kernel

/-- `add_recursive` of a simplex which is present adds the interval to the simplex but not to its faces: the result is no filtration -/
theorem C64_readd_not_recursive : (∃ Φ, ZFilt.run ZFilt.empty [.addRecursive (0, 1) [0, 1], .addRecursive (4, 5) [0, 1]] = Except.ok Φ ∧ Φ.val = [[[(0, 1)], [(0, 1)]], [[(0, 1), (4, 5)]]]) ∧
    ∀ iv : List Nat → List (Nat × Nat), iv [0] = [(0, 1)] → iv [0, 1] = [(0, 1), (4, 5)] → ¬ IsValid iv := by
  constructor
  · have h : (ZFilt.run (ZFilt.empty : ZFilt Nat) [.addRecursive (0, 1) [0, 1], .addRecursive (4, 5) [0, 1]]).map (fun Φ => Φ.val) = Except.ok [[[(0, 1)], [(0, 1)]], [[(0, 1), (4, 5)]]] := by
      decide +kernel
    rcases hr : ZFilt.run (ZFilt.empty : ZFilt Nat) [.addRecursive (0, 1) [0, 1], .addRecursive (4, 5) [0, 1]] with e | Φ
    · rw [hr] at h; cases h
    · rw [hr] at h
      injection h with h
      exact ⟨Φ, rfl, h⟩
  · intro iv h0 h1 hv
    obtain ⟨w, hw, h2⟩ := hv.closed [0, 1] 1 (by decide) (by decide) (4, 5) (by rw [h1]; decide)
    have : iv ([0, 1].eraseIdx 1) = [(0, 1)] := h0
    rw [this, List.mem_singleton] at hw
    subst hw
    exact absurd h2.2 (by decide)

/-- `add` of a simplex with a missing face accesses memory out of bounds -/
example : (ZFilt.run (ZFilt.empty : ZFilt Nat) [.add (0, 1) [0], .add (0, 1) [0, 1]]).map (fun _ => ()) = .error .ub := by
  decide +kernel

end Zigzag
end BATS
