import Verif.Proofs.ZZSimp
import Verif.Props.ZigzagFilt
import Mathlib.Data.Rat.Defs
import Mathlib.Algebra.Order.Ring.Rat

set_option linter.unusedSectionVars false
set_option linter.unusedVariables false
set_option linter.unusedSimpArgs false

/-!
# C62 for simplicial complexes in terms of simplicial homology, and C63: zigzag filtrations by thickened level sets (include/zigzag/extension.hpp)
-/

namespace BATS
namespace Zigzag
open Reduction Matrix

section
variable {F : Type} [Field F] [DecidableEq F] {T : Type} [LinearOrder T]

/-- the stored simplices after a history of `add` / `add_recursive` calls have increasing vertices -/
theorem history_sorted {m : Nat} {ops : List SCpx.Op} (ho : ∀ o ∈ ops, PlainOp o) {X : SCpx} (hX : (SCpx.init m).run ops = .ok X) :
    ∃ cells, SCpx.Inv X cells ∧ SCpx.setOf cells = SCpx.specRun ops ∧ ∀ d s, s ∈ cells d → s.Pairwise (· < ·) := by
  obtain ⟨Y, cells, e1, e2, _, e4⟩ := SCpx.run_set ops (SCpx.init_inv m).1 (fun o h => (ho o h).ne)
  rw [hX] at e1; cases e1
  have he : SCpx.setOf (fun _ => []) = ∅ := by
    ext s; simp [SCpx.setOf]
  rw [he] at e4
  refine ⟨cells, e2, e4, fun d s hs => ?_⟩
  have hm := (SCpx.mem_setOf (e2.ok.len d s hs)).2 hs
  rw [e4] at hm
  exact specRun_sorted ops ∅ ho (by intro s hs; exact hs.elim) s hm

/-- C62, simplicial complexes: the number of pairs of dimension `k` alive at `t` is the simplicial Betti number of the complex `L` of the simplices present
at `t` -/
theorem C62_simplicial_betti (S : StdSort) (d : T) (m : Nat) (ops : List SCpx.Op) (ho : ∀ o ∈ ops, PlainOp o) {X : SCpx} (hX : (SCpx.init m).run ops = .ok X)
    (h1 : 1 ≤ X.maxdim) {B : List (CMat F)} (hB : X.chainComplex = .ok B) {vals : List (List (List (T × T)))} (hv : Treatable B vals) :
    ∃ bars, barcodeSimplicial F S d X vals none = .ok bars ∧ bars.length = X.maxdim ∧
      ∀ k, k < X.maxdim → ∀ t L, IsComplexAt X vals t L → (bars.getD k []).countP (fun p => decide (p.AliveAt t)) = simplicialBetti F L k := by
  obtain ⟨B', b1, b2, b3⟩ := C62_simplicial_history (F := F) S d m ops ho hX h1
  rw [hB] at b1; cases b1
  obtain ⟨bars, c1, c2⟩ := b3 vals hv none (by intro m h; cases h)
  obtain ⟨cells, hI, _, hs⟩ := history_sorted ho hX
  have hn : ndims B none = X.maxdim := by simp only [ndims]; omega
  rw [hn] at c2
  refine ⟨bars, c1, c2.len, fun k hk t L hL => ?_⟩
  rw [c2.betti k hk t]
  exact betti_at hI hs hB hv.toIsZigzagFiltration hL k

end

variable {F : Type} [Field F] [DecidableEq F] {T : Type} [LinearOrder T] [AddCommGroup T] [IsOrderedAddMonoid T]

/-- C63: for a function `f0` on the vertices with values at most `hi`, `extend_zigzag_filtration` throws if and only if some simplex has two vertices whose
values differ by more than `2 eps`, or a vertex with a value below `lo - 2 eps`. Otherwise it returns a zigzag filtration with one interval for each simplex;
a simplex is present at `t` if and only if `t ≥ lo - eps` and the values of all its vertices are within `eps` of `t`. -/
theorem C63_extension {X : SCpx} (hX : SCpx.Reachable X) {f0 : List T} {lo hi eps : T}
    (hf : ∀ s i, s ≠ [] → X.findIdx s = some i → ∀ v ∈ s, v < f0.length) (hhi : ∀ v, v < f0.length → f0.getD v 0 ≤ hi) (hlo : lo ≤ hi) (he : 0 ≤ eps) :
    ((∃ s i, s ≠ [] ∧ X.findIdx s = some i ∧ ∃ w ∈ s, eps + eps < lo - f0.getD w 0 ∨ ∃ v ∈ s, eps + eps < f0.getD v 0 - f0.getD w 0) →
      extendZigzag lo hi f0 X eps = .error .thrown) ∧
    ((¬ ∃ s i, s ≠ [] ∧ X.findIdx s = some i ∧ ∃ w ∈ s, eps + eps < lo - f0.getD w 0 ∨ ∃ v ∈ s, eps + eps < f0.getD v 0 - f0.getD w 0) →
      ∃ vals, extendZigzag lo hi f0 X eps = .ok vals ∧ PresentIff X vals (fun s t => lo - eps ≤ t ∧ Near f0 eps s t) ∧ SingleIntervals vals ∧
        ∀ B : List (CMat F), X.chainComplex = .ok B → IsZigzagFiltration B vals) := by
  obtain ⟨cells, hI⟩ := hX.inv
  have hcell : ∀ {d i : Nat} {s : List Nat}, (cells d)[i]? = some s → s ≠ [] ∧ X.findIdx s = some i ∧ s.length = d + 1 := by
    intro d i s h
    have hl := hI.ok.len d s (List.mem_of_getElem? h)
    have hne : s ≠ [] := by rintro rfl; simp at hl
    refine ⟨hne, (hI.trie s hne i).2 ?_, hl⟩
    rw [hl, Nat.add_sub_cancel]; exact h
  have hf' : ∀ k, ∀ s ∈ cells k, ∀ v ∈ s, v < f0.length := by
    intro k s hs
    obtain ⟨i, hi, hg⟩ := List.getElem_of_mem hs
    obtain ⟨c1, c2, _⟩ := hcell (d := k) (i := i) (s := s) (by rw [List.getElem?_eq_getElem hi, hg])
    exact hf s i c1 c2
  obtain ⟨e1, e2⟩ := extendZigzag_spec (lo := lo) (hi := hi) hI hf' eps
  have hnar : (∀ d, ∀ s ∈ cells d, Narrow lo hi f0 eps s) ↔
      ¬ ∃ s i, s ≠ [] ∧ X.findIdx s = some i ∧ ∃ w ∈ s, eps + eps < lo - f0.getD w 0 ∨ ∃ v ∈ s, eps + eps < f0.getD v 0 - f0.getD w 0 := by
    constructor
    · rintro h ⟨s, i, s1, s2, w, hw, h3⟩
      have := (h _ s (List.mem_of_getElem? ((hI.trie s s1 i).1 s2))).2 w hw
      rcases h3 with h3 | ⟨v, hv, h3⟩
      · have h4 := this.1
        rw [sub_le_iff_le_add, add_assoc, ← sub_le_iff_le_add'] at h4
        exact absurd h4 (not_le.2 h3)
      · have h4 := this.2 v hv
        rw [sub_le_iff_le_add, add_assoc, ← sub_le_iff_le_add'] at h4
        exact absurd h4 (not_le.2 h3)
    · intro h d s hs
      obtain ⟨i, hi', hg⟩ := List.getElem_of_mem hs
      obtain ⟨c1, c2, _⟩ := hcell (d := d) (i := i) (s := s) (by rw [List.getElem?_eq_getElem hi', hg])
      have key : ∀ x y : T, ¬ eps + eps < x - y → x - eps ≤ y + eps := by
        intro x y hxy
        rw [sub_le_iff_le_add, add_assoc, ← sub_le_iff_le_add']
        exact not_lt.1 hxy
      refine ⟨⟨?_, ?_⟩, ?_⟩
      · exact (sub_le_self lo he).trans (hlo.trans (le_add_of_nonneg_right he))
      · intro v hv
        exact (sub_le_self _ he).trans ((hhi v (hf' d s hs v hv)).trans (le_add_of_nonneg_right he))
      · intro w hw
        exact ⟨key _ _ (fun h' => h ⟨s, i, c1, c2, w, hw, Or.inl h'⟩), fun v hv => key _ _ (fun h' => h ⟨s, i, c1, c2, w, hw, Or.inr ⟨v, hv, h'⟩⟩)⟩
  constructor
  · intro hex
    exact e2 (fun h => hnar.1 h hex)
  · intro hnot
    obtain ⟨vals, v1, v2, v3, v4⟩ := e1 (hnar.2 hnot)
    have hnear : ∀ {k j : Nat} {s : List Nat} {a b : T}, (cells k)[j]? = some s → ExtTimes lo hi f0 eps s a b → ∀ t, (a ≤ t ∧ t ≤ b) ↔ lo - eps ≤ t ∧ Near f0 eps s t := by
      intro k j s a b hs hx t
      have hm := List.mem_of_getElem? hs
      rw [hx.enter, hx.leave, and_assoc]
      apply and_congr_right
      intro _
      unfold Near
      constructor
      · rintro ⟨h1, _, h2⟩ v hv
        rw [abs_sub_le_iff]
        exact ⟨sub_le_comm.1 (h1 v hv), sub_le_iff_le_add'.2 (h2 v hv)⟩
      · intro h
        refine ⟨fun v hv => ?_, ?_, fun v hv => ?_⟩
        · have := (abs_sub_le_iff.1 (h v hv)).1
          exact sub_le_comm.1 this
        · obtain ⟨v, hv⟩ := List.exists_mem_of_ne_nil s (hcell hs).1
          have := (abs_sub_le_iff.1 (h v hv)).2
          rw [sub_le_iff_le_add'] at this
          exact this.trans (add_le_add_left (hhi v (hf' k s hm v hv)) eps)
        · have := (abs_sub_le_iff.1 (h v hv)).2
          rw [sub_le_iff_le_add'] at this
          exact this
    have hlen : ∀ k, k < vals.length → ∀ l ∈ vals.getD k [], l.length = 1 := by
      intro k hk l hl
      obtain ⟨j, hj, hg⟩ := List.getElem_of_mem hl
      have hj' : j < (cells k).length := by rw [← v3]; exact hj
      obtain ⟨a, b, h1, _⟩ := v4 k j _ (List.getElem?_eq_getElem hj')
      unfold intervals at h1
      rw [List.getD_eq_getElem?_getD, List.getElem?_eq_getElem hj, hg] at h1
      have h1' : l = [(a, b)] := h1
      rw [h1']; rfl
    refine ⟨vals, v1, ?_, ?_, ?_⟩
    · intro s i s1 s2 t
      have hc := (hI.trie s s1 i).1 s2
      obtain ⟨a, b, h1, h2⟩ := v4 _ _ _ hc
      rw [h1]
      simp only [List.mem_singleton, exists_eq_left]
      exact hnear hc h2 t
    · intro vk hvk l hl
      obtain ⟨k, hk, hg⟩ := List.getElem_of_mem hvk
      apply hlen k hk l
      rw [List.getD_eq_getElem?_getD, List.getElem?_eq_getElem hk, hg]; exact hl
    · intro B hB
      obtain ⟨B', b1, b2, b3, b4⟩ := SCpx.chainComplex_spec (F := F) hI
      rw [hB] at b1; cases b1
      have hc := SCpx.cdim_eq hI b3 b2 b4
      have hneI := hI.sizes.ne
      have hlenB : vals.length = B.length := by rw [v2, b2]; unfold SCpx.maxdim; omega
      have hget : ∀ k i, intervals vals k i ≠ [] → ∃ s, (cells k)[i]? = some s := by
        intro k i hne
        have : i < (cells k).length := by
          by_contra hcon
          apply hne
          unfold intervals
          rw [List.getD_eq_getElem?_getD, List.getElem?_eq_none (by rw [v3]; omega)]; rfl
        exact ⟨_, List.getElem?_eq_getElem this⟩
      have hle : ∀ {k i : Nat} {s : List Nat} {a b : T}, (cells k)[i]? = some s → ExtTimes lo hi f0 eps s a b → a ≤ b := by
        intro k i s a b hs hx
        exact hx.narrow.2 (hnar.2 hnot k s (List.mem_of_getElem? hs))
      refine ⟨hlenB, fun k _ => by rw [v3, hc], ?_, ?_, ?_, ?_⟩
      · intro k i hi
        rw [hc] at hi
        obtain ⟨a, b, h1, _⟩ := v4 k i _ (List.getElem?_eq_getElem hi)
        rw [h1]; simp
      · intro k i v hv
        obtain ⟨s, hs⟩ := hget k i (List.ne_nil_of_mem hv)
        obtain ⟨a, b, h1, h2⟩ := v4 k i s hs
        rw [h1, List.mem_singleton] at hv
        subst hv
        exact hle hs h2
      · intro k i
        by_cases hne : intervals vals k i = []
        · rw [hne]; exact List.Pairwise.nil
        · obtain ⟨s, hs⟩ := hget k i hne
          obtain ⟨a, b, h1, h2⟩ := v4 k i s hs
          rw [h1]; exact List.pairwise_singleton _ _
      · intro k i j hent v hv
        obtain ⟨s, hs⟩ := hget (k + 1) j (List.ne_nil_of_mem hv)
        obtain ⟨a, b, h1, h2⟩ := v4 (k + 1) j s hs
        rw [h1, List.mem_singleton] at hv
        subst hv
        rw [SCpx.ent_eq hI b4 hs] at hent
        obtain ⟨m, hm, hm'⟩ := Finset.exists_ne_zero_of_sum_ne_zero hent
        have hid : (cells k).idxOf (s.eraseIdx m) = i := by
          by_contra hcon
          rw [if_neg hcon] at hm'; exact hm' rfl
        have hmem := hI.ok.closed k s (List.mem_of_getElem? hs) m (Finset.mem_range.1 hm)
        have hlt := List.idxOf_lt_length_iff.2 hmem
        have hi : (cells k)[i]? = some (s.eraseIdx m) := by rw [← hid, List.getElem?_eq_getElem hlt, List.getElem_idxOf]
        obtain ⟨a', b', h1', h2'⟩ := v4 k i _ hi
        refine ⟨(a', b'), by rw [h1']; simp, ?_, ?_⟩
        · have := (h2.enter a).1 (le_refl a)
          exact (h2'.enter a).2 ⟨this.1, fun v hv => this.2 v (List.mem_of_mem_eraseIdx hv)⟩
        · have := (h2.leave b).1 (le_refl b)
          exact (h2'.leave b).2 ⟨this.1, fun v hv => this.2 v (List.mem_of_mem_eraseIdx hv)⟩

/-- C63, from the vertex function to Betti numbers: build a complex by any history of `add` / `add_recursive` calls, with vertex sets `K`; let `f0` have values
between `lo` and `hi` which differ by at most `2 eps` on each simplex. Then the calls succeed and for each dimension `k < maxdim()` and time `t` the number of
pairs alive at `t` is the Betti number of the complex of the simplices all of whose vertices have values within `eps` of `t`. -/
theorem C63_barcode (S : StdSort) (d : T) (m : Nat) (ops : List SCpx.Op) (ho : ∀ o ∈ ops, PlainOp o) {X : SCpx} (hX : (SCpx.init m).run ops = .ok X) (h1 : 1 ≤ X.maxdim)
    (K : Finset (Finset Nat)) (hK : ∀ σ : Finset Nat, σ ∈ K ↔ σ.sort (· ≤ ·) ∈ SCpx.specRun ops) {f0 : List T} {lo hi eps : T}
    (hf : ∀ σ ∈ K, ∀ v ∈ σ, v < f0.length) (hlo : ∀ v, v < f0.length → lo ≤ f0.getD v 0) (hhi : ∀ v, v < f0.length → f0.getD v 0 ≤ hi) (hlh : lo ≤ hi) (he : 0 ≤ eps)
    (hw : ∀ σ ∈ K, ∀ v ∈ σ, ∀ w ∈ σ, f0.getD v 0 - f0.getD w 0 ≤ eps + eps) :
    ∃ vals bars, extendZigzag lo hi f0 X eps = .ok vals ∧ barcodeSimplicial F S d X vals none = .ok bars ∧ bars.length = X.maxdim ∧
      ∀ k, k < X.maxdim → ∀ t L, (∀ σ, σ ∈ L ↔ σ ∈ K ∧ ∀ v ∈ σ, |f0.getD v 0 - t| ≤ eps) →
        (bars.getD k []).countP (fun p => decide (p.AliveAt t)) = simplicialBetti F L k := by
  obtain ⟨cells, hI, hset, hs⟩ := history_sorted ho hX
  have hR : SCpx.Reachable X := ⟨m, ops, fun o h => (ho o h).ne, hX⟩
  have hfind : ∀ s i, s ≠ [] → X.findIdx s = some i → s.Pairwise (· < ·) ∧ s.toFinset ∈ K := by
    intro s i hne hi
    have hg := (hI.trie s hne i).1 hi
    have hm := List.mem_of_getElem? hg
    have hp := hs _ s hm
    refine ⟨hp, ?_⟩
    rw [hK, SCpx.sort_toFinset_of_sorted hp, ← hset]
    exact (SCpx.mem_setOf (hI.ok.len _ s hm)).2 hm
  obtain ⟨vals, v1, v2, v3, v4⟩ := (C63_extension (F := F) (lo := lo) (hi := hi) (eps := eps) (f0 := f0) hR (by
    intro s i hne hi v hv
    exact hf _ (hfind s i hne hi).2 v (List.mem_toFinset.2 hv)) hhi hlh he).2 (by
    rintro ⟨s, i, hne, hi, w, hws, hcon⟩
    have hk := (hfind s i hne hi).2
    rcases hcon with hcon | ⟨v, hv, hcon⟩
    · have h0 := hlo w (hf _ hk w (List.mem_toFinset.2 hws))
      have : lo - f0.getD w 0 ≤ 0 := sub_nonpos.2 h0
      exact absurd (hcon.trans_le this) (not_lt.2 (add_nonneg he he))
    · exact absurd hcon (not_lt.2 (hw _ hk v (List.mem_toFinset.2 hv) w (List.mem_toFinset.2 hws))))
  obtain ⟨B, b1, b2, b3, b4⟩ := SCpx.chainComplex_spec (F := F) hI
  obtain ⟨bars, c1, c2, c3⟩ := C62_simplicial_betti S d m ops ho hX h1 b1 (C62_single_interval (v4 B b1) v3)
  refine ⟨vals, bars, v1, c1, c2, fun k hk t L hL => c3 k hk t L ?_⟩
  intro σ
  rw [hL]
  have hsortne : ∀ {σ : Finset Nat}, σ.sort (· ≤ ·) ≠ [] ↔ σ.Nonempty := by
    intro σ
    rw [← List.length_pos_iff, Finset.length_sort, Finset.card_pos]
  constructor
  · rintro ⟨hk, hnear⟩
    rw [hK, ← hset] at hk
    have hne := hk.1
    obtain ⟨i, hi⟩ := (hI.represents.found _ hne).1 hk
    refine ⟨hsortne.1 hne, i, hi, ?_⟩
    have := (v2 _ i hne hi t).2 ⟨?_, fun v hv => hnear v ((Finset.mem_sort _).1 hv)⟩
    · rw [Finset.length_sort] at this; exact this
    · obtain ⟨v, hv⟩ := hsortne.1 hne
      have hvl := hf σ ((hK σ).2 (hset ▸ hk)) v hv
      have h2 := (abs_sub_le_iff.1 (hnear v hv)).1
      exact (sub_le_sub_right (hlo v hvl) eps).trans (sub_le_comm.1 h2)
  · rintro ⟨hne, i, hi, hiv⟩
    have hne' := hsortne.2 hne
    have := (v2 _ i hne' hi t).1 (by rw [Finset.length_sort]; exact hiv)
    refine ⟨?_, fun v hv => this.2 v ((Finset.mem_sort _).2 hv)⟩
    have h2 := (hfind _ i hne' hi).2
    rw [Finset.sort_toFinset] at h2; exact h2

/-! ### examples -/

/-- a path with values 0, 1, 2 and `eps = 1`: the calls of `C63_barcode` -/
example : (((SCpx.init 0).run [.addRecursive [0, 1], .addRecursive [1, 2]]).bind (fun X => extendZigzag (0 : ℚ) 100 [0, 1, 2] X 1)) =
    .ok [[[(-1, 1)], [(0, 2)], [(1, 3)]], [[(0, 1)], [(1, 2)]]] := by decide +kernel

/-- the conditions of `C63_barcode` are met by this path -/
example : (∀ o ∈ [SCpx.Op.addRecursive [0, 1], SCpx.Op.addRecursive [1, 2]], PlainOp o) ∧ (∀ v, v < 3 → (0 : ℚ) ≤ [0, 1, 2].getD v 0 ∧ [0, 1, 2].getD v 0 ≤ (100 : ℚ)) ∧
    ∀ σ ∈ ({{0}, {1}, {2}, {0, 1}, {1, 2}} : Finset (Finset Nat)), ∀ v ∈ σ, ∀ w ∈ σ, ([0, 1, 2].getD v 0 : ℚ) - [0, 1, 2].getD w 0 ≤ 1 + 1 := by
  refine ⟨?_, by decide +kernel, by decide +kernel⟩
  intro o h
  simp only [List.mem_cons, List.not_mem_nil, or_false] at h
  rcases h with rfl | rfl <;> exact ⟨by decide, by decide⟩

/-- with `lo > 0` (as for `numeric_limits<double>::min()`) negative values are treated wrongly: vertices with value `-3` and `eps = 5` should be present from
`-8` to `2` but enter at `lo - 5` -/
theorem C63_negative_late : ((SCpx.init 0).run [.addRecursive [0, 1]]).bind (fun X => extendZigzag (1 / 1000 : ℚ) 100 [-3, -3] X 5) =
    .ok [[[(1 / 1000 - 5, 2)], [(1 / 1000 - 5, 2)]], [[(1 / 1000 - 5, 2)]]] := by decide +kernel

/-- and for a constant function with a value below `-2 eps` the call throws although every simplex has constant values -/
theorem C63_negative_throws : ((SCpx.init 0).run [.addRecursive [0, 1]]).bind (fun X => extendZigzag (1 / 1000 : ℚ) 100 [-3, -3] X 1) = .error .thrown := by decide +kernel

end Zigzag
end BATS
