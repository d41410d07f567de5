import Verif.Spec.Quiver
import Mathlib.LinearAlgebra.FiniteDimensional.Lemmas
import Mathlib.LinearAlgebra.Basis.Basic
import Mathlib.LinearAlgebra.Dimension.Constructions
import Mathlib.LinearAlgebra.StdBasis
import Mathlib.LinearAlgebra.Matrix.Rank
import Mathlib.Data.Fintype.Card
import Mathlib.Data.Fintype.Sum
import Mathlib.Data.List.Count
import Mathlib.Data.List.FinRange

set_option linter.unusedSectionVars false
set_option linter.unusedVariables false
set_option linter.unusedSimpArgs false

/-! # The bars of an interval decomposition are counted by the ranks of the diagram -/

namespace BATS
namespace Quiver
open Matrix

variable {F : Type} [Field F]

theorem length_filter_card {α : Type} (l : List α) (p : α → Prop) [DecidablePred p] :
    (l.filter (fun b => decide (p b))).length = Fintype.card {i : Fin l.length // p l[i]} := by
  rw [Fintype.card_subtype]
  have h : l = (List.finRange l.length).map (fun i => l[i]) := by
    apply List.ext_getElem
    · simp
    · intro i h1 h2; simp
  have h2 : (l.filter (fun b => decide (p b))).length = ((List.finRange l.length).filter (fun i : Fin l.length => decide (p l[i]))).length := by
    conv_lhs => rw [h]
    rw [List.filter_map, List.length_map]
    rfl
  rw [h2]
  have nd : ((List.finRange l.length).filter (fun i : Fin l.length => decide (p l[i]))).Nodup := (List.nodup_finRange _).filter _
  rw [← List.toFinset_card_of_nodup nd]
  congr 1
  ext i
  simp

section
variable {D : Dgm F} {d : Nat → Nat} {bars : List QBar}

/-- the bars alive at a node -/
abbrev Alive (bars : List QBar) (k : Nat) : Type := {i : Fin bars.length // bars[i].At k}

/-- the coefficient of a vector at a node at a bar -/
noncomputable def cf {k : Nat} (B : Module.Basis (Alive bars k) F (Fin (d k) → F)) (x : Fin (d k) → F) (i : Fin bars.length) : F :=
  if h : bars[i].At k then B.repr x ⟨i, h⟩ else 0

theorem repr_map {k k' : Nat} (B : Module.Basis (Alive bars k) F (Fin (d k) → F)) (B' : Module.Basis (Alive bars k') F (Fin (d k') → F))
    (A : Matrix (Fin (d k')) (Fin (d k)) F)
    (hA : ∀ i : Alive bars k, A.mulVec (B i) = if h : bars[i.1].At k' then B' ⟨i.1, h⟩ else 0) (x : Fin (d k) → F) (i : Fin bars.length) (hi : bars[i].At k') :
    cf B' (A.mulVec x) i = cf B x i := by
  have e : A.mulVec x = ∑ j : Alive bars k, B.repr x j • (if h : bars[j.1].At k' then B' ⟨j.1, h⟩ else 0) := by
    conv_lhs => rw [← B.sum_repr x]
    rw [Matrix.mulVec_sum]
    refine Finset.sum_congr rfl fun j _ => ?_
    rw [Matrix.mulVec_smul, hA]
  unfold cf
  rw [dif_pos hi, e, map_sum, Finsupp.finsetSum_apply]
  by_cases hk : bars[i].At k
  · rw [dif_pos hk, Finset.sum_eq_single ⟨i, hk⟩]
    · rw [dif_pos hi, map_smul, Finsupp.smul_apply, B'.repr_self, Finsupp.single_eq_same, smul_eq_mul, mul_one]
    · intro j _ hj
      rw [map_smul, Finsupp.smul_apply]
      split
      · rw [B'.repr_self, Finsupp.single_eq_of_ne, smul_zero]
        intro hh
        exact hj (Subtype.ext (congrArg Subtype.val hh).symm)
      · rw [map_zero, Finsupp.zero_apply, smul_zero]
    · intro h; exact absurd (Finset.mem_univ _) h
  · rw [dif_neg hk]
    refine Finset.sum_eq_zero fun j _ => ?_
    rw [map_smul, Finsupp.smul_apply]
    split
    · rw [B'.repr_self, Finsupp.single_eq_of_ne, smul_zero]
      intro hh
      apply hk
      have : i = j.1 := congrArg Subtype.val hh
      rw [this]; exact j.2
    · rw [map_zero, Finsupp.zero_apply, smul_zero]

/-- the bases of a decomposition -/
structure Bases (D : Dgm F) (d : Nat → Nat) (bars : List QBar) (B : (k : Fin (D.edata.length + 1)) → Module.Basis (Alive bars k) F (Fin (d k) → F)) : Prop where
  l : ∀ k (hk : k < D.edata.length), left D k = true → ∀ i : Alive bars (k + 1),
    ((edge D k).mat (d k) (d (k + 1))).mulVec (B ⟨k + 1, by omega⟩ i) = if h : bars[i.1].At k then B ⟨k, by omega⟩ ⟨i.1, h⟩ else 0
  r : ∀ k (hk : k < D.edata.length), left D k = false → ∀ i : Alive bars k,
    ((edge D k).mat (d (k + 1)) (d k)).mulVec (B ⟨k, by omega⟩ i) = if h : bars[i.1].At (k + 1) then B ⟨k + 1, by omega⟩ ⟨i.1, h⟩ else 0

theorem IsDecomposition.bases (h : IsDecomposition D d bars) : ∃ B, Bases D d bars B := by
  obtain ⟨_, v, hb, hv⟩ := h
  have bv : ∀ (k : Fin (D.edata.length + 1)) (i : Alive bars k),
      (Module.Basis.mk (hb k (by omega)).1 (le_of_eq (hb k (by omega)).2.symm)) i = v k i.1 := fun k i => by rw [Module.Basis.mk_apply]
  refine ⟨fun k => Module.Basis.mk (hb k (by omega)).1 (le_of_eq (hb k (by omega)).2.symm), ?_, ?_⟩
  · intro k hk hl i
    have := hv k hk i.1
    rw [if_pos hl] at this
    rw [bv ⟨k + 1, by omega⟩ i, this i.2]
    by_cases hh : bars[i.1].At k
    · rw [if_pos hh, dif_pos hh]
      exact (bv ⟨k, by omega⟩ ⟨i.1, hh⟩).symm
    · rw [if_neg hh, dif_neg hh]
  · intro k hk hl i
    have := hv k hk i.1
    rw [if_neg (by rw [hl]; simp)] at this
    rw [bv ⟨k, by omega⟩ i, this i.2]
    by_cases hh : bars[i.1].At (k + 1)
    · rw [if_pos hh, dif_pos hh]
      exact (bv ⟨k + 1, by omega⟩ ⟨i.1, hh⟩).symm
    · rw [if_neg hh, dif_neg hh]

variable {B : (k : Fin (D.edata.length + 1)) → Module.Basis (Alive bars k) F (Fin (d k) → F)}

theorem Bases.cf_l (h : Bases D d bars B) {k : Nat} (hk : k < D.edata.length) (hl : left D k = true) {x : Fin (d k) → F} {y : Fin (d (k + 1)) → F}
    (hm : Matches D d k x y) {i : Fin bars.length} (hi : bars[i].At k) : cf (B ⟨k, by omega⟩) x i = cf (B ⟨k + 1, by omega⟩) y i := by
  unfold Matches at hm
  rw [if_pos hl] at hm
  rw [← hm]
  exact repr_map (B ⟨k + 1, by omega⟩) (B ⟨k, by omega⟩) _ (fun j => h.l k hk hl j) y i hi

theorem Bases.cf_r (h : Bases D d bars B) {k : Nat} (hk : k < D.edata.length) (hl : left D k = false) {x : Fin (d k) → F} {y : Fin (d (k + 1)) → F}
    (hm : Matches D d k x y) {i : Fin bars.length} (hi : bars[i].At (k + 1)) : cf (B ⟨k + 1, by omega⟩) y i = cf (B ⟨k, by omega⟩) x i := by
  unfold Matches at hm
  rw [if_neg (by rw [hl]; simp)] at hm
  rw [← hm]
  exact repr_map (B ⟨k, by omega⟩) (B ⟨k + 1, by omega⟩) _ (fun j => h.r k hk hl j) x i hi

theorem Bases.cf_both (h : Bases D d bars B) {k : Nat} (hk : k < D.edata.length) {x : Fin (d k) → F} {y : Fin (d (k + 1)) → F}
    (hm : Matches D d k x y) {i : Fin bars.length} (h0 : bars[i].At k) (h1 : bars[i].At (k + 1)) :
    cf (B ⟨k, by omega⟩) x i = cf (B ⟨k + 1, by omega⟩) y i := by
  by_cases hl : left D k = true
  · exact h.cf_l hk hl hm h0
  · exact (h.cf_r hk (by simpa using hl) hm h1).symm

/-- along a bar the coefficient does not change -/
theorem Bases.cf_along (h : Bases D d bars B) {b : Nat} {z : (k : Nat) → Fin (d k) → F} {i : Fin bars.length} (hi : bars[i].start ≤ b) :
    ∀ n, ∀ hn : b + n ≤ D.edata.length, (∀ k, b ≤ k → k < b + n → Matches D d k (z k) (z (k + 1))) → b + n ≤ bars[i].stop →
      cf (B ⟨b, by omega⟩) (z b) i = cf (B ⟨b + n, by omega⟩) (z (b + n)) i
  | 0, _, _, _ => rfl
  | n + 1, hn, hm, hs => by
    rw [h.cf_along hi n (by omega) (fun k h1 h2 => hm k h1 (by omega)) (by omega)]
    exact h.cf_both (by omega) (hm (b + n) (by omega) (by omega)) ⟨by omega, by omega⟩ ⟨by omega, by omega⟩

/-- the family of vectors of one bar -/
noncomputable def barSec (B : (k : Fin (D.edata.length + 1)) → Module.Basis (Alive bars k) F (Fin (d k) → F)) (i : Fin bars.length) :
    (k : Nat) → Fin (d k) → F :=
  fun k => if hk : k < D.edata.length + 1 then if h : bars[i].At k then B ⟨k, hk⟩ ⟨i, h⟩ else 0 else 0

theorem Bases.barSec_mem (h : Bases D d bars B) {b e : Nat} (he : e ≤ D.edata.length) {i : Fin bars.length} (hb : bars[i].At b)
    (hi : e ≤ bars[i].stop ∨ left D bars[i].stop = false) : barSec B i ∈ sections D d b e := by
  intro k h1 h2
  have hk : k < D.edata.length := by omega
  have e0 : barSec B i k = if h : bars[i].At k then B ⟨k, by omega⟩ ⟨i, h⟩ else 0 := by unfold barSec; rw [dif_pos (by omega : k < D.edata.length + 1)]
  have e1 : barSec B i (k + 1) = if h : bars[i].At (k + 1) then B ⟨k + 1, by omega⟩ ⟨i, h⟩ else 0 := by
    unfold barSec; rw [dif_pos (by omega : k + 1 < D.edata.length + 1)]
  unfold Matches
  split
  · rename_i hl
    rw [e1, e0]
    by_cases hk1 : bars[i].At (k + 1)
    · rw [dif_pos hk1]
      exact h.l k hk hl ⟨i, hk1⟩
    · rw [dif_neg hk1, Matrix.mulVec_zero]
      by_cases hk0 : bars[i].At k
      · exfalso
        have hs : bars[i].stop = k := by
          have a := hk0.1; have b' := hk0.2
          by_contra hne
          exact hk1 ⟨by omega, by omega⟩
        rcases hi with hi | hi
        · omega
        · rw [hs] at hi; rw [hi] at hl; exact absurd hl (by simp)
      · rw [dif_neg hk0]
  · rename_i hl
    rw [e1, e0]
    by_cases hk0 : bars[i].At k
    · rw [dif_pos hk0]
      exact h.r k hk (by simpa using hl) ⟨i, hk0⟩
    · rw [dif_neg hk0, Matrix.mulVec_zero, dif_neg]
      intro hk1
      have a := hk1.1; have b' := hk1.2; have c := hb.1
      exact hk0 ⟨by omega, by omega⟩

/-- a bar alive at `b` which is not killed by an arrow to the left before `e` -/
def GoodR (D : Dgm F) (bars : List QBar) (e : Nat) (i : Fin bars.length) : Prop := e ≤ bars[i].stop ∨ left D bars[i].stop = false
/-- a bar alive at `b` which ends before `e` with an arrow to the right -/
def GoodV (D : Dgm F) (bars : List QBar) (e : Nat) (i : Fin bars.length) : Prop := bars[i].stop < e ∧ left D bars[i].stop = false

theorem Bases.reach_eq (h : Bases D d bars B) {b e : Nat} (hbe : b ≤ e) (he : e ≤ D.edata.length) :
    reach D d b e = Submodule.span F ((B ⟨b, by omega⟩) '' {i | GoodR D bars e i.1}) := by
  apply le_antisymm
  · rintro x ⟨z, hz, rfl⟩
    rw [Module.Basis.mem_span_image]
    intro i hi
    by_contra hgood
    rw [Set.mem_ofPred_eq] at hgood
    unfold GoodR at hgood
    push Not at hgood
    obtain ⟨g1, g2⟩ := hgood
    have hl : left D bars[i.1].stop = true := by simpa using g2
    have hs : bars[i.1].start ≤ b := i.2.1
    have ht : b ≤ bars[i.1].stop := i.2.2
    obtain ⟨n, hn⟩ : ∃ n, bars[i.1].stop = b + n := ⟨bars[i.1].stop - b, by omega⟩
    have a1 := h.cf_along hs n (by omega) (fun k h1 h2 => hz k h1 (by omega)) (by omega)
    have a2 := h.cf_l (k := b + n) (by omega) (by rw [← hn]; exact hl) (hz (b + n) (by omega) (by omega)) (i := i.1) ⟨by omega, by omega⟩
    have a3 : cf (B ⟨b + n + 1, by omega⟩) (z (b + n + 1)) i.1 = 0 := by
      unfold cf; rw [dif_neg]; intro hh; have : b + n + 1 ≤ bars[i.1].stop := hh.2; omega
    have a4 : cf (B ⟨b, by omega⟩) (z b) i.1 = (B ⟨b, by omega⟩).repr (z b) i := by
      unfold cf; rw [dif_pos i.2]
    have a5 : (B ⟨b, by omega⟩).repr (z b) i = 0 := by rw [← a4]; exact a1.trans (a2.trans a3)
    exact (Finsupp.mem_support_iff.1 hi) a5
  · rw [Submodule.span_le]
    rintro _ ⟨i, hi, rfl⟩
    refine ⟨barSec B i.1, h.barSec_mem he i.2 hi, ?_⟩
    show barSec B i.1 b = _
    unfold barSec
    rw [dif_pos (by omega : b < D.edata.length + 1), dif_pos i.2]

theorem Bases.vanish_eq (h : Bases D d bars B) {b e : Nat} (hbe : b ≤ e) (he : e ≤ D.edata.length) :
    vanish D d b e = Submodule.span F ((B ⟨b, by omega⟩) '' {i | GoodV D bars e i.1}) := by
  apply le_antisymm
  · rintro x ⟨z, ⟨hz, hz0⟩, rfl⟩
    have hz0 : z e = 0 := hz0
    rw [Module.Basis.mem_span_image]
    intro i hi
    by_contra hgood
    have hnz := Finsupp.mem_support_iff.1 hi
    apply hnz
    have hs : bars[i.1].start ≤ b := i.2.1
    have ht : b ≤ bars[i.1].stop := i.2.2
    have a4 : cf (B ⟨b, by omega⟩) (z b) i.1 = (B ⟨b, by omega⟩).repr (z b) i := by
      unfold cf; rw [dif_pos i.2]
    show (B ⟨b, by omega⟩).repr (z b) i = 0
    rw [← a4]
    by_cases hcov : e ≤ bars[i.1].stop
    · obtain ⟨n, rfl⟩ : ∃ n, e = b + n := ⟨e - b, by omega⟩
      rw [h.cf_along hs n (by omega) (fun k h1 h2 => hz k h1 (by omega)) (by omega), hz0]
      unfold cf; split
      · rw [map_zero]; rfl
      · rfl
    · have hl : left D bars[i.1].stop = true := by
        by_contra hne
        exact hgood ⟨by omega, by simpa using hne⟩
      obtain ⟨n, hn⟩ : ∃ n, bars[i.1].stop = b + n := ⟨bars[i.1].stop - b, by omega⟩
      have a1 := h.cf_along hs n (by omega) (fun k h1 h2 => hz k h1 (by omega)) (by omega)
      have a2 := h.cf_l (k := b + n) (by omega) (by rw [← hn]; exact hl) (hz (b + n) (by omega) (by omega)) (i := i.1) ⟨by omega, by omega⟩
      have a3 : cf (B ⟨b + n + 1, by omega⟩) (z (b + n + 1)) i.1 = 0 := by
        unfold cf; rw [dif_neg]; intro hh; have : b + n + 1 ≤ bars[i.1].stop := hh.2; omega
      exact a1.trans (a2.trans a3)
  · rw [Submodule.span_le]
    rintro _ ⟨i, hi, rfl⟩
    refine ⟨barSec B i.1, ⟨h.barSec_mem he i.2 (Or.inr hi.2), ?_⟩, ?_⟩
    · show barSec B i.1 e = 0
      unfold barSec
      rw [dif_pos (by omega : e < D.edata.length + 1), dif_neg]
      intro hh; have := hh.2; have := hi.1; omega
    · show barSec B i.1 b = _
      unfold barSec
      rw [dif_pos (by omega : b < D.edata.length + 1), dif_pos i.2]

theorem finrank_span_image {ι V : Type} [Fintype ι] [AddCommGroup V] [Module F V] (B : Module.Basis ι F V) (s : Set ι) [Fintype s] :
    Module.finrank F (Submodule.span F (B '' s)) = Fintype.card s := by
  rw [Set.image_eq_range]
  exact finrank_span_eq_card (B.linearIndependent.comp _ Subtype.val_injective)

open Classical in
/-- the number of bars covering the nodes `b, …, e` is the rank of the diagram between `b` and `e` -/
theorem IsDecomposition.count (h : IsDecomposition D d bars) {b e : Nat} (hbe : b ≤ e) (he : e ≤ D.edata.length) :
    (bars.filter (fun q => decide (q.start ≤ b ∧ e ≤ q.stop))).length = zrank D d b e := by
  obtain ⟨B, hB⟩ := h.bases
  rw [length_filter_card]
  unfold zrank
  rw [hB.reach_eq hbe he, hB.vanish_eq hbe he, finrank_span_image, finrank_span_image]
  have key : Fintype.card {i : Alive bars b // GoodR D bars e i.1} =
      Fintype.card {i : Alive bars b // GoodV D bars e i.1} + Fintype.card {i : Fin bars.length // bars[i].start ≤ b ∧ e ≤ bars[i].stop} := by
    rw [← Fintype.card_sum]
    refine Fintype.card_congr ⟨fun x => if hx : e ≤ bars[x.1.1].stop then Sum.inr ⟨x.1.1, x.1.2.1, hx⟩ else Sum.inl ⟨x.1, by omega, (x.2.resolve_left hx)⟩,
      fun y => y.elim (fun x => ⟨x.1, Or.inr x.2.2⟩) (fun x => ⟨⟨x.1, x.2.1, le_trans hbe x.2.2⟩, Or.inl x.2.2⟩), ?_, ?_⟩
    · intro x
      by_cases hx : e ≤ bars[x.1.1].stop
      · simp only [dif_pos hx]; rfl
      · simp only [dif_neg hx]; rfl
    · rintro (x | x)
      · have hx : ¬ e ≤ bars[x.1.1].stop := by have := x.2.1; omega
        exact dif_neg hx
      · have hx : e ≤ bars[x.1].stop := x.2.2
        exact dif_pos hx
  have e1 : Fintype.card ↑{i : Alive bars b | GoodR D bars e i.1} = Fintype.card {i : Alive bars b // GoodR D bars e i.1} := Fintype.card_congr (Equiv.refl _)
  have e2 : Fintype.card ↑{i : Alive bars b | GoodV D bars e i.1} = Fintype.card {i : Alive bars b // GoodV D bars e i.1} := Fintype.card_congr (Equiv.refl _)
  rw [e1, e2, key, Nat.add_sub_cancel_left]

/-- at every node as many bars are alive as its space has dimensions -/
theorem IsDecomposition.alive (h : IsDecomposition D d bars) {k : Nat} (hk : k ≤ D.edata.length) : (bars.filter (fun q => decide (q.At k))).length = d k := by
  obtain ⟨B, hB⟩ := h.bases
  rw [length_filter_card, ← Module.finrank_eq_card_basis (B ⟨k, by omega⟩), Module.finrank_pi, Fintype.card_fin]
end

/-- the number of entries of a list in a quadrant -/
theorem count_quadrant (l : List (Nat × Nat)) (s t : Nat) :
    l.count (s, t) + l.countP (fun p => decide (p.1 < s ∧ t ≤ p.2)) + l.countP (fun p => decide (p.1 < s + 1 ∧ t + 1 ≤ p.2)) =
      l.countP (fun p => decide (p.1 < s + 1 ∧ t ≤ p.2)) + l.countP (fun p => decide (p.1 < s ∧ t + 1 ≤ p.2)) := by
  induction l with
  | nil => rfl
  | cons a l ih =>
    simp only [List.count_cons, List.countP_cons, beq_iff_eq, decide_eq_true_eq]
    obtain ⟨x, y⟩ := a
    simp only [Prod.mk.injEq]
    split_ifs <;> omega

/-- lists of pairs with the same numbers of entries in all quadrants agree up to order -/
theorem perm_of_quadrants {l l' : List (Nat × Nat)} {m : Nat} (h1 : ∀ p ∈ l, p.1 ≤ p.2 ∧ p.2 ≤ m) (h1' : ∀ p ∈ l', p.1 ≤ p.2 ∧ p.2 ≤ m)
    (h : ∀ b e, b ≤ e → e ≤ m → l.countP (fun p => decide (p.1 ≤ b ∧ e ≤ p.2)) = l'.countP (fun p => decide (p.1 ≤ b ∧ e ≤ p.2))) : l.Perm l' := by
  rw [List.perm_iff_count]
  rintro ⟨s, t⟩
  by_cases hst : s ≤ t ∧ t ≤ m
  · have q := count_quadrant l s t
    have q' := count_quadrant l' s t
    have main : ∀ s t, s ≤ t + 1 → l.countP (fun p => decide (p.1 < s ∧ t ≤ p.2)) = l'.countP (fun p => decide (p.1 < s ∧ t ≤ p.2)) := by
      intro s t hs
      by_cases ht : t ≤ m
      · cases s with
        | zero => simp
        | succ s =>
          have := h s t (by omega) ht
          simp only [Nat.lt_succ_iff]
          exact this
      · rw [List.countP_eq_zero.2, List.countP_eq_zero.2]
        · intro p hp; have := (h1' p hp).2; simp only [decide_eq_true_eq]; omega
        · intro p hp; have := (h1 p hp).2; simp only [decide_eq_true_eq]; omega
    have a1 := main s t (by omega)
    have a2 := main (s + 1) (t + 1) (by omega)
    have a3 := main (s + 1) t (by omega)
    have a4 := main s (t + 1) (by omega)
    omega
  · rw [List.count_eq_zero.2, List.count_eq_zero.2]
    · intro hp; exact hst (h1' _ hp)
    · intro hp; exact hst (h1 _ hp)

/-- an interval decomposition is unique up to the order of the bars and the indices of the basis vectors -/
theorem IsDecomposition.unique {D : Dgm F} {d : Nat → Nat} {bars bars' : List QBar} (h : IsDecomposition D d bars) (h' : IsDecomposition D d bars') :
    (bars.map (fun b => (b.start, b.stop))).Perm (bars'.map (fun b => (b.start, b.stop))) := by
  have aux : ∀ (l : List QBar) (b e : Nat), (l.map (fun b => (b.start, b.stop))).countP (fun p => decide (p.1 ≤ b ∧ e ≤ p.2)) =
      (l.filter (fun q => decide (q.start ≤ b ∧ e ≤ q.stop))).length := by
    intro l b e
    rw [List.countP_map, List.countP_eq_length_filter]; rfl
  refine perm_of_quadrants (m := D.edata.length) ?_ ?_ ?_
  · intro p hp
    obtain ⟨q, hq, rfl⟩ := List.mem_map.1 hp
    exact h.1 q hq
  · intro p hp
    obtain ⟨q, hq, rfl⟩ := List.mem_map.1 hp
    exact h'.1 q hq
  · intro b e h1 h2
    rw [aux, aux, h.count h1 h2, h'.count h1 h2]

/-! ### arrows to the right -/

theorem composite_self (D : Dgm F) (d : Nat → Nat) (b : Nat) : composite D d b b = 1 := by
  have e : (Matrix.of fun i j => if i.val = j.val then 1 else 0 : Matrix (Fin (d b)) (Fin (d b)) F) = 1 := by
    ext i j
    rw [Matrix.one_apply, Matrix.of_apply]
    simp only [Fin.ext_iff]
  cases b with
  | zero => exact e
  | succ b => rw [composite, if_pos rfl]; exact e

theorem composite_succ (D : Dgm F) (d : Nat → Nat) {b e : Nat} (h : b ≤ e) :
    composite D d b (e + 1) = (edge D e).mat (d (e + 1)) (d e) * composite D d b e := by
  rw [composite, if_neg (by omega)]

theorem section_composite {D : Dgm F} {d : Nat → Nat} {b : Nat} {z : (k : Nat) → Fin (d k) → F} :
    ∀ n, (∀ k, b ≤ k → k < b + n → left D k = false) → (∀ k, b ≤ k → k < b + n → Matches D d k (z k) (z (k + 1))) →
      z (b + n) = (composite D d b (b + n)).mulVec (z b)
  | 0, _, _ => by rw [Nat.add_zero, composite_self, Matrix.one_mulVec]
  | n + 1, hr, hm => by
    have ih := section_composite n (fun k h1 h2 => hr k h1 (by omega)) (fun k h1 h2 => hm k h1 (by omega))
    have := hm (b + n) (by omega) (by omega)
    unfold Matches at this
    rw [if_neg (by rw [hr (b + n) (by omega) (by omega)]; simp), ih] at this
    rw [← Nat.add_assoc, composite_succ D d (by omega : b ≤ b + n), ← this, Matrix.mulVec_mulVec]

theorem zrank_right {D : Dgm F} {d : Nat → Nat} {b e : Nat} (hbe : b ≤ e) (hr : ∀ k, b ≤ k → k < e → left D k = false) :
    zrank D d b e = (composite D d b e).rank := by
  have hsec : ∀ x : Fin (d b) → F, (fun k => (composite D d b k).mulVec x) ∈ sections D d b e := by
    intro x k h1 h2
    unfold Matches
    rw [if_neg (by rw [hr k h1 h2]; simp)]
    show _ = (composite D d b (k + 1)).mulVec x
    rw [composite_succ D d h1, Matrix.mulVec_mulVec]
  have hb : ∀ x : Fin (d b) → F, (composite D d b b).mulVec x = x := fun x => by rw [composite_self, Matrix.one_mulVec]
  have h1 : reach D d b e = ⊤ := by
    rw [eq_top_iff]
    intro x _
    exact ⟨_, hsec x, hb x⟩
  have h2 : vanish D d b e = LinearMap.ker (composite D d b e).mulVecLin := by
    ext x
    constructor
    · rintro ⟨z, ⟨hz, hz0⟩, rfl⟩
      obtain ⟨n, rfl⟩ : ∃ n, e = b + n := ⟨e - b, by omega⟩
      have := section_composite n hr hz
      have hz0 : z (b + n) = 0 := hz0
      show (composite D d b (b + n)).mulVec (z b) = 0
      rw [← this, hz0]
    · intro hx
      exact ⟨_, ⟨hsec x, hx⟩, hb x⟩
  unfold zrank
  rw [h1, h2, finrank_top]
  have := LinearMap.finrank_range_add_finrank_ker (composite D d b e).mulVecLin
  unfold Matrix.rank
  omega

end Quiver
end BATS
