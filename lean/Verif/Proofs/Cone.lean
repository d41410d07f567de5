import Verif.Proofs.Skeleton
import Verif.Spec.SimplicialPersistence
import Mathlib.LinearAlgebra.Isomorphisms

set_option linter.unusedSectionVars false
set_option linter.unusedSimpArgs false
set_option linter.unusedVariables false

/-! # A cone has the homology of a point -/

namespace BATS
namespace Cone
open Matrix Module

variable {F : Type} [Field F]

/-- the sign of `σ` minus `v` in the boundary of `σ` -/
def sg (σ : Finset Nat) (v : Nat) : F := (-1) ^ (σ.filter (· < v)).card

theorem sg_sq (σ : Finset Nat) (v : Nat) : (sg σ v : F) * sg σ v = 1 := by
  unfold sg
  rw [← pow_add, ← two_mul, pow_mul]
  simp

theorem sg_insert_self (t : Finset Nat) (w : Nat) : (sg (insert w t) w : F) = sg t w := by
  unfold sg
  rw [Finset.filter_insert, if_neg (lt_irrefl _)]

theorem sg_insert (t : Finset Nat) {v w : Nat} (hw : w ∉ t) : (sg (insert w t) v : F) = if w < v then - sg t v else sg t v := by
  unfold sg
  rw [Finset.filter_insert]
  by_cases h : w < v
  · rw [if_pos h, if_pos h, Finset.card_insert_of_notMem (fun hh => hw (Finset.mem_filter.1 hh).1), pow_succ]
    simp
  · rw [if_neg h, if_neg h]

theorem sg_swap {t : Finset Nat} {v w : Nat} (hv : v ∈ t) (hw : w ∉ t) :
    (sg (insert w t) w : F) * sg (insert w t) v = -(sg t v * sg (insert w (t.erase v)) w) := by
  obtain ⟨s, hs, rfl⟩ : ∃ s, v ∉ s ∧ insert v s = t := ⟨t.erase v, Finset.notMem_erase _ _, Finset.insert_erase hv⟩
  have hne : w ≠ v := by rintro rfl; exact hw (Finset.mem_insert_self _ _)
  have hws : w ∉ s := fun h => hw (Finset.mem_insert_of_mem h)
  rw [Finset.erase_insert hs, sg_insert_self, sg_insert_self, sg_insert _ hw, sg_insert_self, sg_insert _ hs]
  rcases Nat.lt_or_gt_of_ne hne with h | h
  · rw [if_pos h, if_neg (by omega), sg_insert_self]; ring
  · rw [if_pos h, if_neg (by omega), sg_insert_self]; ring

variable {K : Finset (Finset Nat)}

open Classical in
/-- a chain as a function of all sets -/
noncomputable def ext {n : Nat} (x : Simps K n → F) (σ : Finset Nat) : F := if h : σ ∈ K ∧ σ.card = n then x ⟨σ, h⟩ else 0

theorem ext_mem {n : Nat} (x : Simps K n → F) (σ : Simps K n) : ext x σ.1 = x σ := by
  unfold ext; rw [dif_pos σ.2]

theorem ext_not {n : Nat} (x : Simps K n → F) {σ : Finset Nat} (h : σ ∉ K) : ext x σ = 0 := by
  unfold ext; rw [dif_neg (fun hh => h hh.1)]

/-- the vertices -/
def verts (K : Finset (Finset Nat)) : Finset Nat := K.biUnion id

theorem mem_verts {v : Nat} {σ : Finset Nat} (h : σ ∈ K) (hv : v ∈ σ) : v ∈ verts K := Finset.mem_biUnion.2 ⟨σ, h, hv⟩

theorem bd_apply {n : Nat} (x : Simps K (n + 1) → F) (t : Simps K n) :
    (simplicialBoundary F K n).mulVecLin x t = ∑ w ∈ verts K \ t.1, sg (insert w t.1) w * ext x (insert w t.1) := by
  classical
  rw [Matrix.mulVecLin_apply]
  have h1 : ∀ w ∈ verts K \ t.1, (sg (insert w t.1) w : F) * ext x (insert w t.1) = ∑ s : Simps K (n + 1), if s.1 = insert w t.1 then sg s.1 w * x s else 0 := by
    intro w hw
    by_cases hK : insert w t.1 ∈ K
    · have hc : (insert w t.1).card = n + 1 := by rw [Finset.card_insert_of_notMem (Finset.mem_sdiff.1 hw).2, t.2.2]
      rw [Finset.sum_eq_single (⟨insert w t.1, hK, hc⟩ : Simps K (n + 1))]
      · rw [if_pos rfl, ← ext_mem x ⟨insert w t.1, hK, hc⟩]
      · intro s _ hs
        rw [if_neg (fun e => hs (Subtype.ext e))]
      · intro h; exact absurd (Finset.mem_univ _) h
    · rw [ext_not x hK, mul_zero]
      symm
      apply Finset.sum_eq_zero
      intro s _
      rw [if_neg]
      intro e
      exact hK (e ▸ s.2.1)
  rw [Finset.sum_congr rfl h1, Finset.sum_comm]
  unfold Matrix.mulVec dotProduct
  apply Finset.sum_congr rfl
  intro s _
  unfold simplicialBoundary
  rw [Finset.sum_mul, ← Finset.sum_filter]
  have : ∀ v ∈ s.1, (if s.1.erase v = t.1 then (-1 : F) ^ (s.1.filter (· < v)).card else 0) * x s = if s.1.erase v = t.1 then sg s.1 v * x s else 0 := by
    intro v _
    split
    · rfl
    · rw [zero_mul]
  rw [Finset.sum_congr rfl this, ← Finset.sum_filter]
  apply Finset.sum_congr _ (fun _ _ => rfl)
  ext w
  simp only [Finset.mem_filter, Finset.mem_sdiff]
  constructor
  · rintro ⟨hw, e⟩
    exact ⟨⟨mem_verts s.2.1 hw, by rw [← e]; exact Finset.notMem_erase _ _⟩, by rw [← e, Finset.insert_erase hw]⟩
  · rintro ⟨⟨_, hw⟩, e⟩
    rw [e]
    exact ⟨Finset.mem_insert_self _ _, Finset.erase_insert hw⟩

open Classical in
/-- the cone over a chain -/
noncomputable def cone (v : Nat) {n : Nat} (x : Simps K n → F) : Simps K (n + 1) → F := fun σ => if v ∈ σ.1 then sg σ.1 v * ext x (σ.1.erase v) else 0

theorem ext_cone_not {v n : Nat} (x : Simps K n → F) {σ : Finset Nat} (h : v ∉ σ) : ext (cone v x) σ = 0 := by
  unfold ext
  split
  · unfold cone; rw [if_neg h]
  · rfl

theorem ext_cone {v n : Nat} (hc : ∀ σ ∈ K, σ.card ≤ n → insert v σ ∈ K) (x : Simps K n → F) {σ : Finset Nat} (hcard : σ.card = n + 1) (h : v ∈ σ) :
    ext (cone v x) σ = sg σ v * ext x (σ.erase v) := by
  by_cases hK : σ ∈ K
  · rw [show σ = (⟨σ, hK, hcard⟩ : Simps K (n + 1)).1 from rfl, ext_mem]
    unfold cone
    rw [if_pos h]
  · rw [ext_not _ hK, ext_not x, mul_zero]
    intro he
    apply hK
    have := hc _ he (by rw [Finset.card_erase_of_mem h]; omega)
    rwa [Finset.insert_erase h] at this

/-- the cone is a contraction -/
theorem bd_cone_not {v n : Nat} (hc : ∀ σ ∈ K, σ.card ≤ n + 1 → insert v σ ∈ K) (hv : v ∈ verts K) (x : Simps K (n + 1) → F) (t : Simps K (n + 1)) (ht : v ∉ t.1) :
    (simplicialBoundary F K (n + 1)).mulVecLin (cone v x) t = x t := by
  rw [bd_apply, Finset.sum_eq_single v]
  · rw [ext_cone hc x (by rw [Finset.card_insert_of_notMem ht, t.2.2]) (Finset.mem_insert_self _ _), Finset.erase_insert ht, ext_mem, ← mul_assoc, sg_sq, one_mul]
  · intro w hw hne
    rw [ext_cone_not, mul_zero]
    intro h
    rcases Finset.mem_insert.1 h with h | h
    · exact hne h.symm
    · exact ht h
  · intro h; exact absurd (Finset.mem_sdiff.2 ⟨hv, ht⟩) h

theorem bd_cone_mem {v n : Nat} (hc : ∀ σ ∈ K, σ.card ≤ n + 1 → insert v σ ∈ K) (x : Simps K (n + 1) → F) (t : Simps K (n + 1)) (ht : v ∈ t.1)
    (he : t.1.erase v ∈ K) :
    (simplicialBoundary F K (n + 1)).mulVecLin (cone v x) t =
      x t - sg t.1 v * (simplicialBoundary F K n).mulVecLin x ⟨t.1.erase v, he, by rw [Finset.card_erase_of_mem ht, t.2.2]; rfl⟩ := by
  have hset : verts K \ t.1.erase v = insert v (verts K \ t.1) := by
    ext w
    simp only [Finset.mem_sdiff, Finset.mem_erase, Finset.mem_insert]
    constructor
    · rintro ⟨h1, h2⟩
      by_cases e : w = v
      · exact Or.inl e
      · exact Or.inr ⟨h1, fun h => h2 ⟨e, h⟩⟩
    · rintro (rfl | ⟨h1, h2⟩)
      · exact ⟨mem_verts t.2.1 ht, fun h => h.1 rfl⟩
      · exact ⟨h1, fun h => h2 h.2⟩
  rw [bd_apply, bd_apply]
  show _ = x t - sg t.1 v * ∑ w ∈ verts K \ t.1.erase v, _
  rw [hset, Finset.sum_insert (by simp [ht]), Finset.insert_erase ht, mul_add, ← mul_assoc, sg_sq, one_mul, ext_mem, ← sub_sub, sub_self, zero_sub, Finset.mul_sum,
    ← Finset.sum_neg_distrib]
  apply Finset.sum_congr rfl
  intro w hw
  have hw := (Finset.mem_sdiff.1 hw).2
  have hne : w ≠ v := by rintro rfl; exact hw ht
  rw [ext_cone hc x (by rw [Finset.card_insert_of_notMem hw, t.2.2]) (Finset.mem_insert_of_mem ht), ← mul_assoc, sg_swap ht hw,
    Finset.erase_insert_of_ne hne]
  ring

/-- a complex in which every simplex with at most `k + 1` vertices spans a simplex together with the vertex `v` has no homology in degree `k ≥ 1` -/
theorem betti_cone_pos {v k : Nat} (hK : IsASC K) (hv : {v} ∈ K) (hc : ∀ σ ∈ K, σ.card ≤ k + 1 → insert v σ ∈ K) (h1 : 1 ≤ k) : simplicialBetti F K k = 0 := by
  unfold simplicialBetti
  have : (LinearMap.range (simplicialBoundary F K (k + 1)).mulVecLin).submoduleOf (LinearMap.ker (simplicialBoundary F K k).mulVecLin) = ⊤ := by
    rw [Submodule.submoduleOf_eq_top]
    intro x hx
    rw [LinearMap.mem_ker] at hx
    refine ⟨cone v x, ?_⟩
    funext t
    by_cases ht : v ∈ t.1
    · have he : t.1.erase v ∈ K := hK.down _ t.2.1 _ (Finset.erase_subset _ _) (by
        rw [← Finset.card_pos, Finset.card_erase_of_mem ht, t.2.2]; omega)
      rw [bd_cone_mem hc x t ht he, hx]
      simp
    · exact bd_cone_not hc (mem_verts hv (Finset.mem_singleton_self _)) x t ht
  rw [this]
  have : Subsingleton (LinearMap.ker (simplicialBoundary F K k).mulVecLin ⧸ (⊤ : Submodule F (LinearMap.ker (simplicialBoundary F K k).mulVecLin))) :=
    Submodule.Quotient.subsingleton_iff.2 rfl
  exact finrank_zero_of_subsingleton

/-- the sum of the coefficients of a boundary is zero -/
theorem aug_bd (hK : IsASC K) (y : Simps K 2 → F) : ∑ t, (simplicialBoundary F K 1).mulVecLin y t = 0 := by
    have : ∀ t : Simps K 1, (simplicialBoundary F K 1).mulVecLin y t = ∑ s : Simps K 2, simplicialBoundary F K 1 t s * y s := fun t => rfl
    simp only [this]
    rw [Finset.sum_comm]
    apply Finset.sum_eq_zero
    intro s _
    rw [← Finset.sum_mul]
    have : ∑ t : Simps K 1, simplicialBoundary F K 1 t s = 0 := by
      unfold simplicialBoundary
      rw [Finset.sum_comm]
      have hone : ∀ u ∈ s.1, ∑ t : Simps K 1, (if s.1.erase u = t.1 then (-1 : F) ^ (s.1.filter (· < u)).card else 0) = (-1) ^ (s.1.filter (· < u)).card := by
        intro u hu
        have hcu : (s.1.erase u).card = 1 := by rw [Finset.card_erase_of_mem hu, s.2.2]
        have hm : s.1.erase u ∈ K := hK.down _ s.2.1 _ (Finset.erase_subset _ _) (by rw [← Finset.card_pos, hcu]; omega)
        rw [Finset.sum_eq_single (⟨s.1.erase u, hm, hcu⟩ : Simps K 1)]
        · rw [if_pos rfl]
        · intro t _ ht
          rw [if_neg]
          intro e; exact ht (Subtype.ext e.symm)
        · intro h; exact absurd (Finset.mem_univ _) h
      rw [Finset.sum_congr rfl hone]
      obtain ⟨a, b, hab, e⟩ := Finset.card_eq_two.1 s.2.2
      rw [e, Finset.sum_pair hab]
      rcases Nat.lt_or_gt_of_ne hab with h | h
      · have e1 : ({a, b} : Finset Nat).filter (· < a) = ∅ := by ext z; simp; omega
        have e2 : ({a, b} : Finset Nat).filter (· < b) = {a} := by ext z; simp; omega
        rw [e1, e2]; simp
      · have e1 : ({a, b} : Finset Nat).filter (· < a) = {b} := by ext z; simp; omega
        have e2 : ({a, b} : Finset Nat).filter (· < b) = ∅ := by ext z; simp; omega
        rw [e1, e2]; simp
    rw [this, zero_mul]

/-- a complex in which every vertex is joined to `v` is connected -/
theorem betti_cone_zero {v : Nat} (hK : IsASC K) (hv : {v} ∈ K) (hc : ∀ σ ∈ K, σ.card ≤ 1 → insert v σ ∈ K) : simplicialBetti F K 0 = 1 := by
  have h0 : (∅ : Finset Nat) ∉ K := fun h => Finset.not_nonempty_empty (hK.nonempty _ h)
  -- everything is a cycle
  have hker : LinearMap.ker (simplicialBoundary F K 0).mulVecLin = ⊤ := by
    rw [eq_top_iff]
    intro x _
    rw [LinearMap.mem_ker]
    funext t
    exact absurd (by have := t.2; rw [Finset.card_eq_zero] at this; rw [← this.2]; exact this.1) h0
  let ε : (Simps K 1 → F) →ₗ[F] F := ∑ s : Simps K 1, LinearMap.proj s
  have hε : ∀ x, ε x = ∑ s, x s := by intro x; simp [ε]
  have hsurj : Function.Surjective ε := by
    intro a
    refine ⟨Pi.single ⟨{v}, hv, Finset.card_singleton v⟩ a, ?_⟩
    rw [hε, Finset.sum_pi_single']
    simp
  have hbd : ∀ y : Simps K 2 → F, ε ((simplicialBoundary F K 1).mulVecLin y) = 0 := fun y => (hε _).trans (aug_bd hK y)
  have hrange : LinearMap.range (simplicialBoundary F K 1).mulVecLin = LinearMap.ker ε := by
    apply le_antisymm
    · rintro _ ⟨y, rfl⟩
      exact hbd y
    · intro x hx
      refine ⟨cone v x, ?_⟩
      have hnot := bd_cone_not (F := F) (n := 0) hc (mem_verts hv (Finset.mem_singleton_self _)) x
      -- the difference is supported at `v` and has sum zero
      funext t
      by_cases ht : v ∈ t.1
      · have hs := hbd (cone v x)
        rw [LinearMap.mem_ker] at hx
        rw [hε, ← Finset.add_sum_erase _ _ (Finset.mem_univ t)] at hx hs
        have hrest : ∀ u ∈ Finset.univ.erase t, (simplicialBoundary F K 1).mulVecLin (cone v x) u = x u := by
          intro u hu
          apply hnot
          intro hvu
          have h1 := Finset.eq_of_subset_of_card_le (Finset.singleton_subset_iff.2 hvu) (by rw [u.2.2, Finset.card_singleton])
          have h2 := Finset.eq_of_subset_of_card_le (Finset.singleton_subset_iff.2 ht) (by rw [t.2.2, Finset.card_singleton])
          exact (Finset.mem_erase.1 hu).1 (Subtype.ext (h1.symm.trans h2))
        rw [Finset.sum_congr rfl hrest] at hs
        exact add_right_cancel (hs.trans hx.symm)
      · exact hnot t ht
  have hfin : finrank F ((Simps K 1 → F) ⧸ LinearMap.ker ε) = 1 := by
    rw [(ε.quotKerEquivOfSurjective hsurj).finrank_eq, finrank_self]
  unfold simplicialBetti
  have e : ∀ (Z B : Submodule F (Simps K 1 → F)), Z = ⊤ → B = LinearMap.ker ε → finrank F (Z ⧸ B.submoduleOf Z) = 1 := by
    rintro Z B rfl rfl
    refine Eq.trans ?_ hfin
    refine LinearEquiv.finrank_eq (Submodule.Quotient.equiv _ _ Submodule.topEquiv ?_)
    ext x
    simp [Submodule.submoduleOf]
  exact e _ _ hker hrange

theorem finrank_simpHomology (L : Finset (Finset Nat)) (k : Nat) : finrank F (SimpHomology F L k) = simplicialBetti F L k := rfl

theorem rank_le_betti {L : Finset (Finset Nat)} (hK : IsASC K) (hL : IsASC L) (h : K ⊆ L) (k : Nat) :
    finrank F (LinearMap.range (simpInclusion F hK hL h k)) ≤ simplicialBetti F L k := Submodule.finrank_le _

/-- a nonempty complex in a cone: the map in degree 0 has rank 1 -/
theorem rank_zero {L : Finset (Finset Nat)} {v u : Nat} (hK : IsASC K) (hL : IsASC L) (h : K ⊆ L) (hu : {u} ∈ K) (hv : {v} ∈ L)
    (hc : ∀ σ ∈ L, σ.card ≤ 1 → insert v σ ∈ L) : finrank F (LinearMap.range (simpInclusion F hK hL h 0)) = 1 := by
  apply le_antisymm
  · exact (rank_le_betti hK hL h 0).trans (betti_cone_zero hL hv hc).le
  · rw [Nat.one_le_iff_ne_zero]
    intro h0
    have h1 : LinearMap.range (simpInclusion F hK hL h 0) = ⊥ := Submodule.finrank_eq_zero.1 h0
    rw [LinearMap.range_eq_bot] at h1
    have he : (∅ : Finset Nat) ∉ K := fun h => Finset.not_nonempty_empty (hK.nonempty _ h)
    let x : Simps K 1 → F := Pi.single ⟨{u}, hu, Finset.card_singleton u⟩ 1
    have hx : x ∈ simpCycles F K 0 := by
      unfold simpCycles
      rw [LinearMap.mem_ker]
      funext t
      exact absurd (by have := t.2; rw [Finset.card_eq_zero] at this; rw [← this.2]; exact this.1) he
    have h2 : simpInclusion F hK hL h 0 (Submodule.Quotient.mk ⟨x, hx⟩) = 0 := by rw [h1]; rfl
    have h3 := (Submodule.Quotient.mk_eq_zero _).1 h2
    obtain ⟨y, hy⟩ := h3
    have h4 := aug_bd hL y
    have h5 : (simplicialBoundary F L 1).mulVecLin y = extendChain F h 1 x := hy
    rw [h5, Finset.sum_eq_single (⟨{u}, h hu, Finset.card_singleton u⟩ : Simps L 1)] at h4
    · rw [show (⟨{u}, h hu, Finset.card_singleton u⟩ : Simps L 1) = ⟨(⟨{u}, hu, Finset.card_singleton u⟩ : Simps K 1).1, h hu, Finset.card_singleton u⟩ from rfl,
        extendChain_mem F h 1 x ⟨{u}, hu, Finset.card_singleton u⟩] at h4
      simp [x] at h4
    · intro s _ hs
      by_cases hsK : s.1 ∈ K
      · rw [show s = ⟨(⟨s.1, hsK, s.2.2⟩ : Simps K 1).1, s.2.1, s.2.2⟩ from rfl, extendChain_mem F h 1 x ⟨s.1, hsK, s.2.2⟩]
        show (Pi.single (⟨{u}, hu, Finset.card_singleton u⟩ : Simps K 1) (1 : F) : Simps K 1 → F) ⟨s.1, hsK, s.2.2⟩ = 0
        exact Pi.single_eq_of_ne (fun e => hs (Subtype.ext (congrArg (fun z : Simps K 1 => z.1) e))) _
      · exact extendChain_not_mem F h 1 x s hsK
    · intro hn; exact absurd (Finset.mem_univ _) hn

end Cone
end BATS
