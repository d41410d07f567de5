import Verif.Spec.ZigzagFilt
import Verif.Model.ZigzagFilt
import Verif.Proofs.Reindex
import Verif.Proofs.RelativeLin

set_option linter.unusedSectionVars false
set_option linter.unusedSimpArgs false
set_option linter.unusedVariables false

/-! # Complexes of copies of cells -/

namespace BATS
namespace Zigzag
open Matrix Reduction

variable {F : Type} [Field F] [DecidableEq F] {T : Type} [LinearOrder T]

/-- copy `a` is present at least while copy `b` is -/
def Contains (a b : Copy T) : Prop := a.lo ≤ b.lo ∧ b.hi ≤ a.hi

instance (a b : Copy T) : Decidable (Contains a b) := by unfold Contains; infer_instance

/-- `C` is the complex of the copies of the cells of `B`, labelled by `lab` -/
structure Labelled (B : List (CMat F)) (vals : List (List (List (T × T)))) (C : List (CMat F)) (lab : Nat → Nat → Copy T) : Prop where
  len : C.length = B.length
  shapes : ShapesOK C
  zero : ZeroBdry0 C
  mem : ∀ k j, j < cdim C k → (lab k j).orig < cdim B k ∧ ((lab k j).lo, (lab k j).hi) ∈ intervals vals k (lab k j).orig
  surj : ∀ k i v, i < cdim B k → v ∈ intervals vals k i → ∃ j, j < cdim C k ∧ lab k j = ⟨i, v.1, v.2⟩
  inj : ∀ k j j', j < cdim C k → j' < cdim C k → lab k j = lab k j' → j = j'
  ent : ∀ k i j, i < cdim C k → j < cdim C (k + 1) → ent C (k + 1) i j = if Contains (lab k i) (lab (k + 1) j) then ent B (k + 1) (lab k i).orig (lab (k + 1) j).orig else 0

theorem interval_unique {l : List (T × T)} (h : l.Pairwise (fun v w => v.2 < w.1)) {v w : T × T} (hv : v ∈ l) (hw : w ∈ l) {t : T} (h1 : v.1 ≤ t) (h2 : t ≤ v.2)
    (h3 : w.1 ≤ t) (h4 : t ≤ w.2) : v = w := by
  induction l with
  | nil => cases hv
  | cons a l ih =>
    rw [List.pairwise_cons] at h
    rcases List.mem_cons.1 hv with rfl | hv' <;> rcases List.mem_cons.1 hw with rfl | hw'
    · rfl
    · exact absurd (lt_of_lt_of_le (h.1 w hw') h3) (not_lt.2 h2)
    · exact absurd (lt_of_lt_of_le (h.1 v hv') h1) (not_lt.2 h4)
    · exact ih h.2 hv' hw'

theorem ent_row_lt {B : List (CMat F)} (hB : ShapesOK B) {k i j : Nat} (h : ent B (k + 1) i j ≠ 0) : i < cdim B k ∧ j < cdim B (k + 1) := by
  by_cases hk : k + 1 < B.length
  · have hs := hB (k + 1) hk
    have hj : j < cdim B (k + 1) := by
      by_contra hc
      apply h
      unfold ent
      rw [List.getD_eq_getElem?_getD, List.getElem?_eq_none (by unfold cdim at hc; omega)]
      rfl
    refine ⟨?_, hj⟩
    by_contra hc
    exact h ((hs.colsOK.getD j).2.coef_eq_zero (show rdim B (k + 1) ≤ i from Nat.le_of_not_lt hc))
  · exfalso
    apply h
    unfold ent
    rw [List.getD_eq_getElem?_getD (l := B), List.getElem?_eq_none (by omega)]
    rfl

namespace Labelled
variable {B C : List (CMat F)} {vals : List (List (List (T × T)))} {lab : Nat → Nat → Copy T}

theorem le (h : Labelled B vals C lab) (hv : IsZigzagFiltration B vals) {k j : Nat} (hj : j < cdim C k) : (lab k j).lo ≤ (lab k j).hi :=
  hv.le k _ _ (h.mem k j hj).2

/-- at most one copy of a cell is present at a time -/
theorem unique (h : Labelled B vals C lab) (hv : IsZigzagFiltration B vals) {k j j' : Nat} (hj : j < cdim C k) (hj' : j' < cdim C k) (ho : (lab k j).orig = (lab k j').orig)
    {t : T} (h1 : (lab k j).lo ≤ t) (h2 : t ≤ (lab k j).hi) (h3 : (lab k j').lo ≤ t) (h4 : t ≤ (lab k j').hi) : j = j' := by
  apply h.inj k j j' hj hj'
  have a := (h.mem k j hj).2
  have b := (h.mem k j' hj').2
  rw [← ho] at b
  have := interval_unique (hv.disjoint k (lab k j).orig) a b h1 h2 h3 h4
  rcases e1 : lab k j with ⟨o, l, u⟩
  rcases e2 : lab k j' with ⟨o', l', u'⟩
  rw [e1, e2] at this ho
  simp only [Prod.mk.injEq] at this ho
  rw [this.1, this.2, ho]

/-- every face of a copy has a copy which contains it -/
theorem face (h : Labelled B vals C lab) (hB : ShapesOK B) (hv : IsZigzagFiltration B vals) {k i j : Nat} (hj : j < cdim C (k + 1)) (he : BATS.ent B (k + 1) i (lab (k + 1) j).orig ≠ 0) :
    ∃ a, a < cdim C k ∧ (lab k a).orig = i ∧ Contains (lab k a) (lab (k + 1) j) := by
  obtain ⟨w, hw, h1, h2⟩ := hv.closed k i _ he _ (h.mem (k + 1) j hj).2
  obtain ⟨a, ha, hl⟩ := h.surj k i w (ent_row_lt hB he).1 hw
  exact ⟨a, ha, by rw [hl], by rw [hl]; exact ⟨h1, h2⟩⟩

theorem Contains.trans {a b c : Copy T} (h1 : Contains a b) (h2 : Contains b c) : Contains a c := ⟨le_trans h1.1 h2.1, le_trans h2.2 h1.2⟩

/-- sum over the copies which contain `c` of a function of the cells, which vanishes on cells without such a copy -/
theorem sum_copies (h : Labelled B vals C lab) (hv : IsZigzagFiltration B vals) (k : Nat) (c : Copy T) (hc : c.lo ≤ c.hi) (f : Nat → F)
    (hf : ∀ i, i < cdim B k → f i ≠ 0 → ∃ a, a < cdim C k ∧ (lab k a).orig = i ∧ Contains (lab k a) c) :
    ∑ i : Fin (cdim C k), (if Contains (lab k i) c then f (lab k i).orig else 0) = ∑ i : Fin (cdim B k), f i := by
  classical
  rw [← Finset.sum_filter]
  refine Finset.sum_bij_ne_zero (fun i _ _ => ⟨(lab k i).orig, (h.mem k i i.2).1⟩) (fun _ _ _ => Finset.mem_univ _) ?_ ?_ ?_
  · intro a ha _ b hb _ e
    have ha' := (Finset.mem_filter.1 ha).2
    have hb' := (Finset.mem_filter.1 hb).2
    have e' : (lab k a).orig = (lab k b).orig := congrArg Fin.val e
    exact Fin.ext (h.unique hv a.2 b.2 e' ha'.1 (le_trans hc ha'.2) hb'.1 (le_trans hc hb'.2))
  · intro i _ hne
    obtain ⟨a, ha, ho, hcon⟩ := hf i i.2 hne
    exact ⟨⟨a, ha⟩, Finset.mem_filter.2 ⟨Finset.mem_univ _, hcon⟩, by rw [ho]; exact hne, Fin.ext ho⟩
  · intro i _ _; rfl

theorem isChainComplex (h : Labelled B vals C lab) (hB : IsChainComplex B) (hv : IsZigzagFiltration B vals) : IsChainComplex C := by
  refine ⟨?_, h.shapes, ?_⟩
  · intro e; have := h.len; rw [e] at this; exact hB.ne (List.length_eq_zero_iff.1 this.symm)
  · intro k hk
    cases k with
    | zero =>
      ext a j
      rw [Matrix.mul_apply]
      apply Finset.sum_eq_zero
      intro i _
      have : bdry C 0 a i = 0 := ent_zero_bdry h.zero a i
      rw [this, zero_mul]
    | succ k =>
      ext a j
      rw [Matrix.mul_apply]
      show ∑ i : Fin (cdim C (k + 1)), BATS.ent C (k + 1) a i * BATS.ent C (k + 2) i j = 0
      have ha : a.val < cdim C k := a.2
      have hj : j.val < cdim C (k + 2) := j.2
      have hsq := congrFun (congrFun (hB.sq (k + 1) (by rw [← h.len]; exact hk)) ⟨_, (h.mem k a ha).1⟩) ⟨_, (h.mem (k + 2) j hj).1⟩
      rw [Matrix.mul_apply] at hsq
      have hsq' : ∑ i : Fin (cdim B (k + 1)), BATS.ent B (k + 1) (lab k a).orig i * BATS.ent B (k + 2) i (lab (k + 2) j).orig = 0 := hsq
      by_cases hcon : Contains (lab k a) (lab (k + 2) j)
      · have key := h.sum_copies hv (k + 1) (lab (k + 2) j) (h.le hv hj) (fun i => BATS.ent B (k + 1) (lab k a).orig i * BATS.ent B (k + 2) i (lab (k + 2) j).orig)
          (fun i hi hne => h.face hB.shape hv hj (right_ne_zero_of_mul hne))
        rw [hsq'] at key
        rw [← key]
        refine Finset.sum_congr rfl (fun i _ => ?_)
        rw [h.ent k a i ha i.2, h.ent (k + 1) i j i.2 hj]
        by_cases h1 : Contains (lab (k + 1) i) (lab (k + 2) j)
        · rw [if_pos h1, if_pos h1]
          by_cases h2 : Contains (lab k a) (lab (k + 1) i)
          · rw [if_pos h2]
          · rw [if_neg h2, zero_mul]
            by_contra hne
            have hne' := left_ne_zero_of_mul (Ne.symm hne)
            obtain ⟨a', ha', ho, hc'⟩ := h.face hB.shape hv i.2 hne'
            have hc'' := Contains.trans hc' h1
            have hle := h.le hv hj
            have e := h.unique hv ha' ha ho hc''.1 (le_trans hle hc''.2) hcon.1 (le_trans hle hcon.2)
            subst e
            exact h2 hc'
        · rw [if_neg h1, if_neg h1, mul_zero]
      · apply Finset.sum_eq_zero
        intro i _
        rw [h.ent k a i ha i.2, h.ent (k + 1) i j i.2 hj]
        by_cases h1 : Contains (lab k a) (lab (k + 1) i)
        · rw [if_neg (fun h2 => hcon (Contains.trans h1 h2)), mul_zero]
        · rw [if_neg h1, zero_mul]

/-- reindexing -/
theorem reindex (h : Labelled B vals C lab) {C' : List (CMat F)} {τ : Nat → Nat → Nat} (hr : ReindexedBy C C' τ) (h0 : ZeroBdry0 C') : Labelled B vals C' (fun k j => lab k (τ k j)) := by
  have hc := hr.same.cdim
  have bij : ∀ k j, j < cdim C k → ∃ i, i < cdim C k ∧ τ k i = j := by
    intro k j hj
    obtain ⟨i, hi⟩ := (hr.eqv k).surjective ⟨j, hj⟩
    exact ⟨i, by rw [← hc]; exact i.2, by rw [← hr.eqv_val, hi]⟩
  refine ⟨by rw [hr.same.len, h.len], hr.same.ok hr.ok, h0, ?_, ?_, ?_, ?_⟩
  · intro k j hj
    exact h.mem k _ (hr.lt k j (by rw [← hc]; exact hj))
  · intro k i v hi hv
    obtain ⟨j, hj, hl⟩ := h.surj k i v hi hv
    obtain ⟨x, hx, rfl⟩ := bij k j hj
    exact ⟨x, by rw [hc]; exact hx, hl⟩
  · intro k j j' hj hj' e
    rw [hc] at hj hj'
    exact hr.inj k j j' hj hj' (h.inj k _ _ (hr.lt k j hj) (hr.lt k j' hj') e)
  · intro k i j hi hj
    rw [hc] at hi hj
    by_cases hk : k + 1 < C.length
    · rw [hr.succ k i j hk hi hj]
      exact h.ent k _ _ (hr.lt k i hi) (hr.lt _ j hj)
    · rw [cdim_of_ge (by omega)] at hj; omega

end Labelled
end Zigzag
end BATS
