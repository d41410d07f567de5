import Verif.Model.GenUpdate
import Verif.Proofs.MatOps2
import Verif.Proofs.DG8

set_option linter.unusedSectionVars false
set_option linter.unusedVariables false
set_option linter.unusedSimpArgs false

/-! # The general update: one level -/

namespace BATS
namespace GenUpd
open Reduction Matrix

variable {F : Type} [Field F] [DecidableEq F]

/-! ### positions after an insertion -/

theorem insertedBefore_all {ins : List Nat} {n : Nat} (h : ∀ r ∈ ins, r < n) : insertedBefore ins n = ins.length := by
  unfold insertedBefore
  rw [List.filter_eq_self.2]
  intro r hr; simpa using h r hr

theorem oldRow_lt {ins : List Nat} (hs : ins.Pairwise (· < ·)) {m i : Nat} (hb : ∀ r ∈ ins, r < m + ins.length) (hi : i < m + ins.length) (hn : i ∉ ins) :
    oldRow ins i < m := by
  have h1 := oldRow_strictMono hs hn hi
  have h2 : oldRow ins (m + ins.length) = m := by unfold oldRow; rw [insertedBefore_all hb]; omega
  omega

theorem oldRow_ge {ins : List Nat} {n i : Nat} (hb : ∀ r ∈ ins, r < n) (hi : n ≤ i) : oldRow ins i = i - ins.length := by
  unfold oldRow; rw [insertedBefore_all (fun r hr => lt_of_lt_of_le (hb r hr) hi)]

theorem oldRow_inj {ins : List Nat} (hs : ins.Pairwise (· < ·)) {i j : Nat} (hi : i ∉ ins) (hj : j ∉ ins) (e : oldRow ins i = oldRow ins j) : i = j := by
  rcases Nat.lt_trichotomy i j with h | h | h
  · have := oldRow_strictMono hs hi h; omega
  · exact h
  · have := oldRow_strictMono hs hj h; omega

theorem oldRow_image {ins : List Nat} (hs : ins.Pairwise (· < ·)) {m : Nat} (hb : ∀ r ∈ ins, r < m + ins.length) :
    ((Finset.range (m + ins.length)).filter (fun x => x ∉ ins)).image (oldRow ins) = Finset.range m := by
  apply Finset.eq_of_subset_of_card_le
  · intro y hy
    obtain ⟨x, hx, rfl⟩ := Finset.mem_image.1 hy
    rw [Finset.mem_filter, Finset.mem_range] at hx
    exact Finset.mem_range.2 (oldRow_lt hs hb hx.1 hx.2)
  · rw [Finset.card_image_of_injOn, Finset.card_range]
    · have e : (Finset.range (m + ins.length)).filter (fun x => x ∉ ins) = Finset.range (m + ins.length) \ ins.toFinset := by
        ext x; simp [Finset.mem_sdiff]
      rw [e, Finset.card_sdiff_of_subset, Finset.card_range, List.toFinset_card_of_nodup (hs.imp (fun h => Nat.ne_of_lt h))]
      · omega
      · intro x hx
        exact Finset.mem_range.2 (hb x (List.mem_toFinset.1 hx))
    · intro x hx y hy e
      have hx' := (Finset.mem_filter.1 hx).2
      have hy' := (Finset.mem_filter.1 hy).2
      exact oldRow_inj hs hx' hy' e

theorem oldRow_surj {ins : List Nat} (hs : ins.Pairwise (· < ·)) {m : Nat} (hb : ∀ r ∈ ins, r < m + ins.length) {y : Nat} (hy : y < m) :
    ∃ x, x < m + ins.length ∧ x ∉ ins ∧ oldRow ins x = y := by
  have : y ∈ ((Finset.range (m + ins.length)).filter (fun x => x ∉ ins)).image (oldRow ins) := by
    rw [oldRow_image hs hb]; exact Finset.mem_range.2 hy
  obtain ⟨x, hx, e⟩ := Finset.mem_image.1 this
  rw [Finset.mem_filter, Finset.mem_range] at hx
  exact ⟨x, hx.1, hx.2, e⟩

theorem sum_oldRow {ins : List Nat} (hs : ins.Pairwise (· < ·)) {m : Nat} (hb : ∀ r ∈ ins, r < m + ins.length) (f : Nat → F) :
    ∑ x ∈ Finset.range (m + ins.length), (if x ∈ ins then 0 else f (oldRow ins x)) = ∑ y ∈ Finset.range m, f y := by
  rw [← oldRow_image hs hb, Finset.sum_image, Finset.sum_filter]
  · apply Finset.sum_congr rfl
    intro x _
    by_cases h : x ∈ ins <;> simp [h]
  · intro x hx y hy e
    exact oldRow_inj hs (Finset.mem_filter.1 hx).2 (Finset.mem_filter.1 hy).2 e

/-! ### one level of the update -/

/-- `R = M U` for the first `m` rows, with `M` given by its entries; the number of rows recorded in `R` is left open -/
structure Lev (m n : Nat) (M : Nat → Nat → F) (U R : CMat F) : Prop where
  shU : U.Shape n n
  okR : ColsOK m R.cols
  lenR : R.cols.length = n
  eq : ∀ i j, i < m → j < n → ent1 R i j = ∑ x ∈ Finset.range n, M i x * ent1 U x j

/-- the columns of `U` have their last nonzero entry on the diagonal -/
def Diag (n : Nat) (U : CMat F) : Prop := ∀ c, c < n → low (U.cols.getD c []) = some c

theorem diag_zero {n : Nat} {U : CMat F} (hU : U.Shape n n) (h : Diag n U) {i j : Nat} (hj : j < n) (hi : j < i) : ent1 U i j = 0 := by
  by_cases hin : i < n
  · have := (low_matOf (n := n) hU.colsOK ⟨j, hj⟩ ⟨j, hj⟩).2 (h j hj)
    exact this.2 ⟨i, hin⟩ hi
  · exact ent1_ge hU (Or.inl (by omega))

theorem diag_ne {n : Nat} {U : CMat F} (hU : U.Shape n n) (h : Diag n U) {j : Nat} (hj : j < n) : ent1 U j j ≠ 0 :=
  ((low_matOf (n := n) hU.colsOK ⟨j, hj⟩ ⟨j, hj⟩).2 (h j hj)).1

theorem diag_upperInv {n : Nat} {U : CMat F} (hU : U.Shape n n) (h : Diag n U) : UpperInv (U.mat n n) :=
  ⟨fun i j hij => diag_zero hU h j.2 hij, fun i => diag_ne hU h i.2⟩

theorem diag_of_entries {n : Nat} {U : CMat F} (hU : U.Shape n n) (h0 : ∀ i j, j < n → j < i → i < n → ent1 U i j = 0) (h1 : ∀ j, j < n → ent1 U j j ≠ 0) :
    Diag n U := fun c hc => (low_matOf (n := n) hU.colsOK ⟨c, hc⟩ ⟨c, hc⟩).1 ⟨h1 c hc, fun i hi => h0 i c hc hi i.2⟩

theorem reduceStdU_nrow {U R U1 R1 : CMat F} {p : P2C} (a : Nat) (h : reduceStdU U R = .ok (U1, R1, p)) :
    reduceStdU U ⟨a, R.cols⟩ = .ok (U1, ⟨a, R1.cols⟩, p) := by
  unfold reduceStdU at h ⊢
  split at h
  · cases h
  · rename_i hl
    rw [if_neg hl]
    cases e : stdLoopU U.nrow U.cols.length 0 U.cols R.cols (List.replicate U.nrow none) with
    | error x => rw [e] at h; cases h
    | ok r =>
      rw [e] at h
      simp only [bind_ok, pure_ok] at h ⊢
      injection h with h
      injection h with h1 h2
      injection h2 with h2 h3
      rw [← h1, ← h2, ← h3]

theorem lev_iff {m n : Nat} {M : Nat → Nat → F} {u r : List (SVec F)} :
    (∀ i j, i < m → j < n → coef (r.getD j []) i = ∑ x ∈ Finset.range n, M i x * coef (u.getD j []) x) ↔
    ∀ c, c < n → ColRel (Matrix.of fun (i : Fin m) (j : Fin n) => M i j) (u.getD c []) (r.getD c []) := by
  constructor
  · intro h c hc i
    rw [h i c i.2 hc, Finset.sum_range]; rfl
  · intro h i j hi hj
    rw [h j hj ⟨i, hi⟩, Finset.sum_range]; rfl

theorem makeUpper_lev {m n : Nat} {M : Nat → Nat → F} {U R : CMat F} (h : Lev m n M U R) (hinj : Function.Injective (U.mat n n *ᵥ ·)) :
    ∃ U' R', RedDG.makeUpper U R = .ok (U', R') ∧ Lev m n M U' R' ∧ R'.nrow = R.nrow ∧ Diag n U' := by
  have hU := h.shU
  have hR : (⟨m, R.cols⟩ : CMat F).Shape m n := ⟨h.okR, rfl, h.lenR⟩
  obtain ⟨U1, R1, p, V, h1, hU1, hR1, hV, e1, e2, ht⟩ := reduceStdU_spec hU hR
  have h1' := reduceStdU_nrow R.nrow h1
  have hne : ∀ c, c < n → U1.cols.getD c [] ≠ [] := by
    intro c hc h0
    have hz : U1.mat n n *ᵥ (Pi.single ⟨c, hc⟩ 1) = U1.mat n n *ᵥ 0 := by
      rw [Matrix.mulVec_single_one, Matrix.mulVec_zero]
      funext i
      show coef (U1.cols.getD c []) i = 0
      rw [h0]; rfl
    rw [e1, ← Matrix.mulVec_mulVec, ← Matrix.mulVec_mulVec] at hz
    have := hV.upperInv.injective (hinj hz)
    have := congrFun this ⟨c, hc⟩
    simp at this
  have he : (Matrix.of fun (i : Fin m) (j : Fin n) => M i j) * U.mat n n = (⟨m, R.cols⟩ : CMat F).mat m n :=
    (mul_eq_colRel _ _ _).2 (lev_iff.1 h.eq)
  have hinv : SortInv n m (ColRel (Matrix.of fun (i : Fin m) (j : Fin n) => M i j)) U1.cols R1.cols p := by
    refine ⟨hU1.ncol, hR1.ncol, ht.len, hU1.colsOK, hR1.colsOK, ?_, ht.bound, hne, ?_⟩
    · intro i c hc
      constructor
      · intro h
        have hi : i < n := by
          rw [← ht.len]; exact (List.getElem?_eq_some_iff.1 h).1
        exact (low_matOf hU1.colsOK ⟨i, hi⟩ ⟨c, hc⟩).1 ((ht.iff ⟨i, hi⟩ ⟨c, hc⟩).1 h)
      · intro h
        have hi : i < n := low_lt (hU1.colsOK.getD c).2 h
        exact (ht.iff ⟨i, hi⟩ ⟨c, hc⟩).2 ((low_matOf hU1.colsOK ⟨i, hi⟩ ⟨c, hc⟩).2 h)
    · apply (mul_eq_colRel _ _ _).1
      show _ * U1.mat n n = R1.mat m n
      rw [e1, e2, ← he, Matrix.mul_assoc]
  obtain ⟨u', r', h2, lu, lr, oku, okr, hlow, hrel⟩ := sortColsLoop_spec n 0 _ _ _ (by omega) hinv (by omega)
  refine ⟨⟨U1.nrow, u'⟩, ⟨R.nrow, r'⟩, ?_, ⟨⟨by rw [CMat.OK, hU1.nrow]; exact oku, hU1.nrow, lu⟩, okr, lr, lev_iff.2 hrel⟩, rfl, hlow⟩
  unfold RedDG.makeUpper
  have : R = ⟨R.nrow, R.cols⟩ := rfl
  rw [this, h1', bind_ok]
  simp only
  rw [hU1.ncol, h2, bind_ok]; rfl

theorem insRows_lev {m n : Nat} {M : Nat → Nat → F} {U R : CMat F} (h : Lev m n M U R) {ins : List Nat} (hs : ins.Pairwise (· < ·))
    (hb : ∀ r ∈ ins, r < m + ins.length) :
    Lev (m + ins.length) n (fun i j => if i ∈ ins then 0 else M (oldRow ins i) j) U (CMat.insertZeroRows ins R) := by
  have hR : (⟨m, R.cols⟩ : CMat F).Shape m n := ⟨h.okR, rfl, h.lenR⟩
  obtain ⟨h1, h2, h3⟩ := insertZeroRows_mat hR hs
  have hc : (CMat.insertZeroRows ins R).cols = (CMat.insertZeroRows ins ⟨m, R.cols⟩).cols := rfl
  refine ⟨h.shU, by rw [hc]; exact h1.colsOK, by rw [hc]; exact h1.ncol, ?_⟩
  intro i j hi hj
  show ent1 (CMat.insertZeroRows ins ⟨m, R.cols⟩) i j = _
  by_cases hm : i ∈ ins
  · rw [h2 i j hm]; simp [hm]
  · rw [h3 i j hm]
    simp only [hm, if_false]
    exact h.eq _ j (oldRow_lt hs hb hi hm) hj

theorem below_of_coef {v : SVec F} {m : Nat} (hv : VecOK v) (h : ∀ i, m ≤ i → coef v i = 0) : Below m v := by
  intro p hp
  by_contra hc
  have h1 := h p.1 (by omega)
  have := coef_of_mem hv.1 (show (p.1, p.2) ∈ v from hp)
  rw [this] at h1
  exact hv.2 p hp h1

theorem getD_take {l : List (SVec F)} {k j : Nat} (hj : j < k) : (l.take k).getD j [] = l.getD j [] := by
  rw [List.getD_eq_getElem?_getD, List.getElem?_take_of_lt hj, List.getD_eq_getElem?_getD]

theorem delete_lev {m m' n k : Nat} {M : Nat → Nat → F} {U R : CMat F} (h : Lev m n M U R) (hd : Diag n U) (hk : k ≤ n) (hm : m' ≤ m)
    (hz : ∀ i x, m' ≤ i → i < m → x < k → M i x = 0) (a : Nat) :
    Lev m' k M ⟨k, U.cols.take k⟩ ⟨a, R.cols.take k⟩ ∧ Diag k ⟨k, U.cols.take k⟩ := by
  have hUe : ∀ i j, j < k → ent1 ⟨k, U.cols.take k⟩ i j = ent1 U i j := by
    intro i j hj; unfold ent1; dsimp only; rw [getD_take hj]
  have hcut : ∀ i j, i < m → j < k → ent1 R i j = ∑ x ∈ Finset.range k, M i x * ent1 U x j := by
    intro i j hi hj
    rw [h.eq i j hi (by omega)]
    symm
    apply Finset.sum_subset
    · intro x hx; rw [Finset.mem_range] at hx ⊢; omega
    · intro x hx hx'
      rw [Finset.mem_range] at hx hx'
      rw [diag_zero h.shU hd (by omega) (by omega), mul_zero]
  have hUs : (⟨k, U.cols.take k⟩ : CMat F).Shape k k := by
    refine ⟨?_, rfl, by simp [h.shU.ncol, hk]⟩
    apply colsOK_of_getD
    intro j hj
    have hj' : j < k := by simp at hj; omega
    show VecOK ((U.cols.take k).getD j []) ∧ Below k ((U.cols.take k).getD j [])
    rw [getD_take hj']
    have hv := (h.shU.colsOK.getD j).1
    exact ⟨hv, below_of_coef hv (fun i hi => diag_zero h.shU hd (by omega) (by omega))⟩
  refine ⟨⟨hUs, ?_, by simp [h.lenR, hk], ?_⟩, ?_⟩
  · apply colsOK_of_getD
    intro j hj
    have hj' : j < k := by simp at hj; omega
    rw [getD_take hj']
    have hv := h.okR.getD j
    refine ⟨hv.1, below_of_coef hv.1 (fun i hi => ?_)⟩
    by_cases him : i < m
    · have := hcut i j him hj'
      show ent1 R i j = 0
      rw [this]
      apply Finset.sum_eq_zero
      intro x hx
      rw [hz i x hi him (Finset.mem_range.1 hx), zero_mul]
    · exact hv.2.coef_eq_zero (by omega)
  · intro i j hi hj
    have : ent1 (⟨a, R.cols.take k⟩ : CMat F) i j = ent1 R i j := by unfold ent1; dsimp only; rw [getD_take hj]
    rw [this, hcut i j (by omega) hj]
    apply Finset.sum_congr rfl
    intro x _
    rw [hUe x j hj]
  · intro c hc
    show low ((U.cols.take k).getD c []) = _
    rw [getD_take hc]; exact hd c (by omega)

theorem insert_lev {m k : Nat} {M M2 : Nat → Nat → F} {U R : CMat F} (h : Lev m k M U R) (hR : R.nrow = m) (hd : Diag k U) {ins : List Nat} (hs : ins.Pairwise (· < ·))
    (hb : ∀ r ∈ ins, r < k + ins.length) {new : List (SVec F)} (hl : ins.length = new.length) (hnew : ∀ c ∈ new, VecOK c ∧ Below m c)
    (hM2 : ∀ i j, i < m → j < k + ins.length → j ∉ ins → M2 i j = M i (oldRow ins j))
    (hM2n : ∀ i a, i < m → a < ins.length → M2 i (ins.getD a 0) = coef (new.getD a []) i) :
    ∃ U' R', CMat.insertColumns ins (ins.map (fun i => [(i, (1 : F))])) (CMat.insertZeroRows ins U) = .ok U' ∧ CMat.insertColumns ins new R = .ok R' ∧
      Lev m (k + ins.length) M2 U' R' ∧ R'.nrow = m ∧ Diag (k + ins.length) U' := by
  have hRs : R.Shape m k := ⟨by rw [CMat.OK, hR]; exact h.okR, hR, h.lenR⟩
  obtain ⟨a1, a2, a3⟩ := insertZeroRows_mat h.shU hs
  obtain ⟨U', b1, b2, b3, b4⟩ := insertColumns_spec a1 hs (new := ins.map (fun i => [(i, (1 : F))])) (by simp) hb (by
    intro c hc
    obtain ⟨i, hi, rfl⟩ := List.mem_map.1 hc
    refine ⟨⟨by simp [Sorted], by simp [NoZero]⟩, ?_⟩
    intro p hp
    simp only [List.mem_singleton] at hp
    subst hp; exact hb i hi)
  obtain ⟨R', c1, c2, c3, c4⟩ := insertColumns_spec hRs hs hl hb hnew
  have hunit : ∀ x a, a < ins.length → ent1 U' x (ins.getD a 0) = if x = ins.getD a 0 then 1 else 0 := by
    intro x a ha
    rw [b3 x a ha, List.getD_eq_getElem?_getD, List.getElem?_map, List.getElem?_eq_getElem ha, List.getD_eq_getElem?_getD, List.getElem?_eq_getElem ha]
    simp only [Option.map_some, Option.getD_some, coef]
    by_cases e : x = ins[a] <;> simp [e, eq_comm]
  have hold : ∀ x j, j ∉ ins → ent1 U' x j = if x ∈ ins then 0 else ent1 U (oldRow ins x) (oldRow ins j) := by
    intro x j hj
    rw [b4 x j hj]
    by_cases hx : x ∈ ins
    · rw [if_pos hx, a2 x _ hx]
    · rw [if_neg hx, a3 x _ hx]
  have hin : ∀ j, j ∈ ins → ∃ a, a < ins.length ∧ ins.getD a 0 = j := by
    intro j hj
    obtain ⟨a, ha, e⟩ := List.mem_iff_getElem.1 hj
    exact ⟨a, ha, by rw [List.getD_eq_getElem?_getD, List.getElem?_eq_getElem ha]; exact e⟩
  refine ⟨U', R', b1, c1, ⟨b2, c2.colsOK, c2.ncol, ?_⟩, c2.nrow, diag_of_entries b2 ?_ ?_⟩
  · intro i j hi hj
    by_cases hji : j ∈ ins
    · obtain ⟨a, ha, rfl⟩ := hin j hji
      rw [c3 i a ha, ← hM2n i a hi ha, Finset.sum_eq_single (ins.getD a 0)]
      · rw [hunit _ a ha, if_pos rfl, mul_one]
      · intro x _ hx
        rw [hunit _ a ha, if_neg hx, mul_zero]
      · intro hx
        exact absurd (Finset.mem_range.2 hj) hx
    · rw [c4 i j hji, h.eq i _ hi (oldRow_lt hs hb hj hji), ← sum_oldRow hs hb]
      apply Finset.sum_congr rfl
      intro x hx
      rw [hold x j hji]
      by_cases hxi : x ∈ ins
      · simp [hxi]
      · rw [if_neg hxi, if_neg hxi, hM2 i x hi (Finset.mem_range.1 hx) hxi]
  · intro i j hj hij hi
    by_cases hji : j ∈ ins
    · obtain ⟨a, ha, rfl⟩ := hin j hji
      rw [hunit _ a ha, if_neg (by omega)]
    · rw [hold i j hji]
      by_cases hii : i ∈ ins
      · rw [if_pos hii]
      · rw [if_neg hii]
        exact diag_zero h.shU hd (oldRow_lt hs hb hj hji) (oldRow_strictMono hs hji hij)
  · intro j hj
    by_cases hji : j ∈ ins
    · obtain ⟨a, ha, rfl⟩ := hin j hji
      rw [hunit _ a ha, if_pos rfl]; exact one_ne_zero
    · rw [hold j j hji, if_neg hji]
      exact diag_ne h.shU hd (oldRow_lt hs hb hj hji)

end GenUpd
end BATS
