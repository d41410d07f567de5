import Verif.Proofs.SortBlock
import Verif.Proofs.Reduction

set_option linter.unusedSectionVars false
set_option linter.unusedVariables false
set_option linter.unusedSimpArgs false

/-! # Compressed-column matrices given by blocks -/

namespace BATS
namespace CSC
open Reduction

/-- the row indices / values of a list of blocks -/
abbrev rows (bs : List (List Nat × List Int)) : List Nat := (bs.map Prod.fst).flatten
abbrev vals (bs : List (List Nat × List Int)) : List Int := (bs.map Prod.snd).flatten

/-- `colptr` delimits the blocks -/
def Delimits (colptr : List Nat) (bs : List (List Nat × List Int)) : Prop :=
  ∀ j, j ≤ bs.length → colptr[j]? = some (rows (bs.take j)).length

/-- a sorted rearrangement of a block -/
structure SortedBlock (b b' : List Nat × List Int) : Prop where
  lf : b'.1.length = b.1.length
  lc : b'.2.length = b.1.length
  sorted : b'.1.Pairwise (· ≤ ·)
  perm : (b'.1.zip b'.2).Perm (b.1.zip b.2)

theorem rows_append (a b : List (List Nat × List Int)) : rows (a ++ b) = rows a ++ rows b := by simp [rows]
theorem vals_append (a b : List (List Nat × List Int)) : vals (a ++ b) = vals a ++ vals b := by simp [vals]

theorem rows_vals_length {bs : List (List Nat × List Int)} (h : ∀ b ∈ bs, b.1.length = b.2.length) : (rows bs).length = (vals bs).length := by
  induction bs with
  | nil => rfl
  | cons b bs ih =>
    have := ih (fun c hc => h c (by simp [hc]))
    have hb := h b (by simp)
    simp only [rows, vals, List.map_cons, List.flatten_cons, List.length_append] at this ⊢
    omega

theorem sortLoop_spec (colptr : List Nat) : ∀ (bs pre : List (List Nat × List Int)), (∀ b ∈ pre ++ bs, b.1.length = b.2.length) →
    (∀ j, j ≤ bs.length → colptr[pre.length + j]? = some ((rows pre).length + (rows (bs.take j)).length)) →
    ∃ bs', sortLoop colptr bs.length pre.length (rows (pre ++ bs)) (vals (pre ++ bs)) = .ok (rows (pre ++ bs'), vals (pre ++ bs')) ∧
      List.Forall₂ SortedBlock bs bs'
  | [], pre, _, _ => ⟨[], rfl, List.Forall₂.nil⟩
  | b :: bs, pre, hl, hc => by
    have hb : b.1.length = b.2.length := hl b (by simp)
    have hpre : (rows pre).length = (vals pre).length := rows_vals_length (fun c hc => hl c (by simp [hc]))
    obtain ⟨f', c', g1, g2, g3, g4, g5⟩ := sortBlock_spec (rows pre) b.1 (rows bs) (vals pre) b.2 (vals bs) hpre hb
    have h0 := hc 0 (by simp)
    have h1 := hc 1 (by simp)
    simp only [List.take_zero, Nat.add_zero, rows, List.map_nil, List.flatten_nil, List.length_nil] at h0
    have e1 : (rows ((b :: bs).take 1)).length = b.1.length := by simp [rows]
    rw [e1] at h1
    obtain ⟨bs', q1, q2⟩ := sortLoop_spec colptr bs (pre ++ [(f', c')]) (by
      intro x hx
      simp only [List.append_assoc, List.singleton_append, List.mem_append, List.mem_cons] at hx
      rcases hx with h | rfl | h
      · exact hl x (by simp [h])
      · simp [g2, g3]
      · exact hl x (by simp [h])) (by
      intro j hj
      have := hc (j + 1) (by simp; omega)
      rw [List.length_append, List.length_singleton, show pre.length + 1 + j = pre.length + (j + 1) by omega, this]
      simp only [rows_append, List.length_append, List.take_succ_cons]
      have : (rows (b :: bs.take j)).length = b.1.length + (rows (bs.take j)).length := by simp [rows]
      rw [this]
      simp [rows, g2]; omega)
    refine ⟨(f', c') :: bs', ?_, List.Forall₂.cons ⟨g2, g3, g4, g5⟩ q2⟩
    have ef : rows (pre ++ b :: bs) = rows pre ++ (b.1 ++ rows bs) := by simp [rows]
    have ec : vals (pre ++ b :: bs) = vals pre ++ (b.2 ++ vals bs) := by simp [vals]
    have ef' : rows pre ++ (f' ++ rows bs) = rows (pre ++ [(f', c')] ++ bs) := by simp [rows]
    have ec' : vals pre ++ (c' ++ vals bs) = vals (pre ++ [(f', c')] ++ bs) := by simp [vals]
    show sortLoop colptr (bs.length + 1) pre.length _ _ = _
    unfold sortLoop
    rw [rd_some h0, bind_ok, rd_some h1, bind_ok, Nat.add_sub_cancel_left, ef, ec, g1, bind_ok]
    simp only
    rw [ef', ec']
    rw [List.length_append, List.length_singleton] at q1
    rw [q1]; simp

variable {F : Type} [Field F] [DecidableEq F]

/-- the column read from a block -/
def blockCol (b : List Nat × List Int) : SVec F := (b.1.zip b.2).map (fun p => (p.1, (p.2 : F)))

theorem toColsLoop_spec {colptr : List Nat} {m n : Nat} : ∀ (bs pre : List (List Nat × List Int)), (∀ b ∈ pre ++ bs, b.1.length = b.2.length) →
    (∀ j, j ≤ bs.length → colptr[pre.length + j]? = some ((rows pre).length + (rows (bs.take j)).length)) →
    toColsLoop ⟨colptr, rows (pre ++ bs), vals (pre ++ bs), m, n⟩ bs.length pre.length = .ok (bs.map (blockCol (F := F)))
  | [], pre, _, _ => rfl
  | b :: bs, pre, hl, hc => by
    have hb : b.1.length = b.2.length := hl b (by simp)
    have hpre : (rows pre).length = (vals pre).length := rows_vals_length (fun c hc => hl c (by simp [hc]))
    have h0 := hc 0 (by simp)
    have h1 := hc 1 (by simp)
    simp only [List.take_zero, Nat.add_zero, rows, List.map_nil, List.flatten_nil, List.length_nil] at h0
    have e1 : (rows ((b :: bs).take 1)).length = b.1.length := by simp [rows]
    rw [e1] at h1
    have ih := toColsLoop_spec (m := m) (n := n) bs (pre ++ [b]) (by simpa using hl) (by
      intro j hj
      have := hc (j + 1) (by simp; omega)
      rw [List.length_append, List.length_singleton, show pre.length + 1 + j = pre.length + (j + 1) by omega, this]
      simp [rows]; omega)
    have ef : rows (pre ++ b :: bs) = rows pre ++ (b.1 ++ rows bs) := by simp [rows]
    have ec : vals (pre ++ b :: bs) = vals pre ++ (b.2 ++ vals bs) := by simp [vals]
    show toColsLoop _ (bs.length + 1) pre.length = _
    unfold toColsLoop
    simp only
    rw [rd_some h0, bind_ok, rd_some h1, bind_ok]
    rw [List.length_append, List.length_singleton, List.append_assoc, List.singleton_append] at ih
    rw [if_neg, ih, bind_ok, Nat.add_sub_cancel_left, ef, ec]
    · simp only [pure_ok, List.map_cons]
      congr 2
      unfold blockCol
      rw [List.drop_left, List.take_left]
      have : (rows pre).length = (vals pre).length := hpre
      rw [this, List.drop_left, hb, List.take_left]
    · rw [ef, ec]
      simp only [List.length_append, Bool.or_eq_true, decide_eq_true_eq, not_or, not_lt]
      constructor
      · omega
      · rw [← hpre]; omega

/-- building a compressed matrix from blocks -/
theorem mk'_blocks {colptr : List Nat} {bs : List (List Nat × List Int)} (m : Nat) (hl : ∀ b ∈ bs, b.1.length = b.2.length)
    (hc : Delimits colptr bs) :
    ∃ bs', CSC.mk' m bs.length colptr (rows bs) (vals bs) = .ok ⟨colptr, rows bs', vals bs', m, bs'.length⟩ ∧ List.Forall₂ SortedBlock bs bs' ∧
      (∀ b ∈ bs', b.1.length = b.2.length) ∧ Delimits colptr bs' := by
  obtain ⟨bs', h1, h2⟩ := sortLoop_spec colptr bs [] hl (by intro j hj; rw [List.length_nil, Nat.zero_add]; rw [hc j hj]; simp [rows])
  simp only [List.nil_append, List.length_nil] at h1
  have hlen := h2.length_eq
  have hl' : ∀ b ∈ bs', b.1.length = b.2.length := by
    intro b hb
    obtain ⟨i, hi, e⟩ := List.getElem_of_mem hb
    have := List.Forall₂.get h2 (i := i) (by omega) (by omega)
    simp only [List.get_eq_getElem] at this
    rw [e] at this
    rw [this.lf, this.lc]
  have hrows : ∀ j, (rows (bs'.take j)).length = (rows (bs.take j)).length := by
    intro j
    have : ∀ (as as' : List (List Nat × List Int)), List.Forall₂ SortedBlock as as' → (rows as').length = (rows as).length := by
      intro as as' h
      induction h with
      | nil => rfl
      | cons h _ ih =>
        simp only [rows, List.map_cons, List.flatten_cons, List.length_append] at ih ⊢
        rw [ih, h.lf]
    exact this _ _ (List.forall₂_take j h2)
  refine ⟨bs', ?_, h2, hl', fun j hj => by rw [hc j (by omega), hrows]⟩
  unfold CSC.mk'
  rw [h1, hlen]; rfl

theorem toCMat_blocks {colptr : List Nat} {bs : List (List Nat × List Int)} (m : Nat) (hl : ∀ b ∈ bs, b.1.length = b.2.length)
    (hc : Delimits colptr bs) : (⟨colptr, rows bs, vals bs, m, bs.length⟩ : CSC).toCMat = .ok (⟨m, bs.map (blockCol (F := F))⟩ : CMat F) := by
  have := toColsLoop_spec (F := F) (m := m) (n := bs.length) (colptr := colptr) bs [] hl (by
    intro j hj
    rw [List.length_nil, Nat.zero_add, hc j hj]; simp [rows])
  simp only [List.nil_append, List.length_nil] at this
  unfold toCMat
  simp only
  rw [this]; rfl

/-- building a compressed matrix from blocks and converting it to columns over `F` -/
theorem mk'_toCMat {colptr : List Nat} {bs : List (List Nat × List Int)} (m : Nat) (hl : ∀ b ∈ bs, b.1.length = b.2.length)
    (hc : Delimits colptr bs) :
    ∃ A bs', CSC.mk' m bs.length colptr (rows bs) (vals bs) = .ok A ∧ List.Forall₂ SortedBlock bs bs' ∧
      A.toCMat = .ok (⟨m, bs'.map (blockCol (F := F))⟩ : CMat F) ∧ A = ⟨colptr, rows bs', vals bs', m, bs'.length⟩ ∧
      (∀ b ∈ bs', b.1.length = b.2.length) ∧ Delimits colptr bs' := by
  obtain ⟨bs', h1, h2, h3, h4⟩ := mk'_blocks m hl hc
  exact ⟨_, bs', h1, h2, toCMat_blocks m h3 h4, rfl, h3, h4⟩

end CSC
end BATS
