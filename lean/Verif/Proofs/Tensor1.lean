import Verif.Proofs.VecOps3
import Verif.Model.Tensor
import Verif.Spec.Homology

set_option linter.unusedSectionVars false
set_option linter.unusedVariables false
set_option linter.unusedSimpArgs false

/-! # Closed form of `tensor_product` -/

namespace BATS
open Finset

theorem range_flatMap_length {α : Type} (f : Nat → List α) (n : Nat) : ((List.range n).flatMap f).length = ∑ i ∈ range n, (f i).length := by
  induction n with
  | zero => simp
  | succ n ih => rw [List.range_succ, List.flatMap_append, List.length_append, ih, sum_range_succ]; simp

theorem range_flatMap_get {α : Type} (f : Nat → List α) {n i k : Nat} (hi : i < n) (hk : k < (f i).length) :
    ((List.range n).flatMap f)[(∑ i' ∈ range i, (f i').length) + k]? = (f i)[k]? := by
  induction n with
  | zero => omega
  | succ n ih =>
    rw [List.range_succ, List.flatMap_append]
    have hl := range_flatMap_length f n
    by_cases h : i = n
    · subst h
      rw [List.getElem?_append_right (by omega), hl, Nat.add_sub_cancel_left]
      simp
    · have hlt : i < n := by omega
      have : (∑ i' ∈ range (i + 1), (f i').length) ≤ ∑ i' ∈ range n, (f i').length :=
        sum_le_sum_of_subset (range_mono (by omega))
      rw [sum_range_succ] at this
      rw [List.getElem?_append_left (by omega)]
      exact ih hlt

variable {F : Type} [Field F] [DecidableEq F] {A B : List (CMat F)} {sA sB : Nat → Nat}

/-- the position of the first cell of bidegree `(i, n - i)` -/
def tShift (A B : List (CMat F)) (n i : Nat) : Nat := ∑ k ∈ range i, cdim A k * cdim B (n - k)

theorem cdim_big {k : Nat} (h : A.length ≤ k) : cdim A k = 0 := by
  unfold cdim
  rw [List.getD_eq_getElem?_getD, List.getElem?_eq_none h]; rfl

/-- the column for given bidegree when the array `ind_shift` has its final value on the antidiagonal `n - 1` -/
def tCol (A B : List (CMat F)) (sA sB : Nat → Nat) (n i a b : Nat) : SVec F :=
  tensorColumn A B sA sB (fun p q => tShift A B (p + q) p) i (n - i) a b

/-- all columns of `C[n]` -/
def tCols (A B : List (CMat F)) (sA sB : Nat → Nat) (n : Nat) : List (SVec F) :=
  (List.range (n + 1)).flatMap (fun i => (List.range (cdim A i)).flatMap (fun a => (List.range (cdim B (n - i))).map (fun b => tCol A B sA sB n i a b)))

theorem tensorColumn_congr {tab tab' : Nat → Nat → Nat} {i j : Nat} (h1 : 0 < i → tab (i - 1) j = tab' (i - 1) j) (h2 : 0 < j → tab i (j - 1) = tab' i (j - 1)) (a b : Nat) :
    tensorColumn A B sA sB tab i j a b = tensorColumn A B sA sB tab' i j a b := by
  unfold tensorColumn
  have e1 : (if i = 0 then sA j else tab (i - 1) j) = if i = 0 then sA j else tab' (i - 1) j := by
    split
    · rfl
    · exact h1 (by omega)
  have e2 : (if j = 0 then sB i else tab i (j - 1)) = if j = 0 then sB i else tab' i (j - 1) := by
    split
    · rfl
    · exact h2 (by omega)
  rw [e1, e2]

theorem tensorStep_spec (hA : A ≠ []) (hB : B ≠ []) {n : Nat} (hn : 0 < n) {tab : Nat → Nat → Nat} (ht : ∀ p q, p + q < n → tab p q = tShift A B (p + q) p) (m : Nat) :
    ∀ i, i ≤ n + 1 → ∃ tab', (List.range i).foldl (tensorStep A B sA sB n) (tab, 0, ⟨m, []⟩) =
      (tab', tShift A B n i, ⟨m, (List.range i).flatMap (fun i => (List.range (cdim A i)).flatMap (fun a => (List.range (cdim B (n - i))).map (fun b => tCol A B sA sB n i a b)))⟩) ∧
      ∀ p q, (p + q < n ∨ p + q = n ∧ p < i) → tab' p q = tShift A B (p + q) p := by
  intro i
  induction i with
  | zero =>
    intro _
    exact ⟨tab, rfl, fun p q h => ht p q (by omega)⟩
  | succ i ih =>
    intro hi
    obtain ⟨tab', e, h⟩ := ih (by omega)
    rw [List.range_succ, List.foldl_append, e, List.foldl_cons, List.foldl_nil]
    have htab : ∀ p q, (p + q < n ∨ p + q = n ∧ p < i + 1) → (fun p q => if p = i ∧ q = n - i then tShift A B n i else tab' p q) p q = tShift A B (p + q) p := by
      intro p q hpq
      dsimp only
      split
      · rename_i hc
        obtain ⟨rfl, rfl⟩ := hc
        rw [show p + (n - p) = n by omega]
      · rename_i hc
        exact h p q (by omega)
    unfold tensorStep
    dsimp only
    split
    · rename_i hc
      have h0 : cdim A i = 0 ∨ cdim B (n - i) = 0 := by
        have := List.length_pos_of_ne_nil hA
        have := List.length_pos_of_ne_nil hB
        rcases hc with hc | hc
        · left; exact cdim_big (by omega)
        · right; exact cdim_big (by omega)
      refine ⟨_, ?_, htab⟩
      rw [Prod.mk.injEq, Prod.mk.injEq]
      refine ⟨rfl, ?_, ?_⟩
      · unfold tShift
        rw [sum_range_succ]
        rcases h0 with h0 | h0 <;> rw [h0] <;> simp
      · rw [List.flatMap_append]
        rcases h0 with h0 | h0 <;> simp [h0]
    · refine ⟨_, ?_, htab⟩
      rw [Prod.mk.injEq, Prod.mk.injEq]
      refine ⟨rfl, ?_, ?_⟩
      · unfold tShift
        rw [sum_range_succ]; rfl
      · rw [List.flatMap_append]
        congr 2
        rw [List.flatMap_cons, List.flatMap_nil, List.append_nil]
        unfold tensorBlock tCol
        congr 1
        ext1 a
        apply List.map_congr_left
        intro b _
        apply tensorColumn_congr
        · intro h0
          exact htab _ _ (by omega)
        · intro h0
          exact htab _ _ (by omega)

theorem tCols_length (n : Nat) : (tCols A B sA sB n).length = ∑ i ∈ range (n + 1), cdim A i * cdim B (n - i) := by
  unfold tCols
  rw [range_flatMap_length]
  apply sum_congr rfl
  intro i _
  rw [range_flatMap_length]
  simp

theorem tCols_get {n i a b : Nat} (hi : i ≤ n) (ha : a < cdim A i) (hb : b < cdim B (n - i)) :
    (tCols A B sA sB n).getD (tShift A B n i + (a * cdim B (n - i) + b)) [] = tCol A B sA sB n i a b := by
  have hblk : ∀ i', (((List.range (cdim A i')).flatMap (fun a => (List.range (cdim B (n - i'))).map (fun b => tCol A B sA sB n i' a b)))).length = cdim A i' * cdim B (n - i') := by
    intro i'; rw [range_flatMap_length]; simp
  have hk : a * cdim B (n - i) + b < cdim A i * cdim B (n - i) := by
    calc a * cdim B (n - i) + b < a * cdim B (n - i) + cdim B (n - i) := by omega
      _ = (a + 1) * cdim B (n - i) := by ring
      _ ≤ _ := Nat.mul_le_mul_right _ (by omega)
  have h1 := range_flatMap_get (fun i => (List.range (cdim A i)).flatMap (fun a => (List.range (cdim B (n - i))).map (fun b => tCol A B sA sB n i a b))) (n := n + 1) (i := i)
    (k := a * cdim B (n - i) + b) (by omega) (by rw [hblk]; exact hk)
  have hs : (∑ i' ∈ range i, (((List.range (cdim A i')).flatMap (fun a => (List.range (cdim B (n - i'))).map (fun b => tCol A B sA sB n i' a b)))).length) = tShift A B n i := by
    unfold tShift
    exact sum_congr rfl (fun i' _ => hblk i')
  rw [hs] at h1
  have h2 := range_flatMap_get (fun a => (List.range (cdim B (n - i))).map (fun b => tCol A B sA sB n i a b)) (n := cdim A i) (i := a) (k := b) ha (by simpa using hb)
  have hs2 : (∑ a' ∈ range a, ((List.range (cdim B (n - i))).map (fun b => tCol A B sA sB n i a' b)).length) = a * cdim B (n - i) := by simp
  rw [hs2] at h2
  rw [h2] at h1
  rw [List.getD_eq_getElem?_getD]
  unfold tCols
  rw [h1, List.getElem?_map, List.getElem?_range hb]
  rfl

/-- the matrices of the tensor product -/
def tMat (A B : List (CMat F)) (sA sB : Nat → Nat) (n : Nat) : CMat F :=
  if n = 0 then ⟨1, List.replicate (cdim A 0 * cdim B 0) []⟩
  else ⟨∑ i ∈ range n, cdim A i * cdim B (n - 1 - i), tCols A B sA sB n⟩

theorem tMat_length (n : Nat) : (tMat A B sA sB n).cols.length = ∑ i ∈ range (n + 1), cdim A i * cdim B (n - i) := by
  unfold tMat
  split
  · rename_i h; subst h; simp
  · exact tCols_length n

theorem tensorLoop_spec (hA : A ≠ []) (hB : B ≠ []) (tab0 : Nat → Nat → Nat) : ∀ n, ∃ tab,
    (List.range (n + 1)).foldl (tensorDegree A B sA sB) (tab0, []) = (tab, (List.range (n + 1)).map (tMat A B sA sB)) ∧
      ∀ p q, p + q < n + 1 → tab p q = tShift A B (p + q) p := by
  intro n
  induction n with
  | zero =>
    refine ⟨_, rfl, ?_⟩
    intro p q h
    obtain ⟨rfl, rfl⟩ : p = 0 ∧ q = 0 := by omega
    simp [tShift]
  | succ n ih =>
    obtain ⟨tab, e, h⟩ := ih
    rw [List.range_succ, List.foldl_append, e, List.foldl_cons, List.foldl_nil]
    unfold tensorDegree
    rw [if_neg (by omega)]
    dsimp only
    have hd : tensorDim ((List.range (n + 1)).map (tMat A B sA sB)) (n + 1 - 1) = ∑ i ∈ range (n + 1), cdim A i * cdim B (n - i) := by
      unfold tensorDim
      rw [List.getD_eq_getElem?_getD, List.getElem?_map, List.getElem?_range (by omega)]
      exact tMat_length n
    rw [hd]
    obtain ⟨tab', e', h'⟩ := tensorStep_spec (sA := sA) (sB := sB) hA hB (n := n + 1) (by omega) h (∑ i ∈ range (n + 1), cdim A i * cdim B (n - i)) (n + 1 + 1) (le_refl _)
    rw [e']
    refine ⟨tab', ?_, ?_⟩
    · rw [Prod.mk.injEq, List.map_append]
      refine ⟨rfl, ?_⟩
      congr 1
    · intro p q hpq
      exact h' p q (by omega)

theorem tensorProduct_eq (hA : A ≠ []) (hB : B ≠ []) (dmax : Nat) (tab0 : Nat → Nat → Nat) :
    tensorProduct A B dmax sA sB tab0 = (List.range (dmax + 1)).map (tMat A B sA sB) := by
  obtain ⟨tab, e, _⟩ := tensorLoop_spec (sA := sA) (sB := sB) hA hB tab0 dmax
  unfold tensorProduct
  rw [e]

end BATS
