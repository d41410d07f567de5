import Verif.Proofs.Pivot
import Mathlib.Order.UpperLower.Basic

set_option linter.unusedSectionVars false
set_option linter.unusedSimpArgs false
set_option linter.unusedVariables false

/-! # Pivots count the ranks of lower-left blocks -/

namespace BATS
open Matrix

variable {F : Type _} [Field F] {m n : Type _} [LinearOrder m] [LinearOrder n] [Fintype m] [Fintype n]

/-- the block of rows in `P` and columns in `Q` -/
abbrev block (M : Matrix m n F) (P : Set m) (Q : Set n) : Matrix P Q F := M.submatrix Subtype.val Subtype.val

theorem block_mul {M : Matrix m n F} {V : Matrix n n F} (hV : ∀ i j, j < i → V i j = 0) (P : Set m) {Q : Set n}
    (hQ : IsLowerSet Q) [DecidablePred (· ∈ Q)] : block (M * V) P Q = block M P Q * block V Q Q := by
  ext a b
  simp only [submatrix_apply, mul_apply]
  rw [← Finset.sum_filter_add_sum_filter_not Finset.univ (· ∈ Q)]
  rw [Finset.sum_eq_zero (s := Finset.univ.filter (fun x => ¬ x ∈ Q)), add_zero]
  · exact Finset.sum_subtype (Finset.univ.filter (· ∈ Q)) (by intro x; simp) (fun c => M a c * V c b)
  · intro x hx
    have hxQ : x ∉ Q := by simpa using hx
    rw [hV x b, mul_zero]
    by_contra hc
    exact hxQ (hQ (not_lt.1 hc) b.2)

theorem block_low {R : Matrix m n F} {P : Set m} (hP : IsUpperSet P) (Q : Set n) (a : P) (b : Q) :
    Low (block R P Q) a b ↔ Low R a b := by
  constructor
  · rintro ⟨h1, h2⟩
    exact ⟨h1, fun i' hi' => h2 ⟨i', hP hi'.le a.2⟩ hi'⟩
  · rintro ⟨h1, h2⟩
    exact ⟨h1, fun i' hi' => h2 i' hi'⟩

theorem rank_block {M R : Matrix m n F} {V : Matrix n n F} (hV : UpperInv V) (hR : Reduced R) (hMV : M * V = R)
    {P : Set m} (hP : IsUpperSet P) {Q : Set n} (hQ : IsLowerSet Q) [DecidablePred (· ∈ P)] [DecidablePred (· ∈ Q)] :
    (block M P Q).rank = Set.ncard {p : m × n | p.1 ∈ P ∧ p.2 ∈ Q ∧ Low R p.1 p.2} := by
  classical
  have h1 : block R P Q = block M P Q * block V Q Q := by rw [← hMV]; exact block_mul hV.1 P hQ
  have hV' : UpperInv (block V Q Q) := ⟨fun i j h => hV.1 i j h, fun i => hV.2 i⟩
  have hR' : Reduced (block R P Q) := by
    intro i j j' h h'
    rw [block_low hP] at h h'
    exact Subtype.ext (hR _ _ _ h h')
  rw [← rank_mul_upperInv hV', ← h1, hR'.rank_eq]
  rw [Set.ncard_eq_toFinset_card']
  symm
  apply Finset.card_bij (fun (p : m × n) hp => (⟨p.2, by simp at hp; exact hp.2.1⟩ : Q))
  · intro p hp
    simp only [Set.mem_toFinset, Set.mem_ofPred_eq] at hp
    simp only [Finset.mem_filter, Finset.mem_univ, true_and, ne_eq]
    rw [col_eq_zero_iff]
    push Not
    exact ⟨⟨p.1, hp.1⟩, (block_low hP Q _ _).2 hp.2.2⟩
  · intro p hp q hq h
    simp only [Set.mem_toFinset, Set.mem_ofPred_eq] at hp hq
    have h2 : p.2 = q.2 := congrArg Subtype.val h
    have h3 : p.1 = q.1 := by
      have := hp.2.2; rw [h2] at this
      exact Low.unique_row this hq.2.2
    exact Prod.ext h3 h2
  · intro b hb
    simp only [Finset.mem_filter, Finset.mem_univ, true_and, ne_eq] at hb
    rw [col_eq_zero_iff] at hb
    push Not at hb
    obtain ⟨a, ha⟩ := hb
    rw [block_low hP] at ha
    exact ⟨(a, b), by simp [ha], rfl⟩

end BATS
