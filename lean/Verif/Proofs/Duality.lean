import Verif.Proofs.PersBetti
import Mathlib.Data.Fin.Rev

set_option linter.unusedSectionVars false
set_option linter.unusedVariables false
set_option linter.unusedSimpArgs false

/-! # Pivots of the antitranspose of a matrix -/

namespace BATS
open Matrix

variable {F : Type _} [Field F]

section
variable {a b : Nat}

open Classical in
/-- inclusion-exclusion: a relation is determined by its counts on corner regions -/
theorem corner_count (A : Fin a → Fin b → Prop) (i : Fin a) (j : Fin b) :
    (Finset.univ.filter (fun p : Fin a × Fin b => p.1 ∈ Set.Ici i ∧ p.2 ∈ Set.Iic j ∧ A p.1 p.2)).card +
    (Finset.univ.filter (fun p : Fin a × Fin b => p.1 ∈ Set.Ioi i ∧ p.2 ∈ Set.Iio j ∧ A p.1 p.2)).card =
    (Finset.univ.filter (fun p : Fin a × Fin b => p.1 ∈ Set.Ioi i ∧ p.2 ∈ Set.Iic j ∧ A p.1 p.2)).card +
    (Finset.univ.filter (fun p : Fin a × Fin b => p.1 ∈ Set.Ici i ∧ p.2 ∈ Set.Iio j ∧ A p.1 p.2)).card + if A i j then 1 else 0 := by
  have e : (if A i j then 1 else 0) = ∑ p : Fin a × Fin b, if p = (i, j) then (if A i j then 1 else 0) else 0 := by
    rw [Finset.sum_ite_eq' Finset.univ (i, j)]; simp
  rw [e]
  simp only [Finset.card_filter]
  rw [← Finset.sum_add_distrib, ← Finset.sum_add_distrib, ← Finset.sum_add_distrib]
  refine Finset.sum_congr rfl (fun p _ => ?_)
  obtain ⟨x, y⟩ := p
  simp only [Set.mem_Ici, Set.mem_Iic, Set.mem_Ioi, Set.mem_Iio, Prod.mk.injEq]
  by_cases hA : A x y
  · simp only [hA, and_true]
    rcases lt_trichotomy x i with hx | rfl | hx <;> rcases lt_trichotomy y j with hy | rfl | hy
    · simp [hx.not_ge, hx.not_gt, hx.ne]
    · simp [hx.not_ge, hx.not_gt, hx.ne]
    · simp [hx.not_ge, hx.not_gt, hx.ne]
    · simp [hy, hy.le, hy.ne]
    · simp [hA]
    · simp [hy.not_ge, hy.not_gt, hy.ne']
    · simp [hx, hx.le, hy, hy.le, hx.ne']
    · simp [hx, hx.le, hx.ne']
    · simp [hy.not_ge, hy.not_gt, hy.ne']
  · have : ¬ (x = i ∧ y = j) ∨ ¬ A i j := by
      by_contra hc; push Not at hc; obtain ⟨⟨rfl, rfl⟩, h⟩ := hc; exact hA h
    simp only [hA, and_false, if_false, add_zero, zero_add]
    rcases this with h | h
    · rw [if_neg h]
    · rw [if_neg h]; simp

/-- the antitranspose: transpose with both index orders reversed -/
def IsAnti (M : Matrix (Fin a) (Fin b) F) (Y : Matrix (Fin b) (Fin a) F) : Prop := ∀ i j, Y i j = M j.rev i.rev

theorem rank_block_anti {M : Matrix (Fin a) (Fin b) F} {Y : Matrix (Fin b) (Fin a) F} (h : IsAnti M Y) (P : Set (Fin a)) (Q : Set (Fin b))
    [Fintype Q] [Fintype P] [Fintype {x : Fin a | x.rev ∈ P}] [Fintype {x : Fin b | x.rev ∈ Q}] :
    (block Y {x | x.rev ∈ Q} {x | x.rev ∈ P}).rank = (block M P Q).rank := by
  rw [← Matrix.rank_transpose (block M P Q)]
  let e1 : {x : Fin b | x.rev ∈ Q} ≃ Q := ⟨fun x => ⟨x.1.rev, x.2⟩, fun y => ⟨y.1.rev, by simp⟩, fun x => by simp, fun y => by simp⟩
  let e2 : {x : Fin a | x.rev ∈ P} ≃ P := ⟨fun x => ⟨x.1.rev, x.2⟩, fun y => ⟨y.1.rev, by simp⟩, fun x => by simp, fun y => by simp⟩
  have : block Y {x | x.rev ∈ Q} {x | x.rev ∈ P} = ((block M P Q)ᵀ).submatrix e1 e2 := by
    ext i j
    exact h i.1 j.1
  rw [this, Matrix.rank_submatrix]

theorem corner_anti {M : Matrix (Fin a) (Fin b) F} {Y : Matrix (Fin b) (Fin a) F} (h : IsAnti M Y) (hM : HasRed M) (hY : HasRed Y)
    {P : Set (Fin a)} (hP : IsUpperSet P) {Q : Set (Fin b)} (hQ : IsLowerSet Q)
    [DecidablePred (fun p : Fin a × Fin b => p.1 ∈ P ∧ p.2 ∈ Q ∧ IsPivot Y p.2.rev p.1.rev)]
    [DecidablePred (fun p : Fin a × Fin b => p.1 ∈ P ∧ p.2 ∈ Q ∧ IsPivot M p.1 p.2)] [Fintype P] [Fintype Q]
    [Fintype {x : Fin a | x.rev ∈ P}] [Fintype {x : Fin b | x.rev ∈ Q}] 
    [DecidablePred (fun p : Fin b × Fin a => p.1 ∈ {x : Fin b | x.rev ∈ Q} ∧ p.2 ∈ {x : Fin a | x.rev ∈ P} ∧ IsPivot Y p.1 p.2)] :
    (Finset.univ.filter (fun p : Fin a × Fin b => p.1 ∈ P ∧ p.2 ∈ Q ∧ IsPivot Y p.2.rev p.1.rev)).card =
    (Finset.univ.filter (fun p : Fin a × Fin b => p.1 ∈ P ∧ p.2 ∈ Q ∧ IsPivot M p.1 p.2)).card := by
  have h1 := rank_block_pivots hM hP hQ
  have hP' : IsLowerSet {x : Fin a | x.rev ∈ P} := fun x y hxy hx => hP (Fin.rev_le_rev.2 hxy) hx
  have hQ' : IsUpperSet {x : Fin b | x.rev ∈ Q} := fun x y hxy hx => hQ (Fin.rev_le_rev.2 hxy) hx
  have h2 := rank_block_pivots hY hQ' hP'
  rw [rank_block_anti h P Q] at h2
  rw [← h1, h2]
  apply Finset.card_bij (fun (p : Fin a × Fin b) _ => (p.2.rev, p.1.rev))
  · intro p hp
    simp only [Finset.mem_filter, Finset.mem_univ, true_and, Set.mem_ofPred_eq, Fin.rev_rev] at hp ⊢
    exact ⟨hp.2.1, hp.1, hp.2.2⟩
  · intro p _ q _ he
    simp only [Prod.mk.injEq, Fin.rev_inj] at he
    exact Prod.ext he.2 he.1
  · intro q hq
    simp only [Finset.mem_filter, Finset.mem_univ, true_and, Set.mem_ofPred_eq] at hq
    refine ⟨(q.2.rev, q.1.rev), ?_, by simp⟩
    simp only [Finset.mem_filter, Finset.mem_univ, true_and, Fin.rev_rev]
    exact ⟨hq.2.1, hq.1, hq.2.2⟩

/-- pivots of the antitranspose -/
theorem isPivot_anti {M : Matrix (Fin a) (Fin b) F} {Y : Matrix (Fin b) (Fin a) F} (h : IsAnti M Y) (hM : HasRed M) (hY : HasRed Y)
    (i : Fin a) (j : Fin b) : IsPivot Y j.rev i.rev ↔ IsPivot M i j := by
  classical
  have c1 := corner_count (fun i j => IsPivot M i j) i j
  have c2 := corner_count (fun i j => IsPivot Y j.rev i.rev) i j
  rw [corner_anti h hM hY (isUpperSet_Ici i) (isLowerSet_Iic j), corner_anti h hM hY (isUpperSet_Ioi i) (isLowerSet_Iio j),
    corner_anti h hM hY (isUpperSet_Ioi i) (isLowerSet_Iic j), corner_anti h hM hY (isUpperSet_Ici i) (isLowerSet_Iio j)] at c2
  by_cases p1 : IsPivot M i j <;> by_cases p2 : IsPivot Y j.rev i.rev <;> simp only [p1, p2, if_true, if_false] at c1 c2 ⊢ <;> omega

end
end BATS
