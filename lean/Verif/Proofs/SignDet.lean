import Mathlib.LinearAlgebra.Matrix.Determinant.Basic
import Mathlib.Order.Interval.Set.Basic
import Mathlib.Data.Fintype.EquivFin

set_option linter.unusedSectionVars false
set_option linter.unusedVariables false

/-! # Oriented simplices as determinants -/

namespace BATS
namespace SMap
open Matrix

variable {R : Type} [CommRing R]

/-- coefficient of the simplex `t` in the oriented simplex with vertices `s` -/
def dl (R : Type) [CommRing R] (n : Nat) (s t : List Nat) : R :=
  Matrix.det (Matrix.of fun i j : Fin n => if s.getD i 0 = t.getD j 0 then (1 : R) else 0)

/-- boundary coefficient, see `gl_eq_sum` -/
def gl (R : Type) [CommRing R] (n : Nat) (s t : List Nat) : R :=
  Matrix.det (Matrix.of fun i j : Fin (n + 1) => Fin.cases (motive := fun _ => R) 1 (fun j : Fin n => if s.getD i 0 = t.getD j 0 then (1 : R) else 0) j)

theorem getD_eraseIdx (s : List Nat) {n : Nat} (k : Fin (n + 1)) (i : Fin n) : (s.eraseIdx k).getD i 0 = s.getD (k.succAbove i) 0 := by
  rw [List.getD_eq_getElem?_getD, List.getD_eq_getElem?_getD, List.getElem?_eraseIdx]
  congr 1
  unfold Fin.succAbove
  by_cases h : i.1 < k.1
  · rw [if_pos h, if_pos (by rw [Fin.lt_def]; exact h)]; rfl
  · rw [if_neg h, if_neg (by rw [Fin.lt_def]; exact h)]; rfl

theorem gl_eq_sum (n : Nat) (s t : List Nat) : gl R n s t = ∑ k ∈ Finset.range (n + 1), (-1) ^ k * dl R n (s.eraseIdx k) t := by
  unfold gl
  rw [Matrix.det_succ_column_zero, Finset.sum_range]
  apply Finset.sum_congr rfl
  intro k _
  rw [Matrix.of_apply, Fin.cases_zero, mul_one]
  congr 1
  unfold dl
  congr 1
  ext i j
  rw [Matrix.submatrix_apply, Matrix.of_apply, Matrix.of_apply, Fin.cases_succ, getD_eraseIdx]

theorem dl_perm {n : Nat} {s a : List Nat} (σ : Equiv.Perm (Fin n)) (h : ∀ i : Fin n, s.getD i 0 = a.getD (σ i) 0) (t : List Nat) :
    dl R n s t = (Equiv.Perm.sign σ : ℤ) * dl R n a t := by
  unfold dl
  rw [← Matrix.det_permute]
  congr 1
  ext i j
  rw [Matrix.submatrix_apply, Matrix.of_apply, Matrix.of_apply, h]; rfl

theorem gl_perm {n : Nat} {s a : List Nat} (σ : Equiv.Perm (Fin (n + 1))) (h : ∀ i : Fin (n + 1), s.getD i 0 = a.getD (σ i) 0) (t : List Nat) :
    gl R n s t = (Equiv.Perm.sign σ : ℤ) * gl R n a t := by
  unfold gl
  rw [← Matrix.det_permute]
  congr 1
  ext i j
  rw [Matrix.submatrix_apply, Matrix.of_apply, Matrix.of_apply, h]; rfl

theorem dl_degenerate {n : Nat} {s : List Nat} {i j : Fin n} (hij : i ≠ j) (h : s.getD i 0 = s.getD j 0) (t : List Nat) : dl R n s t = 0 :=
  Matrix.det_zero_of_row_eq hij (by funext l; simp only [Matrix.of_apply, h])

theorem gl_degenerate {n : Nat} {s : List Nat} {i j : Fin (n + 1)} (hij : i ≠ j) (h : s.getD i 0 = s.getD j 0) (t : List Nat) : gl R n s t = 0 :=
  Matrix.det_zero_of_row_eq hij (by funext l; simp only [Matrix.of_apply, h])

theorem strictMono_getD {n : Nat} {s : List Nat} (hl : s.length = n) (hs : s.Pairwise (· < ·)) : StrictMono (fun i : Fin n => s.getD i 0) := by
  intro i j hij
  have hi : i.1 < s.length := by omega
  have hj : j.1 < s.length := by omega
  simp only [List.getD_eq_getElem?_getD, List.getElem?_eq_getElem hi, List.getElem?_eq_getElem hj, Option.getD_some]
  exact List.pairwise_iff_getElem.1 hs _ _ hi hj hij

theorem list_eq_of_getD {n : Nat} {s t : List Nat} (hs : s.length = n) (ht : t.length = n) (h : ∀ i : Fin n, s.getD i 0 = t.getD i 0) : s = t := by
  apply List.ext_getElem (by omega)
  intro i h1 h2
  have := h ⟨i, by omega⟩
  simpa [List.getD_eq_getElem?_getD, List.getElem?_eq_getElem h1, List.getElem?_eq_getElem h2] using this

/-- for increasing vertex lists the coefficient is 1 or 0 -/
theorem dl_sorted {n : Nat} {a t : List Nat} (ha : a.length = n) (ht : t.length = n) (hsa : a.Pairwise (· < ·)) (hst : t.Pairwise (· < ·)) :
    dl R n a t = if a = t then 1 else 0 := by
  by_cases h : a = t
  · rw [if_pos h]
    subst h
    have h1 : (Matrix.of fun i j : Fin n => if a.getD i 0 = a.getD j 0 then (1 : R) else 0) = 1 := by
      ext i j
      rw [Matrix.one_apply, Matrix.of_apply]
      have := (strictMono_getD ha hsa).injective
      by_cases hij : i = j
      · rw [if_pos hij, hij, if_pos rfl]
      · rw [if_neg hij, if_neg (fun e => hij (this e))]
    unfold dl
    rw [h1, Matrix.det_one]
  · rw [if_neg h]
    have hma := strictMono_getD ha hsa
    have hmt := strictMono_getD ht hst
    by_cases hr : ∀ i : Fin n, ∃ j : Fin n, a.getD i 0 = t.getD j 0
    · exfalso
      apply h
      choose e he using hr
      have hinj : Function.Injective e := by
        intro i j hij
        apply hma.injective
        show a.getD i 0 = a.getD j 0
        rw [he i, he j, hij]
      have hsur := Finite.surjective_of_injective hinj
      have hrange : Set.range (fun i : Fin n => a.getD i 0) = Set.range (fun i : Fin n => t.getD i 0) := by
        ext x
        constructor
        · rintro ⟨i, rfl⟩; exact ⟨e i, (he i).symm⟩
        · rintro ⟨j, rfl⟩; obtain ⟨i, rfl⟩ := hsur j; exact ⟨i, he i⟩
      have := (StrictMono.range_inj hma hmt).1 hrange
      exact list_eq_of_getD ha ht (fun i => congrFun this i)
    · push Not at hr
      obtain ⟨i, hi⟩ := hr
      exact Matrix.det_eq_zero_of_row_eq_zero i (fun j => by rw [Matrix.of_apply]; exact if_neg (hi j))

end SMap
end BATS
