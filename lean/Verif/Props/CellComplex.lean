import Verif.Proofs.CellComplex
import Verif.Props.Homology
import Mathlib.Algebra.Field.ZMod

set_option linter.unusedSectionVars false
set_option linter.unusedVariables false
set_option linter.unusedSimpArgs false

/-! # C86: cell complexes (include/complex/cell_complex.hpp)

`cellsOf`, `count`, `answers`, `IsTop`, `ValidOp`, `incidence`, `Good`, `cellBoundary`, `IsBetti` are in `Verif/Spec/CellComplex.lean`. -/

namespace BATS
namespace CellCpx
open Reduction

variable {F : Type} [Field F] [DecidableEq F]

/-- C86: every history of calls on a new complex succeeds; each call returns the index of the new cell in its dimension (`add_vertices` the new number
of vertices); `maxdim()` is the largest dimension used, `ncells(k)` and `ncells()` the numbers of cells added -/
theorem C86_history (D0 : Nat) (os : List Op) (ho : ∀ o ∈ os, ValidOp o) :
    ∃ X, (init D0).run os = .ok (X, answers [] os) ∧ IsTop D0 os X.maxdim ∧ (∀ k, X.numCells k = .ok (count os k)) ∧
      X.total = .ok (∑ k ∈ Finset.range (X.maxdim + 1), count os k) := by
  obtain ⟨X, D, e1, e2⟩ := run_spec os [] (init D0) D0 (init_St D0) ho
  rw [List.nil_append] at e2
  have hm : X.maxdim = D := by rw [e2.eq, maxdim_form]
  refine ⟨X, e1, by rw [hm]; exact e2.top, ?_, ?_⟩
  · intro k
    rw [e2.eq, numCells_form e2.top.nil, cnt_count]
  · rw [hm, e2.eq, total_form e2.top.nil]
    simp only [cnt_count]

/-- C86: the largest dimension is determined by `IsTop` -/
theorem C86_top_unique {D0 D D' : Nat} {os : List Op} (h : IsTop D0 os D) (h' : IsTop D0 os D') : D = D' := by
  have key : ∀ {D D'}, IsTop D0 os D → IsTop D0 os D' → D ≤ D' := by
    intro D D' h h'
    rcases h.2 with e | ⟨b, c, e⟩
    · rw [e]; exact h'.1.1
    · exact h'.1.2 b c D e
  exact Nat.le_antisymm (key h h') (key h' h)

/-- C86: after every history, `boundary_csc(k + 1)` for `k + 1 ≤ maxdim()` succeeds, and as a matrix over a field it has a row for each cell of dimension
`k`, a column for each cell of dimension `k + 1`, and the column of the `j`-th cell added consists of its faces with their coefficients, sorted by
face -/
theorem C86_boundary (D0 : Nat) (os : List Op) (ho : ∀ o ∈ os, ValidOp o) :
    ∃ X rs, (init D0).run os = .ok (X, rs) ∧ ∀ k, k + 1 ≤ X.maxdim → ∃ (A : CSC) (M : CMat F), X.boundaryCsc (k + 1) = .ok A ∧ A.toCMat = .ok M ∧
      M.nrow = count os k ∧ M.cols.length = count os (k + 1) ∧
      ∀ (j : Nat) (b : List Nat) (c : List Int), (cellsOf os k)[j]? = some (b, c) → ∃ col, M.cols[j]? = some col ∧
        (col.map Prod.fst).Pairwise (· ≤ ·) ∧ col.Perm ((b.zip c).map fun p => (p.1, (p.2 : F))) := by
  obtain ⟨X, D, e1, e2⟩ := run_spec os [] (init D0) D0 (init_St D0) ho
  rw [List.nil_append] at e2
  have hm : X.maxdim = D := by rw [e2.eq, maxdim_form]
  refine ⟨X, _, e1, ?_⟩
  intro k hk
  obtain ⟨A, M, a1, a2, a3⟩ := boundaryCsc_spec (F := F) e2 (k := k) (by omega)
  refine ⟨A, M, a1, a2, a3.nrow, a3.ncol, ?_⟩
  intro j b c hj
  obtain ⟨v, v1, v2⟩ := a3.col j b c hj
  exact ⟨v, v1, v2.sorted, v2.perm⟩

/-- C86: for a history that describes a cell complex over the field, `ChainComplex(X)` is a chain complex with the incidence numbers as entries -/
theorem C86_chain_complex (D0 : Nat) (os : List Op) (ho : ∀ o ∈ os, ValidOp o) (hg : Good F os) :
    ∃ X rs, ∃ B : List (CMat F), (init D0).run os = .ok (X, rs) ∧ X.chainComplex = .ok B ∧ IsChainComplex B ∧ B.length = X.maxdim + 1 ∧
      (∀ k, cdim B k = count os k) ∧ ∀ k i j, ent B (k + 1) i j = (incidence os k i j : F) := by
  obtain ⟨X, D, e1, e2⟩ := run_spec os [] (init D0) D0 (init_St D0) ho
  rw [List.nil_append] at e2
  have hm : X.maxdim = D := by rw [e2.eq, maxdim_form]
  obtain ⟨B, b1, b2⟩ := chainComplex_spec (F := F) e2
  exact ⟨X, _, B, e1, b1, b2.chain e2.top e2.len hg, by rw [b2.len, hm], b2.cdim e2.top, b2.ent e2.top⟩

theorem rank_eq {os : List Op} {D0 D : Nat} {B : List (CMat F)} (hB : CpxOf os D B) (ht : IsTop D0 os D) (k : Nat) :
    (bdryUp B k).rank = (cellBoundary F os k).rank := by
  have hc := hB.cdim ht
  have e : bdryUp B k = (cellBoundary F os k).submatrix (finCongr (hc k)) (finCongr (hc (k + 1))) := by
    ext i j
    exact hB.ent ht k i j
  rw [e, Matrix.rank_submatrix]

/-- C86, end to end: build a cell complex, form its chain complex over a field and reduce it with any of the algorithms: for a history that describes a
cell complex over this field all calls succeed and `hdim(k)` is the dimension of its homology -/
theorem C86_betti (v : Variant) (D0 : Nat) (os : List Op) (ho : ∀ o ∈ os, ValidOp o) (hg : Good F os) :
    ∃ X rs, ∃ (B : List (CMat F)) (C : RedCpx F), (init D0).run os = .ok (X, rs) ∧ X.chainComplex = .ok B ∧ v.reduce B = .ok C ∧
      ∀ k, k ≤ X.maxdim → ∃ b, C.hdim k = .ok b ∧ IsBetti F os b k := by
  obtain ⟨X, D, e1, e2⟩ := run_spec os [] (init D0) D0 (init_St D0) ho
  rw [List.nil_append] at e2
  have hm : X.maxdim = D := by rw [e2.eq, maxdim_form]
  obtain ⟨B, b1, b2⟩ := chainComplex_spec (F := F) e2
  obtain ⟨C, c1, c2⟩ := C13_euler v (b2.chain e2.top e2.len hg)
  refine ⟨X, _, B, C, e1, b1, c1, ?_⟩
  intro k hk
  obtain ⟨b, d1, d2⟩ := c2 k (by rw [b2.len]; omega)
  refine ⟨b, d1, ?_⟩
  have d2 : b + (cellBoundary F os k).rank + (bdry B k).rank = count os k := by
    rw [← rank_eq b2 e2.top, ← b2.cdim e2.top k]; exact d2
  cases k with
  | zero =>
    have h0 : bdry B 0 = 0 := by
      ext i m
      show coef ((B.getD 0 ⟨0, []⟩).cols.getD m []) i = 0
      rw [List.getD_eq_getElem?_getD (l := B), b2.zero, Option.getD_some]
      simp only [CMat.zero, List.getD_eq_getElem?_getD, List.getElem?_replicate]
      split <;> simp
    rw [h0, Matrix.rank_zero] at d2
    exact d2
  | succ k =>
    have : (bdry B (k + 1)).rank = (cellBoundary F os k).rank := rank_eq b2 e2.top k
    rw [this] at d2
    exact d2

/-- the disk: a circle of two edges, filled; with a second vertex pair added at once -/
def disk : List Op := [.vertices 2, .add [0, 1] [-1, 1] 1, .add [1, 0] [1, -1] 1, .vertex, .add [1, 0] [-1, 1] 2, .add [7] [9] 0]

theorem disk_valid : ∀ o ∈ disk, ValidOp o := by
  simp [disk, ValidOp]

theorem disk_good : Good ℚ disk := by
  have h0 : cellsOf disk 0 = [([0, 1], [-1, 1]), ([1, 0], [1, -1])] := by decide
  have h1 : cellsOf disk 1 = [([1, 0], [-1, 1])] := by decide
  have h2 : ∀ k, cellsOf disk (k + 2) = [] := by intro k; simp [cellsOf, disk]
  have c0 : count disk 0 = 4 := by decide
  have c1 : count disk 1 = 2 := by decide
  refine ⟨?_, ?_, ?_, ?_⟩
  · intro k b c h
    rcases k with _ | _ | k
    · rw [h0] at h; simp at h; rcases h with ⟨rfl, _⟩ | ⟨rfl, _⟩ <;> decide
    · rw [h1] at h; simp at h; rw [h.1]; decide
    · rw [h2] at h; cases h
  · intro k b c h
    rcases k with _ | _ | k
    · rw [h0] at h; rw [c0]; simp at h; rcases h with ⟨rfl, _⟩ | ⟨rfl, _⟩ <;> decide
    · rw [h1] at h; rw [c1]; simp at h; rw [h.1]; decide
    · rw [h2] at h; cases h
  · intro k b c h
    rcases k with _ | _ | k
    · rw [h0] at h; simp at h; rcases h with ⟨_, rfl⟩ | ⟨_, rfl⟩ <;> simp
    · rw [h1] at h; simp at h; rw [h.2]; simp
    · rw [h2] at h; cases h
  · intro k i j hj
    cases k with
    | zero =>
      have : j = 0 := by
        have : count disk (0 + 2) = 1 := by decide
        omega
      subst this
      rw [c1, Finset.sum_range_succ, Finset.sum_range_one]
      simp only [incidence, h0, h1]
      by_cases a : 0 = i
      · subst a; norm_num
      · by_cases b : 1 = i
        · subst b; norm_num
        · simp [a, b]
    | succ k =>
      have : count disk (k + 1 + 2) = 0 := by
        show (cellsOf disk (k + 2)).length = 0
        rw [h2]; rfl
      omega

example : answers [] disk = [2, 0, 1, 2, 0, 3] ∧ (((init 0).run disk).bind fun r => r.1.total) = .ok 7 ∧
    ((((init 0).run disk).bind fun r => (r.1.chainComplex : Res (List (CMat ℚ)))).bind fun B => (Variant.standard.reduce B).bind fun C => C.hdim 0) = .ok 3 ∧
    ((((init 0).run disk).bind fun r => (r.1.chainComplex : Res (List (CMat ℚ)))).bind fun B => (Variant.standard.reduce B).bind fun C => C.hdim 1) = .ok 0 := by
  refine ⟨by decide, by decide +kernel, by decide +kernel, by decide +kernel⟩

/-- `add(b, c, 0)` adds a vertex and drops `b` and `c`; in a positive dimension lists of different lengths fail the assertion -/
theorem C86_add_assert (X : CellCpx) (b : List Nat) (c : List Int) :
    X.add b c 0 = X.addVertex ∧ ∀ k, 0 < k → b.length ≠ c.length → X.add b c k = .error .thrown := by
  refine ⟨rfl, ?_⟩
  intro k hk hne
  unfold add
  rw [if_neg (by omega), if_neg hne]

/-- `boundary_csc(k)` reads outside of its tables for `k = 0` and for `k > maxdim()`, after every history -/
theorem C86_boundary_ub (D0 : Nat) (os : List Op) (ho : ∀ o ∈ os, ValidOp o) :
    ∃ X rs, (init D0).run os = .ok (X, rs) ∧ X.boundaryCsc 0 = .error .ub ∧ ∀ k, X.maxdim < k → X.boundaryCsc k = .error .ub := by
  obtain ⟨X, D, e1, e2⟩ := run_spec os [] (init D0) D0 (init_St D0) ho
  rw [List.nil_append] at e2
  have hm : X.maxdim = D := by rw [e2.eq, maxdim_form]
  refine ⟨X, _, e1, rfl, ?_⟩
  intro k hk
  have h0 : ∀ d, X.numCells d = .ok (count os d) := by
    intro d
    rw [e2.eq, numCells_form e2.top.nil, cnt_count]
  unfold boundaryCsc
  rw [if_neg (by omega), h0, bind_ok, h0, bind_ok]
  have : rd X.ptr (k - 1) = .error .ub := by
    rw [e2.eq]
    unfold rd form
    simp only
    rw [List.getElem?_eq_none (by simp; omega)]
  rw [this]; rfl

/-- finding: nothing checks that the faces exist: an edge of a missing vertex is accepted and its boundary matrix refers to a row that does not exist -/
theorem C86_missing_face : (((init 0).run [.vertex, .add [0, 5] [-1, 1] 1]).bind fun r => (r.1.chainComplex : Res (List (CMat ℚ)))) =
    .ok [⟨1, [[]]⟩, ⟨1, [[(0, -1), (5, 1)]]⟩] := by decide +kernel

local instance fact_two : Fact (Nat.Prime 2) := ⟨Nat.prime_two⟩

/-- the projective plane: one vertex, one edge, one disk whose boundary is twice the edge -/
def projectivePlane : List Op := [.vertex, .add [] [] 1, .add [0] [2] 2]

/-- finding: over a field in which a coefficient is zero the chain complex stores an explicit zero, which the reduction takes for a pivot: `hdim` of the
projective plane over the field with two elements is `1, 0, 0`, although the incidence matrices are zero and the dimensions of homology are `1, 1, 1` -/
theorem C86_zero_coefficient_wrong :
    (((init 0).run projectivePlane).bind fun r => (r.1.chainComplex : Res (List (CMat (ZMod 2))))) = .ok [⟨1, [[]]⟩, ⟨1, [[]]⟩, ⟨1, [[(0, 0)]]⟩] ∧
    (∀ k i j, ((incidence projectivePlane k i j : Int) : ZMod 2) = 0) ∧
    ((((init 0).run projectivePlane).bind fun r => (r.1.chainComplex : Res (List (CMat (ZMod 2))))).bind fun B => (Variant.standard.reduce B).bind fun C =>
      (do pure [← C.hdim 0, ← C.hdim 1, ← C.hdim 2] : Res (List Nat))) = .ok [1, 0, 0] ∧
    (∀ k, k ≤ 2 → IsBetti (ZMod 2) projectivePlane 1 k) := by
  have hz : ∀ k i j, ((incidence projectivePlane k i j : Int) : ZMod 2) = 0 := by
    intro k i j
    unfold incidence
    rcases k with _ | _ | k
    · rcases j with _ | j
      · rfl
      · simp [cellsOf, projectivePlane]
    · rcases j with _ | j
      · have : (cellsOf projectivePlane 1)[0]? = some ([0], [2]) := by decide
        rw [this]
        simp only [List.zip_cons_cons, List.zip_nil_right, List.map_cons, List.map_nil, List.sum_cons, List.sum_nil, add_zero]
        split
        · decide
        · rfl
      · simp [cellsOf, projectivePlane]
    · simp [cellsOf, projectivePlane]
  have hm : ∀ k, cellBoundary (ZMod 2) projectivePlane k = 0 := by
    intro k
    ext i j
    exact hz k i j
  refine ⟨by decide +kernel, hz, by decide +kernel, ?_⟩
  intro k hk
  have hk : k = 0 ∨ k = 1 ∨ k = 2 := by omega
  rcases hk with rfl | rfl | rfl
  · show 1 + _ = _
    rw [hm, Matrix.rank_zero]; decide
  · show 1 + _ + _ = _
    rw [hm, hm, Matrix.rank_zero, Matrix.rank_zero]; decide
  · show 1 + _ + _ = _
    rw [hm, hm, Matrix.rank_zero, Matrix.rank_zero]; decide

end CellCpx
end BATS
