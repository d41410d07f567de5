import Verif.Proofs.ZZReduce
import Verif.Proofs.DG8
import Verif.Proofs.Preferred
import Verif.Spec.Zigzag

set_option linter.unusedSectionVars false
set_option linter.unusedSimpArgs false
set_option linter.unusedVariables false

/-! # Zigzag: linear algebra of the cells which are present -/

namespace BATS
namespace Zigzag
open Reduction Matrix

variable {F : Type} [Field F] [DecidableEq F]

/-- columns outside `S` are cleared -/
def maskR (S : Finset Nat) (R : CMat F) : CMat F := ⟨R.nrow, (List.range R.cols.length).map (fun j => if j ∈ S then R.cols.getD j [] else [])⟩

/-- columns outside `S` are replaced by unit vectors -/
def maskU (S : Finset Nat) (U : CMat F) : CMat F := ⟨U.nrow, (List.range U.cols.length).map (fun j => if j ∈ S then U.cols.getD j [] else [(j, 1)])⟩

theorem getD_of_ge {α : Type} {l : List α} {j : Nat} {d : α} (h : l.length ≤ j) : l.getD j d = d := by
  rw [List.getD_eq_getElem?_getD, List.getElem?_eq_none h]; rfl

theorem maskR_getD (S : Finset Nat) (R : CMat F) (j : Nat) : (maskR S R).cols.getD j [] = if j ∈ S then R.cols.getD j [] else [] := by
  unfold maskR
  by_cases h : j < R.cols.length
  · rw [List.getD_eq_getElem?_getD, List.getElem?_map, List.getElem?_range h]; rfl
  · rw [getD_of_ge (by simp; omega), getD_of_ge (l := R.cols) (by omega), ite_self]

theorem maskU_getD (S : Finset Nat) (U : CMat F) {j : Nat} (h : j < U.cols.length) :
    (maskU S U).cols.getD j [] = if j ∈ S then U.cols.getD j [] else [(j, 1)] := by
  unfold maskU
  rw [List.getD_eq_getElem?_getD, List.getElem?_map, List.getElem?_range h]; rfl

/-- one boundary matrix `D` with its partial reduction; `S` are the cells which are present -/
structure Lev (m n : Nat) (D R U : CMat F) (p : P2C) (S : Finset Nat) : Prop where
  shapeD : D.Shape m n
  nrowR : R.nrow = m
  nrowU : U.nrow = n
  col : ColInv D.cols m n S R.cols U.cols
  tab : TabInv m S R.cols p

variable {m n : Nat} {D R U : CMat F} {p : P2C} {S : Finset Nat}

theorem maskR_shape {m n : Nat} {R : CMat F} (h : ColsOK m R.cols) (hr : R.nrow = m) (hl : R.cols.length = n) (S : Finset Nat) : (maskR S R).Shape m n := by
  refine ⟨?_, hr, by unfold maskR; simp [hl]⟩
  intro c hc
  have hc' : c ∈ (List.range R.cols.length).map (fun j => if j ∈ S then R.cols.getD j [] else []) := hc
  rw [List.mem_map] at hc'
  obtain ⟨j, _, rfl⟩ := hc'
  show VecOK _ ∧ Below R.nrow _
  rw [hr]
  split
  · exact h.getD j
  · exact ⟨vecOK_nil, below_nil m⟩

theorem vecOK_unit (j : Nat) : VecOK ([(j, 1)] : SVec F) := by
  refine ⟨by simp [Sorted], ?_⟩
  intro q hq
  rw [List.mem_singleton] at hq; rw [hq]; exact one_ne_zero

theorem below_unit {n j : Nat} (h : j < n) : Below n ([(j, 1)] : SVec F) := by
  intro q hq
  rw [List.mem_singleton] at hq; rw [hq]; exact h

theorem coef_unit (j i : Nat) : coef ([(j, 1)] : SVec F) i = if i = j then 1 else 0 := by
  simp [coef, eq_comm]

theorem Lev.shapeR (h : Lev m n D R U p S) : (maskR S R).Shape m n := maskR_shape h.col.okR h.nrowR h.col.lenR S
theorem Lev.shapeMD (h : Lev m n D R U p S) : (maskR S D).Shape m n := maskR_shape h.shapeD.colsOK h.shapeD.nrow h.shapeD.ncol S

theorem Lev.shapeU (h : Lev m n D R U p S) : (maskU S U).Shape n n := by
  refine ⟨?_, h.nrowU, by unfold maskU; simp [h.col.lenU]⟩
  intro c hc
  have hc' : c ∈ (List.range U.cols.length).map (fun j => if j ∈ S then U.cols.getD j [] else [(j, 1)]) := hc
  rw [List.mem_map] at hc'
  obtain ⟨j, hj, rfl⟩ := hc'
  show VecOK _ ∧ Below U.nrow _
  rw [h.nrowU]
  split
  · exact h.col.okU.getD j
  · rw [List.mem_range, h.col.lenU] at hj
    exact ⟨vecOK_unit j, below_unit hj⟩

theorem Lev.upper (h : Lev m n D R U p S) : UpperInv ((maskU S U).mat n n) := by
  constructor
  · intro i j hij
    show coef ((maskU S U).cols.getD j []) i = 0
    rw [maskU_getD S U (by rw [h.col.lenU]; exact j.2)]
    split
    · rename_i hj; exact h.col.upper j hj i hij
    · rw [coef_unit, if_neg]; exact fun e => absurd hij (by rw [Fin.lt_def]; omega)
  · intro i
    show coef ((maskU S U).cols.getD i []) i ≠ 0
    rw [maskU_getD S U (by rw [h.col.lenU]; exact i.2)]
    split
    · rename_i hj; rw [h.col.diag i hj]; exact one_ne_zero
    · rw [coef_unit, if_pos rfl]; exact one_ne_zero

theorem Lev.eq (h : Lev m n D R U p S) : (maskR S D).mat m n * (maskU S U).mat n n = (maskR S R).mat m n := by
  ext i j
  rw [Matrix.mul_apply]
  show ∑ c : Fin n, coef ((maskR S D).cols.getD c []) i * coef ((maskU S U).cols.getD j []) c = coef ((maskR S R).cols.getD j []) i
  rw [maskU_getD S U (by rw [h.col.lenU]; exact j.2), maskR_getD]
  by_cases hj : j.val ∈ S
  · rw [if_pos hj, if_pos hj, h.col.eq j hj i, Finset.sum_range]
    refine Finset.sum_congr rfl (fun c _ => ?_)
    rw [maskR_getD]
    by_cases hc : c.val ∈ S
    · rw [if_pos hc, mul_comm]
    · rw [if_neg hc]
      have : coef (U.cols.getD j []) c = 0 := by by_contra hh; exact hc (h.col.supp j hj c hh)
      rw [this, zero_mul, mul_zero]
  · rw [if_neg hj, if_neg hj]
    rw [Finset.sum_eq_single j]
    · rw [maskR_getD, if_neg hj]; exact zero_mul _
    · intro c _ hc
      rw [coef_unit, if_neg (by intro e; exact hc (Fin.ext e)), mul_zero]
    · intro hh; exact absurd (Finset.mem_univ _) hh

theorem Lev.low_iff (h : Lev m n D R U p S) (i : Fin m) (j : Fin n) : Low ((maskR S R).mat m n) i j ↔ j.val ∈ S ∧ low (R.cols.getD j []) = some i.val := by
  rw [low_matOf h.shapeR.colsOK, maskR_getD]
  by_cases hj : j.val ∈ S
  · rw [if_pos hj]; exact ⟨fun a => ⟨hj, a⟩, fun a => a.2⟩
  · rw [if_neg hj]; exact ⟨fun a => (by cases a), fun a => absurd a.1 hj⟩

theorem Lev.table (h : Lev m n D R U p S) : IsPivotTable ((maskR S R).mat m n) p := by
  refine ⟨h.tab.len, fun i k hk => h.col.sub k ((h.tab.iff i k).1 hk).1, fun i j => ?_⟩
  rw [h.low_iff, h.tab.iff]

theorem Lev.reduced (h : Lev m n D R U p S) : Reduced ((maskR S R).mat m n) := by
  intro i j j' h1 h2
  have a := (h.table.iff i j).2 h1
  have b := (h.table.iff i j').2 h2
  rw [a] at b; injection b with b; injection b with b
  exact Fin.ext b

theorem Lev.hasRed (h : Lev m n D R U p S) : HasRed ((maskR S D).mat m n) := ⟨_, h.upper, by rw [h.eq]; exact h.reduced⟩

theorem Lev.isPivot_iff (h : Lev m n D R U p S) (i : Fin m) (j : Fin n) :
    IsPivot ((maskR S D).mat m n) i j ↔ j.val ∈ S ∧ low (R.cols.getD j []) = some i.val := by
  rw [← low_iff_isPivot h.upper h.reduced h.eq, h.low_iff]

theorem Lev.nil_iff (h : Lev m n D R U p S) (j : Fin n) : (∀ i, ¬ IsPivot ((maskR S D).mat m n) i j) ↔ (j.val ∈ S → R.cols.getD j [] = []) := by
  constructor
  · intro hh hj
    by_contra hne
    obtain ⟨i, hi⟩ : ∃ i, low (R.cols.getD j []) = some i := by
      rcases hl : low (R.cols.getD j []) with _ | i
      · exact absurd (low_eq_none.1 hl) hne
      · exact ⟨i, rfl⟩
    exact hh ⟨i, low_lt (h.col.okR.getD j).2 hi⟩ ((h.isPivot_iff _ _).2 ⟨hj, hi⟩)
  · intro hh i hi
    obtain ⟨a, b⟩ := (h.isPivot_iff _ _).1 hi
    rw [hh a] at b; cases b

theorem Lev.none_iff (h : Lev m n D R U p S) (i : Fin m) : (∀ j, ¬ IsPivot ((maskR S D).mat m n) i j) ↔ p.getD i none = none := by
  rw [h.tab.none_iff]
  constructor
  · intro hh c hc hl
    exact hh ⟨c, h.col.sub c hc⟩ ((h.isPivot_iff _ _).2 ⟨hc, hl⟩)
  · intro hh j hj
    obtain ⟨a, b⟩ := (h.isPivot_iff _ _).1 hj
    exact hh _ a b

/-! ### cycles and boundaries of the cells which are present -/

/-- chains on `S` -/
abbrev onS (F : Type) [Field F] (n : Nat) (S : Finset Nat) : Submodule F (Fin n → F) := supported {c : Fin n | c.val ∈ S}

theorem mem_onS {n : Nat} {S : Finset Nat} {x : Fin n → F} : x ∈ onS F n S ↔ ∀ i : Fin n, i.val ∉ S → x i = 0 := Iff.rfl

/-- on chains on `S` the masked matrix is the matrix -/
theorem mask_mulVec {m n : Nat} (D : CMat F) {S : Finset Nat} {x : Fin n → F} (hx : x ∈ onS F n S) : (maskR S D).mat m n *ᵥ x = D.mat m n *ᵥ x := by
  funext i
  show ∑ j : Fin n, coef ((maskR S D).cols.getD j []) i * x j = ∑ j : Fin n, coef (D.cols.getD j []) i * x j
  refine Finset.sum_congr rfl (fun j _ => ?_)
  rw [maskR_getD]
  by_cases hj : j.val ∈ S
  · rw [if_pos hj]
  · rw [hx j hj, mul_zero, mul_zero]

/-- the part of a chain on `S` -/
def cut (S : Finset Nat) {n : Nat} (x : Fin n → F) : Fin n → F := fun i => if i.val ∈ S then x i else 0

theorem cut_mem (S : Finset Nat) {n : Nat} (x : Fin n → F) : cut S x ∈ onS F n S := fun i hi => if_neg hi

theorem mask_cut {m n : Nat} (D : CMat F) (S : Finset Nat) (x : Fin n → F) : (maskR S D).mat m n *ᵥ x = D.mat m n *ᵥ cut S x := by
  rw [← mask_mulVec D (cut_mem S x)]
  funext i
  show ∑ j : Fin n, coef ((maskR S D).cols.getD j []) i * x j = ∑ j : Fin n, coef ((maskR S D).cols.getD j []) i * cut S x j
  refine Finset.sum_congr rfl (fun j _ => ?_)
  rw [maskR_getD]
  unfold cut
  by_cases hj : j.val ∈ S
  · rw [if_pos hj, if_pos hj]
  · rw [if_neg hj]; simp [coef]

theorem range_mask {m n : Nat} (D : CMat F) (S : Finset Nat) : LinearMap.range ((maskR S D).mat m n).mulVecLin = (onS F n S).map (D.mat m n).mulVecLin := by
  ext y
  constructor
  · rintro ⟨x, rfl⟩
    exact ⟨cut S x, cut_mem S x, (mask_cut D S x).symm⟩
  · rintro ⟨x, hx, rfl⟩
    exact ⟨x, mask_mulVec D hx⟩

/-- the boundary of a cell which is present is present -/
def Closed (D2 : CMat F) (S1 S2 : Finset Nat) : Prop := ∀ j ∈ S2, ∀ i, coef (D2.cols.getD j []) i ≠ 0 → i ∈ S1

theorem closed_map {n n2 : Nat} {D2 : CMat F} {S1 S2 : Finset Nat} (hcl : Closed D2 S1 S2) : (onS F n2 S2).map (D2.mat n n2).mulVecLin ≤ onS F n S1 := by
  rintro y ⟨x, hx, rfl⟩ i hi
  show ∑ j : Fin n2, coef (D2.cols.getD j []) i * x j = 0
  refine Finset.sum_eq_zero (fun j _ => ?_)
  by_cases hj : j.val ∈ S2
  · have : coef (D2.cols.getD j []) i = 0 := by by_contra hh; exact hi (hcl j hj i hh)
    rw [this, zero_mul]
  · rw [hx j hj, mul_zero]

section pair
variable {n2 : Nat} {D2 R2 U2 : CMat F} {p2 : P2C} {S2 : Finset Nat}

theorem mask_mul_zero (h1 : Lev m n D R U p S) (hz : D.mat m n * D2.mat n n2 = 0) (hcl : Closed D2 S S2) :
    (maskR S D).mat m n * (maskR S2 D2).mat n n2 = 0 := by
  refine Matrix.ext_of_mulVec_single (fun j => ?_)
  rw [Matrix.zero_mulVec, ← mulVec_mulVec, mask_cut D2, mask_mulVec, mulVec_mulVec, hz, zero_mulVec]
  exact closed_map hcl ⟨_, cut_mem _ _, rfl⟩

/-- boundaries of the active cells -/
theorem Lev.col_boundary (h : Lev m n D R U p S) {j : Nat} (hj : j ∈ S) : vecOf m (R.cols.getD j []) = D.mat m n *ᵥ vecOf n (U.cols.getD j []) := by
  funext i
  show coef (R.cols.getD j []) i = ∑ c : Fin n, coef (D.cols.getD c []) i * coef (U.cols.getD j []) c
  rw [h.col.eq j hj, Finset.sum_range]
  exact Finset.sum_congr rfl (fun c _ => mul_comm _ _)

theorem Lev.U_onS (h : Lev m n D R U p S) {j : Nat} (hj : j ∈ S) : vecOf n (U.cols.getD j []) ∈ onS F n S := by
  intro i hi
  by_contra hh
  exact hi (h.col.supp j hj i hh)

theorem Lev.R_boundary (h2 : Lev n n2 D2 R2 U2 p2 S2) {j : Nat} (hj : j ∈ S2) : vecOf n (R2.cols.getD j []) ∈ (onS F n2 S2).map (D2.mat n n2).mulVecLin :=
  ⟨_, h2.U_onS hj, (h2.col_boundary hj).symm⟩

/-- pivots are cycles -/
theorem pivot_cycle (h1 : Lev m n D R U p S) (h2 : Lev n n2 D2 R2 U2 p2 S2) (hz : D.mat m n * D2.mat n n2 = 0) (hcl : Closed D2 S S2) {i j : Nat} (hj : j ∈ S2)
    (hl : low (R2.cols.getD j []) = some i) : i ∈ S ∧ R.cols.getD i [] = [] := by
  have hin : i < n := low_lt (h2.col.okR.getD j).2 hl
  have hlow := (BATS.Reduction.low_iff (h2.col.okR.getD j).1 i).1 hl
  have hiS : i ∈ S := by
    by_contra hh
    exact hlow.1 (closed_map hcl (h2.R_boundary hj) ⟨i, hin⟩ hh)
  refine ⟨hiS, ?_⟩
  have hv : VLow (vecOf n (R2.cols.getD j [])) ⟨i, hin⟩ := ⟨hlow.1, fun i' hi' => hlow.2 i' hi'⟩
  have hcyc : (maskR S D).mat m n *ᵥ vecOf n (R2.cols.getD j []) = 0 := by
    rw [mask_mulVec D (closed_map hcl (h2.R_boundary hj)), h2.col_boundary hj, mulVec_mulVec, hz, zero_mulVec]
  exact (h1.nil_iff ⟨i, hin⟩).1 (cycle_low_positive h1.hasRed hcyc hv) hiS

/-- the generators: cycles on `S` which form a basis modulo boundaries -/
structure GensBasis {n : Nat} (Z W : Submodule F (Fin n → F)) {N : Nat} (gens : Fin N → Fin n → F) : Prop where
  mem : ∀ g, gens g ∈ Z
  span : ∀ z ∈ Z, ∃ c : Fin N → F, z - ∑ g, c g • gens g ∈ W
  indep : ∀ c : Fin N → F, ∑ g, c g • gens g ∈ W → c = 0

theorem gens_basis (h1 : Lev m n D R U p S) (h2 : Lev n n2 D2 R2 U2 p2 S2) (hz : D.mat m n * D2.mat n n2 = 0) (hcl : Closed D2 S S2) {I : List Nat}
    (hs : I.Pairwise (· < ·)) (hI : ∀ j, j ∈ I ↔ j ∈ S ∧ R.cols.getD j [] = [] ∧ p2.getD j none = none) :
    GensBasis (LinearMap.ker (D.mat m n).mulVecLin ⊓ onS F n S) ((onS F n2 S2).map (D2.mat n n2).mulVecLin)
      (fun g : Fin I.length => vecOf n (U.cols.getD (I.get g) [])) := by
  classical
  have hIS : ∀ g : Fin I.length, I.get g ∈ S ∧ R.cols.getD (I.get g) [] = [] ∧ p2.getD (I.get g) none = none := fun g => (hI _).1 (List.getElem_mem g.2)
  have hDD := mask_mul_zero h1 hz hcl
  let e : Fin I.length → Fin n := fun g => ⟨I.get g, h1.col.sub _ (hIS g).1⟩
  have he : Function.Injective e := by
    intro g g' hgg
    have h1 : I[g.val] = I[g'.val] := congrArg Fin.val hgg
    have hnd : I.Nodup := hs.imp (fun h => ne_of_lt h)
    exact Fin.ext ((hnd.getElem_inj_iff).1 h1)
  have hlow : ∀ g, VLow (vecOf n (U.cols.getD (I.get g) [])) (e g) := fun g =>
    ⟨by show coef (U.cols.getD (I.get g) []) (I.get g) ≠ 0; rw [h1.col.diag _ (hIS g).1]; exact one_ne_zero, fun i hi => h1.col.upper _ (hIS g).1 i hi⟩
  refine ⟨?_, ?_, ?_⟩
  · intro g
    refine ⟨?_, h1.U_onS (hIS g).1⟩
    rw [SetLike.mem_coe, LinearMap.mem_ker, mulVecLin_apply, ← h1.col_boundary (hIS g).1, (hIS g).2.1]; rfl
  · rintro z ⟨hz1, hz2⟩
    rw [SetLike.mem_coe, LinearMap.mem_ker, mulVecLin_apply] at hz1
    let ι := {q : Fin n // Essential ((maskR S D).mat m n) ((maskR S2 D2).mat n n2) q}
    let u : ι → Fin n → F := fun q => ((maskU S U).mat n n).col q.1
    have hu : ∀ q : ι, VLow (u q) q.1 := fun q => ⟨h1.upper.2 _, fun i hi => h1.upper.1 i _ hi⟩
    have hcyc : ∀ q : ι, (maskR S D).mat m n *ᵥ u q = 0 := by
      intro q
      have hR : ((maskR S R).mat m n).col q.1 = 0 := by
        rw [col_eq_zero_iff]
        intro i hi
        exact q.2.1 i ((low_iff_isPivot h1.upper h1.reduced h1.eq i q.1).1 hi)
      rw [← hR, ← h1.eq]; rfl
    obtain ⟨c, x, hcx⟩ := exists_combination h1.hasRed h2.hasRed hDD hu hcyc (fun q hq => ⟨⟨q, hq⟩, rfl⟩) z (by rw [mask_mulVec D hz2]; exact hz1)
    have hW : (maskR S2 D2).mat n n2 *ᵥ x ∈ (onS F n2 S2).map (D2.mat n n2).mulVecLin := by rw [← range_mask]; exact ⟨x, rfl⟩
    have hucol : ∀ q : ι, q.1.val ∈ S → u q = vecOf n (U.cols.getD q.1 []) := by
      intro q hq
      funext i
      show coef ((maskU S U).cols.getD q.1 []) i = _
      rw [maskU_getD S U (by rw [h1.col.lenU]; exact q.1.2), if_pos hq]
    have hc0 : ∀ q : ι, q.1.val ∉ S → c q = 0 := by
      intro q hq
      have h0 := congrFun hcx q.1
      rw [hz2 q.1 hq, Pi.add_apply, closed_map hcl hW q.1 hq, add_zero, Finset.sum_apply, Finset.sum_eq_single q] at h0
      · have : u q q.1 = 1 := by
          show coef ((maskU S U).cols.getD q.1 []) q.1 = 1
          rw [maskU_getD S U (by rw [h1.col.lenU]; exact q.1.2), if_neg hq, coef_unit, if_pos rfl]
        rw [Pi.smul_apply, this, smul_eq_mul, mul_one] at h0
        exact h0.symm
      · intro q' _ hne
        have : u q' q.1 = 0 := by
          by_cases hq' : q'.1.val ∈ S
          · rw [hucol q' hq']; exact h1.U_onS hq' q.1 hq
          · show coef ((maskU S U).cols.getD q'.1 []) q.1 = 0
            rw [maskU_getD S U (by rw [h1.col.lenU]; exact q'.1.2), if_neg hq', coef_unit, if_neg]
            intro hh; exact hne (Subtype.ext (Fin.ext hh.symm))
        rw [Pi.smul_apply, this, smul_zero]
      · intro hh; exact absurd (Finset.mem_univ _) hh
    have hess : ∀ g : Fin I.length, Essential ((maskR S D).mat m n) ((maskR S2 D2).mat n n2) (e g) := fun g =>
      ⟨(h1.nil_iff (e g)).2 (fun _ => (hIS g).2.1), (h2.none_iff (e g)).2 (hIS g).2.2⟩
    refine ⟨fun g => c ⟨e g, hess g⟩, ?_⟩
    have hsum : ∑ q, c q • u q = ∑ g : Fin I.length, c ⟨e g, hess g⟩ • vecOf n (U.cols.getD (I.get g) []) := by
      have h3 : ∑ g : Fin I.length, c ⟨e g, hess g⟩ • vecOf n (U.cols.getD (I.get g) []) = ∑ g : Fin I.length, (fun q : ι => c q • u q) ⟨e g, hess g⟩ := by
        refine Finset.sum_congr rfl (fun g _ => ?_)
        show _ = c ⟨e g, hess g⟩ • u ⟨e g, hess g⟩
        rw [hucol ⟨e g, hess g⟩ (hIS g).1]
      rw [h3, ← Finset.sum_image (f := fun q : ι => c q • u q) (s := Finset.univ) (g := fun g => (⟨e g, hess g⟩ : ι))
        (by intro a _ b _ hab; exact he (congrArg Subtype.val hab))]
      symm
      apply Finset.sum_subset (Finset.subset_univ _)
      intro q _ hq
      have : c q = 0 := by
        by_contra hne
        have hqS : q.1.val ∈ S := by by_contra hh; exact hne (hc0 q hh)
        have : q.1.val ∈ I := (hI _).2 ⟨hqS, (h1.nil_iff q.1).1 q.2.1 hqS, (h2.none_iff q.1).1 q.2.2⟩
        obtain ⟨g, hg, hgp⟩ := List.mem_iff_getElem.1 this
        exact hq (Finset.mem_image.2 ⟨⟨g, hg⟩, Finset.mem_univ _, Subtype.ext (Fin.ext hgp)⟩)
      rw [this, zero_smul]
    rw [hcx, hsum, add_sub_cancel_left]; exact hW
  · intro c hc
    by_contra hne
    obtain ⟨g, hg⟩ := combination_low he hlow hne
    rw [← range_mask] at hc
    obtain ⟨x, hx⟩ := hc
    rw [← hx, mulVecLin_apply] at hg
    obtain ⟨j, hj⟩ := boundary_low_pivot h2.hasRed hg
    exact (h2.none_iff (e g)).2 (hIS g).2.2 j hj

end pair

end Zigzag
end BATS
