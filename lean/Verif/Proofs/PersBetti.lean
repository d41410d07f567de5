import Verif.Spec.Persistence
import Verif.Proofs.RankJump
import Verif.Proofs.Homology
import Mathlib.LinearAlgebra.FiniteDimensional.Lemmas
import Mathlib.LinearAlgebra.Matrix.Rank

set_option linter.unusedSectionVars false
set_option linter.unusedVariables false
set_option linter.unusedSimpArgs false

/-! # Persistent Betti numbers as ranks of blocks, and as counts of pivots -/

namespace BATS
open Matrix Module

variable {F : Type _} [Field F] {l m n : Type _} [Fintype l] [Fintype m] [Fintype n] [DecidableEq l] [DecidableEq m] [DecidableEq n]

theorem map_supported (D : Matrix m n F) (S : Set n) [DecidablePred (· ∈ S)] :
    (supported S).map D.mulVecLin = LinearMap.range (D.submatrix id (Subtype.val : S → n)).mulVecLin := by
  have key : ∀ x : n → F, (∀ i, i ∉ S → x i = 0) →
      (D.submatrix id (Subtype.val : S → n)) *ᵥ (fun i => x i.val) = D *ᵥ x := by
    intro x hx
    ext i
    simp only [mulVec, dotProduct, submatrix_apply, id]
    rw [← Finset.sum_filter_add_sum_filter_not Finset.univ (· ∈ S)]
    rw [Finset.sum_eq_zero (s := Finset.univ.filter (fun x => ¬ x ∈ S)), add_zero]
    · exact (Finset.sum_subtype (Finset.univ.filter (· ∈ S)) (by intro x; simp) (fun c => D i c * x c)).symm
    · intro j hj
      rw [hx j (by simpa using hj), mul_zero]
  ext y
  simp only [Submodule.mem_map, LinearMap.mem_range, mulVecLin_apply]
  constructor
  · rintro ⟨x, hx, rfl⟩
    exact ⟨fun i => x i.val, key x hx⟩
  · rintro ⟨z, rfl⟩
    refine ⟨fun i => if h : i ∈ S then z ⟨i, h⟩ else 0, fun i hi => by simp [hi], ?_⟩
    rw [← key _ (fun i hi => by simp [hi])]
    congr 1
    funext i
    simp

theorem finrank_map_supported (D : Matrix m n F) (S : Set n) [DecidablePred (· ∈ S)] :
    finrank F ((supported S).map D.mulVecLin) = (block D Set.univ S).rank := by
  rw [map_supported]
  have : block D Set.univ S = (D.submatrix id (Subtype.val : S → n)).submatrix (Equiv.Set.univ m) (Equiv.refl _) := rfl
  rw [this, rank_submatrix]; rfl

/-- vectors supported on `S` are functions on `S` -/
def supportedEquiv (S : Set n) [DecidablePred (· ∈ S)] : supported (F := F) S ≃ₗ[F] (S → F) where
  toFun x := fun i => x.1 i.val
  map_add' _ _ := rfl
  map_smul' _ _ := rfl
  invFun y := ⟨fun i => if h : i ∈ S then y ⟨i, h⟩ else 0, fun i hi => by simp [hi]⟩
  left_inv x := by
    apply Subtype.ext; funext i
    by_cases h : i ∈ S
    · simp [h]
    · simp [h]; exact (x.2 i h).symm
  right_inv y := by funext i; simp

theorem finrank_supported (S : Set n) [DecidablePred (· ∈ S)] : finrank F (supported (F := F) S) = Fintype.card S := by
  rw [(supportedEquiv S).finrank_eq, finrank_fintype_fun_eq_card]

theorem finrank_submoduleOf {V : Type _} [AddCommGroup V] [Module F V] [FiniteDimensional F V] (P Z : Submodule F V) :
    finrank F (P.submoduleOf Z) = finrank F (Z ⊓ P : Submodule F V) := by
  rw [← Submodule.finrank_map_subtype_eq, Submodule.submoduleOf, Submodule.map_comap_subtype]

theorem finrank_map_add {V W : Type _} [AddCommGroup V] [Module F V] [FiniteDimensional F V] [AddCommGroup W] [Module F W]
    (f : V →ₗ[F] W) (p : Submodule F V) : finrank F (p.map f) + finrank F (p ⊓ LinearMap.ker f : Submodule F V) = finrank F p := by
  have h := LinearMap.finrank_range_add_finrank_ker (f.domRestrict p)
  rw [LinearMap.range_domRestrict, LinearMap.ker_domRestrict] at h
  rw [← h]
  congr 1
  rw [← Submodule.map_comap_subtype, Submodule.finrank_map_subtype_eq]

/-- cycles supported on `S` -/
theorem finrank_cycles_supported (D : Matrix m n F) (S : Set n) [DecidablePred (· ∈ S)] :
    (block D Set.univ S).rank + finrank F (LinearMap.ker D.mulVecLin ⊓ supported S : Submodule F (n → F)) = Fintype.card S := by
  have h := finrank_map_add D.mulVecLin (supported S)
  rw [finrank_map_supported, finrank_supported, inf_comm] at h
  exact h

/-- boundaries of chains supported on `Q` that are themselves supported on `S` -/
theorem finrank_boundaries_supported (D : Matrix m n F) (S : Set m) (Q : Set n) [DecidablePred (· ∈ S)] [DecidablePred (· ∈ Q)]
    [DecidablePred (· ∈ Sᶜ)] :
    (block D Sᶜ Q).rank + finrank F ((supported Q).map D.mulVecLin ⊓ supported S : Submodule F (m → F)) =
      (block D Set.univ Q).rank := by
  let π : (m → F) →ₗ[F] ((Sᶜ : Set m) → F) := LinearMap.funLeft F F Subtype.val
  have hker : LinearMap.ker π = supported S := by
    ext x
    rw [LinearMap.mem_ker]
    constructor
    · intro h i hi
      exact congrFun h ⟨i, hi⟩
    · intro h; funext i; exact h i.1 i.2
  have h := finrank_map_add π ((supported Q).map D.mulVecLin)
  rw [hker, finrank_map_supported] at h
  rw [← h]
  congr 1
  rw [map_supported, ← LinearMap.range_comp]
  have : π ∘ₗ (D.submatrix id (Subtype.val : Q → n)).mulVecLin = (block D Sᶜ Q).mulVecLin := by
    apply LinearMap.ext; intro x; funext i; rfl
  rw [this]; rfl

/-- general form: rank of the map `Z/P → Z'/P'` induced by inclusions -/
theorem finrank_range_mapQ {V : Type _} [AddCommGroup V] [Module F V] [FiniteDimensional F V] {Z Z' P P' : Submodule F V}
    (hZ : Z ≤ Z') (hP : P ≤ P') (h : P.submoduleOf Z ≤ (P'.submoduleOf Z').comap (Submodule.inclusion hZ)) :
    finrank F (LinearMap.range (Submodule.mapQ _ _ (Submodule.inclusion hZ) h)) + finrank F (Z ⊓ P' : Submodule F V) = finrank F Z := by
  have hr : LinearMap.range (Submodule.mapQ _ _ (Submodule.inclusion hZ) h) =
      LinearMap.range ((P'.submoduleOf Z').mkQ ∘ₗ Submodule.inclusion hZ) := by
    rw [← Submodule.mapQ_mkQ (h := h), LinearMap.range_comp, Submodule.range_mkQ, Submodule.map_top]
  have hk : LinearMap.ker ((P'.submoduleOf Z').mkQ ∘ₗ Submodule.inclusion hZ) = P'.submoduleOf Z := by
    ext x
    rw [LinearMap.mem_ker, LinearMap.comp_apply, Submodule.mkQ_apply, Submodule.Quotient.mk_eq_zero]
    rfl
  have := LinearMap.finrank_range_add_finrank_ker ((P'.submoduleOf Z').mkQ ∘ₗ Submodule.inclusion hZ)
  rw [hk, finrank_submoduleOf] at this
  rw [hr]; exact this

theorem persistentBetti_formula {T : Type _} [LinearOrder T] (B : List (CMat F)) (val : List (List T)) (k : Nat) {s t : T} (h : s ≤ t)
    (hDD : bdry B k * bdryUp B k = 0)
    [DecidablePred (· ∈ sublevel B val k s)] [DecidablePred (· ∈ sublevel B val (k + 1) t)] [DecidablePred (· ∈ (sublevel B val k s)ᶜ)] :
    persistentBetti B val k h + (block (bdry B k) Set.univ (sublevel B val k s)).rank
      + (block (bdryUp B k) Set.univ (sublevel B val (k + 1) t)).rank =
    Fintype.card (sublevel B val k s) + (block (bdryUp B k) (sublevel B val k s)ᶜ (sublevel B val (k + 1) t)).rank := by
  have h1 := finrank_range_mapQ (cyclesAt_mono B val k h) (boundariesAt_mono B val k h) (fun _ hx => boundariesAt_mono B val k h hx)
  have h2 := finrank_cycles_supported (bdry B k) (sublevel B val k s)
  have h3 := finrank_boundaries_supported (bdryUp B k) (sublevel B val k s) (sublevel B val (k + 1) t)
  have h4 : (cyclesAt B val k s ⊓ boundariesAt B val k t : Submodule F _) =
      (supported (sublevel B val (k + 1) t)).map (bdryUp B k).mulVecLin ⊓ supported (sublevel B val k s) := by
    unfold cyclesAt boundariesAt
    apply le_antisymm
    · exact le_inf inf_le_right (inf_le_left.trans inf_le_right)
    · refine le_inf (le_inf ?_ inf_le_right) inf_le_left
      refine inf_le_left.trans ?_
      rintro _ ⟨x, _, rfl⟩
      show bdry B k *ᵥ (bdryUp B k *ᵥ x) = 0
      rw [mulVec_mulVec, hDD, zero_mulVec]
  rw [h4] at h1
  change persistentBetti B val k h + _ = finrank F (cyclesAt B val k s) at h1
  change _ + finrank F (cyclesAt B val k s) = _ at h2
  omega

/-! ### counting pivots -/

section count
variable {l m n : Type _} [Fintype l] [Fintype m] [Fintype n] [LinearOrder l] [LinearOrder m] [LinearOrder n]
theorem rank_block_pivots {M : Matrix m n F} (hM : HasRed M) {P : Set m} (hP : IsUpperSet P) {Q : Set n} (hQ : IsLowerSet Q)
    [Fintype Q] [DecidablePred (fun p : m × n => p.1 ∈ P ∧ p.2 ∈ Q ∧ IsPivot M p.1 p.2)] :
    (block M P Q).rank = (Finset.univ.filter (fun p : m × n => p.1 ∈ P ∧ p.2 ∈ Q ∧ IsPivot M p.1 p.2)).card := by
  classical
  obtain ⟨V, hV, hR⟩ := hM
  have := rank_block hV hR rfl hP hQ
  have e : (block M P Q).rank = Set.ncard {p : m × n | p.1 ∈ P ∧ p.2 ∈ Q ∧ Low (M * V) p.1 p.2} := by
    convert this
  rw [e, Set.ncard_eq_toFinset_card']
  congr 1
  ext p
  simp [low_iff_isPivot hV hR rfl]

open Classical in
theorem pers_count_aux {D1 : Matrix l m F} {D2 : Matrix m n F} (h1 : HasRed D1) (h2 : HasRed D2) (hDD : D1 * D2 = 0)
    {S : Set m} (hS : IsLowerSet S) {Q : Set n} (hQ : IsLowerSet Q) :
    (Finset.univ.filter (fun i => i ∈ S ∧ (∀ i', ¬ IsPivot D1 i' i) ∧ ∀ j ∈ Q, ¬ IsPivot D2 i j)).card
      + (block D1 Set.univ S).rank + (block D2 Set.univ Q).rank = Fintype.card S + (block D2 Sᶜ Q).rank := by
  rw [rank_block_pivots h1 isUpperSet_univ hS, rank_block_pivots h2 isUpperSet_univ hQ,
    rank_block_pivots h2 hS.compl hQ]
  have e1 : (Finset.univ.filter (fun p : l × m => p.1 ∈ Set.univ ∧ p.2 ∈ S ∧ IsPivot D1 p.1 p.2)).card =
      (Finset.univ.filter (fun i => i ∈ S ∧ ∃ i', IsPivot D1 i' i)).card := by
    apply Finset.card_bij (fun (p : l × m) _ => p.2)
    · intro p hp
      simp only [Finset.mem_filter, Finset.mem_univ, true_and, Set.mem_univ] at hp ⊢
      exact ⟨hp.1, _, hp.2⟩
    · intro p hp q hq he
      simp only [Finset.mem_filter, Finset.mem_univ, true_and, Set.mem_univ] at hp hq
      have h := hp.2; rw [he] at h
      exact Prod.ext (h.row_unique h1 hq.2) he
    · intro i hi
      simp only [Finset.mem_filter, Finset.mem_univ, true_and] at hi
      obtain ⟨hi, i', h⟩ := hi
      exact ⟨(i', i), by simp [hi, h], rfl⟩
  have e2 : (Finset.univ.filter (fun p : m × n => p.1 ∈ S ∧ p.2 ∈ Q ∧ IsPivot D2 p.1 p.2)).card =
      (Finset.univ.filter (fun i => i ∈ S ∧ ∃ j ∈ Q, IsPivot D2 i j)).card := by
    apply Finset.card_bij (fun (p : m × n) _ => p.1)
    · intro p hp
      simp only [Finset.mem_filter, Finset.mem_univ, true_and] at hp ⊢
      exact ⟨hp.1, _, hp.2⟩
    · intro p hp q hq he
      simp only [Finset.mem_filter, Finset.mem_univ, true_and] at hp hq
      have h := hp.2.2; rw [he] at h
      exact Prod.ext he (h.col_unique hq.2.2)
    · intro i hi
      simp only [Finset.mem_filter, Finset.mem_univ, true_and] at hi
      obtain ⟨hi, j, hj, h⟩ := hi
      exact ⟨(i, j), by simp [hi, hj, h], rfl⟩
  have e3 : (Finset.univ.filter (fun p : m × n => p.1 ∈ Set.univ ∧ p.2 ∈ Q ∧ IsPivot D2 p.1 p.2)).card =
      (Finset.univ.filter (fun p : m × n => p.1 ∈ S ∧ p.2 ∈ Q ∧ IsPivot D2 p.1 p.2)).card +
      (Finset.univ.filter (fun p : m × n => p.1 ∈ Sᶜ ∧ p.2 ∈ Q ∧ IsPivot D2 p.1 p.2)).card := by
    rw [← Finset.card_union_of_disjoint]
    · congr 1; ext p
      simp only [Finset.mem_filter, Finset.mem_univ, true_and, Set.mem_univ, Finset.mem_union, Set.mem_compl_iff]
      tauto
    · rw [Finset.disjoint_filter]
      rintro p _ h h'
      exact h'.1 h.1
  have e4 : Fintype.card S = (Finset.univ.filter (fun i => i ∈ S ∧ (∀ i', ¬ IsPivot D1 i' i) ∧ ∀ j ∈ Q, ¬ IsPivot D2 i j)).card
      + (Finset.univ.filter (fun i => i ∈ S ∧ ∃ i', IsPivot D1 i' i)).card
      + (Finset.univ.filter (fun i => i ∈ S ∧ ∃ j ∈ Q, IsPivot D2 i j)).card := by
    rw [← Finset.card_union_of_disjoint, ← Finset.card_union_of_disjoint, ← Set.toFinset_card]
    · congr 1; ext i
      simp only [Finset.mem_filter, Finset.mem_univ, true_and, Finset.mem_union, Set.mem_toFinset]
      constructor
      · intro hi
        by_cases ha : ∃ i', IsPivot D1 i' i
        · exact Or.inl (Or.inr ⟨hi, ha⟩)
        · by_cases hb : ∃ j ∈ Q, IsPivot D2 i j
          · exact Or.inr ⟨hi, hb⟩
          · push Not at ha hb
            exact Or.inl (Or.inl ⟨hi, ha, hb⟩)
      · rintro ((h | h) | h) <;> exact h.1
    · rw [Finset.disjoint_left]
      intro i hi hj
      simp only [Finset.mem_filter, Finset.mem_univ, true_and, Finset.mem_union] at hi hj
      obtain ⟨_, j, hj, hp⟩ := hj
      rcases hi with h | ⟨_, i', h⟩
      · exact h.2.2 j hj hp
      · exact pivotRow_positive h1 hDD hp i' h
    · rw [Finset.disjoint_filter]
      rintro i _ ⟨_, h, _⟩ ⟨_, i', h'⟩
      exact h i' h'
  omega

theorem pers_count {D1 : Matrix l m F} {D2 : Matrix m n F} (h1 : HasRed D1) (h2 : HasRed D2) (hDD : D1 * D2 = 0)
    {S : Set m} (hS : IsLowerSet S) {Q : Set n} (hQ : IsLowerSet Q) [Fintype S] [Fintype Q]
    [DecidablePred (fun i => i ∈ S ∧ (∀ i', ¬ IsPivot D1 i' i) ∧ ∀ j ∈ Q, ¬ IsPivot D2 i j)] :
    (Finset.univ.filter (fun i => i ∈ S ∧ (∀ i', ¬ IsPivot D1 i' i) ∧ ∀ j ∈ Q, ¬ IsPivot D2 i j)).card
      + (block D1 Set.univ S).rank + (block D2 Set.univ Q).rank = Fintype.card S + (block D2 Sᶜ Q).rank := by
  have := pers_count_aux h1 h2 hDD hS hQ
  convert this

end count

end BATS
