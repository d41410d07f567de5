import Verif.Proofs.PersBetti
import Verif.Spec.Relative

set_option linter.unusedSectionVars false
set_option linter.unusedSimpArgs false
set_option linter.unusedVariables false

/-! # Linear algebra of selecting cells: sub- and quotient complexes -/

namespace BATS
open Matrix Module

variable {F : Type} [Field F] {r r' n n' p p' : Type} [Fintype r] [Fintype r'] [Fintype n] [Fintype n'] [Fintype p] [Fintype p']
  [DecidableEq n] [DecidableEq n'] [DecidableEq p] [DecidableEq p']

theorem finrank_quot {V : Type} [AddCommGroup V] [Module F V] [FiniteDimensional F V] {Z B : Submodule F V} (h : B ≤ Z) :
    finrank F (Z ⧸ B.submoduleOf Z) + finrank F B = finrank F Z := by
  have h1 := Submodule.finrank_quotient_add_finrank (B.submoduleOf Z)
  rw [finrank_submoduleOf, inf_eq_right.2 h] at h1
  exact h1

/-- restriction to the selected coordinates -/
abbrev restr (F : Type) [Field F] (s : n' → n) : (n → F) →ₗ[F] (n' → F) := LinearMap.funLeft F F s

theorem restr_surj {s : n' → n} (hs : Function.Injective s) : Function.Surjective (restr F s) :=
  LinearMap.funLeft_surjective_of_injective F F s hs

theorem ker_restr (s : n' → n) : LinearMap.ker (restr F s) = supported (Set.range s)ᶜ := by
  ext x
  rw [LinearMap.mem_ker]
  constructor
  · intro h i hi
    rw [Set.notMem_compl_iff] at hi
    obtain ⟨a, rfl⟩ := hi
    exact congrFun h a
  · intro h
    funext a
    exact h (s a) (by rw [Set.notMem_compl_iff]; exact ⟨a, rfl⟩)

theorem exists_supported {s : n' → n} (hs : Function.Injective s) (y : n' → F) : ∃ x ∈ supported (F := F) (Set.range s), restr F s x = y := by
  classical
  refine ⟨fun i => if h : ∃ a, s a = i then y h.choose else 0, ?_, ?_⟩
  · intro i hi
    exact dif_neg (fun h => hi h)
  · funext a
    show (if h : ∃ b, s b = s a then y h.choose else 0) = y a
    have : ∃ b, s b = s a := ⟨a, rfl⟩
    rw [dif_pos this, hs this.choose_spec]

/-- restricting a product: `(N y)` restricted along `s` is `N' (y restricted along t)` if the columns outside `t` do not contribute -/
theorem restr_mulVec {s : n' → n} {t : p' → p} (ht : Function.Injective t) {N : Matrix n p F} {N' : Matrix n' p' F}
    (hN : ∀ i j, N' i j = N (s i) (t j)) {y : p → F} (h : ∀ i j, j ∉ Set.range t → N (s i) j * y j = 0) :
    restr F s (N *ᵥ y) = N' *ᵥ restr F t y := by
  funext i
  show ∑ j, N (s i) j * y j = ∑ j, N' i j * y (t j)
  simp only [hN]
  rw [← Finset.sum_image (f := fun j => N (s i) j * y j) (fun a _ b _ e => ht e)]
  symm
  apply Finset.sum_subset (Finset.subset_univ _)
  intro j _ hj
  apply h
  rintro ⟨a, rfl⟩
  exact hj (Finset.mem_image.2 ⟨a, Finset.mem_univ _, rfl⟩)

theorem finrank_sub {s : n' → n} {t : p' → p} (hs : Function.Injective s) (ht : Function.Injective t)
    {M : Matrix r n F} {M' : Matrix r' n' F} {N : Matrix n p F} {N' : Matrix n' p' F} (h0 : M * N = 0) (h0' : M' * N' = 0)
    (hM : ∀ x ∈ supported (F := F) (Set.range s), M *ᵥ x = 0 ↔ M' *ᵥ restr F s x = 0)
    (hN : ∀ y ∈ supported (F := F) (Set.range t), N *ᵥ y ∈ supported (F := F) (Set.range s) ∧ restr F s (N *ᵥ y) = N' *ᵥ restr F t y) :
    finrank F ((LinearMap.ker M.mulVecLin ⊓ supported (Set.range s) : Submodule F (n → F)) ⧸
      ((supported (Set.range t)).map N.mulVecLin).submoduleOf (LinearMap.ker M.mulVecLin ⊓ supported (Set.range s))) =
    finrank F (LinearMap.ker M'.mulVecLin ⧸ (LinearMap.range N'.mulVecLin).submoduleOf (LinearMap.ker M'.mulVecLin)) := by
  have hDk : supported (F := F) (Set.range s) ⊓ LinearMap.ker (restr F s) = ⊥ := by
    rw [ker_restr, eq_bot_iff]
    rintro x ⟨h1, h2⟩
    show x = 0
    funext i
    by_cases hi : i ∈ Set.range s
    · exact h2 i (by rw [Set.notMem_compl_iff]; exact hi)
    · exact h1 i hi
  have hle : (supported (Set.range t)).map N.mulVecLin ≤ LinearMap.ker M.mulVecLin ⊓ supported (Set.range s) := by
    rintro _ ⟨y, hy, rfl⟩
    refine ⟨?_, (hN y hy).1⟩
    show M *ᵥ (N *ᵥ y) = 0
    rw [mulVec_mulVec, h0, zero_mulVec]
  have hle' : LinearMap.range N'.mulVecLin ≤ LinearMap.ker M'.mulVecLin := by
    rintro _ ⟨y, rfl⟩
    show M' *ᵥ (N' *ᵥ y) = 0
    rw [mulVec_mulVec, h0', zero_mulVec]
  have fin : ∀ Z : Submodule F (n → F), Z ≤ supported (Set.range s) → finrank F (Z.map (restr F s)) = finrank F Z := by
    intro Z hZ
    have h := finrank_map_add (restr F s) Z
    have : Z ⊓ LinearMap.ker (restr F s) = ⊥ := by
      rw [eq_bot_iff, ← hDk]; exact inf_le_inf_right _ hZ
    rw [this, finrank_bot, Nat.add_zero] at h
    exact h
  have hZ : (LinearMap.ker M.mulVecLin ⊓ supported (Set.range s)).map (restr F s) = LinearMap.ker M'.mulVecLin := by
    ext y
    constructor
    · rintro ⟨x, ⟨h1, h2⟩, rfl⟩
      exact (hM x h2).1 h1
    · intro hy
      obtain ⟨x, hx, rfl⟩ := exists_supported hs y
      exact ⟨x, ⟨(hM x hx).2 hy, hx⟩, rfl⟩
  have hB : ((supported (Set.range t)).map N.mulVecLin).map (restr F s) = LinearMap.range N'.mulVecLin := by
    ext z
    constructor
    · rintro ⟨_, ⟨y, hy, rfl⟩, rfl⟩
      exact ⟨restr F t y, (hN y hy).2.symm⟩
    · rintro ⟨y', rfl⟩
      obtain ⟨y, hy, rfl⟩ := exists_supported ht y'
      exact ⟨_, ⟨y, hy, rfl⟩, (hN y hy).2⟩
  have q1 := finrank_quot hle
  have q2 := finrank_quot hle'
  have f1 := fin _ (inf_le_right : LinearMap.ker M.mulVecLin ⊓ supported (Set.range s) ≤ _)
  have f2 := fin _ (hle.trans inf_le_right)
  rw [hZ] at f1
  rw [hB] at f2
  omega

theorem finrank_rel {s : n' → n} {t : p' → p} (hs : Function.Injective s) (ht : Function.Injective t)
    {M' : Matrix r' n' F} {N : Matrix n p F} {N' : Matrix n' p' F} (h0' : M' * N' = 0) {Z : Submodule F (n → F)}
    (hM : ∀ x, x ∈ Z ↔ M' *ᵥ restr F s x = 0) (hN : ∀ y, restr F s (N *ᵥ y) = N' *ᵥ restr F t y) :
    finrank F (Z ⧸ (LinearMap.range N.mulVecLin ⊔ supported (Set.range s)ᶜ).submoduleOf Z) =
    finrank F (LinearMap.ker M'.mulVecLin ⧸ (LinearMap.range N'.mulVecLin).submoduleOf (LinearMap.ker M'.mulVecLin)) := by
  rw [← ker_restr]
  have hle' : LinearMap.range N'.mulVecLin ≤ LinearMap.ker M'.mulVecLin := by
    rintro _ ⟨y, rfl⟩
    show M' *ᵥ (N' *ᵥ y) = 0
    rw [mulVec_mulVec, h0', zero_mulVec]
  have hk : LinearMap.ker (restr F s) ≤ Z := by
    intro x hx
    rw [hM, LinearMap.mem_ker.1 hx, mulVec_zero]
  have hle : LinearMap.range N.mulVecLin ⊔ LinearMap.ker (restr F s) ≤ Z := by
    refine sup_le ?_ hk
    rintro _ ⟨y, rfl⟩
    show N *ᵥ y ∈ Z
    rw [hM, hN, mulVec_mulVec, h0', zero_mulVec]
  have hZ : Z.map (restr F s) = LinearMap.ker M'.mulVecLin := by
    ext y
    constructor
    · rintro ⟨x, hx, rfl⟩
      exact (hM x).1 hx
    · intro hy
      obtain ⟨x, rfl⟩ := restr_surj hs y
      exact ⟨x, (hM x).2 hy, rfl⟩
  have hB : (LinearMap.range N.mulVecLin ⊔ LinearMap.ker (restr F s)).map (restr F s) = LinearMap.range N'.mulVecLin := by
    ext z
    rw [Submodule.map_sup]
    have : (LinearMap.ker (restr F s)).map (restr F s) = ⊥ := by
      rw [eq_bot_iff]; rintro _ ⟨x, hx, rfl⟩; exact hx
    rw [this, sup_bot_eq]
    constructor
    · rintro ⟨_, ⟨y, rfl⟩, rfl⟩
      exact ⟨restr F t y, (hN y).symm⟩
    · rintro ⟨y', rfl⟩
      obtain ⟨y, rfl⟩ := restr_surj ht y'
      exact ⟨_, ⟨y, rfl⟩, hN y⟩
  have q1 := finrank_quot hle
  have q2 := finrank_quot hle'
  have f1 := finrank_map_add (restr F s) Z
  have f2 := finrank_map_add (restr F s) (LinearMap.range N.mulVecLin ⊔ LinearMap.ker (restr F s))
  rw [hZ, inf_eq_right.2 hk] at f1
  rw [hB, inf_eq_right.2 le_sup_right] at f2
  omega

end BATS
