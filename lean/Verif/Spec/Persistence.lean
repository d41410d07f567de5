import Verif.Spec.Homology
import Mathlib.LinearAlgebra.Quotient.Basic

set_option linter.unusedSectionVars false

/-!
# Specification: filtrations of a chain complex, sublevel homology, persistent Betti numbers

`val` gives the filtration value of every cell: `(val k)[i]` is the value of the `i`-th cell of dimension `k`.
-/

namespace BATS

variable {F : Type _} [Field F] {T : Type _} [LinearOrder T]

/-- one value per cell -/
structure ValuesFor (B : List (CMat F)) (val : List (List T)) : Prop where
  len : val.length = B.length
  lens : ∀ k, k < B.length → (val.getD k []).length = cdim B k

/-- no cell has a smaller value than a cell occurring in its boundary -/
def IsFiltration (B : List (CMat F)) (val : List (List T)) : Prop :=
  ∀ (k : Nat) (i : Fin (cdim B k)) (j : Fin (cdim B (k + 1))) (v w : T), bdryUp B k i j ≠ 0 →
    (val.getD k [])[i.val]? = some v → (val.getD (k + 1) [])[j.val]? = some w → v ≤ w

/-- cells of dimension `k` with filtration value at most `s` -/
def sublevel (B : List (CMat F)) (val : List (List T)) (k : Nat) (s : T) : Set (Fin (cdim B k)) :=
  {i | ∃ v, (val.getD k [])[i.val]? = some v ∧ v ≤ s}

/-- vectors vanishing outside `S` -/
def supported {m : Type _} (S : Set m) : Submodule F (m → F) where
  carrier := {x | ∀ i, i ∉ S → x i = 0}
  zero_mem' := by intro i _; rfl
  add_mem' := by
    intro a b ha hb i hi
    show a i + b i = 0
    rw [ha i hi, hb i hi, add_zero]
  smul_mem' := by
    intro c a ha i hi
    show c * a i = 0
    rw [ha i hi, mul_zero]

/-- cycles of the sublevel complex at `s` -/
def cyclesAt (B : List (CMat F)) (val : List (List T)) (k : Nat) (s : T) : Submodule F (Fin (cdim B k) → F) :=
  cycles B k ⊓ supported (sublevel B val k s)

/-- boundaries of the sublevel complex at `s` -/
def boundariesAt (B : List (CMat F)) (val : List (List T)) (k : Nat) (s : T) : Submodule F (Fin (cdim B k) → F) :=
  (supported (sublevel B val (k + 1) s)).map (bdryUp B k).mulVecLin

/-- homology of the sublevel complex at `s` -/
abbrev HomologyAt (B : List (CMat F)) (val : List (List T)) (k : Nat) (s : T) : Type _ :=
  cyclesAt B val k s ⧸ (boundariesAt B val k s).submoduleOf (cyclesAt B val k s)

theorem sublevel_mono (B : List (CMat F)) (val : List (List T)) (k : Nat) {s t : T} (h : s ≤ t) :
    sublevel B val k s ⊆ sublevel B val k t := fun _ ⟨v, h1, h2⟩ => ⟨v, h1, le_trans h2 h⟩

theorem supported_mono {m : Type _} {S S' : Set m} (h : S ⊆ S') : supported (F := F) S ≤ supported S' :=
  fun _ hx i hi => hx i (fun hS => hi (h hS))

theorem cyclesAt_mono (B : List (CMat F)) (val : List (List T)) (k : Nat) {s t : T} (h : s ≤ t) :
    cyclesAt B val k s ≤ cyclesAt B val k t :=
  inf_le_inf_left _ (supported_mono (sublevel_mono B val k h))

theorem boundariesAt_mono (B : List (CMat F)) (val : List (List T)) (k : Nat) {s t : T} (h : s ≤ t) :
    boundariesAt B val k s ≤ boundariesAt B val k t :=
  Submodule.map_mono (supported_mono (sublevel_mono B val (k + 1) h))

/-- the map on homology induced by the inclusion of the sublevel complex at `s` into that at `t` -/
def persistenceMap (B : List (CMat F)) (val : List (List T)) (k : Nat) {s t : T} (h : s ≤ t) :
    HomologyAt B val k s →ₗ[F] HomologyAt B val k t :=
  Submodule.mapQ _ _ (Submodule.inclusion (cyclesAt_mono B val k h)) (fun _ hx => boundariesAt_mono B val k h hx)

/-- the persistent Betti number: rank of `H_k(X_s) → H_k(X_t)` -/
noncomputable def persistentBetti (B : List (CMat F)) (val : List (List T)) (k : Nat) {s t : T} (h : s ≤ t) : Nat :=
  Module.finrank F (LinearMap.range (persistenceMap B val k h))

end BATS
