import Verif.Model.ZZLevelsets
import Verif.Props.ZigzagHist
import Verif.Props.RipsDiagram
import Verif.Proofs.Pair1
import Mathlib.Algebra.Order.Archimedean.Basic

set_option linter.unusedSectionVars false
set_option linter.unusedVariables false
set_option linter.unusedSimpArgs false

/-! # Zigzags of level sets: proofs -/

namespace BATS
namespace Zigzag
open SCpx Reduction

section windows
variable {T : Type} [LinearOrder T] [AddCommGroup T] [IsOrderedAddMonoid T]

/-- the rest of the list of windows: `m` steps from `a` on -/
def winList (eps a : T) : Nat → List (T × T)
  | 0 => []
  | m + 1 => (a, a + (eps + eps)) :: (a + eps, a + eps + eps) :: winList eps (a + eps) m

theorem windowLoop_steps (eps t1 : T) : ∀ (m : Nat) (a : T) (f : Nat), m < f → (∀ j < m, a + j • eps < t1 - eps) → ¬ a + m • eps < t1 - eps →
    windowLoop eps t1 f a = .ok (winList eps a m) := by
  intro m
  induction m with
  | zero =>
    intro a f hf _ h
    obtain ⟨f, rfl⟩ : ∃ g, f = g + 1 := ⟨f - 1, by omega⟩
    rw [windowLoop, if_neg (by simpa using h)]; rfl
  | succ m ih =>
    intro a f hf h1 h2
    obtain ⟨f, rfl⟩ : ∃ g, f = g + 1 := ⟨f - 1, by omega⟩
    rw [windowLoop, if_pos (by simpa using h1 0 (by omega))]
    have e : ∀ j : Nat, a + eps + j • eps = a + (j + 1) • eps := by
      intro j
      rw [add_assoc, add_comm eps, ← succ_nsmul]
    rw [ih (a + eps) f (by omega) (fun j hj => by rw [e]; exact h1 (j + 1) (by omega)) (by rw [e]; exact h2)]
    rfl

theorem winList_length (eps : T) : ∀ (m : Nat) (a : T), (winList eps a m).length = 2 * m
  | 0, _ => rfl
  | m + 1, a => by simp only [winList, List.length_cons, winList_length eps m]; omega

theorem winList_get (eps : T) : ∀ (m : Nat) (a : T) (j : Nat), j < m →
    (winList eps a m)[2 * j]? = some (a + j • eps, a + (j + 2) • eps) ∧ (winList eps a m)[2 * j + 1]? = some (a + (j + 1) • eps, a + (j + 2) • eps)
  | 0, _, j, h => by omega
  | m + 1, a, 0, _ => by
    have e2 : (0 + 2) • eps = eps + eps := by rw [Nat.zero_add, two_nsmul]
    refine ⟨?_, ?_⟩
    · show some (a, a + (eps + eps)) = _
      rw [e2, zero_nsmul, add_zero]
    · show some (a + eps, a + eps + eps) = _
      rw [e2, Nat.zero_add, one_nsmul, add_assoc]
  | m + 1, a, j + 1, h => by
    obtain ⟨g1, g2⟩ := winList_get eps m (a + eps) j (by omega)
    have e : ∀ j : Nat, a + eps + j • eps = a + (j + 1) • eps := by
      intro j
      rw [add_assoc, add_comm eps, ← succ_nsmul]
    rw [e, e] at g1 g2
    refine ⟨?_, ?_⟩
    · rw [show 2 * (j + 1) = 2 * j + 2 by omega]
      show (winList eps (a + eps) m)[2 * j]? = _
      rw [g1]
    · rw [show 2 * (j + 1) + 1 = 2 * j + 1 + 2 by omega]
      show (winList eps (a + eps) m)[2 * j + 1]? = _
      rw [g2]

theorem windowLoop_diverge (eps t1 : T) (he : eps ≤ 0) : ∀ (f : Nat) (a : T), a < t1 - eps → windowLoop eps t1 f a = .error .diverge := by
  intro f
  induction f with
  | zero => intro a _; rfl
  | succ f ih =>
    intro a h
    rw [windowLoop, if_pos h, ih (a + eps) (lt_of_le_of_lt (add_le_of_nonpos_right he) h)]
    rfl

end windows

section levels
variable {T : Type} [LinearOrder T]

theorem getSimplex_ne {X : SCpx} {k i : Nat} {s : List Nat} (h : X.getSimplex k i = .ok s) : s ≠ [] := by
  unfold getSimplex at h
  cases hr : rd X.spx k with
  | error e => rw [hr] at h; cases h
  | ok v =>
    rw [hr, bind_ok] at h
    split at h
    · cases h
    · rename_i hl
      cases h
      intro e
      have := congrArg List.length e
      rw [List.length_take, List.length_drop, List.length_nil] at this
      have h2 : (k + 1) * (i + 1) = (k + 1) * i + (k + 1) := by ring
      omega

theorem add_reachable {Y : SCpx} {s : List Nat} {r : SCpx × Option Nat} (hY : Reachable Y) (hs : s ≠ []) (h : Y.add s = .ok r) : Reachable r.1 := by
  apply hY.run (ops := [.add s]) (by intro o ho; rw [List.mem_singleton] at ho; subst ho; exact hs)
  show (do let Z ← Y.step (.add s); Z.run [] : Res SCpx) = _
  have : Y.step (.add s) = .ok r.1 := by
    show (do let r ← Y.add s; pure r.1 : Res SCpx) = _
    rw [h]; rfl
  rw [this]; rfl

theorem levelRow_reachable (Φ : ZFilt T) (s0 s1 : T) (k : Nat) : ∀ (n i : Nat) (Y Z : SCpx), Reachable Y → levelRow Φ s0 s1 k n i Y = .ok Z → Reachable Z := by
  intro n
  induction n with
  | zero => intro i Y Z hY h; cases h; exact hY
  | succ n ih =>
    intro i Y Z hY h
    rw [levelRow] at h
    obtain ⟨row, e1, h⟩ := bind_ok_iff.1 h
    obtain ⟨v, e2, h⟩ := bind_ok_iff.1 h
    obtain ⟨p, e3, h⟩ := bind_ok_iff.1 h
    split at h
    · obtain ⟨s, e4, h⟩ := bind_ok_iff.1 h
      obtain ⟨r, e5, h⟩ := bind_ok_iff.1 h
      exact ih _ _ _ (add_reachable hY (getSimplex_ne e4) e5) h
    · exact ih _ _ _ hY h

theorem levelLoop_reachable (Φ : ZFilt T) (s0 s1 : T) : ∀ (n k : Nat) (Y Z : SCpx), Reachable Y → levelLoop Φ s0 s1 n k Y = .ok Z → Reachable Z := by
  intro n
  induction n with
  | zero => intro k Y Z hY h; cases h; exact hY
  | succ n ih =>
    intro k Y Z hY h
    rw [levelLoop] at h
    obtain ⟨m, e1, h⟩ := bind_ok_iff.1 h
    obtain ⟨Y', e2, h⟩ := bind_ok_iff.1 h
    exact ih _ _ _ (levelRow_reachable Φ s0 s1 k _ _ _ _ hY e2) h

theorem levelset_reachable {Φ : ZFilt T} {s0 s1 : T} {Y : SCpx} (h : levelset Φ s0 s1 = .ok Y) : Reachable Y :=
  levelLoop_reachable Φ s0 s1 _ _ _ _ ⟨_, [], by simp, rfl⟩ h

end levels

end Zigzag
end BATS
