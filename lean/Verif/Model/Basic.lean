/-!
# Outcomes

The C++ code can (besides returning) execute undefined behaviour, throw, or loop forever.
The model keeps those three apart from ordinary results: `f x = .ok y` asserts that none of them happens.
`bats::NO_IND` (include/util/common.hpp:9) is modelled as `none`.
-/

namespace BATS

/-- Abnormal outcomes of a C++ function. -/
inductive Err where
  /-- undefined behaviour (out-of-bounds access, signed overflow, invalidated iterator, ...) -/
  | ub
  /-- a C++ exception was thrown -/
  | thrown
  /-- the loop did not finish within the fuel given; theorems show this does not happen -/
  | diverge
  deriving DecidableEq, Repr

/-- Result of running a C++ function. -/
abbrev Res (α : Type _) := Except Err α

/-- Unchecked `std::vector::operator[]` read: out of bounds is undefined behaviour. -/
def rd {α} (l : List α) (i : Nat) : Res α :=
  match l[i]? with
  | some a => .ok a
  | none => .error .ub

/-- Unchecked `std::vector::operator[]` write: out of bounds is undefined behaviour. -/
def wr {α} (l : List α) (i : Nat) (a : α) : Res (List α) :=
  if i < l.length then .ok (l.set i a) else .error .ub

instance {α} [DecidableEq α] : DecidableEq (Res α) := fun a b =>
  match a, b with
  | .ok a, .ok b => if h : a = b then isTrue (by rw [h]) else isFalse (by intro h'; cases h'; exact h rfl)
  | .error a, .error b => if h : a = b then isTrue (by rw [h]) else isFalse (by intro h'; cases h'; exact h rfl)
  | .ok _, .error _ => isFalse (by intro h; cases h)
  | .error _, .ok _ => isFalse (by intro h; cases h)

end BATS
