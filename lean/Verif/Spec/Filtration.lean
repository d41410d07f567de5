import Verif.Model.Filtration
import Verif.Spec.Simplicial

/-!
# Specification: histories of additions to a filtration

A filtered complex is specified by a partial function `v` from simplices to values: `v s = some t` if `s` is present with value
`t`, `v s = none` if it is absent.
-/

namespace BATS
namespace Filt

variable {T : Type}

/-- add one simplex: allowed for vertices and for simplices whose codimension-one faces are present; sets its value -/
def specAdd (v : List Nat → Option T) (t : T) (s : List Nat) : Option (List Nat → Option T) :=
  open Classical in
  if s.length = 1 ∨ ∀ k, k < s.length → v (s.eraseIdx k) ≠ none then some (fun u => if u = s then some t else v u) else none

/-- add one simplex with its faces: if it is present its value is replaced, otherwise it and its missing faces get the value -/
def specAddRec (v : List Nat → Option T) (t : T) (s : List Nat) : List Nat → Option T :=
  open Classical in
  if v s ≠ none then fun u => if u = s then some t else v u
  else fun u => if u ≠ [] ∧ u.Sublist s ∧ v u = none then some t else v u

/-- what a call does to the partial function; `none`: the call is not allowed -/
def specStep (v : List Nat → Option T) : Op T → Option (List Nat → Option T)
  | .add t s => specAdd v t (s.mergeSort (· ≤ ·))
  | .addDirected t s => specAdd v t s
  | .addRecursive t s => some (specAddRec v t (s.mergeSort (· ≤ ·)))

/-- a history -/
def specRun : (List Nat → Option T) → List (Op T) → Option (List Nat → Option T)
  | v, [] => some v
  | v, o :: os => (specStep v o).bind (fun v' => specRun v' os)

/-- the simplex passed to a call -/
def Op.simplex : Op T → List Nat
  | .add _ s | .addDirected _ s | .addRecursive _ s => s

/-- the queries on `Φ` describe exactly `v`: the complex consists of the simplices with a value, the filtration has as many
values as cells in every dimension, and the value stored at the index of a simplex is its value. -/
structure Represents (Φ : Filt T) (v : List Nat → Option T) : Prop where
  cpx : SCpx.Represents Φ.X {s | v s ≠ none}
  count : ∀ d, d < Φ.val.length → Φ.numCells d = Φ.X.numCells d
  value : ∀ s i, s ≠ [] → Φ.X.findIdx s = some i → ∃ row, Φ.vals (s.length - 1) = .ok row ∧ row[i]? = v s

/-- no simplex has a smaller value than one of its faces -/
def Monotone [LinearOrder T] (v : List Nat → Option T) : Prop :=
  ∀ s u : List Nat, u ≠ [] → u.Sublist s → ∀ x, v s = some x → ∃ y, v u = some y ∧ y ≤ x

/-- `s` and all its faces are present with value at most `a` -/
def Good [LinearOrder T] (v : List Nat → Option T) (a : T) (s : List Nat) : Prop :=
  s ≠ [] ∧ ∀ u : List Nat, u ≠ [] → u.Sublist s → ∃ y, v u = some y ∧ y ≤ a

end Filt

/-- `r` is a vertex of `s` of maximal value, with its value -/
def IsMaxVertex {T : Type} [LinearOrder T] (f0 : List T) (s : List Nat) (r : T × Nat) : Prop :=
  r.2 ∈ s ∧ f0[r.2]? = some r.1 ∧ ∀ j ∈ s, ∃ y, f0[j]? = some y ∧ y ≤ r.1

end BATS
