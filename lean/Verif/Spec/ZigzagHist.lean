import Verif.Model.ZigzagHist
import Verif.Spec.ZigzagExt
import Verif.Spec.Filtration

/-!
# Specification: histories of additions to a zigzag filtration

A filtration is specified by a function `iv` from simplices to lists of intervals; a simplex is absent if its list is empty.
-/

namespace BATS
namespace Zigzag

variable {T : Type}

/-- add one simplex: allowed for vertices and for simplices whose codimension-one faces are present; appends an interval to its list -/
def specAdd (iv : List Nat → List (T × T)) (p : T × T) (s : List Nat) : Option (List Nat → List (T × T)) :=
  open Classical in
  if s.length = 1 ∨ ∀ k, k < s.length → iv (s.eraseIdx k) ≠ [] then some (fun u => if u = s then iv s ++ [p] else iv u) else none

/-- add one simplex with its faces: if it is present only its own list gets the interval, otherwise it and its missing faces get the interval -/
def specAddRec (iv : List Nat → List (T × T)) (p : T × T) (s : List Nat) : List Nat → List (T × T) :=
  open Classical in
  if iv s ≠ [] then fun u => if u = s then iv s ++ [p] else iv u
  else fun u => if u ≠ [] ∧ u.Sublist s ∧ iv u = [] then [p] else iv u

/-- what a call does; `none`: the call is not allowed -/
def specStep (iv : List Nat → List (T × T)) : ZOp T → Option (List Nat → List (T × T))
  | .add p s => specAdd iv p (s.mergeSort (· ≤ ·))
  | .addRecursive p s => some (specAddRec iv p (s.mergeSort (· ≤ ·)))

/-- a history -/
def specRun : (List Nat → List (T × T)) → List (ZOp T) → Option (List Nat → List (T × T))
  | iv, [] => some iv
  | iv, o :: os => (specStep iv o).bind (fun iv' => specRun iv' os)

/-- the simplex passed to a call -/
def ZOp.simplex : ZOp T → List Nat
  | .add _ s | .addRecursive _ s => s

/-- the queries on `Φ` describe exactly `iv`: the complex consists of the simplices with intervals, and the intervals stored at the index of a simplex are its
intervals -/
structure HistRepresents (Φ : ZFilt T) (iv : List Nat → List (T × T)) : Prop where
  cpx : SCpx.Represents Φ.X {s | iv s ≠ []}
  count : ∀ d, d < Φ.val.length → Φ.X.numCells d = .ok (Φ.val.getD d []).length
  value : ∀ s i, s ≠ [] → Φ.X.findIdx s = some i → intervals Φ.val (s.length - 1) i = iv s

variable [LinearOrder T]

/-- the intervals of each simplex are disjoint and increasing, and each lies in an interval of every codimension-one face -/
structure IsValid (iv : List Nat → List (T × T)) : Prop where
  le : ∀ s, ∀ v ∈ iv s, v.1 ≤ v.2
  disjoint : ∀ s, (iv s).Pairwise (fun v w => v.2 < w.1)
  closed : ∀ s k, 2 ≤ s.length → k < s.length → ∀ v ∈ iv s, ∃ w ∈ iv (s.eraseIdx k), w.1 ≤ v.1 ∧ v.2 ≤ w.2

/-- moreover the first interval of a simplex lies in the first interval of each codimension-one face, and further intervals are not single points -/
structure IsTreatable (iv : List Nat → List (T × T)) : Prop extends IsValid iv where
  first : ∀ s k, 2 ≤ s.length → k < s.length → ∀ v, (iv s).head? = some v → ∃ w, (iv (s.eraseIdx k)).head? = some w ∧ w.1 ≤ v.1 ∧ v.2 ≤ w.2
  strict : ∀ s, ∀ v ∈ (iv s).tail, v.1 < v.2

end Zigzag
end BATS
