import Verif.Model.ZZLevelsets
import Verif.Spec.ZigzagHist
import Verif.Spec.Diagram

/-! # Specification of zigzags of level sets -/

namespace BATS
namespace Zigzag

variable {T : Type} [LinearOrder T]

/-- the simplices all of whose faces have a first interval with an end strictly between `w.1` and `w.2` -/
def WindowCells (iv : List Nat → List (T × T)) (w : T × T) : Set (List Nat) :=
  {s | s ≠ [] ∧ ∀ u : List Nat, u ≠ [] → u.Sublist s → ∃ v, (iv u).head? = some v ∧ ((w.1 < v.1 ∧ v.1 < w.2) ∨ (w.1 < v.2 ∧ v.2 < w.2))}

/-- `sets` are the windows of width `eps` from `t0` on until `t1` is reached, alternating with the unions of two consecutive windows -/
structure IsWindows [AddCommGroup T] (eps t0 t1 : T) (m : Nat) (sets : List (T × T)) : Prop where
  len : sets.length = 2 * m + 1
  even : ∀ j, j ≤ m → sets[2 * j]? = some (t0 + j • eps, t0 + (j + 1) • eps)
  odd : ∀ j, j < m → sets[2 * j + 1]? = some (t0 + j • eps, t0 + (j + 2) • eps)
  covers : t1 ≤ t0 + (m + 1) • eps
  least : ∀ j, j < m → t0 + (j + 1) • eps < t1

/-- `TD` is the zigzag of the level sets of the windows as complexes of dimension `D`, with inclusions from every window into the unions it is part of -/
structure IsLevelZigzag (iv : List Nat → List (T × T)) (D : Nat) (sets : List (T × T)) (TD : Diagram SCpx (List (CMat Int))) : Prop where
  nodes : TD.node.length = sets.length
  edges : TD.edata.length = sets.length - 1
  elist : TD.elist = (List.range (sets.length - 1)).map fun i => if i % 2 = 0 then (i, i + 1) else (i + 1, i)
  node : ∀ (i : Nat) (w : T × T), sets[i]? = some w → ∃ X, TD.node[i]? = some X ∧ SCpx.Reachable X ∧ X.maxdim = D ∧ SCpx.Represents X (WindowCells iv w)
  edge : ∀ (i : Nat) (st : Nat × Nat) (f : List (CMat Int)), TD.elist[i]? = some st → TD.edata[i]? = some f → ∃ X Y, TD.node[st.1]? = some X ∧
    TD.node[st.2]? = some Y ∧ SMap.Contained X Y ∧ SMap.inclusion X Y = .ok f

end Zigzag
end BATS
