import Verif.Model.Pairing
import Mathlib.Order.Defs.LinearOrder
import Mathlib.Logic.Relation

/-!
# Specification: histories of pairings

The state is the list of pairs `(d, i, j)` (cell `i` of dimension `d` with cell `j` of dimension `d + 1`), in the order of the calls, and the list of edges
passed to `set_pair_edge` since the construction.
-/

namespace BATS
namespace MPair

structure Hist where
  pairs : List (Nat × Nat × Nat)
  links : List (Nat × Nat)

/-- cell `i` of dimension `d` is in the pair `p` -/
def InPair (d i : Nat) (p : Nat × Nat × Nat) : Prop := (p.1 = d ∧ p.2.1 = i) ∨ (p.1 + 1 = d ∧ p.2.2 = i)

/-- cell `i` of dimension `d` is paired -/
def Paired (ps : List (Nat × Nat × Nat)) (d i : Nat) : Prop := ∃ p ∈ ps, InPair d i p

/-- two vertices are in the same component of the graph -/
def Connected (links : List (Nat × Nat)) : Nat → Nat → Prop := Relation.EqvGen fun a b => (a, b) ∈ links

variable {T : Type} [LinearOrder T] [Inhabited T]

/-- vertex `a` is born before vertex `b`: it has smaller rank or (also if there are no ranks) equal rank and smaller index -/
def Older (rank : Option (List T)) (a b : Nat) : Prop := match rank with
  | none => a < b
  | some r => r.getD a default < r.getD b default ∨ (r.getD a default = r.getD b default ∧ a < b)

/-- `a` is the oldest vertex of the component of `x` -/
def Oldest (rank : Option (List T)) (links : List (Nat × Nat)) (x a : Nat) : Prop :=
  Connected links x a ∧ ∀ y, Connected links x y → y = a ∨ Older rank a y

/-- what a call does -/
def Step (rank : Option (List T)) (s : Hist) (o : Op) (s' : Hist) (b : Bool) : Prop := match o with
  | .pair d i j =>
    ((Paired s.pairs d i ∨ Paired s.pairs (d + 1) j) ∧ b = false ∧ s' = s) ∨
    (¬ Paired s.pairs d i ∧ ¬ Paired s.pairs (d + 1) j ∧ b = true ∧ s' = ⟨s.pairs ++ [(d, i, j)], s.links⟩)
  | .edge i j e =>
    (Connected s.links i j ∧ b = false ∧ s' = ⟨s.pairs, s.links ++ [(i, j)]⟩) ∨
    (¬ Connected s.links i j ∧ b = true ∧ ∃ v w, ((Oldest rank s.links i v ∧ Oldest rank s.links j w) ∨ (Oldest rank s.links j v ∧ Oldest rank s.links i w)) ∧
      Older rank w v ∧ s' = ⟨s.pairs ++ [(0, v, e)], s.links ++ [(i, j)]⟩)
  | .clear => b = false ∧ s' = ⟨[], s.links⟩

/-- what a history of calls does -/
inductive Steps (rank : Option (List T)) : Hist → List Op → Hist → List Bool → Prop where
  | nil (s) : Steps rank s [] s []
  | cons {s s1 s2 o os b bs} : Step rank s o s1 b → Steps rank s1 os s2 bs → Steps rank s (o :: os) s2 (b :: bs)

/-- the arguments of a call are cells -/
def ValidOp (ncells : List Nat) : Op → Prop
  | .pair d i j => d + 1 < ncells.length ∧ i < ncells.getD d 0 ∧ j < ncells.getD (d + 1) 0
  | .edge i j e => 1 < ncells.length ∧ i < ncells.getD 0 0 ∧ j < ncells.getD 0 0 ∧ e < ncells.getD 1 0
  | .clear => True

open Classical in
/-- the answers of the queries -/
structure Answers (M : MPair) (ncells : List Nat) (ps : List (Nat × Nat × Nat)) : Prop where
  isPaired : ∀ d i, d < ncells.length → i < ncells.getD d 0 → M.isPaired d i = .ok (decide (Paired ps d i))
  unpaired : ∀ d, d < ncells.length → M.unpaired d = .ok ((List.range (ncells.getD d 0)).filter fun i => decide (¬ Paired ps d i))
  up : ∀ d, d + 1 < ncells.length → M.upPaired d = .ok ((ps.filter fun p => p.1 = d).map fun p => p.2.1)
  down : ∀ d, d + 1 < ncells.length → M.downPaired (d + 1) = .ok ((ps.filter fun p => p.1 = d).map fun p => p.2.2)
  size : ∀ d, d < ncells.length → M.ncells d = .ok (ncells.getD d 0)

end MPair
end BATS
