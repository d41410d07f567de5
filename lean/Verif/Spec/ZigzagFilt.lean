import Verif.Spec.Zigzag
import Mathlib.Order.Defs.LinearOrder

set_option linter.unusedSectionVars false

/-!
# Specification: zigzag filtrations of a cell complex

Each cell is present during a finite list of closed intervals `[entry, exit]`. `X_t` is the complex of the cells one of whose intervals contains `t`.
-/

namespace BATS
namespace Zigzag

variable {F : Type} [Field F] {T : Type} [LinearOrder T]

/-- the intervals of cell `i` of dimension `k` -/
def intervals (vals : List (List (List (T × T)))) (k i : Nat) : List (T × T) := (vals.getD k []).getD i []

/-- a zigzag filtration of the complex `B`: every cell has at least one interval, the intervals of a cell are disjoint and listed in increasing order, and
every interval of a cell is contained in an interval of each cell in its boundary -/
structure IsZigzagFiltration (B : List (CMat F)) (vals : List (List (List (T × T)))) : Prop where
  len : vals.length = B.length
  lens : ∀ k, k < B.length → (vals.getD k []).length = cdim B k
  ne : ∀ k i, i < cdim B k → intervals vals k i ≠ []
  le : ∀ k i, ∀ v ∈ intervals vals k i, v.1 ≤ v.2
  disjoint : ∀ k i, (intervals vals k i).Pairwise (fun v w => v.2 < w.1)
  closed : ∀ k i j, ent B (k + 1) i j ≠ 0 → ∀ v ∈ intervals vals (k + 1) j, ∃ w ∈ intervals vals k i, w.1 ≤ v.1 ∧ v.2 ≤ w.2

/-- the filtrations which the code treats correctly: the first interval of a cell lies in the first interval of each cell of its boundary (only the columns
for further intervals are redirected to the right copies of their faces), and further intervals are not single points -/
structure Treatable (B : List (CMat F)) (vals : List (List (List (T × T)))) : Prop extends IsZigzagFiltration B vals where
  first : ∀ k i j, ent B (k + 1) i j ≠ 0 → ∀ v, (intervals vals (k + 1) j).head? = some v → ∃ w, (intervals vals k i).head? = some w ∧ w.1 ≤ v.1 ∧ v.2 ≤ w.2
  strict : ∀ k i, ∀ v ∈ (intervals vals k i).tail, v.1 < v.2

/-- every cell has exactly one interval -/
def SingleIntervals (vals : List (List (List (T × T)))) : Prop := ∀ vk ∈ vals, ∀ l ∈ vk, l.length = 1

/-- the cells of `X_t` -/
def cellsAt (B : List (CMat F)) (vals : List (List (List (T × T)))) (k : Nat) (t : T) : Set (Fin (cdim B k)) :=
  {i | ∃ v ∈ intervals vals k i, v.1 ≤ t ∧ t ≤ v.2}

/-- cycles of `X_t` -/
def cyclesIn (B : List (CMat F)) (vals : List (List (List (T × T)))) (k : Nat) (t : T) : Submodule F (Fin (cdim B k) → F) :=
  cycles B k ⊓ supported (cellsAt B vals k t)

/-- boundaries of `X_t` -/
def boundariesIn (B : List (CMat F)) (vals : List (List (List (T × T)))) (k : Nat) (t : T) : Submodule F (Fin (cdim B k) → F) :=
  (supported (cellsAt B vals (k + 1) t)).map (bdryUp B k).mulVecLin

/-- `dim H_k(X_t)` -/
noncomputable def bettiIn (B : List (CMat F)) (vals : List (List (List (T × T)))) (k : Nat) (t : T) : Nat :=
  Module.finrank F (cyclesIn B vals k t ⧸ (boundariesIn B vals k t).submoduleOf (cyclesIn B vals k t))

/-- `es` lists the entries and exits of the cells, one event for each end of each interval, sorted by time with entries before exits, and after any number of
events the cells present form a subcomplex -/
structure IsFiltrationOrder (B : List (CMat F)) (vals : List (List (List (T × T)))) (es : List (Event T)) : Prop where
  events : ∀ k i x b, (∃ e ∈ es, e.dim = k ∧ e.ind = i ∧ e.val = x ∧ e.entry = b) ↔ ∃ v ∈ intervals vals k i, x = if b then v.1 else v.2
  once : es.Pairwise (fun a b => ¬ (a.dim = b.dim ∧ a.ind = b.ind ∧ a.val = b.val ∧ a.entry = b.entry))
  sorted : es.Pairwise (fun a b => a.val < b.val ∨ (a.val = b.val ∧ (a.entry = true ∨ b.entry = false)))
  sub : ∀ n k c j, j ∈ present (es.take n) (k + 1) → ent B (k + 1) c j ≠ 0 → c ∈ present (es.take n) k

/-- the number of dimensions reported by `barcode`: all but the last one by default, otherwise the dimensions up to `maxdim` -/
def ndims (B : List (CMat F)) : Option Nat → Nat
  | none => B.length - 1
  | some m => m + 1

/-- a reported pair is alive at `t`: a bar born with the entry of a cell contains its left end, one born with an exit does not; a bar which dies with an
exit contains its right end, one which dies with an entry does not -/
def ZPair.AliveAt (p : ZPair T) (t : T) : Prop :=
  (if p.birthIsEntry then p.birth ≤ t else p.birth < t) ∧ ∀ d, p.death = some d → if p.deathIsEntry then t < d else t ≤ d

instance (p : ZPair T) (t : T) : Decidable (p.AliveAt t) := by
  unfold ZPair.AliveAt
  rcases h : p.death with _ | d
  · exact decidable_of_iff (if p.birthIsEntry then p.birth ≤ t else p.birth < t) (by simp)
  · exact decidable_of_iff ((if p.birthIsEntry then p.birth ≤ t else p.birth < t) ∧ if p.deathIsEntry then t < d else t ≤ d) (by simp)

end Zigzag
end BATS
