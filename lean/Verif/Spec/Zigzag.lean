import Verif.Model.Zigzag
import Verif.Spec.Persistence

set_option linter.unusedSectionVars false

/-!
# Specification: zigzag filtrations of a chain complex and their interval decompositions

Cells of a fixed chain complex `B` enter and leave one at a time. Time `i` is the moment after the first `i` events; `X_i` is the complex of the cells
present at time `i`. An entry at position `i` gives the inclusion `X_i ⊆ X_{i+1}`, an exit the inclusion `X_{i+1} ⊆ X_i`; applying homology yields a
zigzag diagram of vector spaces `H_k(X_0), H_k(X_1), …`.
-/

namespace BATS
namespace Zigzag

variable {F : Type} [Field F] {T : Type}

/-- the cells of dimension `k` which are present after the events `es` -/
def present (es : List (Event T)) (k : Nat) : Finset Nat :=
  es.foldl (fun S e => if e.dim = k then (if e.entry then insert e.ind S else S.erase e.ind) else S) ∅

/-- the event `e` may follow the events `pre`: an entering cell exists, has not occurred before and its boundary is present; a leaving cell is present, it
is not in the boundary of a cell which is present, and it is the last one in the order of its dimension. -/
def StepOK (B : List (CMat F)) (pre : List (Event T)) (e : Event T) : Prop :=
  e.dim < B.length ∧ e.ind < cdim B e.dim ∧
  if e.entry then
    (∀ f ∈ pre, ¬ (f.dim = e.dim ∧ f.ind = e.ind)) ∧ ∀ k, e.dim = k + 1 → ∀ i, ent B (k + 1) i e.ind ≠ 0 → i ∈ present pre k
  else
    e.ind ∈ present pre e.dim ∧ (∀ j ∈ present pre e.dim, j ≤ e.ind) ∧ ∀ j ∈ present pre (e.dim + 1), ent B (e.dim + 1) e.ind j = 0

/-- a valid order of entries and exits -/
def IsZigzagOrder (B : List (CMat F)) (es : List (Event T)) : Prop := ∀ pre e post, es = pre ++ e :: post → StepOK B pre e

/-- cycles of `X_i` -/
def cyclesOn (B : List (CMat F)) (es : List (Event T)) (k i : Nat) : Submodule F (Fin (cdim B k) → F) :=
  cycles B k ⊓ supported {c : Fin (cdim B k) | c.val ∈ present (es.take i) k}

/-- boundaries of `X_i` -/
def boundariesOn (B : List (CMat F)) (es : List (Event T)) (k i : Nat) : Submodule F (Fin (cdim B k) → F) :=
  (supported {c : Fin (cdim B (k + 1)) | c.val ∈ present (es.take i) (k + 1)}).map (bdryUp B k).mulVecLin

/-- a bar: born at event `start`, killed by event `stop` (or never) -/
structure Bar where
  start : Nat
  stop : Option Nat
  deriving DecidableEq, Repr

/-- the bar is alive at time `i` -/
def Bar.At (b : Bar) (i : Nat) : Prop := b.start < i ∧ ∀ s, b.stop = some s → i ≤ s

instance (b : Bar) (i : Nat) : Decidable (b.At i) := by
  unfold Bar.At
  rcases b with ⟨a, _ | s⟩
  · exact decidable_of_iff (a < i) (by simp)
  · exact decidable_of_iff (a < i ∧ i ≤ s) (by simp)

/-- the bars alive at time `i` -/
def alive (iv : List Bar) (i : Nat) : Finset Nat := (Finset.range iv.length).filter (fun b => (iv.getD b ⟨0, none⟩).At i)

/-- the cycles `v i b` of the bars `iv` decompose the zigzag of the spaces `Z i / W i`, `i ≤ N`, with arrows to the right at the positions with
`dir i = true`: at each time `i` the classes of the cycles of the bars alive at `i` form a basis, and each arrow sends the class of a bar to the class of
the same bar if the bar is alive on the other side, and to 0 otherwise. -/
structure Decomposes {V : Type} [AddCommGroup V] [Module F V] (Z W : Nat → Submodule F V) (dir : Nat → Bool) (N : Nat) (iv : List Bar)
    (v : Nat → Nat → V) : Prop where
  mem : ∀ i, i ≤ N → ∀ b ∈ alive iv i, v i b ∈ Z i
  span : ∀ i, i ≤ N → ∀ z ∈ Z i, ∃ c : Nat → F, z - ∑ b ∈ alive iv i, c b • v i b ∈ W i
  indep : ∀ i, i ≤ N → ∀ c : Nat → F, ∑ b ∈ alive iv i, c b • v i b ∈ W i → ∀ b ∈ alive iv i, c b = 0
  right : ∀ i, i < N → dir i = true → ∀ b ∈ alive iv i, v i b - (if b ∈ alive iv (i + 1) then v (i + 1) b else 0) ∈ W (i + 1)
  left : ∀ i, i < N → dir i = false → ∀ b ∈ alive iv (i + 1), v (i + 1) b - (if b ∈ alive iv i then v i b else 0) ∈ W i

/-- is event `i` an entry? -/
def isEntry (es : List (Event T)) (i : Nat) : Bool := ((es[i]?).map (fun e => e.entry)).getD true

/-- `iv` is an interval decomposition of the zigzag `H_k(X_0), …, H_k(X_N)` -/
def IsZigzagBarcode (B : List (CMat F)) (es : List (Event T)) (k : Nat) (iv : List Bar) : Prop :=
  (∀ b ∈ iv, b.start < es.length ∧ ∀ s, b.stop = some s → b.start < s ∧ s < es.length) ∧
  ∃ v, Decomposes (F := F) (cyclesOn B es k) (boundariesOn B es k) (isEntry es) es.length iv v

/-- the `ZigzagPair` reported for a bar -/
def pairOf (es : List (Event T)) (k : Nat) (b : Bar) : Option (ZPair T) := do
  let e ← es[b.start]?
  match b.stop with
  | none => pure ⟨k, e.cind, none, e.val, none, e.entry, true⟩
  | some s => do
    let f ← es[s]?
    pure ⟨k, e.cind, some f.cind, e.val, some f.val, e.entry, f.entry⟩

end Zigzag
end BATS
