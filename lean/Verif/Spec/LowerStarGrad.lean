import Mathlib.Algebra.BigOperators.Group.Finset.Basic
import Mathlib.Algebra.Ring.Defs

/-! # Specification: the entries of flattened persistence diagrams and the vertices they depend on -/

namespace BATS

/-- the vertex recorded for the simplex `i` of dimension `dim` -/
def critVertex (imap : List (List Nat)) (dim : Nat) (i : Int) : Option Nat :=
  if i < 0 then none else (imap[dim]?).bind (fun r => r[i.toNat]?)

/-- entry `k` of the flattened diagram of dimension `dim` is a birth (even `k`) or a death (odd `k`), the value of a simplex of dimension
`dim` or `dim + 1` -/
def entryDim (dim k : Nat) : Nat := dim + k % 2

/-- the indices in `bdinds` fit the gradient `grad`: each entry has an index, which is `-1` or belongs to a simplex whose vertex is below `n`; an
unpaired last birth is followed by the death index `-1` -/
def GradFits (n : Nat) (grad : List (List T)) (bdinds : List (List Int)) (imap : List (List Nat)) : Prop :=
  ∀ dim g, grad[dim]? = some g →
    (∀ k, k < g.length → ∃ i, (bdinds.getD dim [])[k]? = some i ∧ (i = -1 ∨ ∃ v, critVertex imap (entryDim dim k) i = some v ∧ v < n)) ∧
    (g.length % 2 = 1 → (bdinds.getD dim [])[g.length]? = some (-1))

/-- the pairing of a gradient with the diagram in which the value of a simplex is `x` at its recorded vertex; entries with index `-1` are constant -/
def pullback {T : Type} [CommRing T] (grad : List (List T)) (bdinds : List (List Int)) (imap : List (List Nat)) (x : Nat → T) : T :=
  ∑ dim ∈ Finset.range grad.length, ∑ k ∈ Finset.range (grad.getD dim []).length,
    match critVertex imap (entryDim dim k) ((bdinds.getD dim []).getD k (-1)) with
    | none => 0
    | some v => (grad.getD dim []).getD k 0 * x v

/-- the pairing of a gradient with the flattened diagram whose entries are the values `vals` of the simplices; infinite entries (index `-1`) do not count -/
def diagramPairing {T : Type} [CommRing T] (grad : List (List T)) (bdinds : List (List Int)) (vals : List (List T)) : T :=
  ∑ dim ∈ Finset.range grad.length, ∑ k ∈ Finset.range (grad.getD dim []).length,
    if (bdinds.getD dim []).getD k (-1) = -1 then 0
    else (grad.getD dim []).getD k 0 * (vals.getD (entryDim dim k) []).getD ((bdinds.getD dim []).getD k (-1)).toNat 0

end BATS
