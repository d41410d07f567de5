import Verif.Model.Quiver
import Verif.Spec.Vec
import Verif.Spec.Reduction
import Mathlib.LinearAlgebra.Dimension.Finrank
import Mathlib.LinearAlgebra.LinearIndependent.Defs
import Mathlib.LinearAlgebra.Pi

/-!
# Specification: zigzag diagrams of vector spaces, interval decompositions, ranks

Nodes `0, …, m`, node `k` carries the space `F^(d k)`; edge `k` is an arrow between node `k` and node `k + 1`, in one of the two directions.
-/

namespace BATS
namespace Quiver

variable {F : Type} [Field F]

/-- is edge `k` an arrow from node `k + 1` to node `k`? -/
def left (D : Dgm F) (k : Nat) : Bool := decide ((D.elist.getD k (0, 0)).2 < (D.elist.getD k (0, 0)).1)

/-- the matrix on edge `k` -/
def edge (D : Dgm F) (k : Nat) : CMat F := D.edata.getD k ⟨0, []⟩

/-- the diagram is a zigzag of spaces `F^(d 0), …, F^(d m)`: edge `k` joins the nodes `k` and `k + 1` and its matrix has the matching size -/
structure IsZigzag (D : Dgm F) (d : Nat → Nat) : Prop where
  ne : D.edata ≠ []
  len : D.elist.length = D.edata.length
  ends : ∀ k, k < D.edata.length → D.elist.getD k (0, 0) = (k + 1, k) ∨ D.elist.getD k (0, 0) = (k, k + 1)
  shape : ∀ k, k < D.edata.length → if left D k then (edge D k).Shape (d k) (d (k + 1)) else (edge D k).Shape (d (k + 1)) (d k)

/-- the arrow on edge `k` sends one of the vectors `x` (at node `k`), `y` (at node `k + 1`) to the other -/
def Matches (D : Dgm F) (d : Nat → Nat) (k : Nat) (x : Fin (d k) → F) (y : Fin (d (k + 1)) → F) : Prop :=
  if left D k then ((edge D k).mat (d k) (d (k + 1))).mulVec y = x else ((edge D k).mat (d (k + 1)) (d k)).mulVec x = y

/-- the bar is alive at node `k` -/
def _root_.BATS.QBar.At (b : QBar) (k : Nat) : Prop := b.start ≤ k ∧ k ≤ b.stop

instance (b : QBar) (k : Nat) : Decidable (b.At k) := by unfold QBar.At; infer_instance

/-- `bars` is an interval decomposition of the diagram: every bar `i` has a vector `v k i` at each node `k` where it is alive, these vectors form a
basis at every node, and the arrows send the vector of a bar to the vector of the same bar if the bar is alive at the target, and to 0 otherwise. -/
def IsDecomposition (D : Dgm F) (d : Nat → Nat) (bars : List QBar) : Prop :=
  (∀ b ∈ bars, b.start ≤ b.stop ∧ b.stop ≤ D.edata.length) ∧
  ∃ v : (k : Nat) → Fin bars.length → Fin (d k) → F,
    (∀ k, k ≤ D.edata.length → LinearIndependent F (fun i : {i : Fin bars.length // bars[i].At k} => v k i.1) ∧
      Submodule.span F (Set.range fun i : {i : Fin bars.length // bars[i].At k} => v k i.1) = ⊤) ∧
    ∀ k, k < D.edata.length → ∀ i : Fin bars.length,
      if left D k then bars[i].At (k + 1) → ((edge D k).mat (d k) (d (k + 1))).mulVec (v (k + 1) i) = if bars[i].At k then v k i else 0
      else bars[i].At k → ((edge D k).mat (d (k + 1)) (d k)).mulVec (v k i) = if bars[i].At (k + 1) then v (k + 1) i else 0

/-- families of vectors which match along all edges between the nodes `b` and `e` -/
def sections (D : Dgm F) (d : Nat → Nat) (b e : Nat) : Submodule F ((k : Nat) → Fin (d k) → F) where
  carrier := {z | ∀ k, b ≤ k → k < e → Matches D d k (z k) (z (k + 1))}
  zero_mem' := by
    intro k _ _
    unfold Matches
    split <;> exact Matrix.mulVec_zero _
  add_mem' := by
    intro x y hx hy k h1 h2
    have a := hx k h1 h2
    have b := hy k h1 h2
    unfold Matches at a b ⊢
    split at a
    · rw [if_pos (by assumption)] at b ⊢; rw [Pi.add_apply, Matrix.mulVec_add, a, b]; rfl
    · rw [if_neg (by assumption)] at b ⊢; rw [Pi.add_apply, Matrix.mulVec_add, a, b]; rfl
  smul_mem' := by
    intro c x hx k h1 h2
    have a := hx k h1 h2
    unfold Matches at a ⊢
    split at a
    · rw [if_pos (by assumption)]; rw [Pi.smul_apply, Matrix.mulVec_smul, a]; rfl
    · rw [if_neg (by assumption)]; rw [Pi.smul_apply, Matrix.mulVec_smul, a]; rfl

/-- the vectors at node `b` which extend to a matching family up to node `e` -/
noncomputable def reach (D : Dgm F) (d : Nat → Nat) (b e : Nat) : Submodule F (Fin (d b) → F) :=
  (sections D d b e).map (LinearMap.proj b)

/-- the vectors at node `b` which extend to a matching family up to node `e` with the value 0 at `e` -/
noncomputable def vanish (D : Dgm F) (d : Nat → Nat) (b e : Nat) : Submodule F (Fin (d b) → F) :=
  (sections D d b e ⊓ LinearMap.ker (LinearMap.proj (R := F) (φ := fun k => Fin (d k) → F) e)).map (LinearMap.proj b)

/-- the rank of the diagram between the nodes `b` and `e`: the rank of the linear relation obtained by composing the arrows and their inverse
relations (for arrows which all point the same way this is the rank of the composed map) -/
noncomputable def zrank (D : Dgm F) (d : Nat → Nat) (b e : Nat) : Nat :=
  Module.finrank F (reach D d b e) - Module.finrank F (vanish D d b e)

/-- the composed map from node `b` to node `e` when all arrows between them point to the right: the product of the matrices -/
noncomputable def composite (D : Dgm F) (d : Nat → Nat) (b : Nat) : (e : Nat) → Matrix (Fin (d e)) (Fin (d b)) F
  | 0 => Matrix.of fun i j => if i.val = j.val then 1 else 0
  | e + 1 => if b = e + 1 then Matrix.of (fun i j => if i.val = j.val then 1 else 0) else (edge D e).mat (d (e + 1)) (d e) * composite D d b e

end Quiver
end BATS
