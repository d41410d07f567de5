import Verif.Model.CellComplex
import Verif.Spec.Homology
import Mathlib.LinearAlgebra.Matrix.Rank

/-! # Specification of cell complexes: what a history of calls describes -/

namespace BATS
namespace CellCpx

/-- faces and coefficients of the cells of dimension `k + 1` added in the history, in order -/
def cellsOf (os : List Op) (k : Nat) : List (List Nat × List Int) :=
  os.filterMap fun o => match o with
    | .add b c (k' + 1) => if k' = k then some (b, c) else none
    | _ => none

/-- number of vertices added -/
def vertexCount : List Op → Nat
  | [] => 0
  | .vertex :: os => vertexCount os + 1
  | .vertices k :: os => vertexCount os + k
  | .add _ _ 0 :: os => vertexCount os + 1
  | .add _ _ (_ + 1) :: os => vertexCount os

/-- number of cells of dimension `k` added -/
def count (os : List Op) : Nat → Nat
  | 0 => vertexCount os
  | k + 1 => (cellsOf os k).length

/-- `D` is the largest dimension: the one given to the constructor or that of a call of `add` -/
def IsTop (D0 : Nat) (os : List Op) (D : Nat) : Prop :=
  (D0 ≤ D ∧ ∀ b c k, Op.add b c k ∈ os → k ≤ D) ∧ (D = D0 ∨ ∃ b c, Op.add b c D ∈ os)

/-- the number a call returns after the history `os`: the index of the new cell; `add_vertices` returns the number of vertices -/
def answer (os : List Op) : Op → Nat
  | .vertex => count os 0
  | .vertices k => count os 0 + k
  | .add _ _ k => count os k

/-- the answers to the calls `os` after the history `pre` -/
def answers (pre : List Op) : List Op → List Nat
  | [] => []
  | o :: os => answer pre o :: answers (pre ++ [o]) os

/-- faces and coefficients of a cell have the same number -/
def ValidOp : Op → Prop
  | .add b c k => 0 < k → b.length = c.length
  | _ => True

/-- incidence of cell `j` of dimension `k + 1` with cell `i` of dimension `k` -/
def incidence (os : List Op) (k i j : Nat) : Int :=
  match (cellsOf os k)[j]? with
  | some (b, c) => ((b.zip c).map fun p => if p.1 = i then p.2 else 0).sum
  | none => 0

/-- the history describes a cell complex over `F`: the faces of a cell are distinct and exist, the coefficients are not zero in `F`, and the
boundary of the boundary of a cell is zero -/
structure Good (F : Type) [Field F] (os : List Op) : Prop where
  distinct : ∀ k b c, (b, c) ∈ cellsOf os k → b.Nodup
  exist : ∀ k b c, (b, c) ∈ cellsOf os k → ∀ x ∈ b, x < count os k
  unit : ∀ k b c, (b, c) ∈ cellsOf os k → ∀ a ∈ c, (a : F) ≠ 0
  sq : ∀ k i j, j < count os (k + 2) → ∑ m ∈ Finset.range (count os (k + 1)), (incidence os k i m : F) * (incidence os (k + 1) m j : F) = 0

end CellCpx
end BATS

namespace BATS
namespace CellCpx

/-- the boundary matrix from dimension `k + 1` to dimension `k` described by the history -/
def cellBoundary (F : Type) [Field F] (os : List Op) (k : Nat) : Matrix (Fin (count os k)) (Fin (count os (k + 1))) F :=
  fun i j => (incidence os k i j : F)

/-- `b` is the dimension of homology in dimension `k`: number of cells minus the ranks of the two adjacent boundary matrices -/
def IsBetti (F : Type) [Field F] (os : List Op) (b : Nat) : Nat → Prop
  | 0 => b + Matrix.rank (cellBoundary F os 0) = count os 0
  | k + 1 => b + Matrix.rank (cellBoundary F os (k + 1)) + Matrix.rank (cellBoundary F os k) = count os (k + 1)

end CellCpx
end BATS
