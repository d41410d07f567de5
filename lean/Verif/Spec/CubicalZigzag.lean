import Verif.Model.CubicalZigzag
import Verif.Spec.CubicalPersistence

/-!
# Specification: zigzag filtrations of cubical complexes, and of 3D images by voxels
-/

namespace BATS
namespace Zigzag
open Cub

variable {T : Type}

/-- the intervals that a history of additions gives to the cube `s`, in order -/
def intervalsOf (ops : List ((T × T) × List Nat)) (s : List Nat) : List (T × T) := (ops.filter (fun o => o.2 = s)).map Prod.fst

/-- every codimension-one face of a cube is added before the cube -/
def FacesFirst (D : Nat) (ops : List ((T × T) × List Nat)) : Prop :=
  ∀ pre o post, ops = pre ++ o :: post → ∀ i ∈ dirs D o.2, upperFace o.2 i ∈ pre.map Prod.snd ∧ lowerFace o.2 i ∈ pre.map Prod.snd

/-- the queries on `Φ` describe exactly the cubes of `K` with intervals `iv` -/
structure CubHistRepresents (Φ : CZFilt T) (D : Nat) (K : Set (List Nat)) (iv : List Nat → List (T × T)) : Prop where
  cpx : Cub.Represents Φ.X D K
  count : ∀ d, d < Φ.val.length → Φ.X.numCells d = .ok (Φ.val.getD d []).length
  value : ∀ s i, s.length = 2 * D → Φ.X.findIdx s = some i → (Φ.val.getD (cubeDimension D s) [])[i]? = some (iv s)

variable [LinearOrder T]

/-- one of the ends of the first interval lies strictly between `s0` and `s1` -/
def FirstEndIn (s0 s1 : T) (l : List (T × T)) : Prop := ∃ q, l.head? = some q ∧ ((s0 < q.1 ∧ q.1 < s1) ∨ (s0 < q.2 ∧ q.2 < s1))

/-- an image of `n1 × n2 × n3` voxels -/
structure IsImage (img : List (List (List T))) (n1 n2 n3 : Nat) : Prop where
  pos : 0 < n1 ∧ 0 < n2 ∧ 0 < n3
  len : img.length = n1
  row : ∀ r ∈ img, r.length = n2 ∧ ∀ c ∈ r, c.length = n3

/-- the cube `s` lies in the box `[0,n1] × [0,n2] × [0,n3]` -/
def InBox (n1 n2 n3 : Nat) (s : List Nat) : Prop := IsCube 3 s ∧ hi s 0 ≤ n1 ∧ hi s 1 ≤ n2 ∧ hi s 2 ≤ n3

/-- the voxel `p`, a unit cube, contains the cube `s` -/
def VoxelOf (p s : List Nat) : Prop := p.length = 3 ∧ ∀ i, i < 3 → p.getD i 0 ≤ lo s i ∧ hi s i ≤ p.getD i 0 + 1

/-- `b` is the least value of a voxel that contains `s` -/
def IsVoxelMin (img : List (List (List T))) (s : List Nat) (b : T) : Prop :=
  (∃ p, VoxelOf p s ∧ pixel3 img p = some b) ∧ ∀ p y, VoxelOf p s → pixel3 img p = some y → b ≤ y

/-- `d` is the greatest value of a voxel that contains `s` -/
def IsVoxelMax (img : List (List (List T))) (s : List Nat) (d : T) : Prop :=
  (∃ p, VoxelOf p s ∧ pixel3 img p = some d) ∧ ∀ p y, VoxelOf p s → pixel3 img p = some y → y ≤ d

/-- the coordinates, in the plane orthogonal to an edge at `(p, q)`, of the voxel that determines the exit of the edge; `m × n` voxels in the plane. In the
interior it is `(p, q - 1)`. -/
def exitVoxel (m n p q : Nat) : Nat × Nat :=
  if p < m ∧ 0 < q then (p, q - 1) else if 0 < p ∧ q < n then (p - 1, q) else if p < m ∧ q < n then (p, q) else (p - 1, q - 1)

/-- the voxel whose value is the exit of the edge `s` -/
def edgeExit (n1 n2 n3 : Nat) (s : List Nat) : List Nat :=
  if lo s 0 ≠ hi s 0 then [lo s 0, (exitVoxel n2 n3 (lo s 1) (lo s 2)).1, (exitVoxel n2 n3 (lo s 1) (lo s 2)).2]
  else if lo s 1 ≠ hi s 1 then [(exitVoxel n1 n3 (lo s 0) (lo s 2)).1, lo s 1, (exitVoxel n1 n3 (lo s 0) (lo s 2)).2]
  else [(exitVoxel n1 n2 (lo s 0) (lo s 1)).1, (exitVoxel n1 n2 (lo s 0) (lo s 1)).2, lo s 2]

/-- the interval which `zigzag_toplex` gives to a cube: from the least to the greatest value of a voxel that contains it; for edges the exit is the value
of the voxel `edgeExit` instead of the greatest value -/
def ToplexInterval (img : List (List (List T))) (N1 N2 N3 : Nat) (s : List Nat) (p : T × T) : Prop :=
  IsVoxelMin img s p.1 ∧ (cubeDimension 3 s ≠ 1 → IsVoxelMax img s p.2) ∧ (cubeDimension 3 s = 1 → pixel3 img (edgeExit N1 N2 N3 s) = some p.2)

end Zigzag
end BATS
