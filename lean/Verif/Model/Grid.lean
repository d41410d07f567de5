import Verif.Model.Simplicial
import Verif.Model.Cubical
import Verif.Model.Light

/-!
# Model of include/topology/grid.hpp: Freudenthal triangulations and cubical complexes of grids

A loop of calls of `add_recursive` whose results are ignored is `run` on the list of the calls. Loop bounds `n - 1` are subtractions of natural numbers: for
`n = 0` the code wraps around instead (and does not terminate in practice). The constructors `CpxT(n, maxdim)` only reserve space beyond `CpxT(maxdim)`.
-/

namespace BATS
namespace Grid

/-- `for i = i0, .., i1 - 2` or (with `e = 0`) `.., i1 - 1`: the values of one loop variable -/
def steps (i0 i1 e : Nat) : List Nat := List.range' i0 (i1 - e - i0)

/-- two nested loops -/
def loop2 {A : Type} (I J : List Nat) (f : Nat → Nat → List A) : List A := I.flatMap fun i => J.flatMap fun j => f i j

/-- three nested loops -/
def loop3 {A : Type} (I J K : List Nat) (f : Nat → Nat → Nat → List A) : List A := I.flatMap fun i => J.flatMap fun j => K.flatMap fun k => f i j k

/-- grid.hpp:14-15 `rowmajor::get_idx(i, j, n)` -/
def idx2 (i j n : Nat) : Nat := j + n * i

/-- grid.hpp:17-20 `rowmajor::get_idx(i, j, k, n2, n3)` -/
def idx3 (i j k n2 n3 : Nat) : Nat := k + n3 * (j + i * n2)

/-- grid.hpp:39-44: the body of the loop in two dimensions -/
def square (n i j : Nat) : List SCpx.Op :=
  let k1 := idx2 i j n
  let k2 := idx2 (i + 1) j n
  let k3 := idx2 i (j + 1) n
  let k4 := idx2 (i + 1) (j + 1) n
  [.addRecursive [k1, k2, k4], .addRecursive [k1, k3, k4]]

/-- grid.hpp:33-49 `Freudenthal(m, n)` -/
def freudenthal2 (m n : Nat) : Res SCpx := (SCpx.init 2).run (loop2 (steps 0 m 1) (steps 0 n 1) (square n))

/-- grid.hpp:90-95 (and 205-210, 342-347): the tetrahedra of one voxel, given the indices of its corners -/
def tets (s1 s2 s3 s4 s5 s6 s7 s8 : Nat) : List SCpx.Op :=
  [.addRecursive [s1, s2, s5, s8], .addRecursive [s1, s2, s6, s8], .addRecursive [s1, s4, s7, s8], .addRecursive [s1, s4, s6, s8],
   .addRecursive [s1, s3, s7, s8], .addRecursive [s1, s3, s5, s8]]

/-- grid.hpp:82-95 (and 197-210): the body of the loop in three dimensions -/
def voxel (n2 n3 i j k : Nat) : List SCpx.Op :=
  let s1 := idx3 i j k n2 n3
  let s2 := idx3 i j (k + 1) n2 n3
  let s3 := idx3 i (j + 1) k n2 n3
  let s4 := idx3 (i + 1) j k n2 n3
  let s5 := idx3 i (j + 1) (k + 1) n2 n3
  let s6 := idx3 (i + 1) j (k + 1) n2 n3
  let s7 := idx3 (i + 1) (j + 1) k n2 n3
  let s8 := idx3 (i + 1) (j + 1) (k + 1) n2 n3
  tets s1 s2 s3 s4 s5 s6 s7 s8

/-- grid.hpp:75-101 `Freudenthal(n1, n2, n3)` -/
def freudenthal3 (n1 n2 n3 : Nat) : Res SCpx := (SCpx.init 3).run (loop3 (steps 0 n1 1) (steps 0 n2 1) (steps 0 n3 1) (voxel n2 n3))

/-- grid.hpp:153-159: a square in the i-j plane -/
def sqIJ (n2 n3 i j k : Nat) : List SCpx.Op :=
  let s1 := idx3 i j k n2 n3
  let s2 := idx3 (i + 1) j k n2 n3
  let s3 := idx3 i (j + 1) k n2 n3
  let s4 := idx3 (i + 1) (j + 1) k n2 n3
  [.addRecursive [s1, s2, s4], .addRecursive [s1, s3, s4]]

/-- grid.hpp:167-173: a square in the j-k plane -/
def sqJK (n2 n3 i j k : Nat) : List SCpx.Op :=
  let s1 := idx3 i j k n2 n3
  let s2 := idx3 i (j + 1) k n2 n3
  let s3 := idx3 i j (k + 1) n2 n3
  let s4 := idx3 i (j + 1) (k + 1) n2 n3
  [.addRecursive [s1, s2, s4], .addRecursive [s1, s3, s4]]

/-- grid.hpp:181-187: a square in the i-k plane -/
def sqIK (n2 n3 i j k : Nat) : List SCpx.Op :=
  let s1 := idx3 i j k n2 n3
  let s2 := idx3 (i + 1) j k n2 n3
  let s3 := idx3 i j (k + 1) n2 n3
  let s4 := idx3 (i + 1) j (k + 1) n2 n3
  [.addRecursive [s1, s2, s4], .addRecursive [s1, s3, s4]]

/-- grid.hpp:136-216 `Freudenthal(n1, n2, n3, i0, i1, j0, j1, k0, k1)` -/
def freudenthalBox (_n1 n2 n3 i0 i1 j0 j1 k0 k1 : Nat) : Res SCpx :=
  (SCpx.init 3).run
    (loop3 (steps i0 i1 1) (steps j0 j1 1) (steps k0 k1 0) (sqIJ n2 n3) ++
     loop3 (steps i0 i1 0) (steps j0 j1 1) (steps k0 k1 1) (sqJK n2 n3) ++
     loop3 (steps i0 i1 1) (steps j0 j1 0) (steps k0 k1 1) (sqIK n2 n3) ++
     loop3 (steps i0 i1 1) (steps j0 j1 1) (steps k0 k1 1) (voxel n2 n3))

/-- the same call on a `LightSimplicialComplex`, for the calls `add` and `add_recursive`, the only ones in grid.hpp -/
def lightOp : SCpx.Op → Light.Op
  | .add s | .addDirected s => .add s
  | .addRecursive s | .addDirectedRecursive s => .addRecursive s

/-- grid.hpp:33-49 `Freudenthal(m, n)` for `LightSimplicialComplex` (keys modulo `W`; `stray` as in `Model/Light`); here the numbers `m*n`, `2` passed to
the constructor matter -/
def freudenthal2Light (W stray m n : Nat) : Res Light :=
  (Light.init W (m * n) 2).run stray ((loop2 (steps 0 m 1) (steps 0 n 1) (square n)).map lightOp)

/-- grid.hpp:75-101 `Freudenthal(n1, n2, n3)` for `LightSimplicialComplex` -/
def freudenthal3Light (W stray n1 n2 n3 : Nat) : Res Light :=
  (Light.init W (n1 * n2 * n3) 3).run stray ((loop3 (steps 0 n1 1) (steps 0 n2 1) (steps 0 n3 1) (voxel n2 n3)).map lightOp)

/-- grid.hpp:136-216 `Freudenthal(n1, n2, n3, i0, i1, j0, j1, k0, k1)` for `LightSimplicialComplex` -/
def freudenthalBoxLight (W stray n1 n2 n3 i0 i1 j0 j1 k0 k1 : Nat) : Res Light :=
  (Light.init W (n1 * n2 * n3) 3).run stray
    ((loop3 (steps i0 i1 1) (steps j0 j1 1) (steps k0 k1 0) (sqIJ n2 n3) ++
      loop3 (steps i0 i1 0) (steps j0 j1 1) (steps k0 k1 1) (sqJK n2 n3) ++
      loop3 (steps i0 i1 1) (steps j0 j1 0) (steps k0 k1 1) (sqIK n2 n3) ++
      loop3 (steps i0 i1 1) (steps j0 j1 1) (steps k0 k1 1) (voxel n2 n3)).map lightOp)

/-- grid.hpp:54-63 `Cube(m, n)` -/
def cube2 (m n : Nat) : Res Cub :=
  (Cub.init 2).run (loop2 (steps 0 m 1) (steps 0 n 1) fun i j => [.addRecursive [i, i + 1, j, j + 1]])

/-- grid.hpp:106-117 `Cube(n1, n2, n3)` -/
def cube3 (n1 n2 n3 : Nat) : Res Cub :=
  (Cub.init 3).run (loop3 (steps 0 n1 1) (steps 0 n2 1) (steps 0 n3 1) fun i j k => [.addRecursive [i, i + 1, j, j + 1, k, k + 1]])

/-- grid.hpp:232-278 `Cube(n1, n2, n3, i0, i1, j0, j1, k0, k1)` -/
def cubeBox (_n1 _n2 _n3 i0 i1 j0 j1 k0 k1 : Nat) : Res Cub :=
  (Cub.init 3).run
    (loop3 (steps i0 i1 1) (steps j0 j1 1) (steps k0 k1 0) (fun i j k => [.addRecursive [i, i + 1, j, j + 1, k, k]]) ++
     loop3 (steps i0 i1 0) (steps j0 j1 1) (steps k0 k1 1) (fun i j k => [.addRecursive [i, i, j, j + 1, k, k + 1]]) ++
     loop3 (steps i0 i1 1) (steps j0 j1 0) (steps k0 k1 1) (fun i j k => [.addRecursive [i, i + 1, j, j, k, k + 1]]) ++
     loop3 (steps i0 i1 1) (steps j0 j1 1) (steps k0 k1 1) (fun i j k => [.addRecursive [i, i + 1, j, j + 1, k, k + 1]]))

/-- grid.hpp:298-302: a 0-cube -/
def triv0 (n2 n3 : Nat) (c : List Nat) : Res (List SCpx.Op) := do
  let c0 ← rd c 0
  let c2 ← rd c 2
  let c4 ← rd c 4
  pure [.add [idx3 c0 c2 c4 n2 n3]]

/-- grid.hpp:305-310: a 1-cube -/
def triv1 (n2 n3 : Nat) (c : List Nat) : Res (List SCpx.Op) := do
  let c0 ← rd c 0
  let c1 ← rd c 1
  let c2 ← rd c 2
  let c3 ← rd c 3
  let c4 ← rd c 4
  let c5 ← rd c 5
  pure [.add [idx3 c0 c2 c4 n2 n3, idx3 c1 c3 c5 n2 n3]]

/-- grid.hpp:313-329: a 2-cube -/
def triv2 (n2 n3 : Nat) (c : List Nat) : Res (List SCpx.Op) := do
  let c0 ← rd c 0
  let c1 ← rd c 1
  let c2 ← rd c 2
  let c3 ← rd c 3
  let c4 ← rd c 4
  let c5 ← rd c 5
  let s1 := idx3 c0 c2 c4 n2 n3
  let s2 := if c0 = c1 then idx3 c0 c3 c4 n2 n3 else idx3 c1 c2 c4 n2 n3
  let s3 := if c0 = c1 then idx3 c0 c2 c5 n2 n3 else if c2 = c3 then idx3 c0 c2 c5 n2 n3 else idx3 c0 c3 c4 n2 n3
  let s4 := idx3 c1 c3 c5 n2 n3
  pure [.addRecursive [s1, s2, s4], .addRecursive [s1, s3, s4]]

/-- grid.hpp:332-347: a 3-cube -/
def triv3 (n2 n3 : Nat) (c : List Nat) : Res (List SCpx.Op) := do
  let c0 ← rd c 0
  let c1 ← rd c 1
  let c2 ← rd c 2
  let c3 ← rd c 3
  let c4 ← rd c 4
  let c5 ← rd c 5
  pure (tets (idx3 c0 c2 c4 n2 n3) (idx3 c0 c2 c5 n2 n3) (idx3 c0 c3 c4 n2 n3) (idx3 c1 c2 c4 n2 n3) (idx3 c0 c3 c5 n2 n3) (idx3 c1 c2 c5 n2 n3)
    (idx3 c1 c3 c4 n2 n3) (idx3 c1 c3 c5 n2 n3))

/-- one of the loops over the cubes of dimension `d` of `X`, at position `i` with `n` cubes to go: triangulate and add -/
def trivLoop (X : Cub) (d : Nat) (f : List Nat → Res (List SCpx.Op)) : Nat → Nat → SCpx → Res SCpx
  | 0, _, F => .ok F
  | n + 1, i, F => do
    let c ← X.getCube d i
    let ops ← f c
    let G ← F.run ops
    trivLoop X d f n (i + 1) G

/-- grid.hpp:287-350 `Freudenthal(X, n1, n2, n3)` for a cubical complex -/
def freudenthalCub (X : Cub) (_n1 n2 n3 : Nat) : Res SCpx :=
  if X.maxdim ≠ 3 then .error .thrown else do
    let m0 ← X.numCells 0
    let F0 ← trivLoop X 0 (triv0 n2 n3) m0 0 (SCpx.init 3)
    let m1 ← X.numCells 1
    let F1 ← trivLoop X 1 (triv1 n2 n3) m1 0 F0
    let m2 ← X.numCells 2
    let F2 ← trivLoop X 2 (triv2 n2 n3) m2 0 F1
    let m3 ← X.numCells 3
    trivLoop X 3 (triv3 n2 n3) m3 0 F2

end Grid
end BATS
