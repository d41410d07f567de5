import Verif.Model.Cubical
import Mathlib.Order.Defs.LinearOrder
import Mathlib.Order.Lattice

/-!
# Model of include/filtration/extension.hpp:45-167: gradients through lower star filtrations and lower star filtrations of images

Values are elements of a linear order `T`; NaN is not modelled. Reads out of range of a vector are undefined behaviour (`.ub`).
-/

namespace BATS

section grad
variable {T : Type} [Add T] [Zero T]

/-- extension.hpp:72-75 (and 77-80): add `g` to the entry of `df` which belongs to simplex `i` of dimension `dim`, unless `i` is `-1`. Another
negative index is converted to a very large `size_t`: out of range. -/
def gradAdd (imap : List (List Nat)) (dim : Nat) (i : Int) (g : T) (df : List T) : Res (List T) :=
  if i = -1 then .ok df
  else if i < 0 then .error .ub
  else do
    let row ← rd imap dim
    let v ← rd row i.toNat
    let x ← rd df v
    wr df v (x + g)

/-- extension.hpp:70-81: the loop over the pairs in one dimension; `g` is what is left of `grad_dgms[dim]`, `b` what is left of `bdinds[dim]`. With
an odd number of entries the last read of `grad_dgms[dim][k+1]` is out of range; it is executed only if the death index is not `-1`. -/
def gradRow (imap : List (List Nat)) (dim : Nat) : List T → List Int → List T → Res (List T)
  | [], _, df => .ok df
  | g0 :: g1 :: g, b0 :: b1 :: b, df => do
    let d1 ← gradAdd imap dim b0 g0 df
    let d2 ← gradAdd imap (dim + 1) b1 g1 d1
    gradRow imap dim g b d2
  | [g0], b0 :: b1 :: _, df => do
    let d1 ← gradAdd imap dim b0 g0 df
    if b1 = -1 then .ok d1 else .error .ub
  | _ :: _, _, _ => .error .ub

/-- `bdinds[dim]`, which is read only if `grad_dgms[dim] = g` has an entry -/
def rowInds (b : List (List Int)) (dim : Nat) (g : List T) : Res (List Int) := if g = [] then .ok [] else rd b dim

/-- extension.hpp:68-82: the loop over the dimensions -/
def gradLoop (imap : List (List Nat)) : Nat → List (List T) → List (List Int) → List T → Res (List T)
  | _, [], _, df => .ok df
  | dim, g :: gs, b, df => do
    let bd ← rowInds b dim g
    let d ← gradRow imap dim g bd df
    gradLoop imap (dim + 1) gs b d

/-- extension.hpp:57-85 `lower_star_backwards(grad_dgms, bdinds, imap)` -/
def lowerStarBackwards (grad : List (List T)) (bdinds : List (List Int)) (imap : List (List Nat)) : Res (List T) := do
  let row ← rd imap 0
  gradLoop imap 0 grad bdinds (List.replicate row.length 0)

end grad

section image
variable {T : Type} [LinearOrder T]

/-- `f0[i][j]` -/
def pix2 (f0 : List (List T)) (i j : Nat) : Res T := do
  let r ← rd f0 i
  rd r j

/-- `f0[i][j][k]` -/
def pix3 (f0 : List (List (List T))) (i j k : Nat) : Res T := do
  let r ← rd f0 i
  pix2 r j k

/-- `std::max(a, b)` -/
def stdMax (a b : T) : T := if a < b then b else a

/-- extension.hpp:91-104 `max_cube_val(c, f0)` for an image -/
def maxCubeVal2 (f0 : List (List T)) (c : List Nat) : Res T := do
  let c0 ← rd c 0
  let c1 ← rd c 1
  let c2 ← rd c 2
  let c3 ← rd c 3
  let a ← pix2 f0 c0 c2
  let b ← pix2 f0 c0 c3
  let d ← pix2 f0 c1 c2
  let e ← pix2 f0 c1 c3
  pure (stdMax (stdMax a b) (stdMax d e))

/-- the three nested loops of extension.hpp:116-123, flattened: the triples `(i, j, k)` in order -/
def maxLoop3 (f0 : List (List (List T))) (c : List Nat) : T → List (Nat × Nat × Nat) → Res T
  | val, [] => .ok val
  | val, (i, j, k) :: ts => do
    let ci ← rd c i
    let cj ← rd c j
    let ck ← rd c k
    let tmp ← pix3 f0 ci cj ck
    maxLoop3 f0 c (if val < tmp then tmp else val) ts

/-- extension.hpp:110-125 `max_cube_val(c, f0)` for a voxel image -/
def maxCubeVal3 (f0 : List (List (List T))) (c : List Nat) : Res T := do
  let c0 ← rd c 0
  let c2 ← rd c 2
  let c4 ← rd c 4
  let val ← pix3 f0 c0 c2 c4
  maxLoop3 f0 c val [(0, 2, 4), (0, 2, 5), (0, 3, 4), (0, 3, 5), (1, 2, 4), (1, 2, 5), (1, 3, 4), (1, 3, 5)]

/-- extension.hpp:137-142 (158-163): the values for one dimension -/
def cubeRow (f : List Nat → Res T) : List (List Nat) → Res (List T)
  | [] => .ok []
  | c :: cs => do
    let v ← f c
    let vs ← cubeRow f cs
    pure (v :: vs)

/-- extension.hpp:134-143 (155-164): the loop over the dimensions `k, k+1, ..`, `n` to go -/
def cubeLoop (X : Cub) (f : List Nat → Res T) : Nat → Nat → Res (List (List T))
  | 0, _ => .ok []
  | n + 1, k => do
    let cs ← X.getCubes k
    let r ← cubeRow f cs
    let rs ← cubeLoop X f n (k + 1)
    pure (r :: rs)

/-- extension.hpp:127-146 `lower_star_filtration(X, f0)` for an image -/
def lowerStar2 (X : Cub) (f0 : List (List T)) : Res (List (List T)) := cubeLoop X (maxCubeVal2 f0) (X.maxdim + 1) 0

/-- extension.hpp:148-167 `lower_star_filtration(X, f0)` for a voxel image -/
def lowerStar3 (X : Cub) (f0 : List (List (List T))) : Res (List (List T)) := cubeLoop X (maxCubeVal3 f0) (X.maxdim + 1) 0

end image

end BATS
