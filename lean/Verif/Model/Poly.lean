import Verif.Model.Matrix

/-!
# Model of include/linalg/polynomial.hpp, of `extended_euclidean`, include/linalg/pid.hpp:17-53, and of `generating_basis`, include/linalg/rcf.hpp:17-33

A polynomial is the vector `c` of its coefficients, constant term first (polynomial.hpp:16-17).
-/

namespace BATS
namespace Poly

variable {F : Type} [Field F] [DecidableEq F]

/-- polynomial.hpp:20-24 `clear_zeros` (run by every constructor, 29-35): zeros are removed from the back -/
def clearZeros (c : List F) : List F := (c.reverse.dropWhile (fun a => decide (a = 0))).reverse

/-- polynomial.hpp:35 constructor of a constant -/
def const (a : F) : List F := clearZeros [a]

/-- polynomial.hpp:41-43 `identity` -/
def identity : List F := const 1

/-- polynomial.hpp:55-59 `monomial(d, scale)` -/
def monomial (d : Nat) (s : F) : List F := clearZeros ((List.replicate (d + 1) 0).set d s)

/-- polynomial.hpp:77-79 `leading_coeff`: `back()` of an empty vector is undefined -/
def leading (c : List F) : Res F :=
  match c.getLast? with
  | some a => .ok a
  | none => .error .ub

/-- loop of polynomial.hpp:86-89; the state is `sum`, `vk` -/
def evalLoop (v : F) : List F → F → F → F
  | [], sum, _ => sum
  | a :: c, sum, vk => evalLoop v c (sum + a * (vk * v)) (vk * v)

/-- polynomial.hpp:82-91 `operator()(v)` -/
def eval (c : List F) (v : F) : F :=
  match c with
  | [] => 0
  | a :: c => evalLoop v c a 1

/-- loop of polynomial.hpp:100-103; the state is `sum`, `Akv` -/
def applyLoop (A : CMat F) : List F → SVec F → SVec F → Res (SVec F)
  | [], sum, _ => .ok sum
  | a :: c, sum, w => do
    let w ← CMat.gemv A w
    applyLoop A c (SVec.axpy a w sum) w

/-- polynomial.hpp:95-105 `operator()(A, v)` -/
def apply (c : List F) (A : CMat F) (v : SVec F) : Res (SVec F) :=
  match c with
  | [] => .ok []
  | a :: c => applyLoop A c (SVec.axpy a v []) v

/-- polynomial.hpp:108-114 unary `operator-` -/
def neg (c : List F) : List F := clearZeros (c.map (fun a => -a))

/-- the loops of polynomial.hpp:124-132 -/
def addLoop : List F → List F → List F
  | [], y => y
  | a :: x, [] => a :: x
  | a :: x, b :: y => (a + b) :: addLoop x y

/-- polynomial.hpp:118-135 `operator+` -/
def add (x y : List F) : List F := clearZeros (addLoop x y)

/-- polynomial.hpp:138-152 `operator+=`: the same loops on the left operand -/
def addAssign (x y : List F) : List F := clearZeros (addLoop x y)

/-- the loops of polynomial.hpp:179-187 -/
def subLoop : List F → List F → List F
  | [], y => y.map (fun b => -b)
  | a :: x, [] => a :: x
  | a :: x, b :: y => (a - b) :: subLoop x y

/-- polynomial.hpp:172-191 `operator-` -/
def sub (x y : List F) : List F := clearZeros (subLoop x y)

/-- polynomial.hpp:155-169 `operator-=` -/
def subAssign (x y : List F) : List F := clearZeros (subLoop x y)

/-- inner loop of polynomial.hpp:200-202: `newc[k] += a * other[j]` with `k = i + j` -/
def mulInner (a : F) : List F → Nat → List F → Res (List F)
  | [], _, acc => .ok acc
  | b :: y, k, acc => do
    let v ← rd acc k
    let acc ← wr acc k (v + a * b)
    mulInner a y (k + 1) acc

/-- outer loop of polynomial.hpp:199-203 -/
def mulOuter (y : List F) : List F → Nat → List F → Res (List F)
  | [], _, acc => .ok acc
  | a :: x, i, acc => do
    let acc ← mulInner a y i acc
    mulOuter y x (i + 1) acc

/-- polynomial.hpp:194-206 `operator*` -/
def mul (x y : List F) : Res (List F) :=
  if x.isEmpty || y.isEmpty then .ok [] else do
    let r ← mulOuter y x 0 (List.replicate (x.length + y.length - 1) 0)
    pure (clearZeros r)

/-- loop of polynomial.hpp:213-218; the state is `quotient`, `remainder` -/
def divremLoop (other : List F) : Nat → List F → List F → Res (List F × List F)
  | 0, _, _ => .error .diverge
  | fuel + 1, q, r =>
    if r.length < other.length then .ok (q, r) else do
      let lr ← leading r
      let lo ← leading other
      let m := monomial ((r.length - 1) - (other.length - 1)) (lr / lo)
      let p ← mul m other
      divremLoop other fuel (addAssign q m) (subAssign r p)

/-- polynomial.hpp:209-221 `divrem` -/
def divrem (x y : List F) : Res (List F × List F) := divremLoop y (x.length + 2) (const 0) x

/-- polynomial.hpp:224-227 `operator/` -/
def div (x y : List F) : Res (List F) := do
  let r ← divrem x y
  pure r.1

/-- polynomial.hpp:230-233 `remainder` -/
def remainder (x y : List F) : Res (List F) := do
  let r ← divrem x y
  pure r.2

/-- polynomial.hpp:240-246 `operator==` -/
def eq : List F → List F → Bool
  | [], [] => true
  | a :: x, b :: y => if a ≠ b then false else eq x y
  | _, _ => false

/-- polynomial.hpp:235-238 `operator==(other)` with an element of the field -/
def eqConst (x : List F) (a : F) : Bool :=
  if a = 0 then x.isEmpty else
    match x with
    | [b] => decide (b = a)
    | _ => false

/-- loop of polynomial.hpp:261-265 -/
def gcdLoop : Nat → List F → List F → Res (List F)
  | 0, _, _ => .error .diverge
  | fuel + 1, a, b =>
    if b.isEmpty then .ok a else do
      let r ← remainder a b
      gcdLoop fuel b r

/-- polynomial.hpp:259-267 `gcd` -/
def gcd (x y : List F) : Res (List F) := gcdLoop (x.length + y.length + 2) x y

/-- polynomial.hpp:274-291 `companion_matrix`: not monic: throws; the zero polynomial: `back()` of an empty vector; constant `1`: `n - 1` wraps around and
the loop writes outside of `cols` -/
def companion (c : List F) : Res (CMat F) := do
  let l ← leading c
  if l ≠ 1 then .error .thrown
  else if c.length ≤ 1 then .error .ub
  else
    let n := c.length - 1
    .ok ⟨n, (List.range (n - 1)).map (fun j => [(j + 1, 1)]) ++ [(List.range n).map (fun i => (i, -(c.getD i 0)))]⟩

/-- first loop of polynomial.hpp:338-352: entries above or on the diagonal; returns them, the rest of the column and `found_diagonal` -/
def charUpper (j : Nat) : SVec F → List (Nat × List F) × SVec F × Bool
  | [] => ([], [], false)
  | (i, a) :: v =>
    if i = j then ([(i, clearZeros [-a, 1])], v, true)
    else if i < j then
      let r := charUpper j v
      ((i, const (-a)) :: r.1, r.2.1, r.2.2)
    else ([], (i, a) :: v, false)

/-- polynomial.hpp:333-367: one column of `xI - A` -/
def charColumn (j : Nat) (v : SVec F) : List (Nat × List F) :=
  let r := charUpper j v
  r.1 ++ (if r.2.2 then [] else [(j, clearZeros [0, 1])]) ++ r.2.1.map (fun p => (p.1, const (-p.2)))

/-- polynomial.hpp:320-371 `characteristic_matrix(A)`: the columns, with polynomial entries -/
def charMatrix (A : CMat F) : Res (List (List (Nat × List F))) :=
  if A.nrow ≠ A.cols.length then .error .thrown
  else .ok (A.cols.zipIdx.map (fun p => charColumn p.2 p.1))

/-- inner loop of rcf.hpp:26-29 -/
def genColumn (A : CMat F) : List (Nat × List F) → SVec F → Res (SVec F)
  | [], acc => .ok acc
  | p :: v, acc => do
    let w ← apply p.2 A (SVec.indicator p.1)
    genColumn A v (SVec.axpy 1 w acc)

/-- rcf.hpp:17-33 `generating_basis(R, A)`; `R` is given by its columns and is square -/
def generatingBasis (R : List (List (Nat × List F))) (A : CMat F) : Res (CMat F) := do
  let cols ← R.mapM (fun v => genColumn A v [])
  pure ⟨R.length, cols⟩

end Poly

/-- the operations of the template parameter `PID` used by `extended_euclidean` (pid.hpp:18); division may fail -/
structure PidOps (α : Type) where
  zero : α
  one : α
  isZero : α → Bool
  sub : α → α → α
  mul : α → α → Res α
  neg : α → α
  div : α → α → Res α

namespace PidOps
variable {α : Type} (O : PidOps α)

/-- loop of pid.hpp:31-46; the state is `s, old_s, t, old_t, r, old_r, i` -/
def loop : Nat → α → α → α → α → α → α → Nat → Res (α × α × α × α × α × Nat)
  | 0, _, _, _, _, _, _, _ => .error .diverge
  | fuel + 1, s, os, t, ot, r, oldr, i =>
    if O.isZero r then .ok (os, ot, oldr, t, s, i) else do
      let q ← O.div oldr r
      let qr ← O.mul q r
      let qs ← O.mul q s
      let qt ← O.mul q t
      loop fuel (O.sub os qs) s (O.sub ot qt) t (O.sub oldr qr) r (i + 1)

/-- pid.hpp:17-53 `extended_euclidean(a, b)`: `x, y, gcd, a/gcd, b/gcd` -/
def extendedEuclidean (fuel : Nat) (a b : α) : Res (α × α × α × α × α) := do
  let w ← loop O fuel O.zero O.one O.one O.zero b a 0
  let t := if w.2.2.2.2.2 % 2 = 1 then O.neg w.2.2.2.1 else w.2.2.2.1
  let s := if w.2.2.2.2.2 % 2 = 1 then w.2.2.2.2.1 else O.neg w.2.2.2.2.1
  pure (w.1, w.2.1, w.2.2.1, t, s)

/-- `PID = int` (no overflow is assumed): `/` truncates; division by zero is undefined -/
def int : PidOps Int where
  zero := 0
  one := 1
  isZero a := decide (a = 0)
  sub a b := a - b
  mul a b := .ok (a * b)
  neg a := -a
  div a b := if b = 0 then .error .ub else .ok (a.tdiv b)

/-- `PID = UnivariatePolynomial<T>` -/
def poly {F : Type} [Field F] [DecidableEq F] : PidOps (List F) where
  zero := Poly.const 0
  one := Poly.const 1
  isZero a := a.isEmpty
  sub := Poly.sub
  mul := Poly.mul
  neg := Poly.neg
  div := Poly.div

end PidOps

/-- pid.hpp:18 `extended_euclidean<int>` -/
def extendedEuclideanInt (a b : Int) : Res (Int × Int × Int × Int × Int) := PidOps.int.extendedEuclidean (b.natAbs + 2) a b

/-- pid.hpp:18 `extended_euclidean<UnivariatePolynomial<T>>` -/
def extendedEuclideanPoly {F : Type} [Field F] [DecidableEq F] (a b : List F) : Res (List F × List F × List F × List F × List F) :=
  PidOps.poly.extendedEuclidean (b.length + 2) a b

end BATS
