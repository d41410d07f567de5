import Verif.Model.Basic

/-!
# Model of include/linalg/field.hpp

`ModP<int, P>` is modelled at `IntT = int` with 32-bit two's complement `int` and 32-bit `unsigned`
(the type of the template parameter `P`). Signed overflow is undefined behaviour, unsigned arithmetic wraps.
-/

namespace BATS

/-- conversion to `unsigned` / wrap-around of unsigned arithmetic (C++ usual arithmetic conversions) -/
def u32 (x : Int) : Int := x % 4294967296

/-- conversion of an `unsigned` to `int` (two's complement) -/
def toI32 (x : Int) : Int := if x % 4294967296 < 2147483648 then x % 4294967296 else x % 4294967296 - 4294967296

/-- the result `x` of a signed `int` operation: undefined behaviour unless representable -/
def i32 (x : Int) : Res Int :=
  if -2147483648 ≤ x ∧ x < 2147483648 then .ok x else .error .ub

/-- field.hpp:77-83 `isprime`; the loop `for (i = 2; i < (p>>1)+1; i++)` as a bounded search. -/
def isprime (p : Nat) : Bool :=
  if p < 2 then false
  else (List.range' 2 (p / 2 + 1 - 2)).all (fun i => p % i != 0)

namespace ModP

/-- field.hpp:96 `ModP(IntT val) : val((val + P) % P)`; `val + P` is computed in `unsigned`. -/
def ofInt (P : Nat) (v : Int) : Int := u32 (v + P) % P

/-- field.hpp:100-105 `operator+` -/
def add (P : Nat) (a b : Int) : Res Int := do
  let s ← i32 (a + b)
  pure (ofInt P s)

/-- field.hpp:107-113 `operator+=` -/
def addAssign (P : Nat) (a b : Int) : Res Int := do
  let s ← i32 (a + b)
  pure (toI32 (u32 s % P))

/-- field.hpp:115-120 `operator-`: `ModP(val - b.val + P)`; the argument is unsigned and converts to `int`. -/
def sub (P : Nat) (a b : Int) : Res Int := do
  let s ← i32 (a - b)
  pure (ofInt P (toI32 (u32 (s + P))))

/-- field.hpp:122-128 `operator-=` -/
def subAssign (P : Nat) (a b : Int) : Res Int := do
  let s ← i32 (a - b)
  pure (toI32 (u32 (s + P) % P))

/-- field.hpp:130-135 unary `operator-`: `ModP(P - val)` -/
def neg (P : Nat) (a : Int) : Res Int :=
  pure (ofInt P (toI32 (u32 (P - a))))

/-- field.hpp:137-142 `operator*` -/
def mul (P : Nat) (a b : Int) : Res Int := do
  let s ← i32 (a * b)
  pure (ofInt P s)

/-- field.hpp:144-150 `operator*=` -/
def mulAssign (P : Nat) (a b : Int) : Res Int := do
  let s ← i32 (a * b)
  pure (toI32 (u32 s % P))

/-- the loop of `ff_inv`, field.hpp:216-219: `while (c % P != 1) { b++; c += val; }` -/
def ffInvLoop (P : Nat) (val : Int) : Nat → Int → Int → Res Int
  | 0, _, _ => .error .diverge
  | fuel + 1, b, c =>
    if u32 c % P = 1 then .ok b
    else do
      let b' ← i32 (b + 1)
      let c' ← i32 (c + val)
      ffInvLoop P val fuel b' c'

/-- field.hpp:211-221 `ff_inv`. Fuel `P` (theorem: always enough for canonical arguments). -/
def ffInv (P : Nat) (val : Int) : Res Int :=
  if val = 0 then .error .thrown else ffInvLoop P val P 1 val

/-- field.hpp:232-235 `inv` -/
def inv (P : Nat) (a : Int) : Res Int := do
  let b ← ffInv P a
  pure (ofInt P b)

/-- field.hpp:178-185 `operator/` -/
def div (P : Nat) (a b : Int) : Res Int :=
  if b = 0 then .error .thrown else do
    let binv ← inv P b
    let s ← i32 (a * binv)
    pure (ofInt P s)

/-- field.hpp:187-195 `operator/=` -/
def divAssign (P : Nat) (a b : Int) : Res Int :=
  if b = 0 then .error .thrown else do
    let binv ← inv P b
    let s ← i32 (a * binv)
    pure (toI32 (u32 s % P))

/-- field.hpp:152-154 `operator==(const ModP&)` -/
def eq (a b : Int) : Bool := a == b

/-- field.hpp:160-162 `operator==(const int)`: `((b - val + P) % P) == 0` -/
def eqInt (P : Nat) (a : Int) (b : Int) : Res Bool := do
  let s ← i32 (b - a)
  pure (u32 (s + P) % P == 0)

/-- field.hpp:164-166 `operator!=(const int)`: `((val - b + P) % P) != 0` -/
def neInt (P : Nat) (a : Int) (b : Int) : Res Bool := do
  let s ← i32 (a - b)
  pure (u32 (s + P) % P != 0)

/-- field.hpp:197-200 `iszero` -/
def iszero (a : Int) : Bool := a == 0

end ModP

namespace Mod2

/-- A stored value of `ModP<int, 2>` (field.hpp:238-244) is any 32-bit pattern. -/
abbrev Store := BitVec 32

/-- field.hpp:246 constructor stores the argument unmasked -/
def ofInt (v : Int) : Store := BitVec.ofInt 32 v

/-- field.hpp:248 `to_int` : `val & 0x1` -/
def toInt (a : Store) : Int := (a &&& 1#32).toInt

/-- field.hpp:250-255 `operator+` (also `+=`, 257-263): xor -/
def add (a b : Store) : Store := a ^^^ b
/-- field.hpp:265-270 `operator-` (also `-=`, 272-278): xor -/
def sub (a b : Store) : Store := a ^^^ b
/-- field.hpp:280-282 unary minus: identity -/
def neg (a : Store) : Store := a
/-- field.hpp:284-289 `operator*` (also `*=`, 291-297): bitwise and -/
def mul (a b : Store) : Store := a &&& b
/-- field.hpp:299-305 `operator/` (also `/=`, 307-313) -/
def div (a b : Store) : Res Store := if b &&& 1#32 = 0#32 then .error .thrown else .ok a
/-- field.hpp:315-318 `inv` -/
def inv (a : Store) : Res Store := if a &&& 1#32 = 0#32 then .error .thrown else .ok 1#32
/-- field.hpp:320-322 `operator==(const ModP&)` -/
def eq (a b : Store) : Bool := (a &&& 1#32) == (b &&& 1#32)
/-- field.hpp:324-326 `operator!=(const ModP&)` -/
def ne (a b : Store) : Bool := (a &&& 1#32) != (b &&& 1#32)
/-- field.hpp:329-331 `operator==(const int)` -/
def eqInt (a : Store) (b : BitVec 32) : Bool := (a &&& 1#32) == (b &&& 1#32)
/-- field.hpp:333-335 `operator!=(const int)`: the right hand side is not masked -/
def neInt (a : Store) (b : BitVec 32) : Bool := (a &&& 1#32) != b
/-- field.hpp:337-339 `operator=(const int&)`: builds a new object and discards it;
the value of `*this` afterwards is returned here -/
def assignInt (a : Store) (_b : BitVec 32) : Store := a
/-- field.hpp:341-344 `iszero` -/
def iszero (a : Store) : Bool := (a &&& 1#32) == 0#32

end Mod2

/-- field.hpp:365-369 `Rational<IntT>`; simplification: `IntT` unbounded (no overflow). -/
structure Rational where
  n : Int
  d : Int
  deriving DecidableEq, Repr

namespace Rational

/-- field.hpp:359-362 `sgn` -/
def sgn (v : Int) : Int := (if 0 < v then 1 else 0) - (if v < 0 then 1 else 0)

/-- field.hpp:372-376 `reduce`; `/` truncates; division by `gcd = 0` is undefined behaviour -/
def reduce (n d : Int) : Res Rational :=
  let g : Int := Int.gcd n d
  if g = 0 then .error .ub
  else
    let s := sgn d
    .ok ⟨s * (n.tdiv g), s * (d.tdiv g)⟩

/-- field.hpp:398-400 `Rational(n0, d0)` -/
def mk2 (n d : Int) : Res Rational := reduce n d
/-- field.hpp:402 `Rational(n)` -/
def ofInt (n : Int) : Rational := ⟨n, 1⟩
/-- field.hpp:406-408 `operator+` (same value as `+=`, 410-415) -/
def add (a b : Rational) : Res Rational := mk2 (a.n * b.d + b.n * a.d) (a.d * b.d)
/-- field.hpp:417-419 `operator-` (same value as `-=`, 421-426) -/
def sub (a b : Rational) : Res Rational := mk2 (a.n * b.d - b.n * a.d) (a.d * b.d)
/-- field.hpp:428-430 unary minus -/
def neg (a : Rational) : Res Rational := mk2 (-a.n) a.d
/-- field.hpp:432-434 `operator*` (same value as `*=`, 436-441) -/
def mul (a b : Rational) : Res Rational := mk2 (a.n * b.n) (a.d * b.d)
/-- field.hpp:443-445 `operator==` -/
def eq (a b : Rational) : Bool := a.n == b.n && a.d == b.d
/-- field.hpp:451-453 `operator==(int)` -/
def eqInt (a : Rational) (b : Int) : Bool := a.n == b && a.d == 1
/-- field.hpp:459-461 `operator<` -/
def lt (a b : Rational) : Bool := decide (a.n * b.d < b.n * a.d)
/-- field.hpp:463-466 `inv` -/
def inv (a : Rational) : Res Rational := if a.n = 0 then .error .thrown else mk2 a.d a.n
/-- field.hpp:468-471 `operator/` (same value as `/=`, 473-479) -/
def div (a b : Rational) : Res Rational :=
  if b.n = 0 then .error .thrown else mk2 (a.n * b.d) (a.d * b.n)
/-- field.hpp:481-483 `iszero` -/
def iszero (a : Rational) : Bool := a.n == 0

end Rational

end BATS
