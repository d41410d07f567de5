import Mathlib.Algebra.Polynomial.Basic
import Mathlib.Algebra.Polynomial.Coeff

/-! # Vectors of coefficients as polynomials -/

namespace BATS
open Polynomial

/-- the polynomial with the coefficients `c`, constant term first -/
noncomputable def toPoly {F : Type} [Semiring F] (c : List F) : F[X] := ∑ i ∈ Finset.range c.length, Polynomial.monomial i (c.getD i 0)

/-- no zero at the back: the stored vector is determined by the polynomial -/
def Trimmed {F : Type} [Zero F] (c : List F) : Prop := ∀ a, c.getLast? = some a → a ≠ 0

/-- entry `i` of a sparse column with polynomial entries -/
noncomputable def polyEnt {F : Type} [Semiring F] (v : List (Nat × List F)) (i : Nat) : F[X] :=
  (v.map (fun p => if p.1 = i then toPoly p.2 else 0)).sum

end BATS
