import Verif.Model.Complex

/-!
# Model of include/persistence/barcode.hpp
-/

namespace BATS

variable {T : Type _} [DecidableEq T]

/-- barcode.hpp:28 `operator==` of `PersistencePair`: critical indices are not compared. (Equality of `T` is taken to be
lawful, i.e. no NaN values.) -/
def PPair.beq (p q : PPair T) : Bool := decide (p.birth = q.birth) && decide (p.death = q.death) && decide (p.dim = q.dim)

namespace Barcode

/-- inner loop of barcode.hpp:61-67: the first `j` with `ps1[i] == ps2[j] && !matched[j]` is marked; `none` if there is none -/
def findMatch (p : PPair T) : List (PPair T) → List Bool → Option (List Bool)
  | q :: qs, m :: ms => if PPair.beq p q && !m then some (true :: ms) else (findMatch p qs ms).map (m :: ·)
  | _, _ => none

/-- outer loop of barcode.hpp:59-72 -/
def matchAll : List (PPair T) → List (PPair T) → List Bool → Bool
  | [], _, _ => true
  | p :: ps, qs, ms =>
    match findMatch p qs ms with
    | some ms' => matchAll ps qs ms'
    | none => false

/-- barcode.hpp:46-75 `barcode_equality` -/
def barcodeEquality (ps1 ps2 : List (PPair T)) : Bool :=
  if ps1.length ≠ ps2.length then false else matchAll ps1 ps2 (List.replicate ps1.length false)

end Barcode
end BATS
