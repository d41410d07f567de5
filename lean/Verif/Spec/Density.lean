import Verif.Model.Density

/-! # Specification of `kdist` -/

namespace BATS
namespace Density
variable {T : Type} [LinearOrder T]

/-- what the standard guarantees of `nth_element`: a reordering after which no element before the position is larger than the one there, and none behind it smaller -/
def NthElement (nth : List T → Nat → List T) : Prop :=
  ∀ (l : List T) (k : Nat), k ≤ l.length → (nth l k).Perm l ∧ ∀ v, (nth l k)[k]? = some v → (∀ (i : Nat) w, i < k → (nth l k)[i]? = some w → w ≤ v) ∧
    ∀ (i : Nat) w, k < i → (nth l k)[i]? = some w → v ≤ w

/-- `v` is the `k`-th smallest (from 0 on) of the distances of the `n` points to point `j`: at most `k` points are nearer than `v`, and more than `k` points
are as near as `v` -/
def IsKth (n : Nat) (d : Nat → Nat → T) (k j : Nat) (v : T) : Prop :=
  (List.range n).countP (fun i => decide (d i j < v)) ≤ k ∧ k < (List.range n).countP (fun i => decide (d i j ≤ v))

end Density
end BATS
