import Mathlib.Algebra.Order.Group.Defs
import Mathlib.Order.Bounds.Basic
import Mathlib.Data.List.Basic

/-!
# Specification: distance tables, distance to a set, Hausdorff distance
-/

namespace BATS
namespace Lmk

variable {T : Type} [LinearOrder T]

/-- the distance of point `i` to point `x` in the table -/
def tab [Zero T] (rows : List (List T)) (i x : Nat) : T := (rows.getD i []).getD x 0

/-- one row per point, with one entry per point -/
def IsTable (rows : List (List T)) : Prop := ∀ row ∈ rows, row.length = rows.length

/-- `m` is the distance of the set `L` of points to `x` -/
def IsDistTo [Zero T] (rows : List (List T)) (L : List Nat) (x : Nat) (m : T) : Prop := (∃ l ∈ L, tab rows l x = m) ∧ ∀ l ∈ L, m ≤ tab rows l x

/-- `h` is the Hausdorff distance of the set `L` of points to all points: the largest distance of a point to `L` -/
def IsHausdorff [Zero T] (rows : List (List T)) (L : List Nat) (h : T) : Prop :=
  (∃ x, x < rows.length ∧ IsDistTo rows L x h) ∧ ∀ x, x < rows.length → ∀ m, IsDistTo rows L x m → m ≤ h

/-- distances are not negative, and 0 from a point to itself -/
structure IsDistance [Zero T] (rows : List (List T)) : Prop where
  table : IsTable rows
  nonneg : ∀ i x, i < rows.length → x < rows.length → 0 ≤ tab rows i x
  self : ∀ i, i < rows.length → tab rows i i = 0

/-- a (pseudo-)metric: distinct points may have distance 0 -/
structure IsMetric [AddCommGroup T] (rows : List (List T)) : Prop extends IsDistance rows where
  symm : ∀ i x, i < rows.length → x < rows.length → tab rows i x = tab rows x i
  triangle : ∀ i j x, i < rows.length → j < rows.length → x < rows.length → tab rows i x ≤ tab rows i j + tab rows j x

/-- `m` is the largest distance of a point of `L` to `x` -/
def IsMaxDistTo [Zero T] (rows : List (List T)) (L : List Nat) (x : Nat) (m : T) : Prop := (∃ l ∈ L, tab rows l x = m) ∧ ∀ l ∈ L, tab rows l x ≤ m

/-- `inds` are `k` landmarks in farthest-first order from `i0`: every landmark is the first point with the largest distance to the landmarks before it;
`hds[j]` is the Hausdorff distance of the first `j + 1` landmarks to the data -/
structure IsFarthestFirst [Zero T] (rows : List (List T)) (i0 k : Nat) (inds : List Nat) (hds : List T) : Prop where
  len : inds.length = k
  hlen : hds.length = k
  first : inds[0]? = some i0
  lt : ∀ i ∈ inds, i < rows.length
  hd : ∀ (j : Nat) (h : T), hds[j]? = some h → IsHausdorff rows (inds.take (j + 1)) h
  far : ∀ (j i : Nat) (h : T), inds[j + 1]? = some i → hds[j]? = some h →
    IsDistTo rows (inds.take (j + 1)) i h ∧ ∀ x, x < i → ∀ m, IsDistTo rows (inds.take (j + 1)) x m → m < h

end Lmk
end BATS
