import Verif.Model.RipsDiagram
import Verif.Spec.Diagram
import Verif.Spec.Flag
import Verif.Spec.Landmark

/-!
# Specification: diagrams of subsets of a data set and their Rips complexes
-/

namespace BATS
namespace Zoo

/-- `f` lists the positions in `t` of the elements of `s` -/
def IsInclusionMap (s t f : List Nat) : Prop := f.length = s.length ∧ ∀ i, i < s.length → t[f.getD i 0]? = s[i]?

/-- a diagram of subsets of a data set with `n` points and of inclusions -/
structure IsSubsetDiagram (n : Nat) (D : Diagram (List Nat) (List Nat)) : Prop where
  inc : ∀ S ∈ D.node, S.Pairwise (· < ·)
  lt : ∀ S ∈ D.node, ∀ x ∈ S, x < n
  edges : D.HasEdges IsInclusionMap

/-- the distance of the points with positions `a < b` in the subset `S` of the data (read as `dist(X[larger], X[smaller])`) -/
def subDist {T : Type} (dist : Nat → Nat → T) (S : List Nat) (a b : Nat) : T := dist (S.getD b 0) (S.getD a 0)

/-- the Vietoris–Rips complex of the subset `S` of the data at scale `r`, without bound on the dimension; vertex `a` is the `a`-th point of `S` -/
def subRips {T : Type} [LinearOrder T] (dist : Nat → Nat → T) (S : List Nat) (r : T) : Finset (Finset Nat) :=
  Flag.ripsComplex (subDist dist S) S.length S.length r

/-- `TD` is the diagram of the Rips complexes of the subsets of `D`, with radius `ρ i` at node `i`, and of the maps given by the inclusions -/
structure IsRipsDiagram {T : Type} [LinearOrder T] (D : Diagram (List Nat) (List Nat)) (dist : Nat → Nat → T) (ρ : Nat → T) (dmax : Nat) (TD : Diagram SCpx (List (CMat Int))) : Prop where
  shape : TD.elist = D.elist ∧ TD.node.length = D.node.length ∧ TD.edata.length = D.edata.length
  node : ∀ (i : Nat) (S : List Nat), D.node[i]? = some S → ∃ X, TD.node[i]? = some X ∧
    SCpx.Represents X {s | Flag.IsRipsSimplex (subDist dist S) S.length (max dmax 1) (ρ i) s} ∧ dmax ≤ X.maxdim
  edge : ∀ (j s t : Nat) (f : List Nat), D.elist[j]? = some (s, t) → D.edata[j]? = some f → ∃ X Y M, TD.node[s]? = some X ∧ TD.node[t]? = some Y ∧
    TD.edata[j]? = some M ∧ SMap.simplicialMap X Y f = .ok M
  spaces : IsSpaceDiagram TD

/-- `s` is the increasing list of the elements of `l` -/
def IsSetOf (s l : List Nat) : Prop := s.Pairwise (· < ·) ∧ ∀ x, x ∈ s ↔ x ∈ l

/-- a zigzag `0 → 1 ← 2 → 3 ← … ← 2 (m - 1)` with `m` nodes at even positions -/
structure IsZigzagShape {N E : Type} (m : Nat) (D : Diagram N E) : Prop where
  nodes : D.node.length = 2 * m - 1
  len : D.elist.length = 2 * m - 2
  right : ∀ i, i + 1 < m → D.elist[2 * i]? = some (2 * i, 2 * i + 1)
  left : ∀ i, i + 1 < m → D.elist[2 * i + 1]? = some (2 * i + 2, 2 * i + 1)

/-- the levels of the Morozov zigzag: every level after the first, 0, is the first index after the level `k` before it with `hds[·] ≤ eta hds[k]` -/
structure IsLevels {T : Type} [Zero T] [Mul T] [LinearOrder T] (eta : T) (hds : List T) (ks : List Nat) : Prop where
  first : ks[0]? = some 0
  inc : ks.Pairwise (· < ·)
  lt : ∀ k ∈ ks, k < hds.length
  next : ∀ i k k', ks[i]? = some k → ks[i + 1]? = some k' → hds.getD k' 0 ≤ eta * hds.getD k 0 ∧ ∀ j, k < j → j < k' → eta * hds.getD k 0 < hds.getD j 0
  last : ∀ k, ks.getLast? = some k → ∀ j, k < j → j < hds.length → eta * hds.getD k 0 < hds.getD j 0

end Zoo
end BATS
