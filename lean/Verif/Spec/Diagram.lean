import Verif.Model.Diagram
import Verif.Spec.Quiver
import Verif.Spec.SimplicialMap
import Verif.Spec.Simplicial

/-!
# Specification: diagrams of spaces and of chain complexes, homology of zigzag diagrams
-/

namespace BATS
open Matrix

/-- every iteration of the two loops is executed once, in any order -/
def Schedule.For {N E : Type} (sc : Schedule) (D : Diagram N E) : Prop :=
  sc.nodes.Perm (List.range D.node.length) ∧ sc.edges.Perm (List.range D.edata.length)

/-- a cellular map between simplicial complexes as made by the constructors for vertex maps and for inclusions -/
def IsSpaceMap (X Y : SCpx) (f : List (CMat Int)) : Prop :=
  (∃ f0, SMap.simplicialMap X Y f0 = .ok f) ∨ (X.maxdim ≤ Y.maxdim ∧ SMap.inclusion X Y = .ok f)

/-- the edges of `D` join nodes, and `P` holds for source, target and data of every edge -/
structure Diagram.HasEdges {N E : Type} (D : Diagram N E) (P : N → N → E → Prop) : Prop where
  len : D.elist.length = D.edata.length
  edge : ∀ (j : Nat) (st : Nat × Nat) (f : E), D.elist[j]? = some st → D.edata[j]? = some f → ∃ X Y, D.node[st.1]? = some X ∧ D.node[st.2]? = some Y ∧ P X Y f

/-- a diagram of simplicial complexes, built by any histories of calls, with increasing vertices, and maps between them -/
structure IsSpaceDiagram (D : Diagram SCpx (List (CMat Int))) : Prop where
  node : ∀ X ∈ D.node, SCpx.Reachable X ∧ ∀ s i, s ≠ [] → X.findIdx s = some i → s.Pairwise (· < ·)
  edges : D.HasEdges IsSpaceMap

/-- the edges of the diagram join the nodes `0 - 1 - … - m` in either direction -/
structure Diagram.IsLine {N E : Type} (D : Diagram N E) : Prop where
  ne : D.edata ≠ []
  nodes : D.node.length = D.edata.length + 1
  len : D.elist.length = D.edata.length
  ends : ∀ k, k < D.edata.length → D.elist.getD k (0, 0) = (k + 1, k) ∨ D.elist.getD k (0, 0) = (k, k + 1)

/-- is edge `n` of the line an arrow from node `n + 1` to node `n`? -/
def Diagram.leftArrow {N E : Type} (D : Diagram N E) (n : Nat) : Bool := decide ((D.elist.getD n (0, 0)).2 < (D.elist.getD n (0, 0)).1)

variable {F : Type} [Field F]

/-- a diagram of chain complexes and chain maps -/
structure IsChainDiagram (D : Diagram (List (CMat F)) (List (CMat F))) : Prop where
  node : ∀ B ∈ D.node, IsChainComplex B
  edges : D.HasEdges (fun B B' f => IsChainMap f B B')

/-- `M` is the matrix of the map on `H_k` induced by the chain map `f : B → B'`, in the bases of the preferred representatives of the reduced complexes `C`
and `C'`: if the class of a chain has coordinates `c`, the class of its image has coordinates `M c` -/
def RepresentsOnHomology [DecidableEq F] (M : CMat F) (f : List (CMat F)) (B B' : List (CMat F)) (C C' : RedCpx F) (k : Nat) : Prop :=
  ∃ (b b' : Nat) (rep : Fin b → SVec F) (rep' : Fin b' → SVec F), M.Shape b' b ∧ C.hdim k = .ok b ∧ C'.hdim k = .ok b' ∧
    (∀ g, C.getPreferredRepresentative g.val k = .ok (rep g)) ∧ (∀ h, C'.getPreferredRepresentative h.val k = .ok (rep' h)) ∧
    ∀ (z : Fin (cdim B k) → F) (c : Fin b → F), z - ∑ g, c g • vecOf (cdim B k) (rep g) ∈ boundaries B k →
      cmap f B B' k *ᵥ z - ∑ h, (M.mat b' b *ᵥ c) h • vecOf (cdim B' k) (rep' h) ∈ boundaries B' k

section
variable (D : Diagram (List (CMat F)) (List (CMat F)))

/-- the chain complex at node `n` -/
def Diagram.cpx (n : Nat) : List (CMat F) := D.node.getD n []

/-- the bars alive at node `n` -/
def barsAt (bars : List QBar) (n : Nat) : Finset (Fin bars.length) := Finset.univ.filter (fun i => bars[i].At n)

/-- `bars` is an interval decomposition of the zigzag of the homology groups `H_k` of the complexes of `D`: each bar has a cycle `z n i` at every node `n`
where it is alive, the classes of these cycles form a basis of `H_k` at every node, and each arrow sends the class of a bar to the class of the same bar if
the bar is alive at the other end of the arrow and to 0 otherwise. -/
def IsHomologyDecomposition (k : Nat) (bars : List QBar) : Prop :=
  (∀ b ∈ bars, b.start ≤ b.stop ∧ b.stop ≤ D.edata.length) ∧
  ∃ z : (n : Nat) → Fin bars.length → (Fin (cdim (D.cpx n) k) → F),
    (∀ n, n ≤ D.edata.length →
      (∀ i ∈ barsAt bars n, z n i ∈ cycles (D.cpx n) k) ∧
      (∀ y ∈ cycles (D.cpx n) k, ∃ c : Fin bars.length → F, y - ∑ i ∈ barsAt bars n, c i • z n i ∈ boundaries (D.cpx n) k) ∧
      (∀ c : Fin bars.length → F, ∑ i ∈ barsAt bars n, c i • z n i ∈ boundaries (D.cpx n) k → ∀ i ∈ barsAt bars n, c i = 0)) ∧
    ∀ n, n < D.edata.length → ∀ i : Fin bars.length,
      if D.leftArrow n then i ∈ barsAt bars (n + 1) →
        cmap (D.edata.getD n []) (D.cpx (n + 1)) (D.cpx n) k *ᵥ z (n + 1) i - (if i ∈ barsAt bars n then z n i else 0) ∈ boundaries (D.cpx n) k
      else i ∈ barsAt bars n →
        cmap (D.edata.getD n []) (D.cpx n) (D.cpx (n + 1)) k *ᵥ z n i - (if i ∈ barsAt bars (n + 1) then z (n + 1) i else 0) ∈ boundaries (D.cpx (n + 1)) k

/-- the composed chain map from node `b` to node `b + n`, for arrows to the right -/
def chainComposite (k b : Nat) : (n : Nat) → (Fin (cdim (D.cpx b) k) → F) →ₗ[F] (Fin (cdim (D.cpx (b + n)) k) → F)
  | 0 => LinearMap.id
  | n + 1 => (cmap (D.edata.getD (b + n) []) (D.cpx (b + n)) (D.cpx (b + n + 1)) k).mulVecLin.comp (chainComposite k b n)

/-- the rank of the map `H_k → H_k` from node `b` to node `b + n`: the dimension of the image of the cycles modulo the boundaries -/
noncomputable def homologyRank (k b n : Nat) : Nat :=
  Module.finrank F (((cycles (D.cpx b) k).map (chainComposite D k b n)).map (boundaries (D.cpx (b + n)) k).mkQ)

end

end BATS
