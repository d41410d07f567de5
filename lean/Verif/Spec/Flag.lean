import Verif.Model.Flag
import Verif.Spec.SimplicialPersistence
import Mathlib.Order.Bounds.Basic

/-!
# Specification: cliques of a graph given by a list of edges
-/

namespace BATS
namespace Flag

/-- `a` and `b` are joined by one of the listed edges -/
def Joined (ps : List (Nat × Nat)) (a b : Nat) : Prop := (a, b) ∈ ps ∨ (b, a) ∈ ps

/-- a list of edges of a simple graph on the vertices below `n`: no loops, no edge listed twice (in either direction) -/
structure SimpleGraphOn (n : Nat) (ps : List (Nat × Nat)) : Prop where
  ends : ∀ p ∈ ps, p.1 < n ∧ p.2 < n ∧ p.1 ≠ p.2
  once : ps.Pairwise (fun p q => p ≠ q ∧ p ≠ q.swap)

/-- the ends of a filtered edge -/
def FEdge.ends {T : Type} (e : FEdge T) : Nat × Nat := (e.s, e.t)

/-- `s` lists, in increasing order, the vertices of a clique with at most `D + 1` vertices -/
structure IsCliqueList (n D : Nat) (ps : List (Nat × Nat)) (s : List Nat) : Prop where
  ne : s ≠ []
  inc : s.Pairwise (· < ·)
  lt : ∀ a ∈ s, a < n
  len : s.length ≤ D + 1
  joined : ∀ a ∈ s, ∀ b ∈ s, a ≠ b → Joined ps a b

/-- `x` is the value of the clique `s`: `t0` for a vertex, otherwise the largest parameter of an edge between vertices of `s` -/
def IsCliqueValue {T : Type} [LinearOrder T] (t0 : T) (edges : List (FEdge T)) (s : List Nat) (x : T) : Prop :=
  (s.length = 1 → x = t0) ∧ (2 ≤ s.length → IsGreatest {r | ∃ e ∈ edges, e.s ∈ s ∧ e.t ∈ s ∧ e.r = r} x)

/-- a Vietoris–Rips simplex: a nonempty set of at most `D + 1` of the `n` points, listed in increasing order, with all distances
at most `rmax` (`dist a b` is read for `a < b` only) -/
structure IsRipsSimplex {T : Type} [LinearOrder T] (dist : Nat → Nat → T) (n D : Nat) (rmax : T) (s : List Nat) : Prop where
  ne : s ≠ []
  inc : s.Pairwise (· < ·)
  lt : ∀ a ∈ s, a < n
  len : s.length ≤ D + 1
  close : ∀ a ∈ s, ∀ b ∈ s, a < b → dist a b ≤ rmax

/-- `x` is the diameter of `s`: 0 for a point, otherwise the largest distance -/
def IsDiam {T : Type} [Zero T] [LinearOrder T] (dist : Nat → Nat → T) (s : List Nat) (x : T) : Prop :=
  (s.length = 1 → x = 0) ∧ (2 ≤ s.length → IsGreatest {r | ∃ a ∈ s, ∃ b ∈ s, a < b ∧ dist a b = r} x)

/-- the `D`-skeleton of the Vietoris–Rips complex at scale `r`: the nonempty sets of at most `D + 1` of the `n` points at pairwise
distance at most `r` -/
def ripsComplex {T : Type} [LinearOrder T] (dist : Nat → Nat → T) (n D : Nat) (r : T) : Finset (Finset Nat) :=
  (Finset.range n).powerset.filter (fun σ => σ.Nonempty ∧ σ.card ≤ D + 1 ∧ ∀ a ∈ σ, ∀ b ∈ σ, a < b → dist a b ≤ r)

theorem mem_ripsComplex {T : Type} [LinearOrder T] (dist : Nat → Nat → T) (n D : Nat) (r : T) (σ : Finset Nat) :
    σ ∈ ripsComplex dist n D r ↔ (∀ a ∈ σ, a < n) ∧ σ.Nonempty ∧ σ.card ≤ D + 1 ∧ ∀ a ∈ σ, ∀ b ∈ σ, a < b → dist a b ≤ r := by
  unfold ripsComplex
  rw [Finset.mem_filter, Finset.mem_powerset]
  have : σ ⊆ Finset.range n ↔ ∀ a ∈ σ, a < n := ⟨fun h a ha => Finset.mem_range.1 (h ha), fun h a ha => Finset.mem_range.2 (h a ha)⟩
  rw [this]

theorem isASC_ripsComplex {T : Type} [LinearOrder T] (dist : Nat → Nat → T) (n D : Nat) (r : T) : IsASC (ripsComplex dist n D r) := by
  constructor
  · intro s hs; exact ((mem_ripsComplex ..).1 hs).2.1
  · intro s hs t hts htn
    rw [mem_ripsComplex] at hs ⊢
    exact ⟨fun a ha => hs.1 a (hts ha), htn, le_trans (Finset.card_le_card hts) hs.2.2.1, fun a ha b hb => hs.2.2.2 a (hts ha) b (hts hb)⟩

theorem ripsComplex_mono {T : Type} [LinearOrder T] (dist : Nat → Nat → T) (n D : Nat) {r r' : T} (h : r ≤ r') :
    ripsComplex dist n D r ⊆ ripsComplex dist n D r' := by
  intro s hs
  rw [mem_ripsComplex] at hs ⊢
  exact ⟨hs.1, hs.2.1, hs.2.2.1, fun a ha b hb hab => le_trans (hs.2.2.2 a ha b hb hab) h⟩

end Flag
end BATS
