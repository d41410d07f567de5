import Verif.Spec.Flag
import Verif.Spec.Landmark
import Verif.Spec.Nerve
import Verif.Model.Witness

/-!
# Specification: Dowker and witness complexes, nearest neighbours, complexes relative to a cover
-/

namespace BATS
namespace Wit
open Lmk

variable {T : Type} [LinearOrder T]

/-- `nL` rows of length `nX` -/
structure IsMat (M : List (List T)) (nL nX : Nat) : Prop where
  len : M.length = nL
  row : ∀ r ∈ M, r.length = nX

/-- `x` is the Dowker parameter of the landmarks `i` and `j`: the smallest `t` for which a witness is within `t` of both -/
def IsDowkerParam [Zero T] (p : List (List T)) (nX i j : Nat) (x : T) : Prop := IsLeast {t | ∃ k, k < nX ∧ tab p i k ≤ t ∧ tab p j k ≤ t} x

/-- a simplex of the flag complex of a graph on `n` vertices: a nonempty increasing list of at most `D + 1` vertices, any two of them (`a < b`) related by `E` -/
structure IsFlagSimplex (E : Nat → Nat → Prop) (n D : Nat) (s : List Nat) : Prop where
  ne : s ≠ []
  inc : s.Pairwise (· < ·)
  lt : ∀ a ∈ s, a < n
  len : s.length ≤ D + 1
  joined : ∀ a ∈ s, ∀ b ∈ s, a < b → E a b

/-- the landmarks `i` and `j` have a common witness at distance less than `r` from both -/
def HasWitness [Zero T] (p : List (List T)) (nX : Nat) (r : T) (i j : Nat) : Prop := ∃ k, k < nX ∧ tab p i k < r ∧ tab p j k < r

/-- `x` is the value of `s` in the Dowker filtration: 0 for a landmark, otherwise the smallest `t` such that any two landmarks of `s` have a common witness within `t` -/
def IsDowkerValue [Zero T] (p : List (List T)) (nX : Nat) (s : List Nat) (x : T) : Prop :=
  (s.length = 1 → x = 0) ∧ (2 ≤ s.length → IsLeast {t | ∀ a ∈ s, ∀ b ∈ s, a < b → ∃ k, k < nX ∧ tab p a k ≤ t ∧ tab p b k ≤ t} x)

/-- the `D`-skeleton of the flag complex of a graph -/
noncomputable def flagComplexOf (E : Nat → Nat → Prop) (n D : Nat) : Finset (Finset Nat) := by
  classical
  exact (Finset.range n).powerset.filter (fun σ => σ.Nonempty ∧ σ.card ≤ D + 1 ∧ ∀ a ∈ σ, ∀ b ∈ σ, a < b → E a b)

theorem mem_flagComplexOf (E : Nat → Nat → Prop) (n D : Nat) (σ : Finset Nat) :
    σ ∈ flagComplexOf E n D ↔ (∀ a ∈ σ, a < n) ∧ σ.Nonempty ∧ σ.card ≤ D + 1 ∧ ∀ a ∈ σ, ∀ b ∈ σ, a < b → E a b := by
  classical
  unfold flagComplexOf
  rw [Finset.mem_filter, Finset.mem_powerset]
  have : σ ⊆ Finset.range n ↔ ∀ a ∈ σ, a < n := ⟨fun h a ha => Finset.mem_range.1 (h ha), fun h a ha => Finset.mem_range.2 (h a ha)⟩
  rw [this]

theorem isASC_flagComplexOf (E : Nat → Nat → Prop) (n D : Nat) : IsASC (flagComplexOf E n D) := by
  constructor
  · intro s hs; exact ((mem_flagComplexOf ..).1 hs).2.1
  · intro s hs t hts htn
    rw [mem_flagComplexOf] at hs ⊢
    exact ⟨fun a ha => hs.1 a (hts ha), htn, le_trans (Finset.card_le_card hts) hs.2.2.1, fun a ha b hb => hs.2.2.2 a (hts ha) b (hts hb)⟩

theorem flagComplexOf_mono {E E' : Nat → Nat → Prop} (n D : Nat) (h : ∀ a b, E a b → E' a b) : flagComplexOf E n D ⊆ flagComplexOf E' n D := by
  intro s hs
  rw [mem_flagComplexOf] at hs ⊢
  exact ⟨hs.1, hs.2.1, hs.2.2.1, fun a ha b hb hab => h a b (hs.2.2.2 a ha b hb hab)⟩

/-- the landmarks `i` and `j` have a common witness within `t` of both -/
def WitnessWithin [Zero T] (p : List (List T)) (nX : Nat) (t : T) (i j : Nat) : Prop := ∃ k, k < nX ∧ tab p i k ≤ t ∧ tab p j k ≤ t

theorem WitnessWithin.mono [Zero T] {p : List (List T)} {nX : Nat} {s t : T} (h : s ≤ t) (i j : Nat) : WitnessWithin p nX s i j → WitnessWithin p nX t i j := by
  rintro ⟨k, h1, h2, h3⟩
  exact ⟨k, h1, le_trans h2 h, le_trans h3 h⟩

/-- the positive entries of column `j` -/
def colPos [Zero T] (p : List (List T)) (nL j : Nat) : Finset T := ((Finset.range nL).image (fun i => tab p i j)).filter (fun x => 0 < x)

/-- `m` is the `nu`-th smallest of the distinct positive entries of column `j` (0 for `nu = 0`, the largest number if there are fewer than `nu`) -/
def IsNthPositive [Zero T] (tmax : T) (p : List (List T)) (nL j nu : Nat) (m : T) : Prop :=
  (nu = 0 → m = 0) ∧ (0 < nu → nu ≤ (colPos p nL j).card → m ∈ colPos p nL j ∧ ((colPos p nL j).filter (· ≤ m)).card = nu) ∧
    ((colPos p nL j).card < nu → m = tmax)

/-- `l` lists `k` positions of entries of `d`, in an order in which the entries do not decrease, and no other entry is smaller -/
structure IsNearest [Zero T] (d : List T) (k : Nat) (l : List Nat) : Prop where
  len : l.length = k
  nodup : l.Nodup
  lt : ∀ a ∈ l, a < d.length
  sorted : l.Pairwise (fun a b => d.getD a 0 ≤ d.getD b 0)
  rest : ∀ a ∈ l, ∀ b, b < d.length → b ∉ l → d.getD a 0 ≤ d.getD b 0

/-- a simplex of the witness complex: an increasing list of at most `D + 1` landmarks, such that for every face with at least two vertices there is a point
whose first landmarks in the list of its nearest landmarks are the vertices of the face -/
structure IsWitnessSimplex (nbrs : List (List Nat)) (nL D : Nat) (s : List Nat) : Prop where
  ne : s ≠ []
  inc : s.Pairwise (· < ·)
  lt : ∀ a ∈ s, a < nL
  len : s.length ≤ D + 1
  witness : ∀ u : List Nat, u.Sublist s → 2 ≤ u.length → ∃ nb ∈ nbrs, (nb.take u.length).Perm u

/-- a simplex of the witness complex of de Silva and Carlsson: every face with at least two vertices has a weak witness, a point to which the vertices of the face
are nearer than (`rel` is `<`), or at least as near as (`rel` is `≤`), all other landmarks; `rows[i]` lists the distances of point `i` to the `nL` landmarks -/
structure IsWeakWitnessSimplex [Zero T] (rel : T → T → Prop) (rows : List (List T)) (nL D : Nat) (s : List Nat) : Prop where
  ne : s ≠ []
  inc : s.Pairwise (· < ·)
  lt : ∀ a ∈ s, a < nL
  len : s.length ≤ D + 1
  witness : ∀ u : List Nat, u.Sublist s → 2 ≤ u.length → ∃ d ∈ rows, ∀ a ∈ u, ∀ b, b < nL → b ∉ u → rel (d.getD a 0) (d.getD b 0)

/-- the witness complex of de Silva and Carlsson, up to dimension `D` -/
noncomputable def weakWitnessComplex [Zero T] (rows : List (List T)) (nL D : Nat) : Finset (Finset Nat) := by
  classical
  exact (Finset.range nL).powerset.filter (fun σ => σ.Nonempty ∧ σ.card ≤ D + 1 ∧
    ∀ τ ⊆ σ, 2 ≤ τ.card → ∃ d ∈ rows, ∀ a ∈ τ, ∀ b, b < nL → b ∉ τ → d.getD a 0 ≤ d.getD b 0)

/-- the points `a` and `b` lie in a common set of the cover -/
def InCommon (cover : List (List Nat)) (a b : Nat) : Prop := ∃ U ∈ cover, a ∈ U ∧ b ∈ U

/-- the `D`-skeleton of the union of the Vietoris–Rips complexes at scale `t` of the sets of a cover of `n` points (if there is a set at all, all points are vertices) -/
noncomputable def strictRipsComplex (dist : Nat → Nat → T) (cover : List (List Nat)) (n D : Nat) (t : T) : Finset (Finset Nat) := by
  classical
  exact (Finset.range n).powerset.filter (fun σ => σ.Nonempty ∧ σ.card ≤ D + 1 ∧ ∃ U ∈ cover, ∀ a ∈ σ, ∀ b ∈ σ, a < b → a ∈ U ∧ b ∈ U ∧ dist a b ≤ t)

theorem mem_strictRipsComplex (dist : Nat → Nat → T) (cover : List (List Nat)) (n D : Nat) (t : T) (σ : Finset Nat) : σ ∈ strictRipsComplex dist cover n D t ↔
    (∀ a ∈ σ, a < n) ∧ σ.Nonempty ∧ σ.card ≤ D + 1 ∧ ∃ U ∈ cover, ∀ a ∈ σ, ∀ b ∈ σ, a < b → a ∈ U ∧ b ∈ U ∧ dist a b ≤ t := by
  classical
  unfold strictRipsComplex
  rw [Finset.mem_filter, Finset.mem_powerset]
  have : σ ⊆ Finset.range n ↔ ∀ a ∈ σ, a < n := ⟨fun h a ha => Finset.mem_range.1 (h ha), fun h a ha => Finset.mem_range.2 (h a ha)⟩
  rw [this]

theorem isASC_strictRipsComplex (dist : Nat → Nat → T) (cover : List (List Nat)) (n D : Nat) (t : T) : IsASC (strictRipsComplex dist cover n D t) := by
  constructor
  · intro s hs; exact ((mem_strictRipsComplex ..).1 hs).2.1
  · intro s hs u hus hun
    rw [mem_strictRipsComplex] at hs ⊢
    obtain ⟨h1, h2, h3, U, hU, h4⟩ := hs
    exact ⟨fun a ha => h1 a (hus ha), hun, le_trans (Finset.card_le_card hus) h3, U, hU, fun a ha b hb => h4 a (hus ha) b (hus hb)⟩

theorem strictRipsComplex_mono (dist : Nat → Nat → T) (cover : List (List Nat)) (n D : Nat) {s t : T} (h : s ≤ t) :
    strictRipsComplex dist cover n D s ⊆ strictRipsComplex dist cover n D t := by
  intro u hu
  rw [mem_strictRipsComplex] at hu ⊢
  obtain ⟨h1, h2, h3, U, hU, h4⟩ := hu
  exact ⟨h1, h2, h3, U, hU, fun a ha b hb hab => ⟨(h4 a ha b hb hab).1, (h4 a ha b hb hab).2.1, le_trans (h4 a ha b hb hab).2.2 h⟩⟩

end Wit
end BATS
