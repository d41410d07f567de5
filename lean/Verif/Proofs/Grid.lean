import Verif.Model.Grid
import Verif.Spec.Grid
import Verif.Proofs.Product
import Mathlib.Data.Fintype.Prod

set_option linter.unusedSectionVars false
set_option linter.unusedVariables false
set_option linter.unusedSimpArgs false

/-! # Freudenthal triangulations: the simplices of one cell, and of a grid -/

namespace BATS
namespace Grid
open SCpx

/-- the simplices added by recursive calls -/
def simplexSet (ops : List SCpx.Op) : Set (List Nat) := {t | ∃ s, SCpx.Op.addRecursive s ∈ ops ∧ t ≠ [] ∧ t.Sublist s}

/-- all calls are recursive additions of sorted lists -/
def SortedRec (ops : List SCpx.Op) : Prop := ∀ o ∈ ops, ∃ s : List Nat, s.Pairwise (· ≤ ·) ∧ s ≠ [] ∧ o = .addRecursive s

theorem specRun_simplexSet {ops : List SCpx.Op} (h : SortedRec ops) (K : Set (List Nat)) : ops.foldl specStep K = {t | t ∈ K ∨ t ∈ simplexSet ops} := by
  ext t
  rw [specRun_rec ops K (fun o ho => by obtain ⟨s, h1, _, h2⟩ := h o ho; exact ⟨s, h1, h2⟩) t]
  rfl

theorem SortedRec.ne {ops : List SCpx.Op} (h : SortedRec ops) : ∀ o ∈ ops, o.simplex ≠ [] := by
  intro o ho
  obtain ⟨s, _, h1, rfl⟩ := h o ho
  exact h1

theorem SortedRec.append {a b : List SCpx.Op} (ha : SortedRec a) (hb : SortedRec b) : SortedRec (a ++ b) := by
  intro o ho
  rcases List.mem_append.1 ho with h | h
  · exact ha o h
  · exact hb o h

theorem simplexSet_append (a b : List SCpx.Op) : simplexSet (a ++ b) = {t | t ∈ simplexSet a ∨ t ∈ simplexSet b} := by
  ext t
  constructor
  · rintro ⟨s, h, h'⟩
    rcases List.mem_append.1 h with h | h
    · exact Or.inl ⟨s, h, h'⟩
    · exact Or.inr ⟨s, h, h'⟩
  · rintro (⟨s, h, h'⟩ | ⟨s, h, h'⟩)
    · exact ⟨s, List.mem_append_left _ h, h'⟩
    · exact ⟨s, List.mem_append_right _ h, h'⟩

theorem mem_loop2 {A : Type} {I J : List Nat} {f : Nat → Nat → List A} {x : A} : x ∈ loop2 I J f ↔ ∃ i ∈ I, ∃ j ∈ J, x ∈ f i j := by
  simp only [loop2, List.mem_flatMap]

theorem mem_loop3 {A : Type} {I J K : List Nat} {f : Nat → Nat → Nat → List A} {x : A} : x ∈ loop3 I J K f ↔ ∃ i ∈ I, ∃ j ∈ J, ∃ k ∈ K, x ∈ f i j k := by
  simp only [loop3, List.mem_flatMap]

theorem mem_steps {i0 i1 e i : Nat} : i ∈ steps i0 i1 e ↔ i0 ≤ i ∧ i + e < i1 := by
  unfold steps
  rw [List.mem_range'_1]
  omega

theorem mem_simplexSet_loop3 {I J K : List Nat} {f : Nat → Nat → Nat → List SCpx.Op} {t : List Nat} :
    t ∈ simplexSet (loop3 I J K f) ↔ ∃ i ∈ I, ∃ j ∈ J, ∃ k ∈ K, t ∈ simplexSet (f i j k) := by
  constructor
  · rintro ⟨s, h, h'⟩
    obtain ⟨i, hi, j, hj, k, hk, hs⟩ := mem_loop3.1 h
    exact ⟨i, hi, j, hj, k, hk, s, hs, h'⟩
  · rintro ⟨i, hi, j, hj, k, hk, s, hs, h'⟩
    exact ⟨s, mem_loop3.2 ⟨i, hi, j, hj, k, hk, hs⟩, h'⟩

theorem mem_simplexSet_loop2 {I J : List Nat} {f : Nat → Nat → List SCpx.Op} {t : List Nat} :
    t ∈ simplexSet (loop2 I J f) ↔ ∃ i ∈ I, ∃ j ∈ J, t ∈ simplexSet (f i j) := by
  constructor
  · rintro ⟨s, h, h'⟩
    obtain ⟨i, hi, j, hj, hs⟩ := mem_loop2.1 h
    exact ⟨i, hi, j, hj, s, hs, h'⟩
  · rintro ⟨i, hi, j, hj, s, hs, h'⟩
    exact ⟨s, mem_loop2.2 ⟨i, hi, j, hj, hs⟩, h'⟩

theorem sortedRec_loop3 {I J K : List Nat} {f : Nat → Nat → Nat → List SCpx.Op} (h : ∀ i j k, SortedRec (f i j k)) : SortedRec (loop3 I J K f) := by
  intro o ho
  obtain ⟨i, _, j, _, k, _, h'⟩ := mem_loop3.1 ho
  exact h i j k o h'

theorem sortedRec_loop2 {I J : List Nat} {f : Nat → Nat → List SCpx.Op} (h : ∀ i j, SortedRec (f i j)) : SortedRec (loop2 I J f) := by
  intro o ho
  obtain ⟨i, _, j, _, h'⟩ := mem_loop2.1 ho
  exact h i j o h'

/-! ### one cell -/

/-- the calls for one cell, whose corners are the points `e a` and whose maximal chains are `D` -/
def cellOps {A P : Type} (D : List (List A)) (e : A → P) (name : P → Nat) : List SCpx.Op := D.map (fun c => .addRecursive ((c.map e).map name))

theorem cellOps_sorted {A P : Type} [Preorder A] [Preorder P] {D : List (List A)} (hD : ∀ c ∈ D, c ≠ [] ∧ c.Pairwise (· < ·)) {e : A → P}
    (he : ∀ a b, a < b → e a < e b) {name : P → Nat} (hn : Monotone name) : SortedRec (cellOps D e name) := by
  intro o ho
  obtain ⟨c, hc, rfl⟩ := List.mem_map.1 ho
  refine ⟨_, ?_, by simpa using (hD c hc).1, rfl⟩
  rw [List.pairwise_map, List.pairwise_map]
  exact (hD c hc).2.imp (fun {a b} h => hn (he a b h).le)

theorem cellOps_set {A P : Type} [Preorder A] [Preorder P] [Add P] [One P] {D : List (List A)} (hD : ∀ c ∈ D, c ≠ [] ∧ c.Pairwise (· < ·))
    (hmax : ∀ l : List A, l ≠ [] → l.Pairwise (· < ·) → ∃ c ∈ D, l.Sublist c) {e : A → P} (he : ∀ a b, e a < e b ↔ a < b) (hunit : ∀ a b, e b ≤ e a + 1)
    {B : Set P} (hB : ∀ p, p ∈ B ↔ ∃ a, e a = p) (name : P → Nat) : simplexSet (cellOps D e name) = triangulation B name := by
  ext t
  constructor
  · rintro ⟨s, hs, ht, hsub⟩
    obtain ⟨c, hc, hcs⟩ := List.mem_map.1 hs
    injection hcs with hcs
    subst hcs
    obtain ⟨l, hl, rfl⟩ := List.sublist_map_iff.1 hsub
    obtain ⟨l', hl', rfl⟩ := List.sublist_map_iff.1 hl
    refine ⟨l'.map e, ⟨by simpa using ht, ?_, ?_⟩, ?_, rfl⟩
    · rw [List.pairwise_map]
      exact ((hD c hc).2.sublist hl').imp (fun {a b} h => (he a b).2 h)
    · intro p hp q hq
      obtain ⟨a, _, rfl⟩ := List.mem_map.1 hp
      obtain ⟨b, _, rfl⟩ := List.mem_map.1 hq
      exact hunit a b
    · intro p hp
      obtain ⟨a, _, rfl⟩ := List.mem_map.1 hp
      exact (hB _).2 ⟨a, rfl⟩
  · rintro ⟨l, ⟨h1, h2, _⟩, h3, rfl⟩
    have : l ∈ Set.range (List.map e) := by
      rw [Set.range_list_map]
      intro p hp
      exact (hB p).1 (h3 p hp)
    obtain ⟨l', rfl⟩ := this
    rw [List.pairwise_map] at h2
    obtain ⟨c, hc, hsub⟩ := hmax l' (by simpa using h1) (h2.imp (fun {a b} h => (he a b).1 h))
    exact ⟨_, List.mem_map.2 ⟨c, hc, rfl⟩, by simpa using h1, (hsub.map e).map name⟩

/-! ### the unit square and the unit cube -/

abbrev Sq := Fin 2 × Fin 2
abbrev Cu := Fin 2 × Fin 2 × Fin 2

/-- maximal chains of the square -/
def tri2 : List (List Sq) := [[(0, 0), (1, 0), (1, 1)], [(0, 0), (0, 1), (1, 1)]]

/-- maximal chains of the cube -/
def tet3 : List (List Cu) :=
  [[(0, 0, 0), (0, 0, 1), (0, 1, 1), (1, 1, 1)], [(0, 0, 0), (0, 0, 1), (1, 0, 1), (1, 1, 1)], [(0, 0, 0), (1, 0, 0), (1, 1, 0), (1, 1, 1)],
   [(0, 0, 0), (1, 0, 0), (1, 0, 1), (1, 1, 1)], [(0, 0, 0), (0, 1, 0), (1, 1, 0), (1, 1, 1)], [(0, 0, 0), (0, 1, 0), (0, 1, 1), (1, 1, 1)]]

theorem sq_lt {a b : Sq} : a < b ↔ (a.1 ≤ b.1 ∧ a.2 ≤ b.2) ∧ ¬ (b.1 ≤ a.1 ∧ b.2 ≤ a.2) := by
  rw [lt_iff_le_not_ge]; rfl

theorem cu_lt {a b : Cu} : a < b ↔ (a.1 ≤ b.1 ∧ a.2.1 ≤ b.2.1 ∧ a.2.2 ≤ b.2.2) ∧ ¬ (b.1 ≤ a.1 ∧ b.2.1 ≤ a.2.1 ∧ b.2.2 ≤ a.2.2) := by
  rw [lt_iff_le_not_ge]; rfl

instance : DecidableRel ((· < ·) : Sq → Sq → Prop) := fun _ _ => decidable_of_iff _ sq_lt.symm
instance : DecidableRel ((· < ·) : Cu → Cu → Prop) := fun _ _ => decidable_of_iff _ cu_lt.symm

theorem tri2_chains : ∀ c ∈ tri2, c ≠ [] ∧ c.Pairwise (· < ·) := by decide +kernel
theorem tet3_chains : ∀ c ∈ tet3, c ≠ [] ∧ c.Pairwise (· < ·) := by decide +kernel

theorem sq_weight : ∀ a b : Sq, a < b → a.1.val + a.2.val < b.1.val + b.2.val := by decide +kernel
theorem cu_weight : ∀ a b : Cu, a < b → a.1.val + a.2.1.val + a.2.2.val < b.1.val + b.2.1.val + b.2.2.val := by decide +kernel

theorem sq_max1 : ∀ a : Sq, ∃ c ∈ tri2, [a].Sublist c := by decide +kernel
theorem sq_max2 : ∀ a b : Sq, a < b → ∃ c ∈ tri2, [a, b].Sublist c := by decide +kernel
theorem sq_max3 : ∀ a b : Sq, a < b → ∀ d : Sq, b < d → ∃ c ∈ tri2, [a, b, d].Sublist c := by decide +kernel
theorem cu_max1 : ∀ a : Cu, ∃ c ∈ tet3, [a].Sublist c := by decide +kernel
theorem cu_max2 : ∀ a b : Cu, a < b → ∃ c ∈ tet3, [a, b].Sublist c := by decide +kernel
theorem cu_max3 : ∀ a b : Cu, a < b → ∀ d : Cu, b < d → ∃ c ∈ tet3, [a, b, d].Sublist c := by decide +kernel
theorem cu_max4 : ∀ a b : Cu, a < b → ∀ d : Cu, b < d → ∀ f : Cu, d < f → ∃ c ∈ tet3, [a, b, d, f].Sublist c := by decide +kernel

theorem tri2_max : ∀ l : List Sq, l ≠ [] → l.Pairwise (· < ·) → ∃ c ∈ tri2, l.Sublist c
  | [], h, _ => absurd rfl h
  | [a], _, _ => sq_max1 a
  | [a, b], _, h => sq_max2 a b (by simpa using h)
  | [a, b, c], _, h => by
    simp only [List.pairwise_cons, List.mem_cons, List.not_mem_nil, or_false, forall_eq_or_imp, forall_eq] at h
    exact sq_max3 a b h.1.1 c h.2.1
  | a :: b :: c :: d :: l, _, h => by
    simp only [List.pairwise_cons, List.mem_cons, forall_eq_or_imp] at h
    have h1 := sq_weight _ _ h.1.1
    have h2 := sq_weight _ _ h.2.1.1
    have h3 := sq_weight _ _ h.2.2.1.1
    have := d.1.isLt
    have := d.2.isLt
    omega

theorem tet3_max : ∀ l : List Cu, l ≠ [] → l.Pairwise (· < ·) → ∃ c ∈ tet3, l.Sublist c
  | [], h, _ => absurd rfl h
  | [a], _, _ => cu_max1 a
  | [a, b], _, h => cu_max2 a b (by simpa using h)
  | [a, b, c], _, h => by
    simp only [List.pairwise_cons, List.mem_cons, List.not_mem_nil, or_false, forall_eq_or_imp, forall_eq] at h
    exact cu_max3 a b h.1.1 c h.2.1
  | [a, b, c, d], _, h => by
    simp only [List.pairwise_cons, List.mem_cons, List.not_mem_nil, or_false, forall_eq_or_imp, forall_eq] at h
    exact cu_max4 a b h.1.1 c h.2.1.1 d h.2.2.1
  | a :: b :: c :: d :: f :: l, _, h => by
    simp only [List.pairwise_cons, List.mem_cons, forall_eq_or_imp] at h
    have h1 := cu_weight _ _ h.1.1
    have h2 := cu_weight _ _ h.2.1.1
    have h3 := cu_weight _ _ h.2.2.1.1
    have h4 := cu_weight _ _ h.2.2.2.1.1
    have := f.1.isLt
    have := f.2.1.isLt
    have := f.2.2.isLt
    omega

/-! ### points -/

theorem p2_le {p q : Nat × Nat} : p ≤ q ↔ p.1 ≤ q.1 ∧ p.2 ≤ q.2 := Iff.rfl
theorem p3_le {p q : Nat × Nat × Nat} : p ≤ q ↔ p.1 ≤ q.1 ∧ p.2.1 ≤ q.2.1 ∧ p.2.2 ≤ q.2.2 := Iff.rfl
theorem p2_lt {p q : Nat × Nat} : p < q ↔ (p.1 ≤ q.1 ∧ p.2 ≤ q.2) ∧ ¬ (q.1 ≤ p.1 ∧ q.2 ≤ p.2) := by rw [lt_iff_le_not_ge]; rfl
theorem p3_lt {p q : Nat × Nat × Nat} : p < q ↔ (p.1 ≤ q.1 ∧ p.2.1 ≤ q.2.1 ∧ p.2.2 ≤ q.2.2) ∧ ¬ (q.1 ≤ p.1 ∧ q.2.1 ≤ p.2.1 ∧ q.2.2 ≤ p.2.2) := by
  rw [lt_iff_le_not_ge]; rfl

def emb2 (i j : Nat) (a : Sq) : Nat × Nat := (i + a.1.val, j + a.2.val)
def embIJ (i j k : Nat) (a : Sq) : Nat × Nat × Nat := (i + a.1.val, j + a.2.val, k)
def embJK (i j k : Nat) (a : Sq) : Nat × Nat × Nat := (i, j + a.1.val, k + a.2.val)
def embIK (i j k : Nat) (a : Sq) : Nat × Nat × Nat := (i + a.1.val, j, k + a.2.val)
def emb3 (i j k : Nat) (a : Cu) : Nat × Nat × Nat := (i + a.1.val, j + a.2.1.val, k + a.2.2.val)

theorem rowMajor2_mono (n : Nat) : Monotone (rowMajor2 n) := by
  intro p q h
  have h := p2_le.1 h
  exact Nat.add_le_add (Nat.mul_le_mul_right _ h.1) h.2

theorem rowMajor3_mono (n2 n3 : Nat) : Monotone (rowMajor3 n2 n3) := by
  intro p q h
  have h := p3_le.1 h
  exact Nat.add_le_add (Nat.mul_le_mul_right _ (Nat.add_le_add (Nat.mul_le_mul_right _ h.1) h.2.1)) h.2.2

theorem idx2_eq (i j n : Nat) : idx2 i j n = rowMajor2 n (i, j) := by unfold idx2 rowMajor2; ring
theorem idx3_eq (i j k n2 n3 : Nat) : idx3 i j k n2 n3 = rowMajor3 n2 n3 (i, j, k) := by unfold idx3 rowMajor3; ring

theorem square_eq (n i j : Nat) : square n i j = cellOps tri2 (emb2 i j) (rowMajor2 n) := by
  simp only [square, idx2_eq]; rfl
theorem voxel_eq (n2 n3 i j k : Nat) : voxel n2 n3 i j k = cellOps tet3 (emb3 i j k) (rowMajor3 n2 n3) := by
  simp only [voxel, tets, idx3_eq]; rfl
theorem sqIJ_eq (n2 n3 i j k : Nat) : sqIJ n2 n3 i j k = cellOps tri2 (embIJ i j k) (rowMajor3 n2 n3) := by
  simp only [sqIJ, idx3_eq]; rfl
theorem sqJK_eq (n2 n3 i j k : Nat) : sqJK n2 n3 i j k = cellOps tri2 (embJK i j k) (rowMajor3 n2 n3) := by
  simp only [sqJK, idx3_eq]; rfl
theorem sqIK_eq (n2 n3 i j k : Nat) : sqIK n2 n3 i j k = cellOps tri2 (embIK i j k) (rowMajor3 n2 n3) := by
  simp only [sqIK, idx3_eq]; rfl

theorem fin2_of {n m : Nat} (h1 : n ≤ m) (h2 : m < n + 2) : ∃ a : Fin 2, n + a.val = m := ⟨⟨m - n, by omega⟩, by show n + (m - n) = m; omega⟩

theorem emb2_lt (i j : Nat) (a b : Sq) : emb2 i j a < emb2 i j b ↔ a < b := by
  rw [p2_lt, sq_lt]; simp only [emb2, Nat.add_le_add_iff_left, Fin.val_fin_le]
theorem emb3_lt (i j k : Nat) (a b : Cu) : emb3 i j k a < emb3 i j k b ↔ a < b := by
  rw [p3_lt, cu_lt]; simp only [emb3, Nat.add_le_add_iff_left, Fin.val_fin_le]
theorem embIJ_lt (i j k : Nat) (a b : Sq) : embIJ i j k a < embIJ i j k b ↔ a < b := by
  rw [p3_lt, sq_lt]; simp only [embIJ, Nat.add_le_add_iff_left, Fin.val_fin_le, le_refl, and_true]
theorem embJK_lt (i j k : Nat) (a b : Sq) : embJK i j k a < embJK i j k b ↔ a < b := by
  rw [p3_lt, sq_lt]; simp only [embJK, Nat.add_le_add_iff_left, Fin.val_fin_le, le_refl, true_and]
theorem embIK_lt (i j k : Nat) (a b : Sq) : embIK i j k a < embIK i j k b ↔ a < b := by
  rw [p3_lt, sq_lt]; simp only [embIK, Nat.add_le_add_iff_left, Fin.val_fin_le, le_refl, true_and]

theorem square_set (n i j : Nat) : simplexSet (square n i j) = triangulation {p | (i ≤ p.1 ∧ p.1 < i + 2) ∧ (j ≤ p.2 ∧ p.2 < j + 2)} (rowMajor2 n) := by
  rw [square_eq]
  refine cellOps_set tri2_chains tri2_max (emb2_lt i j) ?_ ?_ _
  · rintro ⟨a, b⟩ ⟨c, d⟩
    refine p2_le.2 ⟨?_, ?_⟩
    · show i + c.val ≤ i + a.val + 1; omega
    · show j + d.val ≤ j + b.val + 1; omega
  · rintro ⟨x, y⟩
    constructor
    · rintro ⟨h1, h2⟩
      obtain ⟨a, ha⟩ := fin2_of h1.1 h1.2
      obtain ⟨b, hb⟩ := fin2_of h2.1 h2.2
      exact ⟨(a, b), Prod.ext ha hb⟩
    · rintro ⟨⟨a, b⟩, h⟩
      cases h
      exact ⟨⟨Nat.le_add_right _ _, Nat.add_lt_add_left a.isLt _⟩, ⟨Nat.le_add_right _ _, Nat.add_lt_add_left b.isLt _⟩⟩

theorem voxel_set (n2 n3 i j k : Nat) : simplexSet (voxel n2 n3 i j k) = triangulation (box3 i (i + 2) j (j + 2) k (k + 2)) (rowMajor3 n2 n3) := by
  rw [voxel_eq]
  refine cellOps_set tet3_chains tet3_max (emb3_lt i j k) ?_ ?_ _
  · rintro ⟨a, b, e⟩ ⟨c, d, f⟩
    refine p3_le.2 ⟨?_, ?_, ?_⟩
    · show i + c.val ≤ i + a.val + 1; omega
    · show j + d.val ≤ j + b.val + 1; omega
    · show k + f.val ≤ k + e.val + 1; omega
  · rintro ⟨x, y, z⟩
    constructor
    · rintro ⟨h1, h2, h3⟩
      obtain ⟨a, ha⟩ := fin2_of h1.1 h1.2
      obtain ⟨b, hb⟩ := fin2_of h2.1 h2.2
      obtain ⟨c, hc⟩ := fin2_of h3.1 h3.2
      exact ⟨(a, b, c), Prod.ext ha (Prod.ext hb hc)⟩
    · rintro ⟨⟨a, b, c⟩, h⟩
      cases h
      exact ⟨⟨Nat.le_add_right _ _, Nat.add_lt_add_left a.isLt _⟩, ⟨Nat.le_add_right _ _, Nat.add_lt_add_left b.isLt _⟩,
        ⟨Nat.le_add_right _ _, Nat.add_lt_add_left c.isLt _⟩⟩

theorem sqIJ_set (n2 n3 i j k : Nat) : simplexSet (sqIJ n2 n3 i j k) = triangulation (box3 i (i + 2) j (j + 2) k (k + 1)) (rowMajor3 n2 n3) := by
  rw [sqIJ_eq]
  refine cellOps_set tri2_chains tri2_max (embIJ_lt i j k) ?_ ?_ _
  · rintro ⟨a, b⟩ ⟨c, d⟩
    refine p3_le.2 ⟨?_, ?_, ?_⟩
    · show i + c.val ≤ i + a.val + 1; omega
    · show j + d.val ≤ j + b.val + 1; omega
    · show k ≤ k + 1; omega
  · rintro ⟨x, y, z⟩
    constructor
    · rintro ⟨h1, h2, h3⟩
      obtain ⟨a, ha⟩ := fin2_of h1.1 h1.2
      obtain ⟨b, hb⟩ := fin2_of h2.1 h2.2
      have hz : k = z := by have := h3.1; have := h3.2; simp only at *; omega
      exact ⟨(a, b), Prod.ext ha (Prod.ext hb hz)⟩
    · rintro ⟨⟨a, b⟩, h⟩
      cases h
      exact ⟨⟨Nat.le_add_right _ _, Nat.add_lt_add_left a.isLt _⟩, ⟨Nat.le_add_right _ _, Nat.add_lt_add_left b.isLt _⟩, ⟨le_refl _, Nat.lt_succ_self _⟩⟩

theorem sqJK_set (n2 n3 i j k : Nat) : simplexSet (sqJK n2 n3 i j k) = triangulation (box3 i (i + 1) j (j + 2) k (k + 2)) (rowMajor3 n2 n3) := by
  rw [sqJK_eq]
  refine cellOps_set tri2_chains tri2_max (embJK_lt i j k) ?_ ?_ _
  · rintro ⟨a, b⟩ ⟨c, d⟩
    refine p3_le.2 ⟨?_, ?_, ?_⟩
    · show i ≤ i + 1; omega
    · show j + c.val ≤ j + a.val + 1; omega
    · show k + d.val ≤ k + b.val + 1; omega
  · rintro ⟨x, y, z⟩
    constructor
    · rintro ⟨h3, h1, h2⟩
      obtain ⟨a, ha⟩ := fin2_of h1.1 h1.2
      obtain ⟨b, hb⟩ := fin2_of h2.1 h2.2
      have hz : i = x := by have := h3.1; have := h3.2; simp only at *; omega
      exact ⟨(a, b), Prod.ext hz (Prod.ext ha hb)⟩
    · rintro ⟨⟨a, b⟩, h⟩
      cases h
      exact ⟨⟨le_refl _, Nat.lt_succ_self _⟩, ⟨Nat.le_add_right _ _, Nat.add_lt_add_left a.isLt _⟩, ⟨Nat.le_add_right _ _, Nat.add_lt_add_left b.isLt _⟩⟩

theorem sqIK_set (n2 n3 i j k : Nat) : simplexSet (sqIK n2 n3 i j k) = triangulation (box3 i (i + 2) j (j + 1) k (k + 2)) (rowMajor3 n2 n3) := by
  rw [sqIK_eq]
  refine cellOps_set tri2_chains tri2_max (embIK_lt i j k) ?_ ?_ _
  · rintro ⟨a, b⟩ ⟨c, d⟩
    refine p3_le.2 ⟨?_, ?_, ?_⟩
    · show i + c.val ≤ i + a.val + 1; omega
    · show j ≤ j + 1; omega
    · show k + d.val ≤ k + b.val + 1; omega
  · rintro ⟨x, y, z⟩
    constructor
    · rintro ⟨h1, h3, h2⟩
      obtain ⟨a, ha⟩ := fin2_of h1.1 h1.2
      obtain ⟨b, hb⟩ := fin2_of h2.1 h2.2
      have hz : j = y := by have := h3.1; have := h3.2; simp only at *; omega
      exact ⟨(a, b), Prod.ext ha (Prod.ext hz hb)⟩
    · rintro ⟨⟨a, b⟩, h⟩
      cases h
      exact ⟨⟨Nat.le_add_right _ _, Nat.add_lt_add_left a.isLt _⟩, ⟨le_refl _, Nat.lt_succ_self _⟩, ⟨Nat.le_add_right _ _, Nat.add_lt_add_left b.isLt _⟩⟩

theorem square_sorted (n i j : Nat) : SortedRec (square n i j) := by
  rw [square_eq]; exact cellOps_sorted tri2_chains (fun a b => (emb2_lt i j a b).2) (rowMajor2_mono n)
theorem voxel_sorted (n2 n3 i j k : Nat) : SortedRec (voxel n2 n3 i j k) := by
  rw [voxel_eq]; exact cellOps_sorted tet3_chains (fun a b => (emb3_lt i j k a b).2) (rowMajor3_mono n2 n3)
theorem sqIJ_sorted (n2 n3 i j k : Nat) : SortedRec (sqIJ n2 n3 i j k) := by
  rw [sqIJ_eq]; exact cellOps_sorted tri2_chains (fun a b => (embIJ_lt i j k a b).2) (rowMajor3_mono n2 n3)
theorem sqJK_sorted (n2 n3 i j k : Nat) : SortedRec (sqJK n2 n3 i j k) := by
  rw [sqJK_eq]; exact cellOps_sorted tri2_chains (fun a b => (embJK_lt i j k a b).2) (rowMajor3_mono n2 n3)
theorem sqIK_sorted (n2 n3 i j k : Nat) : SortedRec (sqIK n2 n3 i j k) := by
  rw [sqIK_eq]; exact cellOps_sorted tri2_chains (fun a b => (embIK_lt i j k a b).2) (rowMajor3_mono n2 n3)

/-! ### all cells -/

theorem chain_head {P : Type} [Preorder P] [Add P] [One P] {l : List P} (h : IsChain l) : ∃ p0 ∈ l, ∀ p ∈ l, p0 ≤ p ∧ p ≤ p0 + 1 := by
  obtain ⟨h1, h2, h3⟩ := h
  match l, h1 with
  | a :: l, _ =>
    refine ⟨a, by simp, fun p hp => ⟨?_, h3 a (by simp) p hp⟩⟩
    rcases List.mem_cons.1 hp with rfl | hp
    · exact le_refl _
    · exact ((List.pairwise_cons.1 h2).1 p hp).le

theorem triangulation_mono {P : Type} [Preorder P] [Add P] [One P] {B C : Set P} (h : ∀ p ∈ B, p ∈ C) (name : P → Nat) {t : List Nat}
    (ht : t ∈ triangulation B name) : t ∈ triangulation C name := by
  obtain ⟨l, h1, h2, h3⟩ := ht
  exact ⟨l, h1, fun p hp => h p (h2 p hp), h3⟩

/-- one coordinate: the start of a unit interval inside `[i0, i1)` that contains `a` and `a + 1` as far as they lie in `[i0, i1)` -/
theorem clamp {i0 i1 a : Nat} (h : i0 + 2 ≤ i1) (ha : i0 ≤ a ∧ a < i1) : ∃ i, (i0 ≤ i ∧ i + 1 < i1) ∧ ∀ x, a ≤ x → x ≤ a + 1 → x < i1 → i ≤ x ∧ x < i + 2 := by
  refine ⟨min a (i1 - 2), by omega, fun x h1 h2 h3 => by omega⟩

/-- in one coordinate, when there is only one value -/
theorem clamp1 {i0 i1 a : Nat} (h : i1 = i0 + 1) (ha : i0 ≤ a ∧ a < i1) : ∀ x, a ≤ x → x ≤ a + 1 → x < i1 → i0 ≤ x ∧ x < i0 + 1 := by
  intro x h1 h2 h3; omega

theorem run_grid (d : Nat) {ops : List SCpx.Op} (h : SortedRec ops) : ∃ X, (SCpx.init d).run ops = .ok X ∧ Represents X (simplexSet ops) := by
  obtain ⟨X, cells, h1, h2, _, h4⟩ := run_set ops (init_inv d).1 h.ne
  refine ⟨X, h1, ?_⟩
  have := h2.represents
  rw [h4, specRun_simplexSet h] at this
  have he : {t | t ∈ SCpx.setOf (fun _ => []) ∨ t ∈ simplexSet ops} = simplexSet ops := by
    ext s; simp [SCpx.setOf]
  rw [he] at this
  exact this

end Grid
end BATS
