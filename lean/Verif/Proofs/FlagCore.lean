import Verif.Model.Flag
import Verif.Props.Sorted
import Mathlib.Data.Finset.Card

set_option linter.unusedSectionVars false
set_option linter.unusedVariables false
set_option linter.unusedSimpArgs false

/-! # The order in which flag complexes enumerate the cliques through an edge -/

namespace BATS
namespace Flag
open Srt
open SCpx

/-- the simplices added by the recursion, in order -/
def flagSeq (nb : Nat → List Nat) : Nat → List Nat → List Nat → List (List Nat)
  | 0, iter, spx => iter.flatMap (fun k => sortV (spx ++ [k]) :: [])
  | m + 1, iter, spx => iter.flatMap (fun k => sortV (spx ++ [k]) :: flagSeq nb m (intersectSortedLt k iter (nb k)) (sortV (spx ++ [k])))

/-- every simplex is a vertex or finds its faces in `K` or earlier in the list -/
def Legal : Set (Finset Nat) → List (List Nat) → Prop
  | _, [] => True
  | K, s :: L => s.Nodup ∧ s ≠ [] ∧ (s.length = 1 ∨ ∀ x ∈ s, s.toFinset.erase x ∈ K) ∧ Legal (insert s.toFinset K) L

/-- the vertex sets of a list of simplices -/
def setsOf (L : List (List Nat)) : Set (Finset Nat) := {τ | ∃ s ∈ L, s.toFinset = τ}

theorem setsOf_nil : setsOf [] = ∅ := by ext τ; simp [setsOf]

theorem setsOf_cons (s : List Nat) (L : List (List Nat)) : setsOf (s :: L) = insert s.toFinset (setsOf L) := by
  ext τ; simp [setsOf, eq_comm]

theorem setsOf_append (A L : List (List Nat)) : setsOf (A ++ L) = setsOf A ∪ setsOf L := by
  ext τ
  simp only [setsOf, List.mem_append, Set.mem_union, Set.mem_ofPred_eq]
  constructor
  · rintro ⟨s, h | h, e⟩
    · exact Or.inl ⟨s, h, e⟩
    · exact Or.inr ⟨s, h, e⟩
  · rintro (⟨s, h, e⟩ | ⟨s, h, e⟩)
    · exact ⟨s, Or.inl h, e⟩
    · exact ⟨s, Or.inr h, e⟩

theorem Legal.append : ∀ {A L : List (List Nat)} {K : Set (Finset Nat)}, Legal K A → Legal (K ∪ setsOf A) L → Legal K (A ++ L) := by
  intro A
  induction A with
  | nil => intro L K _ h; rw [setsOf_nil, Set.union_empty] at h; exact h
  | cons s A ih =>
    intro L K h1 h2
    obtain ⟨a, b, c, d⟩ := h1
    refine ⟨a, b, c, ih d ?_⟩
    rw [setsOf_cons] at h2
    rwa [Set.insert_union, ← Set.union_insert]

/-- `S` is a clique of `A` -/
def IsClique (A : Nat → Nat → Prop) (S : Finset Nat) : Prop := ∀ a ∈ S, ∀ b ∈ S, a ≠ b → A a b

/-- `σ ∪ S` for nonempty cliques `S` of at most `r` vertices of `C` -/
def Fam (A : Nat → Nat → Prop) (σ : Finset Nat) (C : List Nat) (r : Nat) : Set (Finset Nat) :=
  {τ | ∃ S : Finset Nat, S ⊆ C.toFinset ∧ S.Nonempty ∧ IsClique A S ∧ S.card ≤ r ∧ τ = σ ∪ S}

theorem fam_nil (A : Nat → Nat → Prop) (σ : Finset Nat) (r : Nat) : Fam A σ [] r = ∅ := by
  ext τ
  simp only [Fam, Set.mem_ofPred_eq, Set.mem_empty_iff_false, iff_false]
  rintro ⟨S, h1, h2, _⟩
  simp only [List.toFinset_nil, Finset.subset_empty] at h1
  subst h1
  simp at h2

theorem fam_zero (A : Nat → Nat → Prop) (σ : Finset Nat) (C : List Nat) : Fam A σ C 0 = ∅ := by
  ext τ
  simp only [Fam, Set.mem_ofPred_eq, Set.mem_empty_iff_false, iff_false]
  rintro ⟨S, _, h2, _, h4, _⟩
  rw [← Finset.card_pos] at h2
  omega

/-- what the recursion needs of the complex: `σ` and the faces of the new simplices that drop a vertex of `σ` are present -/
def Ready (A : Nat → Nat → Prop) (K : Set (Finset Nat)) (σ : Finset Nat) (C : List Nat) (r : Nat) : Prop :=
  σ ∈ K ∧ ∀ S : Finset Nat, S ⊆ C.toFinset → S.Nonempty → IsClique A S → S.card ≤ r → ∀ x ∈ σ, (σ ∪ S).erase x ∈ K

theorem sortV_toFinset (s : List Nat) : (sortV s).toFinset = s.toFinset := by
  ext a; rw [List.mem_toFinset, List.mem_toFinset]; exact (List.perm_insertionSort (· ≤ ·) s).mem_iff

theorem sortV_nodup {s : List Nat} : (sortV s).Nodup ↔ s.Nodup := (List.perm_insertionSort (· ≤ ·) s).nodup_iff

theorem sortV_length' (s : List Nat) : (sortV s).length = s.length := List.length_insertionSort _ _

theorem mem_sortV {s : List Nat} {a : Nat} : a ∈ sortV s ↔ a ∈ s := (List.perm_insertionSort (· ≤ ·) s).mem_iff

/-- splitting the family at the last candidate -/
theorem fam_concat {A : Nat → Nat → Prop} (hsym : ∀ a b, A a b → A b a) {σ : Finset Nat} {C1 Ck : List Nat} {k r : Nat}
    (hk : k ∉ C1) (hCk : ∀ x, x ∈ Ck ↔ x ∈ C1 ∧ A k x) :
    Fam A σ (C1 ++ [k]) (r + 1) = Fam A σ C1 (r + 1) ∪ insert (σ ∪ {k}) (Fam A (σ ∪ {k}) Ck r) := by
  ext τ
  simp only [Fam, Set.mem_union, Set.mem_insert_iff, Set.mem_ofPred_eq]
  constructor
  · rintro ⟨S, h1, h2, h3, h4, rfl⟩
    by_cases hkS : k ∈ S
    · right
      by_cases hS : S = {k}
      · left; rw [hS]
      · right
        refine ⟨S.erase k, ?_, ?_, ?_, ?_, ?_⟩
        · intro x hx
          rw [Finset.mem_erase] at hx
          have := h1 hx.2
          rw [List.mem_toFinset, List.mem_append, List.mem_singleton] at this
          rw [List.mem_toFinset, hCk]
          exact ⟨this.resolve_right hx.1, h3 k hkS x hx.2 (Ne.symm hx.1)⟩
        · rw [Finset.nonempty_iff_ne_empty]
          intro e
          rw [Finset.erase_eq_empty_iff] at e
          rcases e with e | e
          · subst e; simp at hkS
          · exact hS e
        · intro a ha b hb
          exact h3 a (Finset.mem_of_mem_erase ha) b (Finset.mem_of_mem_erase hb)
        · rw [Finset.card_erase_of_mem hkS]; omega
        · rw [Finset.union_assoc, ← Finset.insert_eq, Finset.insert_erase hkS]
    · left
      refine ⟨S, ?_, h2, h3, h4, rfl⟩
      intro x hx
      have := h1 hx
      rw [List.mem_toFinset, List.mem_append, List.mem_singleton] at this
      rw [List.mem_toFinset]
      refine this.resolve_right ?_
      rintro rfl; exact hkS hx
  · rintro (⟨S, h1, h2, h3, h4, rfl⟩ | rfl | ⟨S, h1, h2, h3, h4, rfl⟩)
    · refine ⟨S, ?_, h2, h3, h4, rfl⟩
      intro x hx
      have := h1 hx
      rw [List.mem_toFinset] at this ⊢
      simp [this]
    · refine ⟨{k}, by intro x hx; simp at hx; simp [hx], by simp, ?_, by simp, rfl⟩
      intro a ha b hb hne
      simp at ha hb
      omega
    · refine ⟨insert k S, ?_, by simp, ?_, ?_, ?_⟩
      · intro x hx
        rw [Finset.mem_insert] at hx
        rw [List.mem_toFinset, List.mem_append, List.mem_singleton]
        rcases hx with rfl | hx
        · right; rfl
        · left
          have := h1 hx
          rw [List.mem_toFinset, hCk] at this
          exact this.1
      · intro a ha b hb hne
        rw [Finset.mem_insert] at ha hb
        have hA : ∀ x ∈ S, A k x := by
          intro x hx
          have := h1 hx
          rw [List.mem_toFinset, hCk] at this
          exact this.2
        rcases ha with rfl | ha <;> rcases hb with rfl | hb
        · exact absurd rfl hne
        · exact hA b hb
        · exact hsym _ _ (hA a ha)
        · exact h3 a ha b hb hne
      · exact le_trans (Finset.card_insert_le _ _) (by omega)
      · rw [Finset.insert_eq, Finset.union_assoc]

/-- one level of the enumeration, given the levels below -/
theorem level_spec {A : Nat → Nat → Prop} (hsym : ∀ a b, A a b → A b a) {C P : List Nat} (hC : C.Pairwise (· < ·)) (hP : P.Nodup)
    (hPC : ∀ x ∈ C, x ∉ P) (r : Nat) (Ck : Nat → List Nat) (tail : Nat → List (List Nat))
    (hCk : ∀ k ∈ C, ∀ x, x ∈ Ck k ↔ x ∈ C ∧ x < k ∧ A k x)
    (htail : ∀ k ∈ C, ∀ K, Ready A K (P.toFinset ∪ {k}) (Ck k) r →
      Legal K (tail k) ∧ setsOf (tail k) = Fam A (P.toFinset ∪ {k}) (Ck k) r)
    {K : Set (Finset Nat)} (hR : Ready A K P.toFinset C (r + 1)) :
    ∀ C2 C1, C1 ++ C2 = C → Legal (K ∪ Fam A P.toFinset C1 (r + 1)) (C2.flatMap (fun k => sortV (P ++ [k]) :: tail k)) ∧
      Fam A P.toFinset C1 (r + 1) ∪ setsOf (C2.flatMap (fun k => sortV (P ++ [k]) :: tail k)) = Fam A P.toFinset C (r + 1) := by
  intro C2
  induction C2 with
  | nil =>
    intro C1 e
    rw [List.append_nil] at e
    subst e
    refine ⟨trivial, ?_⟩
    rw [List.flatMap_nil, setsOf_nil, Set.union_empty]
  | cons k C3 ih =>
    intro C1 e
    have hkC : k ∈ C := by rw [← e]; simp
    have hlt : ∀ x ∈ C1, x < k := by
      intro x hx
      rw [← e, List.pairwise_append] at hC
      exact hC.2.2 x hx k (by simp)
    have hgt : ∀ x ∈ C3, k < x := by
      intro x hx
      rw [← e, List.pairwise_append, List.pairwise_cons] at hC
      exact hC.2.1.1 x hx
    have hCk' : ∀ x, x ∈ Ck k ↔ x ∈ C1 ∧ A k x := by
      intro x
      rw [hCk k hkC, ← e, List.mem_append, List.mem_cons]
      constructor
      · rintro ⟨h1 | h1 | h1, h2, h3⟩
        · exact ⟨h1, h3⟩
        · omega
        · have := hgt x h1; omega
      · rintro ⟨h1, h2⟩
        exact ⟨Or.inl h1, hlt x h1, h2⟩
    have hk1 : k ∉ C1 := by intro h; have := hlt k h; omega
    have hfam := fam_concat (σ := P.toFinset) (r := r) hsym hk1 hCk'
    have hset : (sortV (P ++ [k])).toFinset = P.toFinset ∪ {k} := by
      rw [sortV_toFinset, List.toFinset_append]; rfl
    have hkP := hPC k hkC
    obtain ⟨i1, i2⟩ := ih (C1 ++ [k]) (by rw [List.append_assoc]; exact e)
    have hsub1 : ∀ x ∈ C1, x ∈ C := by intro x hx; rw [← e]; simp [hx]
    -- the recursion below `k`
    have hRk : Ready A (insert (P.toFinset ∪ {k}) (K ∪ Fam A P.toFinset C1 (r + 1))) (P.toFinset ∪ {k}) (Ck k) r := by
      refine ⟨Set.mem_insert _ _, ?_⟩
      intro S h1 h2 h3 h4 x hx
      have hkS : k ∉ S := by
        intro h
        have := h1 h
        rw [List.mem_toFinset, hCk'] at this
        exact hk1 this.1
      right
      rw [Finset.mem_union, Finset.mem_singleton] at hx
      by_cases hxP : x ∈ P.toFinset
      · left
        rw [Finset.union_assoc]
        refine hR.2 ({k} ∪ S) ?_ (by simp) ?_ ?_ x hxP
        · intro y hy
          rw [Finset.mem_union, Finset.mem_singleton] at hy
          rw [List.mem_toFinset]
          rcases hy with rfl | hy
          · exact hkC
          · have := h1 hy
            rw [List.mem_toFinset, hCk'] at this
            exact hsub1 _ this.1
        · have hA : ∀ x ∈ S, A k x := by
            intro x hx
            have := h1 hx
            rw [List.mem_toFinset, hCk'] at this
            exact this.2
          intro a ha b hb hne
          rw [Finset.mem_union, Finset.mem_singleton] at ha hb
          rcases ha with rfl | ha <;> rcases hb with rfl | hb
          · exact absurd rfl hne
          · exact hA b hb
          · exact hsym _ _ (hA a ha)
          · exact h3 a ha b hb hne
        · exact le_trans (Finset.card_union_le _ _) (by simp; omega)
      · have hxk : x = k := hx.resolve_left hxP
        subst hxk
        right
        refine ⟨S, ?_, h2, h3, by omega, ?_⟩
        · intro y hy
          have := h1 hy
          rw [List.mem_toFinset, hCk'] at this
          rw [List.mem_toFinset]; exact this.1
        · ext y
          simp only [Finset.mem_erase, Finset.mem_union, Finset.mem_singleton]
          constructor
          · rintro ⟨h1, (h2 | h2) | h2⟩
            · exact Or.inl h2
            · exact absurd h2 h1
            · exact Or.inr h2
          · rintro (h | h)
            · exact ⟨by rintro rfl; exact hxP h, Or.inl (Or.inl h)⟩
            · exact ⟨by rintro rfl; exact hkS h, Or.inr h⟩
    obtain ⟨t1, t2⟩ := htail k hkC _ hRk
    rw [List.flatMap_cons]
    refine ⟨?_, ?_⟩
    · apply Legal.append
      · refine ⟨?_, ?_, ?_, ?_⟩
        · rw [sortV_nodup, List.nodup_append]
          refine ⟨hP, by simp, ?_⟩
          intro a ha b hb
          simp at hb; subst hb
          rintro rfl; exact hkP ha
        · intro e'
          have := congrArg List.length e'
          rw [sortV_length'] at this
          simp at this
        · right
          intro x hx
          rw [hset]
          rw [mem_sortV, List.mem_append, List.mem_singleton] at hx
          left
          rcases hx with hx | rfl
          · exact hR.2 {k} (by intro y hy; simp at hy; rw [hy, List.mem_toFinset]; exact hkC) (by simp)
              (by intro a ha b hb hne; simp at ha hb; omega) (by simp) x (List.mem_toFinset.2 hx)
          · have : (P.toFinset ∪ {x}).erase x = P.toFinset := by
              rw [Finset.union_comm, ← Finset.insert_eq]
              exact Finset.erase_insert (by rw [List.mem_toFinset]; exact hkP)
            rw [this]; exact hR.1
        · rw [hset]; exact t1
      · rw [setsOf_cons, hset, t2, Set.union_assoc, ← hfam]
        exact i1
    · rw [setsOf_append, setsOf_cons, hset, t2, ← Set.union_assoc, ← hfam]
      exact i2

/-- the enumeration through a given simplex is legal and consists of the cliques -/
theorem flagSeq_spec {A : Nat → Nat → Prop} (hsym : ∀ a b, A a b → A b a) (hirr : ∀ a, ¬ A a a) {nb : Nat → List Nat} (hnb : ∀ a, (nb a).Pairwise (· < ·))
    (hA : ∀ a x, x ∈ nb a ↔ A a x) : ∀ (m : Nat) (C P : List Nat), C.Pairwise (· < ·) → P.Nodup → (∀ x ∈ C, x ∉ P) → ∀ (K : Set (Finset Nat)),
      Ready A K P.toFinset C (m + 1) → Legal K (flagSeq nb m C P) ∧ setsOf (flagSeq nb m C P) = Fam A P.toFinset C (m + 1) := by
  have hCk : ∀ C : List Nat, C.Pairwise (· < ·) → ∀ k ∈ C, (intersectSortedLt k C (nb k)).Pairwise (· < ·) ∧
      ∀ x, x ∈ intersectSortedLt k C (nb k) ↔ x ∈ C ∧ x < k ∧ A k x := by
    intro C hC k hk
    have hbad : ¬ BadHead k C (nb k) := by
      rintro ⟨x, h1, h2, h3⟩
      have hxk : x ≤ k := by
        cases C with
        | nil => simp at hk
        | cons y C =>
          simp only [List.head?_cons, Option.some.injEq] at h1
          subst h1
          rw [List.mem_cons] at hk
          rcases hk with rfl | hk
          · exact Nat.le_refl _
          · exact le_of_lt ((List.pairwise_cons.1 hC).1 k hk)
      have : x = k := by omega
      subst this
      have hm : x ∈ nb x := List.mem_of_mem_head? (by rw [h2]; exact rfl)
      exact hirr x ((hA x x).1 hm)
    obtain ⟨h1, h2⟩ := C27_intersect_sorted_lt (maxval := k) hC (hnb k) hbad
    refine ⟨h1, fun x => ?_⟩
    rw [h2, hA]; tauto
  intro m
  induction m with
  | zero =>
    intro C P hC hP hPC K hR
    have := level_spec hsym hC hP hPC 0 (fun k => intersectSortedLt k C (nb k)) (fun _ => []) (fun k hk => (hCk C hC k hk).2)
      (by intro k hk K _; exact ⟨trivial, by rw [setsOf_nil, fam_zero]⟩) hR C [] rfl
    rw [fam_nil, Set.union_empty, Set.empty_union] at this
    exact this
  | succ m ih =>
    intro C P hC hP hPC K hR
    have := level_spec hsym hC hP hPC (m + 1) (fun k => intersectSortedLt k C (nb k))
      (fun k => flagSeq nb m (intersectSortedLt k C (nb k)) (sortV (P ++ [k]))) (fun k hk => (hCk C hC k hk).2)
      (by
        intro k hk K hRk
        have hset : (sortV (P ++ [k])).toFinset = P.toFinset ∪ {k} := by
          rw [sortV_toFinset, List.toFinset_append]; rfl
        have hkP := hPC k hk
        have := ih (intersectSortedLt k C (nb k)) (sortV (P ++ [k])) (hCk C hC k hk).1 (by
            rw [sortV_nodup, List.nodup_append]
            refine ⟨hP, by simp, ?_⟩
            intro a ha b hb
            simp at hb; subst hb
            rintro rfl; exact hkP ha) (by
            intro x hx
            obtain ⟨h1, h2, h3⟩ := ((hCk C hC k hk).2 x).1 hx
            rw [mem_sortV, List.mem_append, List.mem_singleton]
            rintro (h | h)
            · exact hPC x h1 h
            · omega) K (by rw [hset]; exact hRk)
        rw [hset] at this
        exact this) hR C [] rfl
    rw [fam_nil, Set.union_empty, Set.empty_union] at this
    exact this

end Flag
end BATS
