import Verif.Model.ZigzagFilt

set_option linter.unusedSectionVars false
set_option linter.unusedSimpArgs false
set_option linter.unusedVariables false

/-! # `std::sort`: insertion sort is an implementation -/

namespace BATS
namespace Zigzag

/-- insert before the first element which is not smaller -/
def ins {α : Type} (cmp : α → α → Bool) (a : α) : List α → List α
  | [] => [a]
  | b :: l => if cmp b a then b :: ins cmp a l else a :: b :: l

def isort {α : Type} (cmp : α → α → Bool) : List α → List α
  | [] => []
  | a :: l => ins cmp a (isort cmp l)

theorem ins_perm {α : Type} (cmp : α → α → Bool) (a : α) : ∀ l, (ins cmp a l).Perm (a :: l)
  | [] => List.Perm.refl _
  | b :: l => by
    unfold ins
    split
    · exact ((ins_perm cmp a l).cons b).trans (List.Perm.swap a b l)
    · exact List.Perm.refl _

theorem isort_perm {α : Type} (cmp : α → α → Bool) : ∀ l, (isort cmp l).Perm l
  | [] => List.Perm.refl _
  | a :: l => (ins_perm cmp a _).trans ((isort_perm cmp l).cons a)

theorem ins_pairwise {α : Type} {cmp : α → α → Bool} {a : α} {L : List α} (h : StrictWeakOn cmp L) (ha : a ∈ L) : ∀ l : List α, (∀ b ∈ l, b ∈ L) →
    l.Pairwise (fun a b => cmp b a = false) → (ins cmp a l).Pairwise (fun a b => cmp b a = false)
  | [], _, _ => by simp [ins]
  | b :: l, hl, hp => by
    rw [List.pairwise_cons] at hp
    have hb := hl b (by simp)
    unfold ins
    split
    · rename_i hc
      rw [List.pairwise_cons]
      refine ⟨fun x hx => ?_, ins_pairwise h ha l (fun x hx => hl x (by simp [hx])) hp.2⟩
      rcases List.mem_cons.1 ((ins_perm cmp a l).mem_iff.1 hx) with rfl | hx
      · exact h.asymm _ hb _ ha hc
      · exact hp.1 x hx
    · rename_i hc
      rw [List.pairwise_cons]
      refine ⟨fun x hx => ?_, List.pairwise_cons.2 hp⟩
      rcases List.mem_cons.1 hx with rfl | hx
      · exact Bool.eq_false_iff.2 hc
      · have h1 := hp.1 x hx
        by_contra hxa
        rcases h.negtrans x (hl x (by simp [hx])) b hb a ha (by simpa using hxa) with h2 | h2
        · rw [h1] at h2; cases h2
        · exact hc h2

theorem isort_pairwise {α : Type} {cmp : α → α → Bool} {L : List α} (h : StrictWeakOn cmp L) : ∀ l : List α, (∀ b ∈ l, b ∈ L) →
    (isort cmp l).Pairwise (fun a b => cmp b a = false)
  | [], _ => List.Pairwise.nil
  | a :: l, hl => ins_pairwise h (hl a (by simp)) _ (fun b hb => hl b (by simp [(isort_perm cmp l).mem_iff.1 hb]))
      (isort_pairwise h l (fun b hb => hl b (by simp [hb])))

/-- insertion sort -/
def insertionStdSort : StdSort := ⟨isort, fun cmp l h => ⟨isort_perm cmp l, isort_pairwise h l (fun _ hb => hb)⟩⟩

end Zigzag
end BATS
