import Verif.Proofs.ZZArrow
import Verif.Proofs.ZZPref

set_option linter.unusedSectionVars false
set_option linter.unusedSimpArgs false
set_option linter.unusedVariables false

/-! # Zigzag: levels over time -/

namespace BATS
namespace Zigzag
open Reduction Matrix BATS.Fact CMat

variable {F : Type} [Field F] [DecidableEq F] {T : Type}

/-- the `k`-th boundary matrix, also above the top dimension -/
def Dk (B : List (CMat F)) (k : Nat) : CMat F := B.getD k ⟨rdim B k, []⟩

theorem getD_lt {α : Type} {l : List α} {i : Nat} (h : i < l.length) (a b : α) : l.getD i a = l.getD i b := by
  rw [List.getD_eq_getElem?_getD, List.getD_eq_getElem?_getD, List.getElem?_eq_getElem h]; rfl

theorem Dk_cols (B : List (CMat F)) (k : Nat) : (Dk B k).cols = (B.getD k ⟨0, []⟩).cols := by
  unfold Dk
  by_cases h : k < B.length
  · rw [getD_lt h]
  · rw [getD_of_ge (by omega), getD_of_ge (by omega)]

theorem Dk_mat (B : List (CMat F)) (k : Nat) : (Dk B k).mat (rdim B k) (cdim B k) = bdry B k := by
  unfold CMat.mat bdry; rw [Dk_cols]

theorem Dk_mat_up (B : List (CMat F)) (k : Nat) : (Dk B (k + 1)).mat (cdim B k) (cdim B (k + 1)) = bdryUp B k := Dk_mat B (k + 1)

theorem cdim_ge {B : List (CMat F)} {k : Nat} (h : B.length ≤ k) : cdim B k = 0 := by unfold cdim; rw [getD_of_ge h]; rfl

theorem Dk_shape {B : List (CMat F)} (hB : IsChainComplex B) (k : Nat) : (Dk B k).Shape (rdim B k) (cdim B k) := by
  by_cases h : k < B.length
  · have := hB.shape k h
    unfold Dk; rw [getD_lt h _ ⟨0, []⟩]; exact this
  · rw [cdim_ge (by omega)]
    unfold Dk; rw [getD_of_ge (by omega)]
    exact ⟨fun c hc => absurd hc (by show ¬ c ∈ ([] : List (SVec F)); simp), rfl, rfl⟩

theorem sq_all {B : List (CMat F)} (hB : IsChainComplex B) (k : Nat) : (Dk B k).mat (rdim B k) (cdim B k) * (Dk B (k + 1)).mat (cdim B k) (cdim B (k + 1)) = 0 := by
  rw [Dk_mat, Dk_mat_up]
  by_cases h : k + 1 < B.length
  · exact hB.sq k h
  · ext i j
    have h1 := j.2
    have h2 : cdim B (k + 1) = 0 := cdim_ge (by omega)
    omega

/-! ### cells which are present -/

theorem present_succ {es : List (Event T)} {N : Nat} {e : Event T} (he : es[N]? = some e) (k : Nat) :
    present (es.take (N + 1)) k =
      if e.dim = k then (if e.entry then insert e.ind (present (es.take N) k) else (present (es.take N) k).erase e.ind) else present (es.take N) k := by
  unfold present
  rw [List.take_add_one, he]
  simp [List.foldl_append]

theorem take_split {es : List (Event T)} {N : Nat} {e : Event T} (he : es[N]? = some e) : es = es.take N ++ e :: es.drop (N + 1) := by
  obtain ⟨h, h2⟩ := List.getElem?_eq_some_iff.1 he
  rw [← h2, List.cons_getElem_drop_succ, List.take_append_drop]

theorem stepOK {B : List (CMat F)} {es : List (Event T)} (ho : IsZigzagOrder B es) {N : Nat} {e : Event T} (he : es[N]? = some e) : StepOK B (es.take N) e :=
  ho _ _ _ (take_split he)

/-- the cells which are present form a subcomplex -/
theorem closed_all {B : List (CMat F)} {es : List (Event T)} (ho : IsZigzagOrder B es) (k : Nat) : ∀ N, Closed (Dk B (k + 1)) (present (es.take N) k) (present (es.take N) (k + 1)) := by
  intro N
  unfold Closed
  rw [Dk_cols]
  induction N with
  | zero => intro j hj; simp [present] at hj
  | succ N ih =>
    rcases he : es[N]? with _ | e
    · have : es.length ≤ N := List.getElem?_eq_none_iff.1 he
      rw [List.take_of_length_le (by omega)]
      rw [List.take_of_length_le this] at ih
      exact ih
    · have hs := stepOK ho he
      rw [present_succ he, present_succ he]
      obtain ⟨h1, h2, h3⟩ := hs
      cases hen : e.entry with
      | true =>
        rw [if_pos hen] at h3
        simp only [if_true]
        by_cases e1 : e.dim = k + 1
        · rw [if_pos e1, if_neg (by omega)]
          intro j hj i hi
          rcases Finset.mem_insert.1 hj with hj | hj
          · subst hj; exact h3.2 k e1 i hi
          · exact ih j hj i hi
        · rw [if_neg e1]
          by_cases e2 : e.dim = k
          · rw [if_pos e2]
            intro j hj i hi
            exact Finset.mem_insert_of_mem (ih j hj i hi)
          · rw [if_neg e2]; exact ih
      | false =>
        rw [if_neg (by simp [hen])] at h3
        simp only [Bool.false_eq_true, if_false]
        by_cases e1 : e.dim = k + 1
        · rw [if_pos e1, if_neg (by omega)]
          intro j hj i hi
          exact ih j (Finset.mem_of_mem_erase hj) i hi
        · rw [if_neg e1]
          by_cases e2 : e.dim = k
          · rw [if_pos e2]
            intro j hj i hi
            refine Finset.mem_erase.2 ⟨?_, ih j hj i hi⟩
            rintro rfl
            subst e2
            exact hi (h3.2.2 j hj)
          · rw [if_neg e2]; exact ih

theorem present_lt {B : List (CMat F)} {es : List (Event T)} (ho : IsZigzagOrder B es) (k : Nat) : ∀ N, ∀ c ∈ present (es.take N) k, c < cdim B k := by
  intro N
  induction N with
  | zero => intro j hj; simp [present] at hj
  | succ N ih =>
    rcases he : es[N]? with _ | e
    · have : es.length ≤ N := List.getElem?_eq_none_iff.1 he
      rw [List.take_of_length_le (by omega)]
      rw [List.take_of_length_le this] at ih
      exact ih
    · obtain ⟨h1, h2, h3⟩ := stepOK ho he
      rw [present_succ he]
      intro c hc
      split at hc
      · rename_i e1
        split at hc
        · rcases Finset.mem_insert.1 hc with hc | hc
          · rw [hc, ← e1]; exact h2
          · exact ih c hc
        · exact ih c (Finset.mem_of_mem_erase hc)
      · exact ih c hc

/-- a cell which is present has entered -/
theorem present_event {es : List (Event T)} (k c : Nat) : ∀ N, c ∈ present (es.take N) k → ∃ f ∈ es.take N, f.dim = k ∧ f.ind = c := by
  intro N
  induction N with
  | zero => intro hj; simp [present] at hj
  | succ N ih =>
    rcases he : es[N]? with _ | e
    · have : es.length ≤ N := List.getElem?_eq_none_iff.1 he
      rw [List.take_of_length_le (by omega)]
      rw [List.take_of_length_le this] at ih
      exact ih
    · have hsub : ∀ f ∈ es.take N, f ∈ es.take (N + 1) := by
        intro f hf; rw [List.take_add_one]; simp [hf]
      have hee : e ∈ es.take (N + 1) := by rw [List.take_add_one, he]; simp
      have lift : c ∈ present (es.take N) k → ∃ f ∈ es.take (N + 1), f.dim = k ∧ f.ind = c := fun h => by
        obtain ⟨f, hf, h2⟩ := ih h
        exact ⟨f, hsub f hf, h2⟩
      rw [present_succ he]
      intro hc
      split at hc
      · rename_i e1
        split at hc
        · rcases Finset.mem_insert.1 hc with hc | hc
          · exact ⟨e, hee, e1, hc.symm⟩
          · exact lift hc
        · exact lift (Finset.mem_of_mem_erase hc)
      · exact lift hc

/-! ### levels -/

section
variable {B : List (CMat F)} {es : List (Event T)} {N : Nat}

theorem cyclesOn_eq (k i : Nat) : cyclesOn B es k i = LinearMap.ker ((Dk B k).mat (rdim B k) (cdim B k)).mulVecLin ⊓ onS F (cdim B k) (present (es.take i) k) := by
  rw [Dk_mat]; rfl

theorem boundariesOn_eq (k i : Nat) : boundariesOn B es k i =
    (onS F (cdim B (k + 1)) (present (es.take i) (k + 1))).map ((Dk B (k + 1)).mat (cdim B k) (cdim B (k + 1))).mulVecLin := by
  rw [Dk_mat_up]; rfl

theorem bound_le_cycles (hB : IsChainComplex B) (ho : IsZigzagOrder B es) (k i : Nat) : boundariesOn B es k i ≤ cyclesOn B es k i := by
  rw [cyclesOn_eq, boundariesOn_eq]
  refine le_inf ?_ (closed_map (closed_all ho k i))
  rintro _ ⟨x, _, rfl⟩
  rw [LinearMap.mem_ker, Matrix.mulVecLin_apply, Matrix.mulVecLin_apply, Matrix.mulVec_mulVec, sq_all hB, Matrix.zero_mulVec]

theorem onS_mono {n : Nat} {S S' : Finset Nat} (h : S ⊆ S') : onS F n S ≤ onS F n S' := by
  intro x hx
  rw [mem_onS] at hx ⊢
  intro i hi
  exact hx i (fun h2 => hi (h h2))

theorem cyclesOn_mono {k i j : Nat} (h : present (es.take i) k ⊆ present (es.take j) k) : cyclesOn B es k i ≤ cyclesOn B es k j := by
  rw [cyclesOn_eq, cyclesOn_eq]; exact inf_le_inf_left _ (onS_mono h)

theorem boundariesOn_mono {k i j : Nat} (h : present (es.take i) (k + 1) ⊆ present (es.take j) (k + 1)) : boundariesOn B es k i ≤ boundariesOn B es k j := by
  rw [boundariesOn_eq, boundariesOn_eq]; exact Submodule.map_mono (onS_mono h)

/-- all levels at time `N` -/
abbrev Lvls (B : List (CMat F)) (es : List (Event T)) (N : Nat) (R U : Nat → CMat F) (p : Nat → P2C) : Prop :=
  ∀ k, Lev (rdim B k) (cdim B k) (Dk B k) (R k) (U k) (p k) (present (es.take N) k)

/-- `I` lists the generators -/
structure IsGens (R : CMat F) (p2 : P2C) (S : Finset Nat) (I : List Nat) : Prop where
  sorted : I.Pairwise (· < ·)
  mem : ∀ c, c ∈ I ↔ c ∈ S ∧ R.cols.getD c [] = [] ∧ p2.getD c none = none

/-- a generator -/
def genOf (n : Nat) (U : CMat F) (c : Nat) : Fin n → F := vecOf n (U.cols.getD c [])

variable {R U R' U' : Nat → CMat F} {p p' : Nat → P2C}

theorem Lvls.gens (hl : Lvls B es N R U p) (hB : IsChainComplex B) (ho : IsZigzagOrder B es) {k : Nat} {I : List Nat} (hI : IsGens (R k) (p (k + 1)) (present (es.take N) k) I) :
    GensBasis (cyclesOn B es k N) (boundariesOn B es k N) (fun g : Fin I.length => genOf (cdim B k) (U k) (I.get g)) := by
  rw [cyclesOn_eq, boundariesOn_eq]
  exact gens_basis (hl k) (hl (k + 1)) (sq_all hB k) (closed_all ho k N) hI.sorted hI.mem

theorem basis_eq {n : Nat} {Z W Z' W' : Submodule F (Fin n → F)} {g : Nat} {gens : Fin g → Fin n → F} (h : GensBasis Z W gens) (h' : GensBasis Z' W' gens)
    (hW : W ≤ W') (hZ : Z ≤ Z') (hWZ : W ≤ Z) (hWZ' : W' ≤ Z') (he : Z = Z' ∨ W = W') : Z = Z' ∧ W = W' := by
  rcases he with he | he
  · refine ⟨he, le_antisymm hW ?_⟩
    intro x hx
    obtain ⟨c, hc⟩ := h.span x (by rw [he]; exact hWZ' hx)
    have : ∑ i, c i • gens i ∈ W' := by
      have := W'.sub_mem hx (hW hc)
      rwa [sub_sub_cancel] at this
    rw [h'.indep c this] at hc
    simpa using hc
  · refine ⟨le_antisymm hZ ?_, he⟩
    intro x hx
    obtain ⟨c, hc⟩ := h'.span x hx
    rw [← he] at hc
    have h1 : ∑ i, c i • gens i ∈ Z := Z.sum_mem (fun i _ => Z.smul_mem _ (h.mem i))
    have := Z.add_mem (hWZ hc) h1
    rwa [sub_add_cancel] at this

/-- everything about one homological dimension -/
structure KOK (B : List (CMat F)) (es : List (Event T)) (N k : Nat) (R U : CMat F) (p2 : P2C) (I : List Nat) (L P : CMat F) (d : Bool) (bars : List (ZPair T)) (m : AMap) : Prop where
  gens : IsGens R p2 (present (es.take N) k) I
  bar : BarInv es k (cyclesOn B es k) (boundariesOn B es k) N I (genOf (cdim B k) U) L P d bars m

theorem KOK.skip (hB : IsChainComplex B) (ho : IsZigzagOrder B es) (hl : Lvls B es N R U p) (hl' : Lvls B es (N + 1) R' U' p') {k : Nat} {I : List Nat} {L P : CMat F} {d : Bool}
    {bars : List (ZPair T)} {m : AMap} (h : KOK B es N k (R k) (U k) (p (k + 1)) I L P d bars m)
    (hI : ∀ c, (c ∈ present (es.take (N + 1)) k ∧ (R' k).cols.getD c [] = [] ∧ (p' (k + 1)).getD c none = none) ↔
      (c ∈ present (es.take N) k ∧ (R k).cols.getD c [] = [] ∧ (p (k + 1)).getD c none = none))
    (hg : ∀ c ∈ I, (U' k).cols.getD c [] = (U k).cols.getD c [])
    (hmono : (present (es.take N) k ⊆ present (es.take (N + 1)) k ∧ present (es.take N) (k + 1) ⊆ present (es.take (N + 1)) (k + 1)) ∨
      (present (es.take (N + 1)) k ⊆ present (es.take N) k ∧ present (es.take (N + 1)) (k + 1) ⊆ present (es.take N) (k + 1)))
    (heq : present (es.take (N + 1)) k = present (es.take N) k ∨ present (es.take (N + 1)) (k + 1) = present (es.take N) (k + 1)) :
    KOK B es (N + 1) k (R' k) (U' k) (p' (k + 1)) I L P d bars m := by
  have hI' : IsGens (R' k) (p' (k + 1)) (present (es.take (N + 1)) k) I := ⟨h.gens.sorted, fun c => by rw [h.gens.mem, hI]⟩
  have hgen : ∀ c ∈ I, genOf (cdim B k) (U' k) c = genOf (cdim B k) (U k) c := fun c hc => by unfold genOf; rw [hg c hc]
  have hb := hl.gens hB ho h.gens
  have hb' := hl'.gens hB ho hI'
  have : (fun g : Fin I.length => genOf (cdim B k) (U' k) (I.get g)) = fun g : Fin I.length => genOf (cdim B k) (U k) (I.get g) :=
    funext fun g => hgen _ (List.getElem_mem g.2)
  rw [this] at hb'
  have hE : cyclesOn B es k (N + 1) = cyclesOn B es k N ∨ boundariesOn B es k (N + 1) = boundariesOn B es k N := by
    rcases heq with he | he
    · left; rw [cyclesOn_eq, cyclesOn_eq, he]
    · right; rw [boundariesOn_eq, boundariesOn_eq, he]
  have hZW : cyclesOn B es k (N + 1) = cyclesOn B es k N ∧ boundariesOn B es k (N + 1) = boundariesOn B es k N := by
    rcases hmono with ⟨m1, m2⟩ | ⟨m1, m2⟩
    · have := basis_eq hb hb' (boundariesOn_mono m2) (cyclesOn_mono m1) (bound_le_cycles hB ho k N) (bound_le_cycles hB ho k (N + 1)) (hE.imp Eq.symm Eq.symm)
      exact ⟨this.1.symm, this.2.symm⟩
    · exact basis_eq hb' hb (boundariesOn_mono m2) (cyclesOn_mono m1) (bound_le_cycles hB ho k (N + 1)) (bound_le_cycles hB ho k N) hE
  exact ⟨hI', (h.bar.skip hZW.1 hZW.2).congr hgen⟩

end

end Zigzag
end BATS
