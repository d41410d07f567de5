import Verif.Spec.Witness
import Verif.Proofs.Cover
import Verif.Proofs.Landmark
import Verif.Props.Flag

set_option linter.unusedSectionVars false
set_option linter.unusedVariables false
set_option linter.unusedSimpArgs false

/-! # Proofs about the model of dowker.hpp and neighborhood.hpp -/

namespace BATS
namespace Wit
open Lmk BATS.Flag

section
variable {T : Type} [LinearOrder T] [Zero T]

theorem IsMat.rowLen {M : List (List T)} {nL nX : Nat} (h : IsMat M nL nX) {i : Nat} (hi : i < nL) : (M.getD i []).length = nX := by
  have hi' : i < M.length := by rw [h.len]; exact hi
  rw [List.getD_eq_getElem?_getD, List.getElem?_eq_getElem hi']
  exact h.row _ (List.getElem_mem hi')

theorem mget_ok {M : List (List T)} {nL nX : Nat} (h : IsMat M nL nX) {i j : Nat} (hi : i < nL) (hj : j < nX) : mget M i j = .ok (tab M i j) := by
  unfold mget
  rw [Flag.rd_getD M [] (by rw [h.len]; exact hi)]
  show rd (M.getD i []) j = _
  rw [Flag.rd_getD _ 0 (by rw [h.rowLen hi]; exact hj)]
  rfl

theorem mget_ub {M : List (List T)} {i j : Nat} (hi : M.length ≤ i) : mget M i j = .error .ub := by
  unfold mget rd
  rw [List.getElem?_eq_none hi]
  rfl

theorem mset_ok {M : List (List T)} {nL nX : Nat} (h : IsMat M nL nX) {i j : Nat} (hi : i < nL) (hj : j < nX) (v : T) :
    ∃ M', mset M i j v = .ok M' ∧ IsMat M' nL nX ∧ ∀ a b, tab M' a b = if a = i ∧ b = j then v else tab M a b := by
  have hi' : i < M.length := by rw [h.len]; exact hi
  have hj' : j < (M.getD i []).length := by rw [h.rowLen hi]; exact hj
  refine ⟨M.set i ((M.getD i []).set j v), ?_, ⟨by rw [List.length_set, h.len], ?_⟩, ?_⟩
  · unfold mset
    rw [Flag.rd_getD M [] hi']
    show (wr (M.getD i []) j v >>= fun row' => wr M i row') = _
    rw [wr_lt v hj']
    show wr M i _ = _
    rw [wr_lt _ hi']
  · intro r hr
    rcases List.mem_or_eq_of_mem_set hr with h1 | h1
    · exact h.row r h1
    · rw [h1, List.length_set, h.rowLen hi]
  · intro a b
    unfold tab
    rw [Flag.getD_set M i _ hi' a]
    by_cases ha : a = i
    · subst ha
      rw [if_pos rfl, Filt.set_getD _ _ _ hj']
      by_cases hb : b = j
      · rw [if_pos hb, if_pos ⟨rfl, hb⟩]
      · rw [if_neg hb, if_neg (fun h => hb h.2)]
    · rw [if_neg ha, if_neg (fun h => ha h.1)]

theorem tab_replicate (n m a b : Nat) : tab (List.replicate n (List.replicate m (0 : T))) a b = 0 := by
  unfold tab
  rw [List.getD_eq_getElem?_getD (l := List.replicate n _), List.getElem?_replicate]
  split
  · rw [Option.getD_some, List.getD_eq_getElem?_getD, List.getElem?_replicate]
    split <;> rfl
  · simp

theorem isMat_replicate (n m : Nat) : IsMat (List.replicate n (List.replicate m (0 : T))) n m :=
  ⟨by simp, fun r hr => by rw [(List.mem_replicate.1 hr).2]; simp⟩

/-! ### `dowker_edge_param` -/

/-- the smallest of `tmax` and the values `max (p i k) (p j k)` -/
theorem edgeParamLoop_spec {p : List (List T)} {nL nX : Nat} (h : IsMat p nL nX) {i j : Nat} (hi : i < nL) (hj : j < nL) : ∀ (c k : Nat) (r : T), k + c = nX →
    ∃ x, edgeParamLoop p i j c k r = .ok x ∧ x ≤ r ∧ (x = r ∨ ∃ l, k ≤ l ∧ l < nX ∧ x = max (tab p i l) (tab p j l)) ∧
      ∀ l, k ≤ l → l < nX → x ≤ max (tab p i l) (tab p j l) := by
  intro c
  induction c with
  | zero =>
    intro k r hk
    exact ⟨r, rfl, le_refl _, Or.inl rfl, fun l h1 h2 => by omega⟩
  | succ c ih =>
    intro k r hk
    obtain ⟨x, h1, h2, h3, h4⟩ := ih (k + 1) (min r (max (tab p i k) (tab p j k))) (by omega)
    refine ⟨x, ?_, le_trans h2 (min_le_left _ _), ?_, ?_⟩
    · rw [edgeParamLoop, mget_ok h hi (by omega), mget_ok h hj (by omega)]
      exact h1
    · rcases h3 with h3 | ⟨l, l1, l2, l3⟩
      · rcases min_choice r (max (tab p i k) (tab p j k)) with e | e
        · exact Or.inl (h3.trans e)
        · exact Or.inr ⟨k, le_refl _, by omega, h3.trans e⟩
      · exact Or.inr ⟨l, by omega, l2, l3⟩
    · intro l l1 l2
      rcases Nat.lt_or_ge k l with hl | hl
      · exact h4 l (by omega) l2
      · have : l = k := by omega
        subst this
        exact le_trans h2 (min_le_right _ _)

/-- the parameter of a pair, with the value when there are no columns -/
def ParamOf (tmax : T) (p : List (List T)) (nX i j : Nat) (x : T) : Prop :=
  (nX = 0 → x = tmax) ∧ (0 < nX → (∀ i k, tab p i k ≤ tmax) → IsDowkerParam p nX i j x)

theorem edgeParam_spec {tmax : T} {p : List (List T)} {nL nX : Nat} (h : IsMat p nL nX) {i j : Nat} (hi : i < nL) (hj : j < nL) :
    ∃ x, edgeParam tmax p nX i j = .ok x ∧ ParamOf tmax p nX i j x := by
  obtain ⟨x, h1, h2, h3, h4⟩ := edgeParamLoop_spec h hi hj nX 0 tmax (by omega)
  refine ⟨x, h1, ?_, ?_⟩
  · intro h0
    rcases h3 with h3 | ⟨l, _, l2, _⟩
    · exact h3
    · omega
  · intro h0 hm
    have hex : ∃ l, l < nX ∧ x = max (tab p i l) (tab p j l) := by
      rcases h3 with h3 | ⟨l, _, l2, l3⟩
      · exact ⟨0, h0, le_antisymm (h4 0 (le_refl _) h0) (by rw [h3]; exact max_le (hm _ _) (hm _ _))⟩
      · exact ⟨l, l2, l3⟩
    obtain ⟨l, l1, l2⟩ := hex
    refine ⟨⟨l, l1, by rw [l2]; exact le_max_left _ _, by rw [l2]; exact le_max_right _ _⟩, ?_⟩
    rintro t ⟨k, k1, k2, k3⟩
    exact le_trans (h4 k (Nat.zero_le _) k1) (max_le k2 k3)

theorem ParamOf.symm {tmax : T} {p : List (List T)} {nX i j : Nat} {x : T} (h : ParamOf tmax p nX i j x) : ParamOf tmax p nX j i x := by
  refine ⟨h.1, fun h0 hm => ?_⟩
  obtain ⟨h1, h2⟩ := h.2 h0 hm
  refine ⟨?_, ?_⟩
  · obtain ⟨k, k1, k2, k3⟩ := h1
    exact ⟨k, k1, k3, k2⟩
  · rintro t ⟨k, k1, k2, k3⟩
    exact h2 ⟨k, k1, k3, k2⟩

theorem copyCol_spec {nL j : Nat} (hj : j < nL) : ∀ (c i : Nat) (R : List (List T)), i + c = j → IsMat R nL nL →
    ∃ R', copyCol j c i R = .ok R' ∧ IsMat R' nL nL ∧ ∀ a b, tab R' a b = if i ≤ a ∧ a < j ∧ b = j then tab R j a else tab R a b := by
  intro c
  induction c with
  | zero =>
    intro i R hc h
    refine ⟨R, rfl, h, fun a b => ?_⟩
    rw [if_neg (by omega)]
  | succ c ih =>
    intro i R hc h
    obtain ⟨R1, r1, r2, r3⟩ := mset_ok h (i := i) (j := j) (by omega) hj (tab R j i)
    obtain ⟨R2, q1, q2, q3⟩ := ih (i + 1) R1 (by omega) r2
    refine ⟨R2, ?_, q2, fun a b => ?_⟩
    · rw [copyCol, mget_ok h hj (by omega)]
      show (mset R i j (tab R j i) >>= _) = _
      rw [r1]; exact q1
    · rw [q3, r3, r3]
      by_cases hai : a = i
      · subst hai
        by_cases hb : b = j
        · rw [if_neg (by omega), if_pos ⟨rfl, hb⟩, if_pos ⟨le_refl _, by omega, hb⟩]
        · rw [if_neg (by omega), if_neg (by omega), if_neg (by omega)]
      · by_cases hc' : i + 1 ≤ a ∧ a < j ∧ b = j
        · rw [if_pos hc', if_neg (by omega), if_pos (by omega)]
        · rw [if_neg hc', if_neg (by omega), if_neg (by omega)]

theorem fillCol_spec {tmax : T} {p : List (List T)} {nL nX : Nat} (hp : IsMat p nL nX) {j : Nat} (hj : j < nL) : ∀ (c i : Nat) (R : List (List T)), i + c = nL → IsMat R nL nL →
    ∃ R', fillCol tmax p nX j c i R = .ok R' ∧ IsMat R' nL nL ∧ (∀ a b, ¬ (i ≤ a ∧ a < nL ∧ b = j) → tab R' a b = tab R a b) ∧
      ∀ a, i ≤ a → a < nL → ParamOf tmax p nX a j (tab R' a j) := by
  intro c
  induction c with
  | zero =>
    intro i R hc h
    exact ⟨R, rfl, h, fun a b _ => rfl, fun a h1 h2 => by omega⟩
  | succ c ih =>
    intro i R hc h
    obtain ⟨x, x1, x2⟩ := edgeParam_spec (tmax := tmax) hp (i := i) (j := j) (by omega) hj
    obtain ⟨R1, r1, r2, r3⟩ := mset_ok h (i := i) (j := j) (by omega) hj x
    obtain ⟨R2, q1, q2, q3, q4⟩ := ih (i + 1) R1 (by omega) r2
    refine ⟨R2, ?_, q2, fun a b hab => ?_, fun a ha han => ?_⟩
    · rw [fillCol, x1]
      show (mset R i j x >>= _) = _
      rw [r1]; exact q1
    · rw [q3 a b (by omega), r3, if_neg (by omega)]
    · rcases Nat.lt_or_ge i a with h' | h'
      · exact q4 a (by omega) han
      · have : a = i := by omega
        subst this
        rw [q3 a j (by omega), r3, if_pos ⟨rfl, rfl⟩]
        exact x2

/-- the matrix of parameters -/
structure IsParamMat (tmax : T) (p : List (List T)) (nL nX : Nat) (R : List (List T)) : Prop where
  mat : IsMat R nL nL
  diag : ∀ i, i < nL → tab R i i = 0
  symm : ∀ i j, i < nL → j < nL → tab R i j = tab R j i
  entry : ∀ i j, i < nL → j < nL → i ≠ j → ParamOf tmax p nX i j (tab R i j)

theorem paramLoop_spec {tmax : T} {p : List (List T)} {nL nX : Nat} (hp : IsMat p nL nX) : ∀ (c j : Nat) (R : List (List T)), j + c = nL → IsMat R nL nL →
    (∀ i, i < nL → tab R i i = 0) → (∀ a b, a < nL → b < j → b < a → ParamOf tmax p nX a b (tab R a b)) → (∀ a b, a < nL → b < j → a < b → tab R a b = tab R b a) →
    ∃ R', paramLoop tmax p nX c j R = .ok R' ∧ IsParamMat tmax p nL nX R' := by
  intro c
  induction c with
  | zero =>
    intro j R hc h hd hlow hsym
    refine ⟨R, rfl, h, hd, ?_, ?_⟩
    · intro a b ha hb
      rcases Nat.lt_trichotomy a b with hab | hab | hab
      · exact hsym a b ha (by omega) hab
      · rw [hab]
      · exact (hsym b a hb (by omega) hab).symm
    · intro a b ha hb hab
      rcases Nat.lt_or_gt_of_ne hab with h' | h'
      · rw [hsym a b ha (by omega) h']; exact (hlow b a hb (by omega) h').symm
      · exact hlow a b ha (by omega) h'
  | succ c ih =>
    intro j R hc h hd hlow hsym
    obtain ⟨R1, r1, r2, r3⟩ := copyCol_spec (nL := nL) (j := j) (by omega) j 0 R (by omega) h
    obtain ⟨R2, q1, q2, q3, q4⟩ := fillCol_spec (tmax := tmax) hp (j := j) (by omega) (nL - (j + 1)) (j + 1) R1 (by omega) r2
    obtain ⟨R', e1, e2⟩ := ih (j + 1) R2 (by omega) q2 (by
      intro i hi
      rw [q3 i i (by omega), r3, if_neg (by omega)]; exact hd i hi) (by
      intro a b ha hb hba
      rcases Nat.lt_or_ge b j with hbj | hbj
      · rw [q3 a b (by omega), r3, if_neg (by omega)]
        exact hlow a b ha hbj hba
      · have : b = j := by omega
        subst this
        exact q4 a (by omega) ha) (by
      intro a b ha hb hab
      rcases Nat.lt_or_ge b j with hbj | hbj
      · rw [q3 a b (by omega), r3, if_neg (by omega), q3 b a (by omega), r3, if_neg (by omega)]
        exact hsym a b ha hbj hab
      · have : b = j := by omega
        subst this
        rw [q3 a b (by omega), r3, if_pos ⟨Nat.zero_le _, hab, rfl⟩, q3 b a (by omega), r3, if_neg (by omega)])
    refine ⟨R', ?_, e2⟩
    rw [paramLoop, r1]
    show (fillCol tmax p nX j (p.length - (j + 1)) (j + 1) R1 >>= _) = _
    rw [hp.len, q1]
    exact e1

theorem dowkerParam_spec (tmax : T) {p : List (List T)} {nL nX : Nat} (hp : IsMat p nL nX) : ∃ R, dowkerParam tmax p nX = .ok R ∧ IsParamMat tmax p nL nX R := by
  unfold dowkerParam
  rw [hp.len]
  exact paramLoop_spec hp nL 0 _ (by omega) (isMat_replicate nL nL) (fun i _ => tab_replicate _ _ _ _) (fun a b _ h => absurd h (Nat.not_lt_zero _))
    (fun a b _ h => absurd h (Nat.not_lt_zero _))

/-! ### edges below a parameter -/

theorem flagRow_spec {R : List (List T)} {n : Nat} (hR : IsMat R n n) (rmax : T) {i : Nat} (hi : i < n) : ∀ (c j : Nat), j + c ≤ n →
    ∃ es, flagRow R rmax i c j = .ok es ∧ (∀ e : FEdge T, e ∈ es ↔ j ≤ e.t ∧ e.t < j + c ∧ e.s = i ∧ e.r = tab R i e.t ∧ e.r < rmax) ∧
      es.Pairwise (fun e f => e.t < f.t) := by
  intro c
  induction c with
  | zero => intro j _; exact ⟨[], rfl, fun e => by simp; omega, List.Pairwise.nil⟩
  | succ c ih =>
    intro j hj
    obtain ⟨es, h1, h2, h3⟩ := ih (j + 1) (by omega)
    have h4 : ∀ e ∈ es, j < e.t := fun e he => by have := (h2 e).1 he; omega
    refine ⟨if tab R i j < rmax then ⟨i, j, tab R i j⟩ :: es else es, ?_, ?_, ?_⟩
    · rw [flagRow, mget_ok hR hi (by omega)]
      show (flagRow R rmax i c (j + 1) >>= _) = _
      rw [h1]; rfl
    · intro e
      have hsplit : (j ≤ e.t ∧ e.t < j + (c + 1) ∧ e.s = i ∧ e.r = tab R i e.t ∧ e.r < rmax) ↔
          (e = ⟨i, j, tab R i j⟩ ∧ tab R i j < rmax) ∨ (j + 1 ≤ e.t ∧ e.t < j + 1 + c ∧ e.s = i ∧ e.r = tab R i e.t ∧ e.r < rmax) := by
        constructor
        · rintro ⟨a1, a2, a3, a4, a5⟩
          rcases Nat.lt_or_ge j e.t with hl | hl
          · exact Or.inr ⟨hl, by omega, a3, a4, a5⟩
          · have : e.t = j := by omega
            rw [this] at a4
            left
            obtain ⟨s, t, r⟩ := e
            simp only at this a3 a4 a5
            subst this a3 a4
            exact ⟨rfl, a5⟩
        · rintro (⟨rfl, a⟩ | ⟨a1, a2, a3⟩)
          · exact ⟨le_refl _, by show j < _; omega, rfl, rfl, a⟩
          · exact ⟨by omega, by omega, a3⟩
      rw [hsplit, ← h2]
      split
      · rename_i hc
        rw [List.mem_cons]
        constructor
        · rintro (h | h)
          · exact Or.inl ⟨h, hc⟩
          · exact Or.inr h
        · rintro (⟨h, _⟩ | h)
          · exact Or.inl h
          · exact Or.inr h
      · rename_i hc
        constructor
        · exact Or.inr
        · rintro (⟨_, h⟩ | h)
          · exact absurd h hc
          · exact h
    · split
      · exact List.pairwise_cons.2 ⟨fun f hf => h4 f hf, h3⟩
      · exact h3

theorem flagLoop_spec {R : List (List T)} {n : Nat} (hR : IsMat R n n) (rmax : T) : ∀ (c i : Nat), i + c ≤ n →
    ∃ es, flagLoop R rmax c i = .ok es ∧ (∀ e : FEdge T, e ∈ es ↔ i ≤ e.s ∧ e.s < i + c ∧ e.t < e.s ∧ e.r = tab R e.s e.t ∧ e.r < rmax) ∧
      es.Pairwise (fun e f => e.s < f.s ∨ (e.s = f.s ∧ e.t < f.t)) := by
  intro c
  induction c with
  | zero => intro i _; exact ⟨[], rfl, fun e => by simp; omega, List.Pairwise.nil⟩
  | succ c ih =>
    intro i hi
    obtain ⟨es, h1, h2, h3⟩ := ih (i + 1) (by omega)
    obtain ⟨fs, f1, f2, f3⟩ := flagRow_spec hR rmax (i := i) (by omega) i 0 (by omega)
    refine ⟨fs ++ es, ?_, ?_, ?_⟩
    · rw [flagLoop, f1]
      show (flagLoop R rmax c (i + 1) >>= _) = _
      rw [h1]; rfl
    · intro e
      rw [List.mem_append, f2, h2]
      constructor
      · rintro (⟨a1, a2, a3, a4, a5⟩ | ⟨a1, a2, a3⟩)
        · exact ⟨by omega, by omega, by omega, by rw [a3]; exact a4, a5⟩
        · exact ⟨by omega, by omega, a3⟩
      · rintro ⟨a1, a2, a3, a4, a5⟩
        rcases Nat.lt_or_ge i e.s with hl | hl
        · exact Or.inr ⟨hl, by omega, a3, a4, a5⟩
        · have : e.s = i := by omega
          refine Or.inl ⟨Nat.zero_le _, by omega, this, by rw [← this]; exact a4, a5⟩
    · rw [List.pairwise_append]
      refine ⟨(List.Pairwise.and_mem.1 f3).imp ?_, h3, ?_⟩
      · rintro e f ⟨he, hf, h⟩
        have := (f2 e).1 he
        have := (f2 f).1 hf
        exact Or.inr ⟨by omega, h⟩
      · intro e he f hf
        have := (f2 e).1 he
        have := (h2 f).1 hf
        exact Or.inl (by omega)

/-! ### flag filtrations of a graph -/

theorem flag_val {E : Nat → Nat → Prop} {dist : Nat → Nat → T} {n D : Nat} {es : List (FEdge T)}
    (hm : ∀ a b r, ((⟨a, b, r⟩ : FEdge T) ∈ es ∨ ⟨b, a, r⟩ ∈ es) ∧ a < b ↔ a < b ∧ b < n ∧ r = dist a b ∧ E a b) (hne : ∀ e ∈ es, e.s ≠ e.t) (s : List Nat) (x : T) :
    (IsCliqueList n D (es.map FEdge.ends) s ∧ IsCliqueValue 0 es s x) ↔ IsFlagSimplex E n D s ∧ IsDiam dist s x := by
  have hj : ∀ a b, a < b → b < n → (Joined (es.map FEdge.ends) a b ↔ E a b) := by
    intro a b hab hbn
    unfold Joined FEdge.ends
    simp only [List.mem_map, Prod.mk.injEq]
    constructor
    · rintro (⟨⟨a', b', r⟩, he, rfl, rfl⟩ | ⟨⟨a', b', r⟩, he, rfl, rfl⟩)
      · exact ((hm a' b' r).1 ⟨Or.inl he, hab⟩).2.2.2
      · exact ((hm b' a' r).1 ⟨Or.inr he, hab⟩).2.2.2
    · intro hd
      rcases ((hm a b (dist a b)).2 ⟨hab, hbn, rfl, hd⟩).1 with h | h
      · exact Or.inl ⟨_, h, rfl, rfl⟩
      · exact Or.inr ⟨_, h, rfl, rfl⟩
  have hset : (∀ a ∈ s, a < n) → (∀ a ∈ s, ∀ b ∈ s, a < b → E a b) →
      {r | ∃ e ∈ es, e.s ∈ s ∧ e.t ∈ s ∧ e.r = r} = {r | ∃ a ∈ s, ∃ b ∈ s, a < b ∧ dist a b = r} := by
    intro hlt hcl
    ext r
    constructor
    · rintro ⟨⟨a, b, r⟩, he, ha, hb, rfl⟩
      rcases Nat.lt_trichotomy a b with h | h | h
      · have := (hm a b r).1 ⟨Or.inl he, h⟩
        exact ⟨a, ha, b, hb, h, this.2.2.1.symm⟩
      · exact absurd h (hne _ he)
      · have := (hm b a r).1 ⟨Or.inr he, h⟩
        exact ⟨b, hb, a, ha, h, this.2.2.1.symm⟩
    · rintro ⟨a, ha, b, hb, hab, rfl⟩
      rcases ((hm a b (dist a b)).2 ⟨hab, hlt b hb, rfl, hcl a ha b hb hab⟩).1 with h | h
      · exact ⟨_, h, ha, hb, rfl⟩
      · exact ⟨_, h, hb, ha, rfl⟩
  constructor
  · rintro ⟨h1, h2⟩
    have hcl : ∀ a ∈ s, ∀ b ∈ s, a < b → E a b := fun a ha b hb hab => (hj a b hab (h1.lt b hb)).1 (h1.joined a ha b hb (ne_of_lt hab))
    refine ⟨⟨h1.ne, h1.inc, h1.lt, h1.len, hcl⟩, h2.1, fun hl => ?_⟩
    rw [← hset h1.lt hcl]; exact h2.2 hl
  · rintro ⟨h1, h2⟩
    refine ⟨⟨h1.ne, h1.inc, h1.lt, h1.len, ?_⟩, h2.1, fun hl => ?_⟩
    · intro a ha b hb hne'
      rcases Nat.lt_or_gt_of_ne hne' with h | h
      · exact (hj a b h (h1.lt b hb)).2 (h1.joined a ha b hb h)
      · exact ((hj b a h (h1.lt a ha)).2 (h1.joined b hb a ha h)).symm
    · rw [hset h1.lt h1.joined]; exact h2.2 hl

/-- the flag filtration of a graph whose edges are listed in any order, each once -/
theorem flagFiltration_graph {E : Nat → Nat → Prop} {dist : Nat → Nat → T} {n : Nat} {es : List (FEdge T)}
    (hm : ∀ a b r, ((⟨a, b, r⟩ : FEdge T) ∈ es ∨ ⟨b, a, r⟩ ∈ es) ∧ a < b ↔ a < b ∧ b < n ∧ r = dist a b ∧ E a b) (hs : SimpleGraphOn n (es.map FEdge.ends)) (dmax : Nat) :
    ∃ Ψ cells w, flagFiltration es n dmax 0 = .ok Ψ ∧ Filt.FInv Ψ cells w ∧ dmax ≤ Ψ.X.maxdim ∧
      ∀ s x, w s = some x ↔ IsFlagSimplex E n (max dmax 1) s ∧ IsDiam dist s x := by
  obtain ⟨Ψ, cells, u, h1, h2, h3, h4⟩ := flagFiltration_spec (simple_of_graph hs) dmax 0
  refine ⟨Ψ, cells, ofFin u, h1, h2, h4, fun s x => ?_⟩
  rw [ofFin_val h3 s x]
  refine flag_val hm (fun e he => ?_) s x
  exact (hs.ends _ (List.mem_map.2 ⟨e, he, rfl⟩)).2.2

theorem flag_sublist {E : Nat → Nat → Prop} {n D : Nat} {s u : List Nat} (h : IsFlagSimplex E n D s) (hu : u ≠ []) (hs : u.Sublist s) : IsFlagSimplex E n D u :=
  ⟨hu, h.inc.sublist hs, fun a ha => h.lt a (hs.subset ha), le_trans hs.length_le h.len, fun a ha b hb hne => h.joined a (hs.subset ha) b (hs.subset hb) hne⟩

theorem flag_monotone {E : Nat → Nat → Prop} {dist : Nat → Nat → T} {n D : Nat} (h0 : ∀ a b, a < b → b < n → 0 ≤ dist a b) {w : List Nat → Option T}
    (hw : ∀ s x, w s = some x ↔ IsFlagSimplex E n D s ∧ IsDiam dist s x) : Filt.Monotone w := by
  intro s u hu hsub x hx
  obtain ⟨h1, h2⟩ := (hw s x).1 hx
  have hcu := flag_sublist h1 hu hsub
  obtain ⟨y, hy⟩ := exists_diam dist u hcu.inc
  refine ⟨y, (hw u y).2 ⟨hcu, hy⟩, ?_⟩
  have hup : 0 < u.length := List.length_pos_iff.2 hu
  have hle := hsub.length_le
  rcases Nat.lt_or_ge s.length 2 with hs | hs
  · rw [hy.1 (by omega), h2.1 (by omega)]
  · obtain ⟨⟨a, ha, b, hb, hab, e⟩, hmax⟩ := h2.2 hs
    rcases Nat.lt_or_ge u.length 2 with hu' | hu'
    · rw [hy.1 (by omega), ← e]; exact h0 a b hab (h1.lt b hb)
    · obtain ⟨⟨a', ha', b', hb', hab', e'⟩, _⟩ := hy.2 hu'
      exact hmax ⟨a', hsub.subset ha', b', hsub.subset hb', hab', e'⟩

theorem mem_flag_iff {E : Nat → Nat → Prop} {dist : Nat → Nat → T} {n D : Nat} (h0 : ∀ a b, a < b → b < n → 0 ≤ dist a b) {w : List Nat → Option T}
    (hw : ∀ s x, w s = some x ↔ IsFlagSimplex E n D s ∧ IsDiam dist s x) (a : T) (σ : Finset Nat) :
    σ ∈ (if 0 ≤ a then flagComplexOf (fun b c => E b c ∧ dist b c ≤ a) n D else ∅) ↔ ∃ x, w (σ.sort (· ≤ ·)) = some x ∧ x ≤ a := by
  have hmem : ∀ b, b ∈ σ.sort (· ≤ ·) ↔ b ∈ σ := fun b => Finset.mem_sort _
  have hlen : (σ.sort (· ≤ ·)).length = σ.card := Finset.length_sort _
  constructor
  · intro h
    split at h
    · rename_i ha
      obtain ⟨h1, h2, h3, h4⟩ := (mem_flagComplexOf ..).1 h
      obtain ⟨x, hx⟩ := exists_diam dist (σ.sort (· ≤ ·)) (pairwise_sort_lt σ)
      refine ⟨x, (hw _ x).2 ⟨⟨?_, pairwise_sort_lt σ, ?_, ?_, ?_⟩, hx⟩, ?_⟩
      · rw [← List.length_pos_iff, hlen, Finset.card_pos]; exact h2
      · intro b hb; exact h1 b ((hmem b).1 hb)
      · rw [hlen]; exact h3
      · intro b hb c hc hbc
        exact (h4 b ((hmem b).1 hb) c ((hmem c).1 hc) hbc).1
      · rcases Nat.lt_or_ge σ.card 2 with hs | hs
        · rw [hx.1 (by rw [hlen]; have := Finset.card_pos.2 h2; omega)]; exact ha
        · obtain ⟨⟨b, hb, c, hc, hbc, e⟩, _⟩ := hx.2 (by rw [hlen]; exact hs)
          rw [← e]
          exact (h4 b ((hmem b).1 hb) c ((hmem c).1 hc) hbc).2
    · simp at h
  · rintro ⟨x, hx, hxa⟩
    obtain ⟨h1, h2⟩ := (hw _ x).1 hx
    have hpos : 0 < σ.card := by rw [← hlen]; exact List.length_pos_iff.2 h1.ne
    have hx0 : 0 ≤ x := by
      rcases Nat.lt_or_ge σ.card 2 with hs | hs
      · rw [h2.1 (by rw [hlen]; omega)]
      · obtain ⟨⟨b, hb, c, hc, hbc, e⟩, _⟩ := h2.2 (by rw [hlen]; exact hs)
        rw [← e]; exact h0 b c hbc (h1.lt c hc)
    rw [if_pos (le_trans hx0 hxa), mem_flagComplexOf]
    refine ⟨fun b hb => h1.lt b ((hmem b).2 hb), Finset.card_pos.1 hpos, by rw [← hlen]; exact h1.len, ?_⟩
    intro b hb c hc hbc
    refine ⟨h1.joined b ((hmem b).2 hb) c ((hmem c).2 hc) hbc, ?_⟩
    have hl2 : 2 ≤ (σ.sort (· ≤ ·)).length := by
      rw [hlen]
      exact Finset.one_lt_card.2 ⟨b, hb, c, hc, ne_of_lt hbc⟩
    exact le_trans ((h2.2 hl2).2 ⟨b, (hmem b).2 hb, c, (hmem c).2 hc, hbc, rfl⟩) hxa

end

end Wit
end BATS
