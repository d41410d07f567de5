import Verif.Proofs.Poly3
import Verif.Proofs.Tensor2

set_option linter.unusedSectionVars false
set_option linter.unusedVariables false
set_option linter.unusedSimpArgs false

/-! # The characteristic matrix -/

namespace BATS
open Polynomial Matrix

variable {F : Type} [Field F] [DecidableEq F]

theorem polyEnt_nil (i : Nat) : polyEnt ([] : List (Nat × List F)) i = 0 := rfl

theorem polyEnt_cons (p : Nat × List F) (v : List (Nat × List F)) (i : Nat) : polyEnt (p :: v) i = (if p.1 = i then toPoly p.2 else 0) + polyEnt v i := by
  unfold polyEnt; rw [List.map_cons, List.sum_cons]

theorem polyEnt_append (u v : List (Nat × List F)) (i : Nat) : polyEnt (u ++ v) i = polyEnt u i + polyEnt v i := by
  unfold polyEnt; rw [List.map_append, List.sum_append]

theorem polyEnt_map_neg (v : SVec F) (i : Nat) : polyEnt (v.map (fun p => (p.1, Poly.const (-p.2)))) i = - C (coef v i) := by
  induction v with
  | nil => rw [List.map_nil, polyEnt_nil]; simp
  | cons p v ih =>
    rw [List.map_cons, polyEnt_cons, ih, coef_cons]
    dsimp only
    rw [(const_spec _).2, C_add]
    by_cases h : p.1 = i
    · rw [if_pos h, if_pos h, C_neg]; ring
    · rw [if_neg h, if_neg h, C_0]; ring

theorem charUpper_spec (j : Nat) (v : SVec F) (hs : Sorted v) :
    ∃ u w f, Poly.charUpper j v = (u, w, f) ∧ u.map Prod.fst ++ w.map Prod.fst = v.map Prod.fst ∧ w.Sublist v ∧
      (∀ i, polyEnt u i = (if f = true ∧ i = j then X else 0) + C (coef w i) - C (coef v i)) ∧
      (f = true → j ∈ u.map Prod.fst) ∧ (f = false → (∀ p ∈ u, p.1 < j) ∧ ∀ p ∈ w, j < p.1) ∧
      (∀ p ∈ u, Trimmed p.2) ∧ ((∀ p ∈ v, p.2 ≠ 0) → ∀ p ∈ u, p.2 ≠ []) := by
  induction v with
  | nil =>
    refine ⟨[], [], false, rfl, rfl, List.Sublist.refl _, ?_, ?_, ?_, ?_, ?_⟩
    · intro i; rw [polyEnt_nil]; simp
    all_goals simp
  | cons q v ih =>
    obtain ⟨k, a⟩ := q
    have hs' : Sorted v := by unfold Sorted at hs ⊢; rw [List.pairwise_cons] at hs; exact hs.2
    have hlt : ∀ p ∈ v, k < p.1 := by
      unfold Sorted at hs; rw [List.pairwise_cons] at hs; exact hs.1
    rw [Poly.charUpper]
    by_cases h1 : k = j
    · rw [if_pos h1]
      refine ⟨_, _, _, rfl, rfl, List.sublist_cons_self _ _, ?_, ?_, ?_, ?_, ?_⟩
      · intro i
        rw [polyEnt_cons, polyEnt_nil, coef_cons]
        dsimp only
        rw [toPoly_clearZeros, toPoly_cons, toPoly_cons, toPoly_nil, C_add]
        subst h1
        by_cases h : k = i
        · subst h
          rw [if_pos rfl, if_pos rfl, if_pos ⟨rfl, rfl⟩, C_neg, C_1]; ring
        · rw [if_neg h, if_neg h, if_neg (fun e => h e.2.symm), C_0]; ring
      · intro _; rw [← h1]; simp
      · intro e; cases e
      · intro p hp; rw [List.mem_singleton] at hp; subst hp; exact trimmed_clearZeros _
      · intro _ p hp
        rw [List.mem_singleton] at hp; subst hp
        intro e
        have := congrArg toPoly e
        dsimp only at this
        rw [toPoly_clearZeros, toPoly_nil] at this
        have h2 := congrArg (fun r => Polynomial.coeff r 1) this
        rw [coeff_toPoly] at h2
        simp at h2
    · rw [if_neg h1]
      by_cases h2 : k < j
      · rw [if_pos h2]
        obtain ⟨u, w, f, g1, g2, g3, g4, g5, g6, g7, g8⟩ := ih hs'
        rw [g1]
        refine ⟨_, _, _, rfl, ?_, g3.trans (List.sublist_cons_self _ _), ?_, ?_, ?_, ?_, ?_⟩
        · rw [List.map_cons, List.map_cons, List.cons_append, g2]
        · intro i
          rw [polyEnt_cons, g4, coef_cons, C_add]
          dsimp only
          rw [(const_spec _).2]
          by_cases h : k = i
          · rw [if_pos h, if_pos h, C_neg]; ring
          · rw [if_neg h, if_neg h, C_0]; ring
        · intro hf; rw [List.map_cons]; exact List.mem_cons_of_mem _ (g5 hf)
        · intro hf
          refine ⟨?_, (g6 hf).2⟩
          intro p hp
          rcases List.mem_cons.1 hp with rfl | hp
          · exact h2
          · exact (g6 hf).1 p hp
        · intro p hp
          rcases List.mem_cons.1 hp with rfl | hp
          · exact (const_spec _).1
          · exact g7 p hp
        · intro h0 p hp
          rcases List.mem_cons.1 hp with rfl | hp
          · intro e
            have := congrArg toPoly e
            dsimp only at this
            rw [(const_spec _).2, toPoly_nil, C_eq_zero, neg_eq_zero] at this
            exact h0 (k, a) (by simp) this
          · exact g8 (fun p hp => h0 p (List.mem_cons_of_mem _ hp)) p hp
      · rw [if_neg h2]
        refine ⟨[], _, false, rfl, rfl, List.Sublist.refl _, ?_, ?_, ?_, ?_, ?_⟩
        · intro i; rw [polyEnt_nil, if_neg (fun e => by simp at e)]; ring
        · intro e; cases e
        · intro _
          refine ⟨by simp, ?_⟩
          intro p hp
          rcases List.mem_cons.1 hp with rfl | hp
          · show j < k; omega
          · have := hlt p hp; omega
        · simp
        · simp

theorem charColumn_spec {n j : Nat} (hj : j < n) {v : SVec F} (hv : VecOK v) (hb : Below n v) :
    ((Poly.charColumn j v).map Prod.fst).Pairwise (· < ·) ∧ (∀ p ∈ Poly.charColumn j v, p.1 < n ∧ Trimmed p.2 ∧ p.2 ≠ []) ∧
      ∀ i, polyEnt (Poly.charColumn j v) i = (if i = j then X else 0) - C (coef v i) := by
  have hs : Sorted v := hv.1
  have h0 : ∀ p ∈ v, p.2 ≠ 0 := hv.2
  obtain ⟨u, w, f, g1, g2, g3, g4, g5, g6, g7, g8⟩ := charUpper_spec j v hs
  have hcol : Poly.charColumn j v = u ++ (if f = true then [] else [(j, Poly.clearZeros [0, 1])]) ++ w.map (fun p => (p.1, Poly.const (-p.2))) := by
    unfold Poly.charColumn; rw [g1]
  rw [hcol]
  have hsf : (v.map Prod.fst).Pairwise (· < ·) := by rw [List.pairwise_map]; exact hs
  have hw : (w.map (fun p : Nat × F => (p.1, Poly.const (-p.2)))).map Prod.fst = w.map Prod.fst := by rw [List.map_map]; rfl
  refine ⟨?_, ?_, ?_⟩
  · rw [List.map_append, List.map_append, hw]
    cases f with
    | true => rw [if_pos rfl, List.map_nil, List.append_nil, g2]; exact hsf
    | false =>
      rw [if_neg (by simp), List.append_assoc]
      rw [← g2, List.pairwise_append] at hsf
      obtain ⟨p1, p2⟩ := g6 rfl
      rw [List.pairwise_append]
      refine ⟨hsf.1, ?_, ?_⟩
      · rw [List.map_cons, List.map_nil, List.singleton_append, List.pairwise_cons]
        refine ⟨?_, hsf.2.1⟩
        intro x hx
        obtain ⟨p, hp, rfl⟩ := List.mem_map.1 hx
        exact p2 p hp
      · intro x hx y hy
        rcases List.mem_append.1 hy with hy | hy
        · obtain ⟨p, hp, rfl⟩ := List.mem_map.1 hx
          rw [List.map_cons, List.map_nil, List.mem_singleton] at hy
          rw [hy]; exact p1 p hp
        · exact hsf.2.2 x hx y hy
  · intro p hp
    rcases List.mem_append.1 hp with hp | hp
    · rcases List.mem_append.1 hp with hp | hp
      · refine ⟨?_, g7 p hp, g8 h0 p hp⟩
        have : p.1 ∈ v.map Prod.fst := by rw [← g2]; exact List.mem_append_left _ (List.mem_map_of_mem hp)
        obtain ⟨q, hq, e⟩ := List.mem_map.1 this
        rw [← e]; exact hb q hq
      · cases f with
        | true => rw [if_pos rfl] at hp; cases hp
        | false =>
          rw [if_neg (by simp), List.mem_singleton] at hp
          subst hp
          refine ⟨hj, trimmed_clearZeros _, ?_⟩
          intro e
          have := congrArg toPoly e
          dsimp only at this
          rw [toPoly_clearZeros, toPoly_nil] at this
          have h2 := congrArg (fun r => Polynomial.coeff r 1) this
          rw [coeff_toPoly] at h2
          simp at h2
    · obtain ⟨q, hq, rfl⟩ := List.mem_map.1 hp
      have hq' := g3.subset hq
      refine ⟨hb q hq', (const_spec _).1, ?_⟩
      intro e
      have := congrArg toPoly e
      dsimp only at this
      rw [(const_spec _).2, toPoly_nil, C_eq_zero, neg_eq_zero] at this
      exact h0 q hq' this
  · intro i
    rw [polyEnt_append, polyEnt_append, polyEnt_map_neg, g4]
    cases f with
    | true =>
      rw [if_pos rfl, polyEnt_nil]
      by_cases h : i = j
      · rw [if_pos ⟨rfl, h⟩, if_pos h]; ring
      · rw [if_neg (fun e => h e.2), if_neg h]; ring
    | false =>
      rw [if_neg (c := (false = true)) (by simp), if_neg (fun e => by simp at e), polyEnt_cons, polyEnt_nil]
      dsimp only
      rw [toPoly_clearZeros, toPoly_cons, toPoly_cons, toPoly_nil, C_0, C_1]
      by_cases h : i = j
      · rw [if_pos h, if_pos h.symm]; ring
      · rw [if_neg h, if_neg (fun e => h e.symm)]; ring

/-- `characteristic_matrix(A)` -/
theorem charMatrix_spec {n : Nat} {A : CMat F} (hA : A.Shape n n) :
    ∃ P, Poly.charMatrix A = .ok P ∧ P.length = n ∧
      (∀ v ∈ P, (v.map Prod.fst).Pairwise (· < ·) ∧ ∀ p ∈ v, p.1 < n ∧ Trimmed p.2 ∧ p.2 ≠ []) ∧
      ∀ i j : Fin n, polyEnt (P.getD j []) i = (A.mat n n).charmatrix i j := by
  have hc : A.cols.length = n := hA.ncol
  have key : ∀ j, j < n → ∃ v, A.cols.getD j [] = v ∧ VecOK v ∧ Below n v ∧ (A.cols.zipIdx.map (fun p => Poly.charColumn p.2 p.1)).getD j [] = Poly.charColumn j v := by
    intro j hj
    have hj' : j < A.cols.length := by omega
    refine ⟨A.cols[j], ?_, ?_, ?_, ?_⟩
    · rw [List.getD_eq_getElem?_getD, List.getElem?_eq_getElem hj']; rfl
    · exact (hA.ok _ (List.getElem_mem hj')).1
    · have := (hA.ok _ (List.getElem_mem hj')).2
      rwa [hA.nrow] at this
    · rw [List.getD_eq_getElem?_getD, List.getElem?_map, List.getElem?_zipIdx, List.getElem?_eq_getElem hj']
      simp
  refine ⟨A.cols.zipIdx.map (fun p => Poly.charColumn p.2 p.1), ?_, ?_, ?_, ?_⟩
  · unfold Poly.charMatrix
    rw [if_neg]
    rw [hA.nrow, hA.ncol]; simp
  · simp [hc]
  · intro v hv
    obtain ⟨j, hj, rfl⟩ := List.mem_iff_getElem.1 hv
    have hj' : j < n := by simpa [hc] using hj
    obtain ⟨w, e1, e2, e3, e4⟩ := key j hj'
    have e5 : (A.cols.zipIdx.map (fun p => Poly.charColumn p.2 p.1))[j] = Poly.charColumn j w := by
      rw [← e4, List.getD_eq_getElem?_getD, List.getElem?_eq_getElem hj]; rfl
    rw [e5]
    obtain ⟨a1, a2, a3⟩ := charColumn_spec hj' e2 e3
    exact ⟨a1, a2⟩
  · intro i j
    obtain ⟨w, e1, e2, e3, e4⟩ := key j j.isLt
    rw [e4, (charColumn_spec j.isLt e2 e3).2.2 i, charmatrix_apply, Matrix.diagonal_apply]
    rw [show A.mat n n i j = coef w i by rw [← e1]; rfl]
    simp only [Fin.ext_iff]

theorem genColumn_spec {n : Nat} {A : CMat F} (hA : A.Shape n n) (v : List (Nat × List F)) : ∀ acc : SVec F, (∀ p ∈ v, p.1 < n) → VecOK acc → Below n acc →
    ∃ r, Poly.genColumn A v acc = .ok r ∧ VecOK r ∧ Below n r ∧
      (fun i : Fin n => coef r i) = (fun i : Fin n => coef acc i) + ∑ i : Fin n, aeval (A.mat n n) (polyEnt v i) *ᵥ Pi.single i (1 : F) := by
  induction v with
  | nil =>
    intro acc _ h1 h2
    refine ⟨acc, rfl, h1, h2, ?_⟩
    rw [Finset.sum_eq_zero, add_zero]
    intro i _
    rw [polyEnt_nil, map_zero, zero_mulVec]
  | cons p v ih =>
    intro acc hp h1 h2
    have hp1 : p.1 < n := hp p (by simp)
    obtain ⟨w, g1, g2, g3, g4⟩ := apply_spec hA p.2 (indicator_ok p.1 (one_ne_zero (α := F))) (by
      intro q hq
      rw [SVec.indicator, List.mem_singleton] at hq
      subst hq; exact hp1)
    obtain ⟨r, k1, k2, k3, k4⟩ := ih (SVec.axpy 1 w acc) (fun q hq => hp q (List.mem_cons_of_mem _ hq)) (vecOK_axpy 1 g2 h1) (below_axpy 1 g3 h2)
    refine ⟨r, ?_, k2, k3, ?_⟩
    · rw [Poly.genColumn, g1]; exact k1
    · have e1 : (fun i : Fin n => coef (SVec.axpy 1 w acc) i) = (fun i : Fin n => coef acc i) + (fun i : Fin n => coef w i) := by
        funext i; rw [coef_axpy, one_mul]; rfl
      have e2 : (fun i : Fin n => coef (SVec.indicator p.1 (1 : F)) i) = Pi.single (⟨p.1, hp1⟩ : Fin n) (1 : F) := by
        funext i; rw [coef_indicator', Pi.single_apply]; simp only [Fin.ext_iff, eq_comm]
      have e3 : ∑ i : Fin n, aeval (A.mat n n) (polyEnt (p :: v) i) *ᵥ Pi.single i (1 : F) =
          aeval (A.mat n n) (toPoly p.2) *ᵥ Pi.single (⟨p.1, hp1⟩ : Fin n) (1 : F) + ∑ i : Fin n, aeval (A.mat n n) (polyEnt v i) *ᵥ Pi.single i (1 : F) := by
        have : ∀ i : Fin n, aeval (A.mat n n) (polyEnt (p :: v) i) *ᵥ Pi.single i (1 : F) =
            (if (⟨p.1, hp1⟩ : Fin n) = i then aeval (A.mat n n) (toPoly p.2) *ᵥ Pi.single i (1 : F) else 0) + aeval (A.mat n n) (polyEnt v i) *ᵥ Pi.single i (1 : F) := by
          intro i
          rw [polyEnt_cons, map_add, add_mulVec]
          congr 1
          by_cases h : p.1 = i.val
          · rw [if_pos h, if_pos (Fin.ext h)]
          · rw [if_neg h, if_neg (fun e => h (congrArg Fin.val e)), map_zero, zero_mulVec]
        rw [Finset.sum_congr rfl (fun i _ => this i), Finset.sum_add_distrib, Finset.sum_ite_eq, if_pos (Finset.mem_univ _)]
      rw [k4, e1, g4, e2, e3, add_assoc]

theorem mapM_forall2 {α β : Type} (f : α → Res β) (P : α → β → Prop) (l : List α) (h : ∀ a ∈ l, ∃ b, f a = .ok b ∧ P a b) :
    ∃ r, l.mapM f = .ok r ∧ List.Forall₂ P l r := by
  induction l with
  | nil => exact ⟨[], rfl, .nil⟩
  | cons a l ih =>
    obtain ⟨b, h1, h2⟩ := h a (by simp)
    obtain ⟨r, h3, h4⟩ := ih (fun a ha => h a (List.mem_cons_of_mem _ ha))
    refine ⟨b :: r, ?_, .cons h2 h4⟩
    rw [List.mapM_cons, h1, bind_ok, h3, bind_ok]; rfl

theorem generatingBasis_spec {n : Nat} {A : CMat F} (hA : A.Shape n n) {R : List (List (Nat × List F))} (hl : R.length = n) (hR : ∀ v ∈ R, ∀ p ∈ v, p.1 < n) :
    ∃ B, Poly.generatingBasis R A = .ok B ∧ B.Shape n n ∧
      ∀ j : Fin n, (B.mat n n).col j = ∑ i : Fin n, aeval (A.mat n n) (polyEnt (R.getD j []) i) *ᵥ Pi.single i (1 : F) := by
  obtain ⟨r, h1, h2⟩ := mapM_forall2 (fun v => Poly.genColumn A v []) (fun v r => VecOK r ∧ Below n r ∧
      (fun i : Fin n => coef r i) = ∑ i : Fin n, aeval (A.mat n n) (polyEnt v i) *ᵥ Pi.single i (1 : F)) R (by
    intro v hv
    obtain ⟨r, k1, k2, k3, k4⟩ := genColumn_spec hA v [] (hR v hv) vecOK_nil (below_nil n)
    refine ⟨r, k1, k2, k3, ?_⟩
    rw [k4]
    have : (fun i : Fin n => coef ([] : SVec F) i) = 0 := rfl
    rw [this, zero_add])
  refine ⟨⟨R.length, r⟩, ?_, ?_, ?_⟩
  · unfold Poly.generatingBasis
    rw [h1, bind_ok]; rfl
  · refine ⟨?_, hl, ?_⟩
    · intro c hc
      obtain ⟨k, hk, rfl⟩ := List.mem_iff_getElem.1 hc
      have := (List.forall₂_iff_get.1 h2).2 k (by rw [h2.length_eq]; exact hk) hk
      refine ⟨this.1, ?_⟩
      show Below R.length _
      rw [hl]; exact this.2.1
    · show r.length = n
      rw [← h2.length_eq, hl]
  · intro j
    have hj : j.val < R.length := by rw [hl]; exact j.isLt
    have hj' : j.val < r.length := by rw [← h2.length_eq]; exact hj
    have := ((List.forall₂_iff_get.1 h2).2 j.val hj hj').2.2
    rw [List.getD_eq_getElem?_getD, List.getElem?_eq_getElem hj]
    rw [show (some R[j.val]).getD [] = R.get ⟨j.val, hj⟩ from rfl, ← this]
    funext i
    show coef (r.getD j []) i = _
    rw [List.getD_eq_getElem?_getD, List.getElem?_eq_getElem hj']
    rfl

end BATS
