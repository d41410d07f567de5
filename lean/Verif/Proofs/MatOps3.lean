import Verif.Proofs.MatOps2

set_option linter.unusedSectionVars false
set_option linter.unusedSimpArgs false
set_option linter.unusedVariables false

/-! # Blocks, submatrices, products with a vector, scaling -/

namespace BATS
open Reduction

variable {F : Type} [Field F] [DecidableEq F]

theorem getval_spec {m n : Nat} {A : CMat F} (hA : A.Shape m n) {i j : Nat} (hj : j < n) : CMat.getval A i j = .ok (ent1 A i j) := by
  unfold CMat.getval ent1
  rw [rd_getD [] (by rw [hA.ncol]; exact hj), bind_ok, getval_eq_coef (shape_cols hA j).1.1]; rfl

/-! ### blocks -/

theorem block_spec {m n : Nat} {A : CMat F} (hA : A.Shape m n) {i0 i1 j0 j1 : Nat} (hj : j0 ≤ j1) (hj1 : j1 ≤ n) :
    ∃ B, CMat.block i0 i1 j0 j1 A = .ok B ∧ B.Shape (i1 - i0) (j1 - j0) ∧
      ∀ i j, i < i1 - i0 → j < j1 - j0 → ent1 B i j = ent1 A (i0 + i) (j0 + j) := by
  unfold CMat.block
  rw [if_pos ⟨by rw [hA.ncol]; exact hj1, hj⟩]
  have hlen : ((A.cols.drop j0).take (j1 - j0)).length = j1 - j0 := by
    rw [List.length_take, List.length_drop, hA.ncol]; omega
  refine ⟨_, rfl, ⟨?_, rfl, by rw [List.length_map, hlen]⟩, ?_⟩
  · intro c hc
    obtain ⟨d, hd, rfl⟩ := List.mem_map.1 hc
    have := hA.colsOK d (List.mem_of_mem_drop (List.mem_of_mem_take hd))
    exact block_ok this.1 i0 i1
  · intro i j hi hj'
    unfold ent1
    dsimp only
    rw [getD_map_lt _ _ (by rw [hlen]; exact hj') [], List.getD_eq_getElem?_getD, List.getElem?_take_of_lt hj', List.getElem?_drop,
      ← List.getD_eq_getElem?_getD, block_coef (shape_cols hA (j0 + j)).1.1, if_pos (by omega), Nat.add_comm j0, Nat.add_comm i0]

theorem setBlockLoop_spec {m i0 i1 : Nat} (h : i0 ≤ i1) (hm : i1 ≤ m) : ∀ (n j : Nat) (bs cs : List (SVec F)), n ≤ bs.length → j + n ≤ cs.length →
    (∀ b ∈ bs, VecOK b ∧ Below (i1 - i0) b) → ColsOK m cs →
    ∃ cs', CMat.setBlockLoop i0 i1 n j bs cs = .ok cs' ∧ cs'.length = cs.length ∧ ColsOK m cs' ∧
      (∀ k, k < n → cs'.getD (j + k) [] = SVec.setBlock i0 i1 (bs.getD k []) (cs.getD (j + k) [])) ∧
      ∀ l, l < j ∨ j + n ≤ l → cs'.getD l [] = cs.getD l []
  | 0, j, bs, cs, _, _, _, hok => by
    refine ⟨cs, by rw [CMat.setBlockLoop], rfl, hok, ?_, fun _ _ => rfl⟩
    intro k hk; omega
  | n + 1, j, [], cs, hn, _, _, _ => by simp at hn
  | n + 1, j, b :: bs, cs, hn, hj, hbs, hok => by
    have hjl : j < cs.length := by omega
    have hb := hbs b (by simp)
    have hc := hok.getD j
    have hnew : VecOK (SVec.setBlock i0 i1 b (cs.getD j [])) ∧ Below m (SVec.setBlock i0 i1 b (cs.getD j [])) := by
      have hv := setBlock_ok hc.1 hb.1 h hb.2
      refine ⟨hv, below_of_coef hv ?_⟩
      intro k hk
      rw [setBlock_coef hc.1.1 h, hc.2.coef_eq_zero hk]
      have : coef b (k - i0) = 0 := hb.2.coef_eq_zero (by omega)
      rw [this]; simp
    obtain ⟨cs', h1, h2, h3, h4, h5⟩ := setBlockLoop_spec h hm n (j + 1) bs (cs.set j (SVec.setBlock i0 i1 b (cs.getD j []))) (by simpa using hn)
      (by rw [List.length_set]; omega) (fun x hx => hbs x (by simp [hx])) (hok.set j hnew)
    refine ⟨cs', ?_, by rw [h2, List.length_set], h3, ?_, ?_⟩
    · rw [CMat.setBlockLoop, rd_getD [] hjl, bind_ok]; exact h1
    · intro k hk
      cases k with
      | zero => rw [Nat.add_zero, h5 j (Or.inl (by omega)), getD_set' _ _ _ _ _ hjl, if_pos rfl]; rfl
      | succ k =>
        rw [show j + (k + 1) = j + 1 + k by omega, h4 k (by omega), getD_set' _ _ _ _ _ hjl, if_neg (by omega)]; rfl
    · intro l hl
      rw [h5 l (by omega), getD_set' _ _ _ _ _ hjl, if_neg (by omega)]

theorem setBlock_mat {m n : Nat} {A B : CMat F} (hA : A.Shape m n) {i0 i1 j0 j1 : Nat} (hi : i0 ≤ i1) (hi1 : i1 ≤ m) (hj : j0 ≤ j1) (hj1 : j1 ≤ n)
    (hB : B.Shape (i1 - i0) (j1 - j0)) :
    ∃ A', CMat.setBlock i0 i1 j0 j1 B A = .ok A' ∧ A'.Shape m n ∧
      (∀ i j, i < i1 - i0 → j < j1 - j0 → ent1 A' (i0 + i) (j0 + j) = ent1 B i j) ∧
      (∀ j, j0 ≤ j → j < j1 → ent1 A' i1 j = 0) ∧
      (∀ i j, j < j0 ∨ j1 ≤ j ∨ i < i0 ∨ i1 < i → ent1 A' i j = ent1 A i j) := by
  obtain ⟨cs, h1, h2, h3, h4, h5⟩ := setBlockLoop_spec hi hi1 (j1 - j0) j0 B.cols A.cols (by rw [hB.ncol]) (by rw [hA.ncol]; omega) hB.colsOK hA.colsOK
  have hent : ∀ i j, j0 ≤ j → j < j1 → coef (cs.getD j []) i = (if i < i0 ∨ i1 < i then ent1 A i j else 0) + if i0 ≤ i then ent1 B (i - i0) (j - j0) else 0 := by
    intro i j g1 g2
    have := h4 (j - j0) (by omega)
    rw [show j0 + (j - j0) = j by omega] at this
    rw [this, setBlock_coef (shape_cols hA j).1.1 hi]; rfl
  refine ⟨⟨A.nrow, cs⟩, by unfold CMat.setBlock; rw [h1]; rfl, ⟨by show ColsOK A.nrow cs; rw [hA.nrow]; exact h3, hA.nrow, by rw [h2, hA.ncol]⟩, ?_, ?_, ?_⟩
  · intro i j g1 g2
    show coef _ _ = _
    rw [hent _ _ (by omega) (by omega), if_neg (by omega), if_pos (by omega), zero_add, Nat.add_sub_cancel_left, Nat.add_sub_cancel_left]
  · intro j g1 g2
    show coef _ _ = _
    rw [hent _ _ g1 g2, if_neg (by omega), if_pos hi, zero_add, ent1_ge hB (Or.inl (Nat.le_refl _))]
  · intro i j g
    by_cases hout : j < j0 ∨ j1 ≤ j
    · show coef _ _ = _
      rw [h5 j (by omega)]; rfl
    · have : i < i0 ∨ i1 < i := by tauto
      show coef _ _ = _
      rw [hent _ _ (by omega) (by omega), if_pos this]
      by_cases hge : i0 ≤ i
      · rw [if_pos hge, ent1_ge hB (Or.inl (by omega)), add_zero]
      · rw [if_neg hge, add_zero]

/-! ### submatrices -/

theorem submatrixLoop_spec {m n : Nat} {A : CMat F} (hA : A.Shape m n) {rind : List Nat} {prow : List (Option Nat)} (hpl : prow.length = m)
    (hp1 : ∀ k (h : k < rind.length), prow[rind[k]]? = some (some k)) (hp2 : ∀ i k : Nat, prow[i]? = some (some k) → rind[k]? = some i) :
    ∀ (cind : List Nat), (∀ j ∈ cind, j < n) →
    ∃ r, CMat.submatrixLoop prow A.cols cind = .ok r ∧ r.length = cind.length ∧ ColsOK rind.length r ∧
      ∀ i j (hi : i < rind.length) (hj : j < cind.length), coef (r.getD j []) i = ent1 A rind[i] cind[j]
  | [], _ => ⟨[], rfl, rfl, by intro c hc; simp at hc, by intro i j hi hj; simp at hj⟩
  | c :: cind, h => by
    obtain ⟨r, h1, h2, h3, h4⟩ := submatrixLoop_spec hA hpl hp1 hp2 cind (fun j hj => h j (by simp [hj]))
    have hc : c < A.cols.length := by rw [hA.ncol]; exact h c (by simp)
    obtain ⟨hv, hb⟩ := shape_cols hA c
    obtain ⟨w, g1, g2, g3, g4⟩ := subvector_spec (pind := prow) (by
      intro i j k e1 e2
      have := hp2 i k e1
      rw [hp2 j k e2] at this
      simpa using this.symm) hv (by rw [hpl]; exact hb)
    refine ⟨w :: r, ?_, by simp [h2], ?_, ?_⟩
    · rw [CMat.submatrixLoop, rd_getD [] hc, bind_ok, g1, bind_ok, h1]; rfl
    · intro d hd
      rcases List.mem_cons.1 hd with rfl | hd
      · refine ⟨g2, below_of_coef g2 ?_⟩
        intro k hk
        apply g4
        intro i e
        have := hp2 i k e
        rw [List.getElem?_eq_none hk] at this
        simp at this
      · exact h3 d hd
    · intro i j hi hj
      cases j with
      | zero => exact g3 rind[i] i (hp1 i hi)
      | succ j => exact h4 i j hi (by simpa using hj)

theorem submatrix_spec {m n : Nat} {A : CMat F} (hA : A.Shape m n) {rind cind : List Nat} (hr : rind.Nodup) (hrb : ∀ i ∈ rind, i < m)
    (hc : ∀ j ∈ cind, j < n) :
    ∃ B, CMat.submatrix rind cind A = .ok B ∧ B.Shape rind.length cind.length ∧
      ∀ i j (hi : i < rind.length) (hj : j < cind.length), ent1 B i j = ent1 A rind[i] cind[j] := by
  obtain ⟨prow, p1, p2, p3, p4⟩ := Perm.partialPermLoop_spec rind 0 (List.replicate m none) (by simpa using hrb) hr
  rw [List.length_replicate] at p2
  obtain ⟨r, h1, h2, h3, h4⟩ := submatrixLoop_spec hA (rind := rind) p2 (fun k h => by rw [p3 k h, Nat.zero_add]) (by
    intro i k e
    by_cases hi : i ∈ rind
    · obtain ⟨l, hl, rfl⟩ := List.mem_iff_getElem.1 hi
      rw [p3 l hl] at e
      have : l = k := by simpa using e
      subst this
      exact List.getElem?_eq_getElem hl
    · rw [p4 i hi, List.getElem?_replicate] at e
      split at e <;> simp at e) cind hc
  refine ⟨⟨rind.length, r⟩, ?_, ⟨h3, rfl, h2⟩, h4⟩
  unfold CMat.submatrix Perm.partialPerm
  rw [hA.nrow, p1, bind_ok, h1]; rfl

/-! ### direct sums -/

theorem directSum_spec {m n m' n' : Nat} {A B : CMat F} (hA : A.Shape m n) (hB : B.Shape m' n') :
    (CMat.directSum A B).Shape (m + m') (n + n') ∧
    (∀ i j, j < n → ent1 (CMat.directSum A B) i j = ent1 A i j) ∧
    (∀ i j, ent1 (CMat.directSum A B) (m + i) (n + j) = ent1 B i j) ∧
    (∀ i j, i < m → ent1 (CMat.directSum A B) i (n + j) = 0) := by
  have hright : ∀ i j, ent1 (CMat.directSum A B) i (n + j) = if m ≤ i then ent1 B (i - m) j else 0 := by
    intro i j
    unfold ent1 CMat.directSum
    dsimp only
    rw [List.getD_eq_getElem?_getD, List.getElem?_append_right (by rw [hA.ncol]; omega), hA.ncol, Nat.add_sub_cancel_left, hA.nrow]
    by_cases hj : j < n'
    · rw [← List.getD_eq_getElem?_getD, getD_map_lt _ _ (by rw [hB.ncol]; exact hj) [], (shiftInds_spec (shape_cols hB j).1 m).2]
    · rw [List.getElem?_eq_none (by rw [List.length_map, hB.ncol]; omega), List.getD_eq_getElem?_getD, List.getElem?_eq_none (by rw [hB.ncol]; omega)]
      simp
  refine ⟨⟨?_, by simp [CMat.directSum, hA.nrow, hB.nrow], by simp [CMat.directSum, hA.ncol, hB.ncol]⟩, ?_, ?_, ?_⟩
  · intro c hc
    show VecOK c ∧ Below (A.nrow + B.nrow) c
    rcases List.mem_append.1 hc with hc | hc
    · have := hA.ok c hc
      exact ⟨this.1, fun p hp => by have := this.2 p hp; omega⟩
    · obtain ⟨d, hd, rfl⟩ := List.mem_map.1 hc
      have := hB.ok d hd
      refine ⟨(shiftInds_spec this.1 _).1, ?_⟩
      intro p hp
      obtain ⟨q, hq, rfl⟩ := List.mem_map.1 hp
      have := this.2 q hq
      dsimp only; omega
  · intro i j hj
    unfold ent1 CMat.directSum
    dsimp only
    rw [List.getD_eq_getElem?_getD, List.getElem?_append_left (by rw [hA.ncol]; exact hj), ← List.getD_eq_getElem?_getD]
  · intro i j
    rw [hright, if_pos (by omega), Nat.add_sub_cancel_left]
  · intro i j hi
    rw [hright, if_neg (by omega)]

/-! ### clearing columns -/

theorem clearCols_spec {m n : Nat} {A : CMat F} (hA : A.Shape m n) {c : List Bool} (hc : c.length = n) :
    ∃ A', CMat.clearCols c A = .ok A' ∧ A'.Shape m n ∧ ∀ i j, j < n → ent1 A' i j = if c.getD j false then 0 else ent1 A i j := by
  unfold CMat.clearCols
  rw [if_neg (by rw [hc, hA.ncol]; simp)]
  have hlen : (A.cols.zipWith (fun v b => if b then [] else v) c).length = n := by rw [List.length_zipWith, hA.ncol, hc]; simp
  refine ⟨_, rfl, ⟨?_, hA.nrow, hlen⟩, ?_⟩
  · intro d hd
    obtain ⟨j, hj, rfl⟩ := List.mem_iff_getElem.1 hd
    rw [List.getElem_zipWith]
    split
    · exact ⟨vecOK_nil, below_nil _⟩
    · exact hA.ok _ (List.getElem_mem _)
  · intro i j hj
    unfold ent1
    dsimp only
    rw [List.getD_eq_getElem?_getD, List.getElem?_eq_getElem (by rw [hlen]; exact hj), List.getElem_zipWith,
      List.getD_eq_getElem?_getD (l := c), List.getElem?_eq_getElem (show j < c.length by omega), List.getD_eq_getElem?_getD (l := A.cols),
      List.getElem?_eq_getElem (show j < A.cols.length by rw [hA.ncol]; exact hj)]
    simp only [Option.getD_some]
    split <;> simp

/-! ### products with a vector from the left -/

theorem vecMatLoop_spec {m : Nat} (x : SVec F) (hx : VecOK x) (hxm : Below m x) : ∀ (cs : List (SVec F)) (j : Nat), ColsOK m cs →
    VecOK (CMat.vecMatLoop x j cs) ∧ (∀ p ∈ CMat.vecMatLoop x j cs, j ≤ p.1 ∧ p.1 < j + cs.length) ∧
    ∀ k, coef (CMat.vecMatLoop x j cs) k = if j ≤ k then ∑ i ∈ Finset.range m, coef x i * coef (cs.getD (k - j) []) i else 0
  | [], j, _ => by
    refine ⟨vecOK_nil, by simp [CMat.vecMatLoop], ?_⟩
    intro k; simp [CMat.vecMatLoop]
  | c :: cs, j, hok => by
    obtain ⟨h1, h2, h3⟩ := vecMatLoop_spec x hx hxm cs (j + 1) (fun d hd => hok d (by simp [hd]))
    have hc := hok c (by simp)
    have hdot := dot_spec x c hx.1 hc.1.1 hxm hc.2
    have hz : coef (CMat.vecMatLoop x (j + 1) cs) j = 0 := by rw [h3, if_neg (by omega)]
    have hcase : ∀ k, (if k = j then SVec.dot x c else coef (CMat.vecMatLoop x (j + 1) cs) k) =
        if j ≤ k then ∑ i ∈ Finset.range m, coef x i * coef ((c :: cs).getD (k - j) []) i else 0 := by
      intro k
      rcases lt_trichotomy k j with hk | hk | hk
      · rw [if_neg (by omega), if_neg (by omega), h3, if_neg (by omega)]
      · subst hk; rw [if_pos rfl, if_pos (Nat.le_refl _), Nat.sub_self, hdot]; rfl
      · rw [if_neg (by omega), if_pos (by omega), h3, if_pos (by omega), show k - j = (k - (j + 1)) + 1 by omega]; rfl
    rw [CMat.vecMatLoop]
    by_cases h0 : SVec.dot x c = 0
    · rw [if_neg (not_not.2 h0)]
      refine ⟨h1, ?_, ?_⟩
      · intro p hp; have := h2 p hp; simp only [List.length_cons]; omega
      · intro k
        rw [← hcase]
        by_cases hk : k = j
        · rw [if_pos hk, hk, hz, h0]
        · rw [if_neg hk]
    · rw [if_pos h0]
      refine ⟨⟨List.pairwise_cons.2 ⟨fun p hp => by have := h2 p hp; dsimp only; omega, h1.1⟩, ?_⟩, ?_, ?_⟩
      · intro p hp
        rcases List.mem_cons.1 hp with rfl | hp
        · exact h0
        · exact h1.2 p hp
      · intro p hp
        rcases List.mem_cons.1 hp with rfl | hp
        · simp
        · have := h2 p hp; simp only [List.length_cons]; omega
      · intro k
        rw [← hcase, coef_cons']
        by_cases hk : k = j
        · subst hk; simp [hz]
        · rw [if_neg hk, if_neg (fun e => hk e.symm), zero_add]

theorem vecMat_spec {m n : Nat} {A : CMat F} (hA : A.Shape m n) {x : SVec F} (hx : VecOK x) (hb : Below m x) :
    VecOK (CMat.vecMat x A) ∧ Below n (CMat.vecMat x A) ∧ ∀ j, coef (CMat.vecMat x A) j = ∑ i ∈ Finset.range m, coef x i * ent1 A i j := by
  obtain ⟨h1, h2, h3⟩ := vecMatLoop_spec x hx hb A.cols 0 hA.colsOK
  refine ⟨h1, ?_, ?_⟩
  · intro p hp; have := h2 p hp; rw [hA.ncol] at this; omega
  · intro j
    have := h3 j
    rw [if_pos (Nat.zero_le _), Nat.sub_zero] at this
    exact this

/-! ### Schur complement -/

theorem schurComplementLoop_spec {m i : Nat} {a11 : F} (ha : a11 ≠ 0) {cj : SVec F} (hcj : VecOK cj) (hcb : Below m cj) :
    ∀ (cs : List (SVec F)), ColsOK m cs →
    ∃ r, CMat.schurComplementLoop m i a11 cj cs = .ok r ∧ r.length = cs.length ∧ ColsOK m r ∧
      ∀ t l, l < cs.length → coef (r.getD l []) t = coef (cs.getD l []) t - if i < t then coef (cs.getD l []) i / a11 * coef cj t else 0
  | [], _ => ⟨[], rfl, rfl, by intro c hc; simp at hc, by intro t l hl; simp at hl⟩
  | c :: cs, hok => by
    obtain ⟨r, h1, h2, h3, h4⟩ := schurComplementLoop_spec (i := i) ha hcj hcb cs (fun d hd => hok d (by simp [hd]))
    have hc := hok c (by simp)
    have hg := getval_eq_coef (i := i) hc.1.1
    have hcjt : ∀ t, m ≤ t → coef cj t = 0 := fun t ht => hcb.coef_eq_zero ht
    obtain ⟨w, w1, w2, w3⟩ : ∃ w, (if SVec.getval c i ≠ 0 then (do
        let q ← CMat.fdiv (-(SVec.getval c i)) a11
        pure (SVec.axpyRange q cj (i + 1) m c)) else (pure c : Res (SVec F))) = .ok w ∧ (VecOK w ∧ Below m w) ∧
        ∀ t, coef w t = coef c t - if i < t then coef c i / a11 * coef cj t else 0 := by
      by_cases h0 : SVec.getval c i = 0
      · rw [if_neg (not_not.2 h0)]
        refine ⟨c, rfl, hc, ?_⟩
        intro t
        rw [← hg, h0]; simp
      · rw [if_pos h0]
        refine ⟨SVec.axpyRange (-(SVec.getval c i) / a11) cj (i + 1) m c, ?_, ⟨vecOK_axpyRange _ hcj hc.1 _ _, below_axpyRange _ hcb hc.2 _ _⟩, ?_⟩
        · unfold CMat.fdiv
          rw [if_neg ha, bind_ok]; rfl
        · intro t
          rw [coef_axpyRange _ hcj.1, hg]
          by_cases ht : i < t
          · rw [if_pos ht]
            by_cases htm : t < m
            · rw [if_pos (by omega)]; ring
            · rw [if_neg (by omega), hcjt t (by omega)]; ring
          · rw [if_neg (by omega), if_neg ht]; ring
    refine ⟨w :: r, ?_, by simp [h2], ?_, ?_⟩
    · rw [CMat.schurComplementLoop]
      by_cases h0 : SVec.getval c i = 0
      · rw [if_neg (not_not.2 h0)] at w1 ⊢
        cases w1
        show (CMat.schurComplementLoop m i a11 cj cs >>= fun r => pure (c :: r)) = _
        rw [h1]; rfl
      · rw [if_pos h0] at w1 ⊢
        unfold CMat.fdiv at w1 ⊢
        rw [if_neg ha, bind_ok] at w1 ⊢
        cases w1
        show (CMat.schurComplementLoop m i a11 cj cs >>= fun r => pure (_ :: r)) = _
        rw [h1]; rfl
    · intro d hd
      rcases List.mem_cons.1 hd with rfl | hd
      · exact w2
      · exact h3 d hd
    · intro t l hl
      cases l with
      | zero => exact w3 t
      | succ l => exact h4 t l (by simpa using hl)

theorem schurComplement_spec {m n : Nat} {A : CMat F} (hA : A.Shape m n) {i j : Nat} (hj : j < n) (ha : ent1 A i j ≠ 0) :
    ∃ A', CMat.schurComplement i j A = .ok A' ∧ A'.Shape m n ∧
      (∀ r c, c ≤ j ∨ r ≤ i → ent1 A' r c = ent1 A r c) ∧
      ∀ r c, i < r → j < c → c < n → ent1 A' r c = ent1 A r c - ent1 A i c / ent1 A i j * ent1 A r j := by
  have hjl : j < A.cols.length := by rw [hA.ncol]; exact hj
  obtain ⟨hv, hb⟩ := shape_cols hA j
  have hg := getval_eq_coef (i := i) hv.1
  have hok : ColsOK m (A.cols.drop (j + 1)) := fun c hc => hA.colsOK c (List.mem_of_mem_drop hc)
  obtain ⟨r, h1, h2, h3, h4⟩ := schurComplementLoop_spec (m := m) (i := i) (a11 := SVec.getval (A.cols.getD j []) i) (by rw [hg]; exact ha) hv hb
    (A.cols.drop (j + 1)) hok
  rw [List.length_drop, hA.ncol] at h2
  have htl : (A.cols.take (j + 1)).length = j + 1 := by rw [List.length_take, hA.ncol]; omega
  have hent1 : ∀ t c, c ≤ j → coef ((A.cols.take (j + 1) ++ r).getD c []) t = ent1 A t c := by
    intro t c hc
    unfold ent1
    rw [List.getD_eq_getElem?_getD, List.getElem?_append_left (by rw [htl]; omega), List.getElem?_take_of_lt (by omega), List.getD_eq_getElem?_getD]
  have hent2 : ∀ t c, j < c → c < n → coef ((A.cols.take (j + 1) ++ r).getD c []) t = ent1 A t c - if i < t then ent1 A i c / ent1 A i j * ent1 A t j else 0 := by
    intro t c hc hcn
    have e : (A.cols.drop (j + 1)).getD (c - (j + 1)) [] = A.cols.getD c [] := by
      rw [List.getD_eq_getElem?_getD, List.getElem?_drop, List.getD_eq_getElem?_getD, show j + 1 + (c - (j + 1)) = c by omega]
    rw [List.getD_eq_getElem?_getD, List.getElem?_append_right (by rw [htl]; omega), htl, ← List.getD_eq_getElem?_getD,
      h4 t (c - (j + 1)) (by rw [List.length_drop, hA.ncol]; omega), e, hg]
    rfl
  refine ⟨⟨A.nrow, A.cols.take (j + 1) ++ r⟩, ?_, ⟨?_, hA.nrow, ?_⟩, ?_, ?_⟩
  · unfold CMat.schurComplement
    rw [rd_getD [] hjl, bind_ok, hA.nrow, h1]; rfl
  · intro c hc
    show VecOK c ∧ Below A.nrow c
    rw [hA.nrow]
    rcases List.mem_append.1 hc with hc | hc
    · exact hA.colsOK c (List.mem_of_mem_take hc)
    · exact h3 c hc
  · rw [List.length_append, htl, h2]; omega
  · intro t c h
    show coef _ _ = _
    by_cases hc : c ≤ j
    · exact hent1 t c hc
    · by_cases hcn : c < n
      · rw [hent2 t c (by omega) hcn, if_neg (by omega), sub_zero]
      · rw [List.getD_eq_getElem?_getD, List.getElem?_eq_none (by rw [List.length_append, htl, h2]; omega), ent1_ge hA (Or.inr (by omega))]; rfl
  · intro t c ht hc hcn
    show coef _ _ = _
    rw [hent2 t c hc hcn, if_pos ht]

/-! ### scaling -/

theorem smul_mat {m n : Nat} {A : CMat F} (hA : A.Shape m n) (a : F) :
    (CMat.smul A a).Shape m n ∧ ∀ i j, ent1 (CMat.smul A a) i j = ent1 A i j * a := by
  constructor
  · have := shape_map hA (m' := m) (f := fun c => SVec.smul c a) (fun c hc hb => ⟨vecOK_smul a hc, by
      apply below_of_coef (vecOK_smul a hc)
      intro k hk; rw [coef_smul, hb.coef_eq_zero hk, zero_mul]⟩)
    unfold CMat.smul; rw [hA.nrow]; exact this
  · intro i j
    by_cases hj : j < n
    · unfold CMat.smul
      rw [ent1_map hA _ hj, coef_smul]; rfl
    · rw [ent1_ge hA (Or.inr (by omega)), zero_mul]
      unfold ent1 CMat.smul
      rw [List.getD_eq_getElem?_getD, List.getElem?_eq_none (by simp [hA.ncol]; omega)]; rfl

theorem rowScaleBy_spec {m n : Nat} {A : CMat F} (hA : A.Shape m n) {co : List F} (hl : co.length = m) (hnz : ∀ a ∈ co, a ≠ 0) :
    ∃ A', CMat.rowScaleBy co A = .ok A' ∧ A'.Shape m n ∧ ∀ i j, j < n → ent1 A' i j = ent1 A i j * co.getD i 0 := by
  obtain ⟨r, h1, h2, h3, h4⟩ := mapColsRes_spec (m := m) (m' := m) (f := SVec.scaleBy co)
    (P := fun c w => ∀ k, coef w k = coef c k * co.getD k 0) (by
      intro c hc hb
      obtain ⟨w, g1, g2, g3, g4⟩ := scaleBy_spec co c hc (by rw [hl]; exact hb)
      refine ⟨w, g1, ⟨sorted_iff_fst.2 (by rw [g2]; exact sorted_iff_fst.1 hc.1), g4 hnz⟩, ?_, g3⟩
      intro p hp
      have : p.1 ∈ c.map Prod.fst := by rw [← g2]; exact List.mem_map.2 ⟨p, hp, rfl⟩
      obtain ⟨q, hq, e⟩ := List.mem_map.1 this
      rw [← e]; exact hb q hq) A.cols hA.colsOK
  refine ⟨⟨A.nrow, r⟩, by unfold CMat.rowScaleBy; rw [h1]; rfl, ⟨?_, hA.nrow, by rw [h2, hA.ncol]⟩, ?_⟩
  · show ColsOK A.nrow r
    rw [hA.nrow]; exact h3
  · intro i j hj
    exact h4 j (by rw [hA.ncol]; exact hj) i

theorem colInvScaleLoop_spec {m : Nat} : ∀ (co : List F) (cs : List (SVec F)), co.length = cs.length → (∀ a ∈ co, a ≠ 0) → ColsOK m cs →
    ∃ r, CMat.colInvScaleLoop co cs = .ok r ∧ r.length = cs.length ∧ ColsOK m r ∧
      ∀ i j, j < cs.length → coef (r.getD j []) i = coef (cs.getD j []) i / co.getD j 0
  | [], [], _, _, _ => ⟨[], by rw [CMat.colInvScaleLoop], rfl, by intro c hc; simp at hc, by intro i j hj; simp at hj⟩
  | [], c :: cs, h, _, _ => by simp at h
  | a :: co, [], h, _, _ => by simp at h
  | a :: co, c :: cs, h, hnz, hok => by
    obtain ⟨r, h1, h2, h3, h4⟩ := colInvScaleLoop_spec co cs (by simpa using h) (fun x hx => hnz x (by simp [hx])) (fun d hd => hok d (by simp [hd]))
    have ha : a ≠ 0 := hnz a (by simp)
    have hc := hok c (by simp)
    refine ⟨SVec.scale (1 / a) c :: r, ?_, by simp [h2], ?_, ?_⟩
    · rw [CMat.colInvScaleLoop]
      unfold CMat.fdiv
      rw [if_neg ha, bind_ok, h1]; rfl
    · intro d hd
      rcases List.mem_cons.1 hd with rfl | hd
      · exact ⟨scale_ok (one_div_ne_zero ha) hc.1, scale_below hc.2⟩
      · exact h3 d hd
    · intro i j hj
      cases j with
      | zero => simp only [List.getD_cons_zero]; rw [coef_scale]; ring
      | succ j => exact h4 i j (by simpa using hj)

theorem colInvScale_spec {m n : Nat} {A : CMat F} (hA : A.Shape m n) {co : List F} (hl : co.length = n) (hnz : ∀ a ∈ co, a ≠ 0) :
    ∃ A', CMat.colInvScale co A = .ok A' ∧ A'.Shape m n ∧ ∀ i j, j < n → ent1 A' i j = ent1 A i j / co.getD j 0 := by
  obtain ⟨r, h1, h2, h3, h4⟩ := colInvScaleLoop_spec co A.cols (by rw [hl, hA.ncol]) hnz hA.colsOK
  refine ⟨⟨A.nrow, r⟩, by unfold CMat.colInvScale; rw [h1]; rfl, ⟨?_, hA.nrow, by rw [h2, hA.ncol]⟩, ?_⟩
  · show ColsOK A.nrow r
    rw [hA.nrow]; exact h3
  · intro i j hj
    exact h4 i j (by rw [hA.ncol]; exact hj)

/-! ### number of entries -/

theorem nnz_spec {m n : Nat} {A : CMat F} (hA : A.Shape m n) :
    CMat.nnz A = ((Finset.range m ×ˢ Finset.range n).filter (fun p => ent1 A p.1 p.2 ≠ 0)).card := by
  have hcol : ∀ c : SVec F, VecOK c → Below m c → c.length = ((Finset.range m).filter (fun i => coef c i ≠ 0)).card := by
    intro c hc hb
    have hnd := hc.1.nodup
    rw [← List.length_map Prod.fst, ← List.toFinset_card_of_nodup hnd]
    congr 1
    ext i
    rw [List.mem_toFinset, Finset.mem_filter, Finset.mem_range]
    constructor
    · intro h
      obtain ⟨p, hp, rfl⟩ := List.mem_map.1 h
      exact ⟨hb p hp, by rw [coef_of_mem (a := p.2) hc.1 hp]; exact hc.2 p hp⟩
    · rintro ⟨_, h⟩
      obtain ⟨a, ha⟩ := exists_mem_of_coef_ne h
      exact List.mem_map.2 ⟨_, ha, rfl⟩
  have hsum : ∀ (cs : List (SVec F)), ColsOK m cs → (cs.map List.length).sum =
      ∑ j ∈ Finset.range cs.length, ((Finset.range m).filter (fun i => coef (cs.getD j []) i ≠ 0)).card := by
    intro cs
    induction cs with
    | nil => intro _; rfl
    | cons c cs ih =>
      intro hok
      rw [List.map_cons, List.sum_cons, ih (fun d hd => hok d (by simp [hd])), List.length_cons, Finset.sum_range_succ', Nat.add_comm,
        hcol c (hok c (by simp)).1 (hok c (by simp)).2]
      rfl
  unfold CMat.nnz
  rw [hsum A.cols hA.colsOK, hA.ncol]
  rw [Finset.card_filter, Finset.sum_product_right]
  apply Finset.sum_congr rfl
  intro j _
  rw [Finset.card_filter]
  rfl

end BATS
