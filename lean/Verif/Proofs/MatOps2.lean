import Verif.Proofs.MatOps

set_option linter.unusedSectionVars false
set_option linter.unusedSimpArgs false
set_option linter.unusedVariables false

/-! # Inserting rows, blocks, products with a vector, scaling -/

namespace BATS
open Reduction

variable {F : Type} [Field F] [DecidableEq F]

/-! ### appending rows -/

theorem snoc_ok {m : Nat} {c : SVec F} (hc : VecOK c) (hb : Below m c) {a : F} (ha : a ≠ 0) : VecOK (c ++ [(m, a)]) ∧ Below (m + 1) (c ++ [(m, a)]) := by
  refine ⟨⟨?_, ?_⟩, ?_⟩
  · unfold Sorted
    rw [List.pairwise_append]
    exact ⟨hc.1, List.pairwise_singleton _ _, fun p hp q hq => by rw [List.mem_singleton] at hq; subst hq; exact hb p hp⟩
  · intro p hp
    rcases List.mem_append.1 hp with hp | hp
    · exact hc.2 p hp
    · rw [List.mem_singleton] at hp; subst hp; exact ha
  · intro p hp
    rcases List.mem_append.1 hp with hp | hp
    · have := hb p hp; omega
    · rw [List.mem_singleton] at hp; subst hp; exact Nat.lt_succ_self m

theorem coef_snoc (c : SVec F) (m : Nat) (a : F) (i : Nat) : coef (c ++ [(m, a)]) i = coef c i + if i = m then a else 0 := by
  rw [coef_append, coef_cons', coef_nil, add_zero]
  congr 1
  by_cases h : i = m
  · rw [if_pos h, if_pos h.symm]
  · rw [if_neg h, if_neg (fun e => h e.symm)]

theorem appendRowLoop_spec (m : Nat) : ∀ (row : List F) (cs : List (SVec F)), row.length = cs.length → ColsOK m cs →
    (CMat.appendRowLoop m row cs).length = cs.length ∧ ColsOK (m + 1) (CMat.appendRowLoop m row cs) ∧
    ∀ i j, coef ((CMat.appendRowLoop m row cs).getD j []) i = coef (cs.getD j []) i + if i = m then row.getD j 0 else 0
  | [], [], _, _ => ⟨rfl, by intro c hc; simp [CMat.appendRowLoop] at hc, by intro i j; simp [CMat.appendRowLoop]⟩
  | [], c :: cs, h, _ => by simp at h
  | a :: row, [], h, _ => by simp at h
  | a :: row, c :: cs, h, hok => by
    obtain ⟨h1, h2, h3⟩ := appendRowLoop_spec m row cs (by simpa using h) (fun d hd => hok d (by simp [hd]))
    have hc := hok c (by simp)
    refine ⟨by simp [CMat.appendRowLoop, h1], ?_, ?_⟩
    · intro d hd
      rw [CMat.appendRowLoop, List.mem_cons] at hd
      rcases hd with rfl | hd
      · by_cases ha : a = 0
        · rw [if_neg (not_not.2 ha)]; exact ⟨hc.1, fun p hp => by have := hc.2 p hp; omega⟩
        · rw [if_pos ha]; exact snoc_ok hc.1 hc.2 ha
      · exact h2 d hd
    · intro i j
      rw [CMat.appendRowLoop]
      cases j with
      | zero =>
        simp only [List.getD_cons_zero]
        by_cases ha : a = 0
        · rw [if_neg (not_not.2 ha), ha]; simp
        · rw [if_pos ha, coef_snoc]
      | succ j => rw [List.getD_cons_succ, List.getD_cons_succ, List.getD_cons_succ, h3]

theorem appendRow_spec {m n : Nat} {A : CMat F} (hA : A.Shape m n) {row : List F} (hl : row.length = n) :
    ∃ A', CMat.appendRow row A = .ok A' ∧ A'.Shape (m + 1) n ∧ (∀ j, ent1 A' m j = row.getD j 0) ∧ ∀ i j, i < m → ent1 A' i j = ent1 A i j := by
  obtain ⟨h1, h2, h3⟩ := appendRowLoop_spec m row A.cols (by rw [hl, hA.ncol]) hA.colsOK
  refine ⟨⟨m + 1, CMat.appendRowLoop m row A.cols⟩, ?_, ⟨h2, rfl, by rw [h1, hA.ncol]⟩, ?_, ?_⟩
  · unfold CMat.appendRow
    rw [if_neg (by rw [hl, hA.ncol]; simp), hA.nrow]
  · intro j
    unfold ent1
    rw [h3, if_pos rfl, (hA.colsOK.getD j).2.coef_eq_zero (Nat.le_refl _), zero_add]
  · intro i j hi
    unfold ent1
    rw [h3, if_neg (by omega), add_zero]

theorem insertRowPerm_get {m ind i : Nat} (hi : i < m) :
    (CMat.insertRowPerm m ind)[i]? = some (if i = m - 1 then ind else if i ≥ ind then i + 1 else i) := by
  unfold CMat.insertRowPerm
  rw [List.getElem?_map, List.getElem?_range hi]; rfl

theorem insertRowPerm_perm {m ind : Nat} (h : ind < m) : IsPermOf m (CMat.insertRowPerm m ind) := by
  apply Perm.isPerm_of_nodup
  · unfold CMat.insertRowPerm
    apply List.Nodup.map_on _ List.nodup_range
    intro x hx y hy e
    rw [List.mem_range] at hx hy
    split at e <;> split at e <;> (try split at e) <;> (try split at e) <;> omega
  · intro x hx
    unfold CMat.insertRowPerm at hx
    obtain ⟨y, hy, rfl⟩ := List.mem_map.1 hx
    rw [List.mem_range] at hy
    split
    · omega
    · split <;> omega
  · simp [CMat.insertRowPerm]

theorem insertRowPerm_spec {m n : Nat} {B : CMat F} (hB : B.Shape (m + 1) n) {ind : Nat} (hi : ind ≤ m) :
    ∃ A', CMat.permuteRows (CMat.insertRowPerm (m + 1) ind) B = .ok A' ∧ A'.Shape (m + 1) n ∧ (∀ j, j < n → ent1 A' ind j = ent1 B m j) ∧
      (∀ i j, j < n → i < ind → ent1 A' i j = ent1 B i j) ∧ ∀ i j, j < n → ind ≤ i → i < m → ent1 A' (i + 1) j = ent1 B i j := by
  obtain ⟨A', g1, g2, g3⟩ := permuteRows_spec hB (insertRowPerm_perm (m := m + 1) (ind := ind) (by omega))
  refine ⟨A', g1, g2, ?_, ?_, ?_⟩
  · intro j hj
    exact g3 m j ind hj (by rw [insertRowPerm_get (by omega), if_pos (by omega)])
  · intro i j hj h
    exact g3 i j i hj (by rw [insertRowPerm_get (by omega), if_neg (by omega), if_neg (by omega)])
  · intro i j hj h1 h2
    exact g3 i j (i + 1) hj (by rw [insertRowPerm_get (by omega), if_neg (by omega), if_pos h1])

theorem insertRow_spec {m n : Nat} {A : CMat F} (hA : A.Shape m n) {row : List F} (hl : row.length = n) {ind : Nat} (hi : ind ≤ m) :
    ∃ A', CMat.insertRow ind row A = .ok A' ∧ A'.Shape (m + 1) n ∧ (∀ j, j < n → ent1 A' ind j = row.getD j 0) ∧
      (∀ i j, j < n → i < ind → ent1 A' i j = ent1 A i j) ∧ ∀ i j, j < n → ind ≤ i → i < m → ent1 A' (i + 1) j = ent1 A i j := by
  obtain ⟨B, h1, h2, h3, h4⟩ := appendRow_spec hA hl
  obtain ⟨A', g1, g2, g3, g4, g5⟩ := insertRowPerm_spec h2 hi
  refine ⟨A', ?_, g2, ?_, ?_, ?_⟩
  · unfold CMat.insertRow
    rw [h1, bind_ok, h2.nrow]; exact g1
  · intro j hj; rw [g3 j hj, h3]
  · intro i j hj h; rw [g4 i j hj h, h4 i j (by omega)]
  · intro i j hj h h'; rw [g5 i j hj h h', h4 i j h']

theorem insertZeroRow_spec {m n : Nat} {A : CMat F} (hA : A.Shape m n) {ind : Nat} (hi : ind ≤ m) :
    ∃ A', CMat.insertZeroRow ind A = .ok A' ∧ A'.Shape (m + 1) n ∧ (∀ j, j < n → ent1 A' ind j = 0) ∧
      (∀ i j, j < n → i < ind → ent1 A' i j = ent1 A i j) ∧ ∀ i j, j < n → ind ≤ i → i < m → ent1 A' (i + 1) j = ent1 A i j := by
  have hB : (⟨A.nrow + 1, A.cols⟩ : CMat F).Shape (m + 1) n := by
    refine ⟨?_, by rw [← hA.nrow], hA.ncol⟩
    intro c hc
    have := hA.ok c hc
    exact ⟨this.1, fun p hp => Nat.lt_succ_of_lt (this.2 p hp)⟩
  obtain ⟨A', g1, g2, g3, g4, g5⟩ := insertRowPerm_spec hB hi
  refine ⟨A', ?_, g2, ?_, fun i j hj h => g4 i j hj h, fun i j hj h h' => g5 i j hj h h'⟩
  · unfold CMat.insertZeroRow
    rw [hA.nrow] at g1 ⊢; exact g1
  · intro j hj
    rw [g3 j hj]
    exact ent1_ge hA (Or.inl (Nat.le_refl _))

/-! ### sparse rows -/

/-- one sparse row, appended below row `m` -/
theorem appendSparseLoop_spec (m : Nat) : ∀ (row : SVec F) (cs : List (SVec F)), VecOK row → Below cs.length row →
    ColsOK (m + 1) cs → (∀ p ∈ row, Below m (cs.getD p.1 [])) →
    ∃ cs', CMat.appendSparseLoop m row cs = .ok cs' ∧ cs'.length = cs.length ∧ ColsOK (m + 1) cs' ∧
      ∀ i j, coef (cs'.getD j []) i = coef (cs.getD j []) i + if i = m then coef row j else 0
  | [], cs, _, _, hok, _ => ⟨cs, rfl, rfl, hok, by intro i j; simp⟩
  | p :: row, cs, hr, hb, hok, hm => by
    have hp : p.1 < cs.length := hb p (by simp)
    have hrow : VecOK row := ⟨hr.1.tail, fun q hq => hr.2 q (by simp [hq])⟩
    have hne : ∀ q ∈ row, q.1 ≠ p.1 := by intro q hq; have := hr.1.head q hq; omega
    have hs := snoc_ok (hok.getD p.1).1 (hm p (by simp)) (hr.2 p (by simp))
    obtain ⟨cs', h1, h2, h3, h4⟩ := appendSparseLoop_spec m row (cs.set p.1 (cs.getD p.1 [] ++ [(m, p.2)])) hrow
      (by rw [List.length_set]; exact fun q hq => hb q (by simp [hq])) (hok.set p.1 hs) (by
        intro q hq
        rw [getD_set' _ _ _ _ _ hp, if_neg (hne q hq)]
        exact hm q (by simp [hq]))
    refine ⟨cs', ?_, by rw [h2, List.length_set], h3, ?_⟩
    · rw [CMat.appendSparseLoop, rd_getD [] hp, bind_ok]; exact h1
    · intro i j
      rw [h4, getD_set' _ _ _ _ _ hp, coef_cons']
      by_cases hj : j = p.1
      · subst hj
        rw [if_pos rfl, coef_snoc, if_pos rfl, coef_eq_zero_of_notMem (v := row) hne]
        split <;> ring
      · rw [if_neg hj, if_neg (show ¬ p.1 = j from fun e => hj e.symm), zero_add]

/-- several sparse rows, from row `m0 + i1` on -/
theorem insertSparseLoop_spec (m0 n : Nat) : ∀ (rs : List Nat) (rows : List (SVec F)) (i1 : Nat) (cs : List (SVec F)),
    rs.length = rows.length → (∀ r ∈ rows, VecOK r ∧ Below n r) → cs.length = n → ColsOK (m0 + i1) cs →
    ∃ cs', CMat.insertSparseLoop m0 i1 rs rows cs = .ok cs' ∧ cs'.length = n ∧ ColsOK (m0 + i1 + rs.length) cs' ∧
      ∀ i j, coef (cs'.getD j []) i = coef (cs.getD j []) i + if m0 + i1 ≤ i then coef (rows.getD (i - (m0 + i1)) []) j else 0
  | [], [], i1, cs, _, _, hl, hok => ⟨cs, by rw [CMat.insertSparseLoop], hl, hok, by intro i j; simp⟩
  | [], r :: rows, i1, cs, h, _, _, _ => by simp at h
  | r :: rs, [], i1, cs, h, _, _, _ => by simp at h
  | r :: rs, row :: rows, i1, cs, h, hr, hl, hok => by
    have hrow := hr row (by simp)
    obtain ⟨c1, h1, h2, h3, h4⟩ := appendSparseLoop_spec (m0 + i1) row cs hrow.1 (by rw [hl]; exact hrow.2)
      (fun c hc => ⟨(hok c hc).1, fun p hp => by have := (hok c hc).2 p hp; omega⟩) (fun p _ => (hok.getD p.1).2)
    obtain ⟨cs', g1, g2, g3, g4⟩ := insertSparseLoop_spec m0 n rs rows (i1 + 1) c1 (by simpa using h) (fun r hr' => hr r (by simp [hr']))
      (by rw [h2, hl]) h3
    refine ⟨cs', ?_, g2, ?_, ?_⟩
    · rw [CMat.insertSparseLoop, Nat.add_comm i1 m0, h1, bind_ok]; exact g1
    · rw [List.length_cons, show m0 + i1 + (rs.length + 1) = m0 + (i1 + 1) + rs.length by omega]; exact g3
    · intro i j
      rw [g4, h4]
      rcases lt_trichotomy i (m0 + i1) with hi | hi | hi
      · rw [if_neg (by omega), if_neg (by omega), if_neg (by omega)]; ring
      · rw [if_pos hi, if_neg (by omega), if_pos (by omega), hi, Nat.sub_self, List.getD_cons_zero]; ring
      · rw [if_neg (by omega), if_pos (by omega), if_pos (by omega), show i - (m0 + i1) = (i - (m0 + (i1 + 1))) + 1 by omega, List.getD_cons_succ]; ring

theorem appendSparseRow_spec {m n : Nat} {A : CMat F} (hA : A.Shape m n) {row : SVec F} (hr : VecOK row) (hb : Below n row) :
    ∃ A', CMat.appendSparseRow row A = .ok A' ∧ A'.Shape (m + 1) n ∧ (∀ j, ent1 A' m j = coef row j) ∧ ∀ i j, i < m → ent1 A' i j = ent1 A i j := by
  obtain ⟨cs, h1, h2, h3, h4⟩ := appendSparseLoop_spec m row A.cols hr (by rw [hA.ncol]; exact hb)
    (fun c hc => ⟨(hA.colsOK c hc).1, fun p hp => Nat.lt_succ_of_lt ((hA.colsOK c hc).2 p hp)⟩) (fun p _ => (hA.colsOK.getD p.1).2)
  refine ⟨⟨m + 1, cs⟩, by unfold CMat.appendSparseRow; rw [hA.nrow, h1]; rfl, ⟨h3, rfl, by rw [h2, hA.ncol]⟩, ?_, ?_⟩
  · intro j
    unfold ent1
    rw [h4, if_pos rfl, (hA.colsOK.getD j).2.coef_eq_zero (Nat.le_refl _), zero_add]
  · intro i j hi
    unfold ent1
    rw [h4, if_neg (by omega), add_zero]

theorem appendSparseRows_spec {n : Nat} : ∀ (rows : List (SVec F)) {m : Nat} {A : CMat F}, A.Shape m n → (∀ r ∈ rows, VecOK r ∧ Below n r) →
    ∃ A', CMat.appendSparseRows rows A = .ok A' ∧ A'.Shape (m + rows.length) n ∧
      (∀ k j, k < rows.length → ent1 A' (m + k) j = coef (rows.getD k []) j) ∧ ∀ i j, i < m → ent1 A' i j = ent1 A i j
  | [], m, A, hA, _ => ⟨A, rfl, hA, by intro k j hk; simp at hk, fun _ _ _ => rfl⟩
  | r :: rows, m, A, hA, h => by
    obtain ⟨B, h1, h2, h3, h4⟩ := appendSparseRow_spec hA (h r (by simp)).1 (h r (by simp)).2
    obtain ⟨A', g1, g2, g3, g4⟩ := appendSparseRows_spec rows h2 (fun x hx => h x (by simp [hx]))
    refine ⟨A', by rw [CMat.appendSparseRows, h1, bind_ok]; exact g1, ?_, ?_, ?_⟩
    · rw [List.length_cons, show m + (rows.length + 1) = m + 1 + rows.length by omega]; exact g2
    · intro k j hk
      cases k with
      | zero => rw [Nat.add_zero, g4 m j (Nat.lt_succ_self m), h3]; rfl
      | succ k =>
        rw [show m + (k + 1) = m + 1 + k by omega, g3 k j (by simpa using hk)]; rfl
    · intro i j hi
      rw [g4 i j (by omega), h4 i j hi]

/-! ### inserting several rows -/

theorem targets_perm {m : Nat} {rinds : List Nat} (h : rinds.Pairwise (· < ·)) (hb : ∀ r ∈ rinds, r < m + rinds.length) :
    IsPermOf (m + rinds.length) ((List.range m).map (SVec.insertTarget rinds) ++ rinds) := by
  apply Perm.isPerm_of_nodup
  · rw [List.nodup_append]
    refine ⟨?_, h.imp (fun h => by omega), ?_⟩
    · apply List.Nodup.map_on _ List.nodup_range
      intro x _ y _ e
      by_contra hne
      rcases lt_or_gt_of_ne hne with h1 | h1
      · have := insertTarget_lt h h1; omega
      · have := insertTarget_lt h h1; omega
    · intro a ha b hb e
      obtain ⟨i, _, rfl⟩ := List.mem_map.1 ha
      subst e
      exact (insertTarget_spec h i).1 hb
  · intro x hx
    rcases List.mem_append.1 hx with hx | hx
    · obtain ⟨i, hi, rfl⟩ := List.mem_map.1 hx
      exact insertTarget_bound h (List.mem_range.1 hi)
    · exact hb x hx
  · simp

theorem insertSparseRows_spec {m n : Nat} {A : CMat F} (hA : A.Shape m n) {rinds : List Nat} (hs : rinds.Pairwise (· < ·)) {rows : List (SVec F)}
    (hl : rinds.length = rows.length) (hb : ∀ r ∈ rinds, r < m + rinds.length) (hr : ∀ r ∈ rows, VecOK r ∧ Below n r) :
    ∃ A', CMat.insertSparseRows rinds rows A = .ok A' ∧ A'.Shape (m + rinds.length) n ∧
      (∀ k j, k < rinds.length → j < n → ent1 A' (rinds.getD k 0) j = coef (rows.getD k []) j) ∧
      (∀ i j, i < m + rinds.length → j < n → i ∉ rinds → ent1 A' i j = ent1 A (oldRow rinds i) j) := by
  obtain ⟨B, h1, h2, h3, h4⟩ := appendSparseRows_spec rows hA hr
  rw [← hl] at h2
  obtain ⟨A', g1, g2, g3⟩ := permuteRows_spec h2 (targets_perm hs hb)
  refine ⟨A', ?_, g2, ?_, ?_⟩
  · unfold CMat.insertSparseRows
    rw [h1, bind_ok, h2.nrow, Nat.add_sub_cancel]; exact g1
  · intro k j hk hj
    rw [g3 (m + k) j (rinds.getD k 0) hj ?_, h3 k j (by omega)]
    rw [List.getElem?_append_right (by simp), List.length_map, List.length_range, Nat.add_sub_cancel_left, List.getD_eq_getElem?_getD,
      List.getElem?_eq_getElem hk]; rfl
  · intro i j hi hj hni
    have e := insertTarget_unique hs hni rfl
    have hlt : oldRow rinds i < m := by
      by_contra hge
      have h5 : insertedBefore rinds i ≤ rinds.length := List.length_filter_le _ _
      have h6 := insertedBefore_le hs i
      unfold oldRow at hge
      -- all rows are before `i`, so `i` is at least `m + |rinds|`, unless some are not before it
      have h7 : insertedBefore rinds i + (rinds.filter (fun r => decide (i < r))).length = rinds.length := by
        unfold insertedBefore
        rw [← List.length_append]
        have : (rinds.filter (fun r => decide (r < i)) ++ rinds.filter (fun r => decide (i < r))).Perm rinds := by
          have h8 := List.filter_append_perm (fun r => decide (r < i)) rinds
          refine List.Perm.trans ?_ h8
          rw [List.perm_append_left_iff]
          apply List.Perm.of_eq
          apply List.filter_congr
          intro r hr'
          have : r ≠ i := by rintro rfl; exact hni hr'
          by_cases hri : r < i
          · simp [hri]; omega
          · simp [hri]; omega
        exact this.length_eq
      have h8 : (rinds.filter (fun r => decide (i < r))).length ≤ m + rinds.length - (i + 1) := by
        have hnd : (rinds.filter (fun r => decide (i < r))).Nodup := (hs.imp (fun h => by omega)).filter _
        have hsub : rinds.filter (fun r => decide (i < r)) ⊆ List.range' (i + 1) (m + rinds.length - (i + 1)) := by
          intro r hr'
          rw [List.mem_filter] at hr'
          have := hb r hr'.1
          have : i < r := by simpa using hr'.2
          rw [List.mem_range'_1]; omega
        have := (List.subperm_of_subset hnd hsub).length_le
        rwa [List.length_range'] at this
      omega
    rw [g3 (oldRow rinds i) j i hj ?_, h4 _ j hlt]
    rw [List.getElem?_append_left (by simpa using hlt), List.getElem?_map, List.getElem?_range hlt]
    simp [e]

theorem leadingRows_spec (full : List Nat) (hs : full.Pairwise (· < ·)) : ∀ (n k : Nat), full.length - k = n → k ≤ full.length →
    (∀ r ∈ full.take k, r < k) →
    CMat.leadingRows (full.drop k) k ≤ full.length ∧ ∀ r ∈ full.take (CMat.leadingRows (full.drop k) k), r < CMat.leadingRows (full.drop k) k := by
  intro n
  induction n with
  | zero =>
    intro k hn hk h
    rw [List.drop_eq_nil_of_le (by omega), CMat.leadingRows]
    exact ⟨hk, h⟩
  | succ n ih =>
    intro k hn hk h
    have hk' : k < full.length := by omega
    rw [List.drop_eq_getElem_cons hk', CMat.leadingRows]
    by_cases e : full[k] = k
    · rw [if_pos e]
      apply ih (k + 1) (by omega) hk'
      intro r hr
      rw [List.take_add_one, List.getElem?_eq_getElem hk'] at hr
      simp only [Option.toList_some, List.mem_append, List.mem_singleton] at hr
      rcases hr with hr | hr
      · have := h r hr; omega
      · omega
    · rw [if_neg e]
      exact ⟨hk, h⟩

theorem insertZeroRows_mat {m n : Nat} {A : CMat F} (hA : A.Shape m n) {rinds : List Nat} (hs : rinds.Pairwise (· < ·)) :
    (CMat.insertZeroRows rinds A).Shape (m + rinds.length) n ∧
    (∀ i j, i ∈ rinds → ent1 (CMat.insertZeroRows rinds A) i j = 0) ∧
    (∀ i j, i ∉ rinds → ent1 (CMat.insertZeroRows rinds A) i j = ent1 A (oldRow rinds i) j) := by
  obtain ⟨h1, h2⟩ := leadingRows_spec rinds hs rinds.length 0 (by simp) (Nat.zero_le _) (by simp)
  rw [List.drop_zero] at h1 h2
  have hsp := fun c (hc : VecOK c) => insertZeroRows_spec (F := F) hs (v := c) hc h1 h2
  have hent : ∀ i j, ent1 (CMat.insertZeroRows rinds A) i j = if i ∈ rinds then 0 else ent1 A (oldRow rinds i) j := by
    intro i j
    unfold CMat.insertZeroRows
    by_cases hj : j < n
    · rw [ent1_map hA _ hj, (hsp _ (shape_cols hA j).1).2.1]; rfl
    · rw [ent1_ge hA (Or.inr (by omega))]
      unfold ent1
      rw [List.getD_eq_getElem?_getD, List.getElem?_eq_none (by simp [hA.ncol]; omega)]
      simp
  refine ⟨?_, fun i j hi => by rw [hent, if_pos hi], fun i j hi => by rw [hent, if_neg hi]⟩
  have := shape_map hA (m' := m + rinds.length) (f := SVec.insertZeroRows rinds (CMat.leadingRows rinds 0))
    (fun c hc hb => ⟨(hsp c hc).1, (hsp c hc).2.2 m hb⟩)
  unfold CMat.insertZeroRows; rw [hA.nrow]; exact this

/-! ### `insert_rows(r_inds, rows)`: positions counted in the old matrix -/

theorem insertPerm_spec (m m0 : Nat) : ∀ (rs : List Nat) (pos i0 iloc : Nat), rs.Pairwise (· ≤ ·) → (∀ r ∈ rs, i0 ≤ r ∧ r ≤ m0) → i0 ≤ m0 →
    m = pos + (m0 - i0 + rs.length) → ∃ p, CMat.insertPerm m rs pos i0 iloc = .ok p ∧ p.length = m0 - i0 + rs.length ∧
      (∀ k, k < rs.length → p[rs.getD k 0 - i0 + k]? = some (iloc + k)) ∧
      (∀ i, i0 ≤ i → i < m0 → p[i - i0 + (rs.filter (fun r => decide (r ≤ i))).length]? = some i)
  | [], pos, i0, iloc, _, _, h0, hm => by
    refine ⟨List.range' i0 (m0 - i0), by rw [CMat.insertPerm, hm]; simp, by simp, by simp, ?_⟩
    intro i h1 h2
    rw [List.filter_nil, List.length_nil, Nat.add_zero, List.getElem?_range' (by omega)]
    simp; omega
  | r :: rs, pos, i0, iloc, hs, hb, h0, hm => by
    have hp := List.pairwise_cons.1 hs
    have hr := hb r (by simp)
    have e : i0 + (r - i0) = r := by omega
    rw [List.length_cons] at hm
    obtain ⟨p, h1, h2, h3, h4⟩ := insertPerm_spec m m0 rs (pos + (r - i0) + 1) r (iloc + 1) hp.2 (fun x hx => ⟨hp.1 x hx, (hb x (by simp [hx])).2⟩) hr.2 (by omega)
    refine ⟨List.range' i0 (r - i0) ++ iloc :: p, ?_, ?_, ?_, ?_⟩
    · rw [CMat.insertPerm, if_neg (by omega), if_neg (by omega), e, h1]; rfl
    · simp [h2]; omega
    · intro k hk
      cases k with
      | zero =>
        rw [List.getD_cons_zero, List.getElem?_append_right (by simp), List.length_range', Nat.add_zero, Nat.sub_self]
        simp
      | succ k =>
        have hk' : k < rs.length := by simpa using hk
        have hge : r ≤ rs.getD k 0 := by
          rw [List.getD_eq_getElem?_getD, List.getElem?_eq_getElem hk']
          exact hp.1 _ (List.getElem_mem hk')
        rw [List.getD_cons_succ, List.getElem?_append_right (by rw [List.length_range']; omega), List.length_range',
          show rs.getD k 0 - i0 + (k + 1) - (r - i0) = (rs.getD k 0 - r + k) + 1 by omega, List.getElem?_cons_succ, h3 k hk']
        congr 1; omega
    · intro i h5 h6
      by_cases hir : i < r
      · have : (r :: rs).filter (fun x => decide (x ≤ i)) = [] := by
          rw [List.filter_eq_nil_iff]
          intro x hx
          rcases List.mem_cons.1 hx with rfl | hx
          · simp; omega
          · have := hp.1 x hx; simp; omega
        rw [this, List.length_nil, Nat.add_zero, List.getElem?_append_left (by simp; omega), List.getElem?_range' (by omega)]
        simp; omega
      · rw [List.filter_cons_of_pos (by simp; omega), List.length_cons, List.getElem?_append_right (by simp; omega), List.length_range',
          show i - i0 + ((rs.filter (fun x => decide (x ≤ i))).length + 1) - (r - i0) = (i - r + (rs.filter (fun x => decide (x ≤ i))).length) + 1 by omega,
          List.getElem?_cons_succ, h4 i (by omega) h6]

/-- a strictly increasing permutation of `0, …, n-1` is the identity -/
theorem eq_range_of_perm {l : List Nat} {n : Nat} (hp : l.Perm (List.range n)) (hs : l.Pairwise (· ≤ ·)) : l = List.range n :=
  hp.eq_of_pairwise (fun a b _ _ h1 h2 => Nat.le_antisymm h1 h2) hs (List.pairwise_lt_range.imp Nat.le_of_lt)

/-- sorting a permutation gives its inverse -/
theorem sortperm_inverse {p : List Nat} {n : Nat} (hp : IsPermOf n p) {x a : Nat} (h : p[x]? = some a) : (Perm.stableSortperm p)[a]? = some x := by
  have hpl := Perm.isPerm_length hp
  have hsp := Perm.stableSortperm_perm p
  rw [hpl] at hsp
  have hsl := Perm.isPerm_length hsp
  -- the permuted data
  have hget : ∀ b, b < n → ∃ y, (Perm.stableSortperm p)[b]? = some y ∧ y < p.length := by
    intro b hb
    refine ⟨_, List.getElem?_eq_getElem (by omega), ?_⟩
    rw [hpl]; exact (Perm.isPerm_mem hsp).1 (List.getElem_mem _)
  let q := (Perm.stableSortperm p).map (fun y => p.getD y 0)
  have hq : q.Perm (List.range n) := by
    have h1 : q.Perm ((List.range n).map (fun y => p.getD y 0)) := hsp.map _
    have h2 : (List.range n).map (fun y => p.getD y 0) = p := by
      apply List.ext_getElem
      · simp [hpl]
      · intro i h1 h2
        rw [List.getElem_map, List.getElem_range, List.getD_eq_getElem?_getD, List.getElem?_eq_getElem h2]; rfl
    rw [h2] at h1
    exact h1.trans hp
  have hqs : q.Pairwise (· ≤ ·) := by
    rw [List.pairwise_iff_getElem]
    intro i j hi hj hij
    have hi' : i < (Perm.stableSortperm p).length := by simpa [q] using hi
    have hj' : j < (Perm.stableSortperm p).length := by simpa [q] using hj
    obtain ⟨u, v, e1, e2, h3⟩ := Perm.stableSortperm_sorted p hij (List.getElem?_eq_getElem hi') (List.getElem?_eq_getElem hj')
    simp only [q, List.getElem_map]
    rw [List.getD_eq_getElem?_getD, List.getD_eq_getElem?_getD, e1, e2]
    simp only [Option.getD_some]
    rcases h3 with h | ⟨h, _⟩ <;> omega
  have hqe : q = List.range n := eq_range_of_perm hq hqs
  have ha : a < n := (Perm.isPerm_mem hp).1 (List.mem_of_getElem? h)
  obtain ⟨y, hy, hyl⟩ := hget a ha
  have h5 : q[a]? = some (p.getD y 0) := by simp [q, hy]
  rw [hqe, List.getElem?_range ha] at h5
  have h6 : p.getD y 0 = a := by simpa using h5.symm
  rw [hy]
  congr 1
  obtain ⟨hx, hx2⟩ := List.getElem?_eq_some_iff.1 h
  rw [List.getD_eq_getElem?_getD, List.getElem?_eq_getElem hyl] at h6
  exact (List.Nodup.getElem_inj_iff (Perm.isPerm_nodup hp)).1 (by simpa using h6.trans hx2.symm)

theorem insertRows_mat {m n : Nat} {A : CMat F} (hA : A.Shape m n) {rinds : List Nat} (hs : rinds.Pairwise (· ≤ ·)) {rows : List (SVec F)}
    (hl : rinds.length = rows.length) (hb : ∀ r ∈ rinds, r ≤ m) (hr : ∀ r ∈ rows, VecOK r ∧ Below n r) :
    ∃ A', CMat.insertRows rinds rows A = .ok A' ∧ A'.Shape (m + rinds.length) n ∧
      (∀ k j, k < rinds.length → j < n → ent1 A' (rinds.getD k 0 + k) j = coef (rows.getD k []) j) ∧
      (∀ i j, i < m → j < n → ent1 A' (i + (rinds.filter (fun r => decide (r ≤ i))).length) j = ent1 A i j) := by
  obtain ⟨p, p1, p2, p3, p4⟩ := insertPerm_spec (m + rinds.length) m rinds 0 0 m hs (fun r hr' => ⟨Nat.zero_le _, hb r hr'⟩) (Nat.zero_le _) (by omega)
  obtain ⟨cs, c1, c2, c3, c4⟩ := insertSparseLoop_spec m n rinds rows 0 A.cols hl hr hA.ncol (by simpa using hA.colsOK)
  rw [Nat.sub_zero] at p2
  have hp : IsPermOf (m + rinds.length) p := by
    apply Perm.isPerm_of_surj _ p2
    intro x hx
    by_cases hxm : x < m
    · exact List.mem_of_getElem? (p4 x (Nat.zero_le _) hxm)
    · have := List.mem_of_getElem? (p3 (x - m) (by omega))
      rwa [show m + (x - m) = x by omega] at this
  have hB : (⟨m + rinds.length, cs⟩ : CMat F).Shape (m + rinds.length) n := ⟨by rw [Nat.add_zero] at c3; exact c3, rfl, c2⟩
  have hsp : IsPermOf (m + rinds.length) (Perm.stableSortperm p) := by
    have := Perm.stableSortperm_perm p
    rwa [p2] at this
  obtain ⟨A', g1, g2, g3⟩ := permuteRows_spec hB hsp
  refine ⟨A', ?_, g2, ?_, ?_⟩
  · unfold CMat.insertRows
    rw [hA.nrow, p1, bind_ok, c1, bind_ok]; exact g1
  · intro k j hk hj
    have := p3 k hk
    rw [Nat.sub_zero] at this
    rw [g3 (m + k) j _ hj (sortperm_inverse hp this)]
    unfold ent1
    dsimp only
    rw [c4, Nat.add_zero, if_pos (by omega), Nat.add_sub_cancel_left, (hA.colsOK.getD j).2.coef_eq_zero (by omega), zero_add]
  · intro i j hi hj
    have := p4 i (Nat.zero_le _) hi
    rw [Nat.sub_zero] at this
    rw [g3 i j _ hj (sortperm_inverse hp this)]
    unfold ent1
    dsimp only
    rw [c4, Nat.add_zero, if_neg (by omega), add_zero]

end BATS
