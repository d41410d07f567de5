import Verif.Proofs.ReduceMat

set_option linter.unusedSectionVars false
set_option linter.unusedSimpArgs false
set_option linter.unusedVariables false

/-! # Matrix arithmetic, transpose, predicates -/

namespace BATS
open Matrix Reduction

variable {F : Type} [Field F] [DecidableEq F]

theorem CMat.Shape.colsOK {M : CMat F} {m n : Nat} (h : M.Shape m n) : ColsOK m M.cols := by
  have := h.ok; rw [CMat.OK, h.nrow] at this; exact this

/-- a well-formed stored matrix is determined by the matrix it denotes -/
theorem CMat.Shape.ext {M N : CMat F} {m n : Nat} (hM : M.Shape m n) (hN : N.Shape m n)
    (h : M.mat m n = N.mat m n) : M = N := by
  obtain ⟨mr, mc⟩ := M
  obtain ⟨nr, nc⟩ := N
  have h1 := hM.nrow; have h2 := hN.nrow
  have hc : mc = nc := by
    apply List.ext_getElem (by rw [hM.ncol, hN.ncol])
    intro j hj hj'
    have a1 := hM.colsOK.getD j
    have a2 := hN.colsOK.getD j
    have e1 : mc.getD j [] = mc[j] := by simp [hj]
    have e2 : nc.getD j [] = nc[j] := by simp [hj']
    rw [← e1, ← e2]
    apply VecOK.ext a1.1 a2.1
    intro i
    by_cases hi : i < m
    · have hjn : j < n := by rw [← hM.ncol]; exact hj
      exact congrFun (congrFun h ⟨i, hi⟩) ⟨j, hjn⟩
    · show coef (mc.getD j []) i = coef (nc.getD j []) i
      rw [a1.2.coef_eq_zero (by omega), a2.2.coef_eq_zero (by omega)]
  simp only at h1 h2
  rw [h1, h2, hc]

theorem sum_coef_cons {n : Nat} (g : Nat → F) {k : Nat} (hk : k < n) (a : F) (x : SVec F) :
    ∑ j ∈ Finset.range n, g j * coef ((k, a) :: x) j = g k * a + ∑ j ∈ Finset.range n, g j * coef x j := by
  simp only [coef_cons', mul_add, Finset.sum_add_distrib]
  congr 1
  rw [Finset.sum_eq_single k]
  · simp
  · intro j _ hj; simp [hj.symm]
  · intro h; simp at h; omega

theorem gemvLoop_spec {m n : Nat} {cols : List (SVec F)} (hc : ColsOK m cols) (hn : cols.length = n) :
    ∀ (x y : SVec F), Below n x → VecOK y → Below m y →
      ∃ r, CMat.gemvLoop cols x y = .ok r ∧ VecOK r ∧ Below m r ∧
        ∀ i, coef r i = coef y i + ∑ k ∈ Finset.range n, coef (cols.getD k []) i * coef x k
  | [], y, _, hy, hb => ⟨y, rfl, hy, hb, by simp [coef]⟩
  | (k, a) :: x, y, hx, hy, hb => by
    have hk : k < n := (below_cons.1 hx).1
    have hck := hc.getD k
    obtain ⟨r, h1, h2, h3, h4⟩ := gemvLoop_spec hc hn x (SVec.axpy a (cols.getD k []) y) (below_cons.1 hx).2
      (vecOK_axpy a hck.1 hy) (below_axpy a hck.2 hb)
    refine ⟨r, ?_, h2, h3, ?_⟩
    · unfold CMat.gemvLoop
      rw [rd_getD [] (by omega)]
      exact h1
    · intro i
      rw [h4 i, coef_axpy, sum_coef_cons _ hk]
      ring

theorem gemv_spec {m n : Nat} {A : CMat F} (hA : A.Shape m n) {x : SVec F} (hx : Below n x) :
    ∃ r, CMat.gemv A x = .ok r ∧ VecOK r ∧ Below m r ∧
      (fun i : Fin m => coef r i) = A.mat m n *ᵥ (fun j : Fin n => coef x j) := by
  obtain ⟨r, h1, h2, h3, h4⟩ := gemvLoop_spec hA.colsOK hA.ncol x [] hx vecOK_nil (below_nil m)
  refine ⟨r, h1, h2, h3, ?_⟩
  funext i
  rw [h4 i, Finset.sum_range]
  simp only [coef, zero_add]
  rfl

theorem gemmLoop_spec {m n : Nat} {cols : List (SVec F)} (hc : ColsOK m cols) (hn : cols.length = n) :
    ∀ (bs : List (SVec F)), ColsOK n bs →
      ∃ rs, CMat.gemmLoop cols bs = .ok rs ∧ rs.length = bs.length ∧ ColsOK m rs ∧
        ∀ j i, coef (rs.getD j []) i = ∑ k ∈ Finset.range n, coef (cols.getD k []) i * coef (bs.getD j []) k
  | [], _ => ⟨[], rfl, rfl, by intro c hc; simp at hc, by simp [coef]⟩
  | b :: bs, hb => by
    obtain ⟨r, h1, h2, h3, h4⟩ := gemvLoop_spec hc hn b [] (hb b (by simp)).2 vecOK_nil (below_nil m)
    obtain ⟨rs, g1, g2, g3, g4⟩ := gemmLoop_spec hc hn bs (fun c h => hb c (by simp [h]))
    refine ⟨r :: rs, ?_, by simp [g2], ?_, ?_⟩
    · unfold CMat.gemmLoop; rw [h1]; simp only [bind_ok]; rw [g1]; rfl
    · intro c hc'
      rcases List.mem_cons.1 hc' with rfl | h
      · exact ⟨h2, h3⟩
      · exact g3 c h
    · intro j i
      cases j with
      | zero => simp only [List.getD_cons_zero]; rw [h4 i]; simp [coef]
      | succ j => simp only [List.getD_cons_succ]; exact g4 j i

theorem gemm_spec {m n l : Nat} {A B : CMat F} (hA : A.Shape m n) (hB : B.Shape n l) :
    ∃ R, CMat.gemm A B = .ok R ∧ R.Shape m l ∧ R.mat m l = A.mat m n * B.mat n l := by
  obtain ⟨rs, h1, h2, h3, h4⟩ := gemmLoop_spec hA.colsOK hA.ncol B.cols hB.colsOK
  refine ⟨⟨A.nrow, rs⟩, ?_, ⟨?_, hA.nrow, by rw [← hB.ncol]; exact h2⟩, ?_⟩
  · unfold CMat.gemm; rw [h1]; rfl
  · rw [CMat.OK, hA.nrow]; exact h3
  · ext i j
    rw [Matrix.mul_apply]
    show coef (rs.getD j []) i = ∑ k : Fin n, coef (A.cols.getD k []) i * coef (B.cols.getD j []) k
    rw [h4, Finset.sum_range]

theorem axpyCols_spec {m : Nat} (a : F) : ∀ (cs xs : List (SVec F)), cs.length = xs.length → ColsOK m cs → ColsOK m xs →
    ∃ rs, CMat.axpyCols a cs xs = .ok rs ∧ rs.length = cs.length ∧ ColsOK m rs ∧
      ∀ j i, coef (rs.getD j []) i = coef (cs.getD j []) i + a * coef (xs.getD j []) i
  | [], [], _, _, _ => ⟨[], rfl, rfl, by intro c hc; simp at hc, by simp [coef]⟩
  | c :: cs, x :: xs, hl, hc, hx => by
    obtain ⟨rs, g1, g2, g3, g4⟩ := axpyCols_spec a cs xs (by simpa using hl) (fun c h => hc c (by simp [h]))
      (fun c h => hx c (by simp [h]))
    have h1 := hc c (by simp)
    have h2 := hx x (by simp)
    refine ⟨SVec.axpy a x c :: rs, ?_, by simp [g2], ?_, ?_⟩
    · unfold CMat.axpyCols; rw [g1]; rfl
    · intro d hd
      rcases List.mem_cons.1 hd with rfl | h
      · exact ⟨vecOK_axpy _ h2.1 h1.1, below_axpy _ h2.2 h1.2⟩
      · exact g3 d h
    · intro j i
      cases j with
      | zero => simp only [List.getD_cons_zero]; rw [coef_axpy]
      | succ j => simp only [List.getD_cons_succ]; exact g4 j i

theorem add_spec {m n : Nat} {A B : CMat F} (hA : A.Shape m n) (hB : B.Shape m n) :
    ∃ R, CMat.add A B = .ok R ∧ R.Shape m n ∧ R.mat m n = A.mat m n + B.mat m n := by
  obtain ⟨rs, g1, g2, g3, g4⟩ := axpyCols_spec (1 : F) B.cols A.cols (by rw [hA.ncol, hB.ncol]) hB.colsOK hA.colsOK
  refine ⟨⟨B.nrow, rs⟩, ?_, ⟨?_, hB.nrow, by rw [← hB.ncol]; exact g2⟩, ?_⟩
  · unfold CMat.add; rw [g1]; rfl
  · rw [CMat.OK, hB.nrow]; exact g3
  · ext i j
    show coef (rs.getD j []) i = coef (A.cols.getD j []) i + coef (B.cols.getD j []) i
    rw [g4]; ring

theorem sub_spec {m n : Nat} {A B : CMat F} (hA : A.Shape m n) (hB : B.Shape m n) :
    ∃ R, CMat.sub A B = .ok R ∧ R.Shape m n ∧ R.mat m n = B.mat m n - A.mat m n := by
  obtain ⟨rs, g1, g2, g3, g4⟩ := axpyCols_spec (-1 : F) B.cols A.cols (by rw [hA.ncol, hB.ncol]) hB.colsOK hA.colsOK
  refine ⟨⟨B.nrow, rs⟩, ?_, ⟨?_, hB.nrow, by rw [← hB.ncol]; exact g2⟩, ?_⟩
  · unfold CMat.sub; rw [g1]; rfl
  · rw [CMat.OK, hB.nrow]; exact g3
  · ext i j
    show coef (rs.getD j []) i = coef (B.cols.getD j []) i - coef (A.cols.getD j []) i
    rw [g4]; ring

/-! ### transpose -/

theorem transposeCol_spec (j : Nat) : ∀ (v : SVec F) (t : List (SVec F)), Below t.length v →
    ∃ t', CMat.transposeCol j v t = .ok t' ∧ t'.length = t.length ∧
      ∀ i, i < t.length → t'.getD i [] = t.getD i [] ++ (v.filter (fun p => p.1 = i)).map (fun p => (j, p.2))
  | [], t, _ => ⟨t, rfl, rfl, by simp⟩
  | (k, a) :: v, t, h => by
    have hk := (below_cons.1 h).1
    simp only at hk
    obtain ⟨t', h1, h2, h3⟩ := transposeCol_spec j v (t.set k (t.getD k [] ++ [(j, a)])) (by
      rw [List.length_set]; exact (below_cons.1 h).2)
    refine ⟨t', ?_, by rw [h2, List.length_set], ?_⟩
    · unfold CMat.transposeCol
      rw [rd_getD [] hk]
      simp only [bind_ok]
      rw [wr_ok _ hk]
      exact h1
    · intro i hi
      rw [h3 i (by rw [List.length_set]; exact hi), getD_set _ _ hk]
      by_cases e : k = i
      · subst e; simp
      · simp [e]

theorem filter_fst {v : SVec F} (hv : VecOK v) (i : Nat) :
    (v.filter (fun p => p.1 = i)) = if coef v i = 0 then [] else [(i, coef v i)] := by
  apply VecOK.ext
  · exact ⟨List.Pairwise.sublist List.filter_sublist hv.1, noZero_sublist List.filter_sublist hv.2⟩
  · split
    · exact vecOK_nil
    · rename_i h
      exact ⟨by simp [Sorted], by intro p hp; simp at hp; subst hp; exact h⟩
  · intro k
    have : ∀ w : SVec F, coef (w.filter (fun p => p.1 = i)) k = if k = i then coef w k else 0 := by
      intro w
      induction w with
      | nil => simp [coef]
      | cons p w ih =>
        by_cases hp : p.1 = i
        · rw [List.filter_cons_of_pos (by simpa using hp), coef_cons', coef_cons', ih]
          by_cases hk : k = i
          · simp [hk]
          · have : p.1 ≠ k := by omega
            simp [hk, this]
        · rw [List.filter_cons_of_neg (by simpa using hp), coef_cons', ih]
          by_cases hk : k = i
          · have : p.1 ≠ k := by omega
            simp [hk, this]; intro h; omega
          · simp [hk]
    rw [this v]
    by_cases hk : k = i
    · subst hk
      rw [if_pos rfl]
      split
      · rename_i h; rw [h]; rfl
      · simp [coef]
    · rw [if_neg hk]
      split
      · rfl
      · have : i ≠ k := fun h => hk h.symm
        simp [coef, this]

theorem transposeLoop_spec {m : Nat} : ∀ (cs : List (SVec F)) (j : Nat) (t : List (SVec F)), ColsOK m cs →
    t.length = m → ColsOK j t →
    ∃ t', CMat.transposeLoop cs j t = .ok t' ∧ t'.length = m ∧ ColsOK (j + cs.length) t' ∧
      ∀ i k, i < m → coef (t'.getD i []) k = coef (t.getD i []) k +
        (if j ≤ k then coef (cs.getD (k - j) []) i else 0)
  | [], j, t, _, ht, ht' => ⟨t, rfl, ht, ht', by simp [coef]⟩
  | c :: cs, j, t, hc, ht, ht' => by
    have hcc := hc c (by simp)
    obtain ⟨t1, h1, h2, h3⟩ := transposeCol_spec j c t (by rw [ht]; exact hcc.2)
    have hco : ∀ i, i < m → t1.getD i [] = t.getD i [] ++ (if coef c i = 0 then [] else [(j, coef c i)]) := by
      intro i hi
      rw [h3 i (by omega), filter_fst hcc.1]
      split <;> rfl
    have hok1 : ColsOK (j + 1) t1 := by
      intro d hd
      obtain ⟨i, hi, rfl⟩ := List.mem_iff_getElem.1 hd
      have e : t1[i] = t1.getD i [] := by simp [hi]
      rw [e, hco i (by omega)]
      have hi' := ht'.getD i
      split
      · rw [List.append_nil]; exact ⟨hi'.1, hi'.2.mono (by omega)⟩
      · rename_i hne
        refine ⟨⟨?_, ?_⟩, ?_⟩
        · unfold Sorted
          rw [List.pairwise_append]
          refine ⟨hi'.1.1, by simp, ?_⟩
          intro p hp q hq
          have := hi'.2 p hp
          simp at hq; subst hq; exact this
        · intro p hp
          rcases List.mem_append.1 hp with h | h
          · exact hi'.1.2 p h
          · simp at h; subst h; exact hne
        · intro p hp
          rcases List.mem_append.1 hp with h | h
          · have := hi'.2 p h; omega
          · simp at h; subst h; simp
    obtain ⟨t', g1, g2, g3, g4⟩ := transposeLoop_spec cs (j + 1) t1 (fun d h => hc d (by simp [h])) (by omega) hok1
    refine ⟨t', ?_, g2, ?_, ?_⟩
    · unfold CMat.transposeLoop; rw [h1]; exact g1
    · have e : j + (c :: cs).length = j + 1 + cs.length := by simp; omega
      rw [e]; exact g3
    · intro i k hi
      rw [g4 i k hi, hco i hi, coef_append]
      by_cases hjk : j = k
      · subst hjk
        simp
        split
        · rename_i h; simp [h]
        · simp [coef]
      · have e0 : coef (if coef c i = 0 then [] else [(j, coef c i)]) k = 0 := by
          split
          · rfl
          · simp [coef, hjk]
        rw [e0, add_zero]
        by_cases hlt : j ≤ k
        · have e : k - j = (k - (j + 1)) + 1 := by omega
          rw [if_pos hlt, if_pos (by omega), e, List.getD_cons_succ]
        · rw [if_neg hlt, if_neg (by omega)]

theorem transpose_spec {m n : Nat} {A : CMat F} (hA : A.Shape m n) :
    ∃ R, CMat.transpose A = .ok R ∧ R.Shape n m ∧ R.mat n m = (A.mat m n)ᵀ := by
  obtain ⟨t, h1, h2, h3, h4⟩ := transposeLoop_spec (m := m) A.cols 0 (List.replicate A.nrow []) hA.colsOK
    (by simp [hA.nrow]) (by intro c hc; rw [List.mem_replicate] at hc; rw [hc.2]; exact ⟨vecOK_nil, below_nil 0⟩)
  refine ⟨⟨A.cols.length, t⟩, ?_, ⟨?_, hA.ncol, h2⟩, ?_⟩
  · unfold CMat.transpose; rw [h1]; rfl
  · rw [Nat.zero_add] at h3; exact h3
  · ext i j
    show coef (t.getD j []) i = coef (A.cols.getD i []) j
    rw [h4 j i j.2]
    have : coef ((List.replicate A.nrow ([] : SVec F)).getD j []) i = 0 := by
      have hj : j.val < A.nrow := by rw [hA.nrow]; exact j.2
      simp [hj, coef]
    rw [this]; simp

/-! ### predicates -/

theorem isUpperFrom_iff {m : Nat} : ∀ (cs : List (SVec F)) (j : Nat), ColsOK m cs →
    (CMat.isUpperFrom j cs = true ↔ ∀ k i, j + k < i → coef (cs.getD k []) i = 0)
  | [], j, _ => by simp [CMat.isUpperFrom, coef]
  | c :: cs, j, h => by
    have hc := h c (by simp)
    have ih := isUpperFrom_iff cs (j + 1) (fun d hd => h d (by simp [hd]))
    have tail : (∀ k i, j + k < i → coef ((c :: cs).getD k []) i = 0) ↔
        (∀ i, j < i → coef c i = 0) ∧ ∀ k i, j + 1 + k < i → coef (cs.getD k []) i = 0 := by
      constructor
      · intro h
        exact ⟨fun i hi => by simpa using h 0 i (by omega), fun k i hi => by simpa using h (k + 1) i (by omega)⟩
      · rintro ⟨h1, h2⟩ k i hi
        cases k with
        | zero => simpa using h1 i (by omega)
        | succ k => simpa using h2 k i (by omega)
    rw [tail]
    unfold CMat.isUpperFrom
    by_cases he : c = []
    · subst he
      simp only [List.getLast?_nil]
      rw [ih]; simp [coef]
    · rw [List.getLast?_eq_some_getLast he]
      simp only
      split
      · rename_i hgt
        refine ⟨fun h => absurd h (by simp), fun h => ?_⟩
        exact absurd (h.1 _ hgt) (by rw [hc.1.1.coef_getLast he]; exact hc.1.2 _ (List.getLast_mem he))
      · rename_i hle
        rw [ih]
        refine ⟨fun h => ⟨fun i hi => hc.1.1.coef_gt_getLast he (by omega), h⟩, fun h => h.2⟩

theorem isUpperInvertFrom_iff {m : Nat} : ∀ (cs : List (SVec F)) (j : Nat), ColsOK m cs →
    (CMat.isUpperInvertFrom j cs = true ↔
      ∀ k, cs.getD k [] = [] ∨ (coef (cs.getD k []) (j + k) ≠ 0 ∧ ∀ i, j + k < i → coef (cs.getD k []) i = 0))
  | [], j, _ => by simp [CMat.isUpperInvertFrom]
  | c :: cs, j, h => by
    have hc := h c (by simp)
    have ih := isUpperInvertFrom_iff cs (j + 1) (fun d hd => h d (by simp [hd]))
    have tail : (∀ k, (c :: cs).getD k [] = [] ∨ (coef ((c :: cs).getD k []) (j + k) ≠ 0 ∧ ∀ i, j + k < i → coef ((c :: cs).getD k []) i = 0)) ↔
        (c = [] ∨ (coef c j ≠ 0 ∧ ∀ i, j < i → coef c i = 0)) ∧
        ∀ k, cs.getD k [] = [] ∨ (coef (cs.getD k []) (j + 1 + k) ≠ 0 ∧ ∀ i, j + 1 + k < i → coef (cs.getD k []) i = 0) := by
      constructor
      · intro h
        refine ⟨by simpa using h 0, fun k => ?_⟩
        have := h (k + 1)
        have e : j + (k + 1) = j + 1 + k := by omega
        rw [e] at this
        simpa using this
      · rintro ⟨h1, h2⟩ k
        cases k with
        | zero => simpa using h1
        | succ k =>
          have e : j + (k + 1) = j + 1 + k := by omega
          rw [e]
          simpa using h2 k
    rw [tail]
    unfold CMat.isUpperInvertFrom
    by_cases he : c = []
    · subst he
      simp only [List.getLast?_nil]
      rw [ih]; simp
    · rw [List.getLast?_eq_some_getLast he]
      simp only
      have hlow := low_iff hc.1 j
      rw [low_eq_some] at hlow
      have h1 : (c.getLast he).1 = j ↔ coef c j ≠ 0 ∧ ∀ i, j < i → coef c i = 0 :=
        ⟨fun h => hlow.1 ⟨he, h⟩, fun h => by obtain ⟨_, h⟩ := hlow.2 h; exact h⟩
      split
      · rename_i hne
        refine ⟨fun h => absurd h (by simp), fun h => ?_⟩
        rcases h.1 with h' | h'
        · exact absurd h' he
        · exact absurd (h1.2 h') hne
      · rename_i heq
        rw [ih]
        simp only [ne_eq, not_not] at heq
        exact ⟨fun h => ⟨Or.inr (h1.1 heq), h⟩, fun h => h.2⟩

theorem isLowerFrom_iff {m : Nat} : ∀ (cs : List (SVec F)) (j : Nat), ColsOK m cs →
    (CMat.isLowerFrom j cs = true ↔ ∀ k i, i < j + k → coef (cs.getD k []) i = 0)
  | [], j, _ => by simp [CMat.isLowerFrom, coef]
  | c :: cs, j, h => by
    have hc := h c (by simp)
    have ih := isLowerFrom_iff cs (j + 1) (fun d hd => h d (by simp [hd]))
    have tail : (∀ k i, i < j + k → coef ((c :: cs).getD k []) i = 0) ↔
        (∀ i, i < j → coef c i = 0) ∧ ∀ k i, i < j + 1 + k → coef (cs.getD k []) i = 0 := by
      constructor
      · intro h
        exact ⟨fun i hi => by simpa using h 0 i (by omega), fun k i hi => by simpa using h (k + 1) i (by omega)⟩
      · rintro ⟨h1, h2⟩ k i hi
        cases k with
        | zero => simpa using h1 i (by omega)
        | succ k => simpa using h2 k i (by omega)
    rw [tail]
    unfold CMat.isLowerFrom
    cases c with
    | nil => simp only [List.head?_nil]; rw [ih]; simp [coef]
    | cons p c =>
      simp only [List.head?_cons]
      split
      · rename_i hlt
        refine ⟨fun h => absurd h (by simp), fun h => ?_⟩
        refine absurd (h.1 p.1 hlt) ?_
        rw [coef_of_mem (k := p.1) (a := p.2) hc.1.1 (by simp)]
        exact hc.1.2 p (by simp)
      · rename_i hle
        rw [ih]
        refine ⟨fun h => ⟨fun i hi => ?_, h⟩, fun h => h.2⟩
        apply coef_eq_zero_of_notMem
        intro q hq
        rcases List.mem_cons.1 hq with rfl | hq
        · omega
        · have := hc.1.1.head q hq; omega

theorem isReducedLoop_iff : ∀ (cs : List (SVec F)) (seen : List Nat),
    (CMat.isReducedLoop seen cs = true ↔
      (∀ k i, low (cs.getD k []) = some i → i ∉ seen) ∧
      ∀ k k' i, low (cs.getD k []) = some i → low (cs.getD k' []) = some i → k = k')
  | [], seen => by simp [CMat.isReducedLoop, low]
  | c :: cs, seen => by
    unfold CMat.isReducedLoop
    by_cases he : c = []
    · subst he
      simp only [List.getLast?_nil]
      rw [isReducedLoop_iff cs seen]
      constructor
      · rintro ⟨h1, h2⟩
        refine ⟨fun k i hk => ?_, fun k k' i hk hk' => ?_⟩
        · cases k with
          | zero => simp [low] at hk
          | succ k => exact h1 k i (by simpa using hk)
        · cases k with
          | zero => simp [low] at hk
          | succ k =>
            cases k' with
            | zero => simp [low] at hk'
            | succ k' => rw [h2 k k' i (by simpa using hk) (by simpa using hk')]
      · rintro ⟨h1, h2⟩
        refine ⟨fun k i hk => h1 (k + 1) i (by simpa using hk), fun k k' i hk hk' => ?_⟩
        have := h2 (k + 1) (k' + 1) i (by simpa using hk) (by simpa using hk')
        omega
    · rw [List.getLast?_eq_some_getLast he]
      simp only
      have hl : low c = some (c.getLast he).1 := low_eq_some.2 ⟨he, rfl⟩
      split
      · rename_i hmem
        refine ⟨fun h => absurd h (by simp), fun h => ?_⟩
        exact absurd hmem (h.1 0 _ (by simpa using hl))
      · rename_i hmem
        rw [isReducedLoop_iff cs _]
        constructor
        · rintro ⟨h1, h2⟩
          refine ⟨fun k i hk => ?_, fun k k' i hk hk' => ?_⟩
          · cases k with
            | zero =>
              rw [List.getD_cons_zero, hl] at hk
              cases hk; exact hmem
            | succ k =>
              have := h1 k i (by simpa using hk)
              intro hm; exact this (List.mem_cons_of_mem _ hm)
          · cases k with
            | zero =>
              rw [List.getD_cons_zero, hl] at hk
              cases hk
              cases k' with
              | zero => rfl
              | succ k' =>
                have := h1 k' _ (by simpa using hk')
                simp at this
            | succ k =>
              cases k' with
              | zero =>
                rw [List.getD_cons_zero, hl] at hk'
                cases hk'
                have := h1 k _ (by simpa using hk)
                simp at this
              | succ k' => rw [h2 k k' i (by simpa using hk) (by simpa using hk')]
        · rintro ⟨h1, h2⟩
          refine ⟨fun k i hk hm => ?_, fun k k' i hk hk' => ?_⟩
          · rcases List.mem_cons.1 hm with e | hm
            · subst e
              have := h2 0 (k + 1) _ (by simpa using hl) (by simpa using hk)
              omega
            · exact h1 (k + 1) i (by simpa using hk) hm
          · have := h2 (k + 1) (k' + 1) i (by simpa using hk) (by simpa using hk')
            omega

end BATS
