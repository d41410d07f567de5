import Verif.Proofs.Matrix

set_option linter.unusedSectionVars false
set_option linter.unusedSimpArgs false
set_option linter.unusedVariables false

/-! # Triangular solves -/

namespace BATS
open Matrix Reduction

variable {F : Type} [Field F] [DecidableEq F]

theorem coef_putVal {x : SVec F} (hx : Sorted x) {j : Nat} {v : F} (hj : (j, v) ∈ x) (a : F) (i : Nat) :
    coef (SVec.putVal x j a) i = if i = j then a else coef x i := by
  induction x with
  | nil => simp at hj
  | cons p x ih =>
    unfold SVec.putVal
    rw [List.map_cons, coef_cons', coef_cons']
    by_cases hp : p.1 = j
    · have hx0 : ∀ q ∈ x, q.1 ≠ j := fun q hq => by have := hx.head q hq; omega
      have e : x.map (fun p => if p.1 = j then (j, a) else p) = x := by
        conv_rhs => rw [← List.map_id x]
        apply List.map_congr_left
        intro q hq
        rw [if_neg (hx0 q hq)]; rfl
      rw [e, if_pos hp]
      by_cases hi : i = j
      · subst hi
        rw [coef_eq_zero_of_notMem hx0]; simp
      · have : ¬ j = i := fun h => hi h.symm
        simp [hi, this, hp]
    · have hj' : (j, v) ∈ x := by
        rcases List.mem_cons.1 hj with e | h
        · rw [← e] at hp; exact absurd rfl hp
        · exact h
      have := ih hx.tail hj'
      unfold SVec.putVal at this
      rw [if_neg hp, this]
      by_cases hi : i = j
      · subst hi; simp [hp]
      · simp [hi]

theorem putVal_fst (x : SVec F) (j : Nat) (a : F) : (SVec.putVal x j a).map Prod.fst = x.map Prod.fst := by
  unfold SVec.putVal
  rw [List.map_map]
  apply List.map_congr_left
  intro p _
  simp only [Function.comp]
  split
  · rename_i h; simp [h]
  · rfl

theorem sorted_iff_fst {x : SVec F} : Sorted x ↔ (x.map Prod.fst).Pairwise (· < ·) := by
  unfold Sorted; rw [List.pairwise_map]

theorem vecOK_putVal {x : SVec F} (hx : VecOK x) (j : Nat) {a : F} (ha : a ≠ 0) : VecOK (SVec.putVal x j a) := by
  constructor
  · rw [sorted_iff_fst, putVal_fst, ← sorted_iff_fst]; exact hx.1
  · intro p hp
    unfold SVec.putVal at hp
    obtain ⟨q, hq, rfl⟩ := List.mem_map.1 hp
    split
    · exact ha
    · exact hx.2 q hq

theorem below_putVal {m : Nat} {x : SVec F} (hx : Below m x) (j : Nat) (a : F) : Below m (SVec.putVal x j a) := by
  intro p hp
  have : p.1 ∈ (SVec.putVal x j a).map Prod.fst := List.mem_map_of_mem hp
  rw [putVal_fst] at this
  obtain ⟨q, hq, e⟩ := List.mem_map.1 this
  rw [← e]; exact hx q hq

/-- `lower_bound(j)` on a column whose entry `j` is nonzero finds that entry -/
theorem dropWhile_head {u : SVec F} (hu : VecOK u) {j : Nat} (h : coef u j ≠ 0) :
    ∃ t, u.dropWhile (fun p => decide (p.1 < j)) = (j, coef u j) :: t := by
  have hs := sorted_dropWhile hu.1 (fun p => decide (p.1 < j))
  have hcoef := coef_dropWhile_lt hu.1 j
  cases hd : u.dropWhile (fun p => decide (p.1 < j)) with
  | nil =>
    have := hcoef j
    rw [hd] at this
    simp [coef] at this
    exact absurd this.symm h
  | cons p t =>
    rw [hd] at hs hcoef
    have hmem : p ∈ u := (List.dropWhile_sublist _).subset (by rw [hd]; simp)
    have hp : j ≤ p.1 := by
      have h2 := hcoef p.1
      rw [coef_of_mem (k := p.1) (a := p.2) hs (by simp)] at h2
      by_contra hlt
      rw [if_neg (by omega)] at h2
      exact hu.2 p hmem h2
    have hj : p.1 = j := by
      by_contra hne
      have h2 := hcoef j
      rw [if_pos (le_refl _), coef_of_lt_head] at h2
      · exact h h2.symm
      · intro q hq
        rcases List.mem_cons.1 hq with rfl | hq
        · omega
        · have := hs.head q hq; omega
    refine ⟨t, ?_⟩
    have : coef u j = p.2 := coef_of_mem hu.1 (by rw [← hj]; exact hmem)
    rw [this, ← hj]

/-- invariant of `u_solve`: coordinates from `s` on are final, those below are the residual right-hand side -/
def USInv (n : Nat) (cols : List (SVec F)) (y x : SVec F) (s : Nat) : Prop :=
  ∀ i, (∑ k ∈ Finset.range n, if s ≤ k then coef (cols.getD k []) i * coef x k else 0) +
    (if i < s then coef x i else 0) = coef y i

/-- one elimination step -/
theorem usInv_step {n : Nat} {cols : List (SVec F)} {y x x' : SVec F} {s j : Nat} {v a : F} (hjn : j < n) (hjs : j < s)
    (hup : ∀ i, j < i → coef (cols.getD j []) i = 0) (hxj : coef x j = v) (hda : coef (cols.getD j []) j * a = v)
    (hbetween : ∀ k, j < k → k < s → coef x k = 0) (h1 : coef x' j = a) (h2 : ∀ k, j < k → coef x' k = coef x k)
    (h3 : ∀ k, k < j → coef x' k = coef x k - a * coef (cols.getD j []) k) (hinv : USInv n cols y x s) :
    USInv n cols y x' j := by
  intro i
  have hs : (∑ k ∈ Finset.range n, if j ≤ k then coef (cols.getD k []) i * coef x' k else 0)
      = (∑ k ∈ Finset.range n, if s ≤ k then coef (cols.getD k []) i * coef x k else 0)
        + coef (cols.getD j []) i * a := by
    have hsingle : coef (cols.getD j []) i * a = ∑ k ∈ Finset.range n, if k = j then coef (cols.getD k []) i * a else 0 := by
      rw [Finset.sum_ite_eq' (Finset.range n) j (fun k => coef (cols.getD k []) i * a), if_pos (Finset.mem_range.2 hjn)]
    rw [hsingle, ← Finset.sum_add_distrib]
    apply Finset.sum_congr rfl
    intro k _
    rcases lt_trichotomy k j with h | h | h
    · rw [if_neg (by omega), if_neg (by omega), if_neg (by omega), add_zero]
    · subst h
      rw [if_pos (le_refl _), if_neg (by omega), if_pos rfl, h1, zero_add]
    · rw [if_pos (by omega), if_neg (show ¬ k = j by omega), add_zero, h2 k h]
      by_cases hbk : s ≤ k
      · rw [if_pos hbk]
      · rw [if_neg hbk, hbetween k h (by omega), mul_zero]
  rw [hs, ← hinv i]
  rcases lt_trichotomy i j with h | h | h
  · rw [if_pos h, if_pos (by omega), h3 i h]; ring
  · subst h
    rw [if_neg (lt_irrefl _), if_pos hjs, hda, hxj]; ring
  · rw [if_neg (by omega), hup i h]
    by_cases his : i < s
    · rw [if_pos his, hbetween i h his]; ring
    · rw [if_neg his]; ring

theorem uSolveLoop_spec {n : Nat} {cols : List (SVec F)} (hc : ColsOK n cols) (hn : cols.length = n)
    (hup : ∀ j, j < n → ∀ i, j < i → coef (cols.getD j []) i = 0) (hdiag : ∀ j, j < n → coef (cols.getD j []) j ≠ 0)
    (y : SVec F) :
    ∀ (fuel : Nat) (x : SVec F) (bound : Nat), bound < fuel → VecOK x → Below n x → USInv n cols y x (bound + 1) →
      ∃ r, CMat.uSolveLoop cols fuel x bound = .ok r ∧ VecOK r ∧ Below n r ∧
        ∀ i, ∑ k ∈ Finset.range n, coef (cols.getD k []) i * coef r k = coef y i := by
  intro fuel
  induction fuel with
  | zero => intro x bound h; omega
  | succ fuel ih =>
    intro x bound hf hx hb hinv
    unfold CMat.uSolveLoop
    have hle : (fun p : Nat × F => decide (p.1 ≤ bound)) = (fun p => decide (p.1 < bound + 1)) := by
      funext p; simp [Nat.lt_succ_iff]
    have htw : ∀ i, coef (x.takeWhile (fun p => decide (p.1 ≤ bound))) i = if i < bound + 1 then coef x i else 0 := by
      intro i; rw [hle]; exact coef_takeWhile_lt hx.1 _ _
    have htwok : VecOK (x.takeWhile (fun p => decide (p.1 ≤ bound))) :=
      ⟨sorted_takeWhile hx.1 _, noZero_sublist (List.takeWhile_sublist _) hx.2⟩
    by_cases hemp : x.takeWhile (fun p => decide (p.1 ≤ bound)) = []
    · rw [hemp]
      simp only [List.getLast?_nil]
      refine ⟨x, rfl, hx, hb, ?_⟩
      intro i
      have hz : ∀ k, k ≤ bound → coef x k = 0 := by
        intro k hk
        have := htw k
        rw [hemp, if_pos (by omega)] at this
        exact this.symm
      rw [← hinv i]
      have : (if i < bound + 1 then coef x i else 0) = 0 := by
        split
        · rename_i h; exact hz i (by omega)
        · rfl
      rw [this, add_zero]
      apply Finset.sum_congr rfl
      intro k _
      split
      · rfl
      · rename_i h; rw [hz k (by omega), mul_zero]
    · rw [List.getLast?_eq_some_getLast hemp]
      have hmemt := List.getLast_mem hemp
      have hgt : ∀ k, ((x.takeWhile (fun p => decide (p.1 ≤ bound))).getLast hemp).1 < k →
          coef (x.takeWhile (fun p => decide (p.1 ≤ bound))) k = 0 := fun k hk => htwok.1.coef_gt_getLast hemp hk
      generalize (x.takeWhile (fun p => decide (p.1 ≤ bound))).getLast hemp = pv at hmemt hgt
      obtain ⟨j, v⟩ := pv
      simp only at hgt ⊢
      have hmem : (j, v) ∈ x := (List.takeWhile_sublist _).subset hmemt
      have hjb : j ≤ bound := by
        have := List.all_takeWhile (p := fun p : Nat × F => decide (p.1 ≤ bound)) (l := x)
        rw [List.all_eq_true] at this
        simpa using this _ hmemt
      have hjn : j < n := hb _ hmem
      have hv : v ≠ 0 := hx.2 _ hmem
      have hxj : coef x j = v := coef_of_mem hx.1 hmem
      have hbetween : ∀ k, j < k → k < bound + 1 → coef x k = 0 := by
        intro k h1 h2
        have := htw k
        rw [if_pos (by omega)] at this
        rw [← this]
        exact hgt k h1
      rw [rd_getD [] (by omega)]
      simp only [bind_ok]
      obtain ⟨t, ht⟩ := dropWhile_head (hc.getD j).1 (hdiag j hjn)
      rw [ht]
      simp only
      unfold CMat.fdiv
      rw [if_neg (hdiag j hjn)]
      simp only [bind_ok]
      generalize hd : coef (cols.getD j []) j = d
      have hd0 : d ≠ 0 := by rw [← hd]; exact hdiag j hjn
      generalize ha : v / d = a
      have ha0 : a ≠ 0 := by rw [← ha]; exact div_ne_zero hv hd0
      have hda : coef (cols.getD j []) j * a = v := by rw [hd, ← ha]; field_simp
      have hput := vecOK_putVal hx j ha0
      have hputb := below_putVal hb j a
      have hcp := coef_putVal hx.1 hmem a
      by_cases hj0 : j = 0
      · rw [if_pos hj0]
        refine ⟨_, rfl, hput, hputb, ?_⟩
        have := usInv_step (x' := SVec.putVal x j a) hjn (by omega) (hup j hjn) hxj hda hbetween (by rw [hcp]; simp)
          (fun k hk => by rw [hcp, if_neg (by omega)]) (fun k hk => by omega) hinv
        intro i
        have h2 := this i
        subst hj0
        simpa using h2
      · rw [if_neg hj0]
        have hcr := fun i => coef_axpyRange (-a) (hc.getD j).1.1 0 j (SVec.putVal x j a) i
        have hstep : USInv n cols y (SVec.axpyRange (-a) (cols.getD j []) 0 j (SVec.putVal x j a)) j := by
          refine usInv_step hjn (by omega) (hup j hjn) hxj hda hbetween ?_ ?_ ?_ hinv
          · rw [hcr, hcp]; simp
          · intro k hk
            rw [hcr, hcp, if_neg (by omega), if_neg (by omega), add_zero]
          · intro k hk
            rw [hcr, hcp, if_neg (by omega), if_pos (by omega)]; ring
        have e : j = j - 1 + 1 := by omega
        rw [e] at hstep
        rw [← e] at hstep
        exact ih _ (j - 1) (by omega) (vecOK_axpyRange (-a) (hc.getD j).1 hput 0 j)
          (below_axpyRange (-a) (hc.getD j).2 hputb 0 j) (by rw [← e]; exact hstep)

theorem uSolve_spec {n : Nat} {U : CMat F} (hU : U.Shape n n) (hup : UpperInv (U.mat n n)) {y : SVec F} (hy : VecOK y)
    (hb : Below n y) :
    ∃ r, CMat.uSolve U y = .ok r ∧ VecOK r ∧ Below n r ∧
      U.mat n n *ᵥ (fun i : Fin n => coef r i) = fun i : Fin n => coef y i := by
  have h1 : ∀ j, j < n → ∀ i, j < i → coef (U.cols.getD j []) i = 0 := by
    intro j hj i hi
    by_cases hin : i < n
    · exact hup.1 ⟨i, hin⟩ ⟨j, hj⟩ hi
    · exact (hU.colsOK.getD j).2.coef_eq_zero (by omega)
  have h2 : ∀ j, j < n → coef (U.cols.getD j []) j ≠ 0 := fun j hj => hup.2 ⟨j, hj⟩
  unfold CMat.uSolve
  by_cases he : y = []
  · subst he
    refine ⟨[], rfl, vecOK_nil, below_nil n, ?_⟩
    have : (fun i : Fin n => coef ([] : SVec F) i) = 0 := rfl
    rw [this, mulVec_zero]
  · have : y.isEmpty = false := by rw [List.isEmpty_eq_false_iff]; exact he
    rw [this]
    simp only [Bool.false_eq_true, if_false]
    obtain ⟨r, g1, g2, g3, g4⟩ := uSolveLoop_spec hU.colsOK hU.ncol h1 h2 y (U.cols.length + 2) y U.cols.length
      (by omega) hy hb (by
        intro i
        rw [Finset.sum_eq_zero]
        · rw [zero_add]
          split
          · rfl
          · rename_i h; rw [hb.coef_eq_zero]; rw [hU.ncol] at h; omega
        · intro k hk
          rw [hU.ncol, if_neg (by have := Finset.mem_range.1 hk; omega)])
    refine ⟨r, g1, g2, g3, ?_⟩
    funext i
    rw [← g4 i, Finset.sum_range]; rfl

/-! ### lower triangular -/

/-- invariant of `l_solve`: coordinates below `s` are final, those from `s` on are the residual right-hand side -/
def LSInv (n : Nat) (cols : List (SVec F)) (y x : SVec F) (s : Nat) : Prop :=
  ∀ i, (∑ k ∈ Finset.range n, if k < s then coef (cols.getD k []) i * coef x k else 0) +
    (if s ≤ i then coef x i else 0) = coef y i

theorem lsInv_step {n : Nat} {cols : List (SVec F)} {y x x' : SVec F} {s j : Nat} {v a : F} (hjn : j < n) (hjs : s ≤ j)
    (hlo : ∀ i, i < j → coef (cols.getD j []) i = 0) (hxj : coef x j = v) (hda : coef (cols.getD j []) j * a = v)
    (hbetween : ∀ k, s ≤ k → k < j → coef x k = 0) (h1 : coef x' j = a) (h2 : ∀ k, k < j → coef x' k = coef x k)
    (h3 : ∀ k, j < k → coef x' k = coef x k - a * coef (cols.getD j []) k) (hinv : LSInv n cols y x s) :
    LSInv n cols y x' (j + 1) := by
  intro i
  have hs : (∑ k ∈ Finset.range n, if k < j + 1 then coef (cols.getD k []) i * coef x' k else 0)
      = (∑ k ∈ Finset.range n, if k < s then coef (cols.getD k []) i * coef x k else 0)
        + coef (cols.getD j []) i * a := by
    have hsingle : coef (cols.getD j []) i * a = ∑ k ∈ Finset.range n, if k = j then coef (cols.getD k []) i * a else 0 := by
      rw [Finset.sum_ite_eq' (Finset.range n) j (fun k => coef (cols.getD k []) i * a), if_pos (Finset.mem_range.2 hjn)]
    rw [hsingle, ← Finset.sum_add_distrib]
    apply Finset.sum_congr rfl
    intro k _
    rcases lt_trichotomy k j with h | h | h
    · rw [if_pos (by omega), if_neg (show ¬ k = j by omega), add_zero, h2 k h]
      by_cases hbk : k < s
      · rw [if_pos hbk]
      · rw [if_neg hbk, hbetween k (by omega) h, mul_zero]
    · subst h
      rw [if_pos (by omega), if_neg (by omega), if_pos rfl, h1, zero_add]
    · rw [if_neg (by omega), if_neg (by omega), if_neg (by omega), add_zero]
  rw [hs, ← hinv i]
  rcases lt_trichotomy i j with h | h | h
  · rw [if_neg (by omega), hlo i h]
    by_cases his : s ≤ i
    · rw [if_pos his, hbetween i his h]; ring
    · rw [if_neg his]; ring
  · subst h
    rw [if_neg (by omega), if_pos hjs, hda, hxj]; ring
  · rw [if_pos (by omega), if_pos (by omega), h3 i h]; ring

theorem lSolveLoop_spec {n : Nat} {cols : List (SVec F)} (hc : ColsOK n cols) (hn : cols.length = n)
    (hlo : ∀ j, j < n → ∀ i, i < j → coef (cols.getD j []) i = 0) (hdiag : ∀ j, j < n → coef (cols.getD j []) j ≠ 0)
    (y : SVec F) :
    ∀ (fuel : Nat) (x : SVec F) (s : Nat), s ≤ n → n - s < fuel → VecOK x → Below n x → LSInv n cols y x s →
      ∃ r, CMat.lSolveLoop cols n fuel x s = .ok r ∧ VecOK r ∧ Below n r ∧
        ∀ i, ∑ k ∈ Finset.range n, coef (cols.getD k []) i * coef r k = coef y i := by
  intro fuel
  induction fuel with
  | zero => intro x s _ h; omega
  | succ fuel ih =>
    intro x s hsn hf hx hb hinv
    unfold CMat.lSolveLoop
    have hdw : ∀ i, coef (x.dropWhile (fun p => decide (p.1 < s))) i = if s ≤ i then coef x i else 0 := by
      intro i; exact coef_dropWhile_lt hx.1 _ _
    have hdws : Sorted (x.dropWhile (fun p => decide (p.1 < s))) := sorted_dropWhile hx.1 _
    have hsub : ∀ p ∈ x.dropWhile (fun p => decide (p.1 < s)), p ∈ x := fun p hp => (List.dropWhile_sublist _).subset hp
    cases hemp : x.dropWhile (fun p => decide (p.1 < s)) with
    | nil =>
      simp only
      refine ⟨x, rfl, hx, hb, ?_⟩
      intro i
      have hz : ∀ k, s ≤ k → coef x k = 0 := by
        intro k hk
        have := hdw k
        rw [hemp, if_pos hk] at this
        exact this.symm
      rw [← hinv i]
      have : (if s ≤ i then coef x i else 0) = 0 := by
        split
        · rename_i h; exact hz i h
        · rfl
      rw [this, add_zero]
      apply Finset.sum_congr rfl
      intro k _
      split
      · rfl
      · rename_i h; rw [hz k (by omega), mul_zero]
    | cons pv rest =>
      obtain ⟨j, v⟩ := pv
      rw [hemp] at hdw hdws hsub
      simp only
      have hmem : (j, v) ∈ x := hsub _ (by simp)
      have hjn : j < n := hb _ hmem
      have hv : v ≠ 0 := hx.2 _ hmem
      have hxj : coef x j = v := coef_of_mem hx.1 hmem
      have hsj : s ≤ j := by
        have h2 := hdw j
        rw [coef_of_mem (k := j) (a := v) hdws (by simp)] at h2
        by_contra hlt
        rw [if_neg hlt] at h2
        exact hv h2
      have hbetween : ∀ k, s ≤ k → k < j → coef x k = 0 := by
        intro k h1 h2
        have := hdw k
        rw [if_pos h1] at this
        rw [← this]
        apply coef_of_lt_head
        intro q hq
        rcases List.mem_cons.1 hq with rfl | hq
        · exact h2
        · have := hdws.head q hq; simp only at this; omega
      rw [rd_getD [] (by omega)]
      simp only [bind_ok]
      obtain ⟨t, ht⟩ := dropWhile_head (hc.getD j).1 (hdiag j hjn)
      rw [ht]
      simp only
      unfold CMat.fdiv
      rw [if_neg (hdiag j hjn)]
      simp only [bind_ok]
      generalize hd : coef (cols.getD j []) j = d
      have hd0 : d ≠ 0 := by rw [← hd]; exact hdiag j hjn
      generalize ha : v / d = a
      have ha0 : a ≠ 0 := by rw [← ha]; exact div_ne_zero hv hd0
      have hda : coef (cols.getD j []) j * a = v := by rw [hd, ← ha]; field_simp
      have hput := vecOK_putVal hx j ha0
      have hputb := below_putVal hb j a
      have hcp := coef_putVal hx.1 hmem a
      have hcr := fun i => coef_axpyRange (-a) (hc.getD j).1.1 (j + 1) n (SVec.putVal x j a) i
      have hstep : LSInv n cols y (SVec.axpyRange (-a) (cols.getD j []) (j + 1) n (SVec.putVal x j a)) (j + 1) := by
        refine lsInv_step hjn hsj (hlo j hjn) hxj hda hbetween ?_ ?_ ?_ hinv
        · rw [hcr, hcp]; simp
        · intro k hk
          rw [hcr, hcp, if_neg (by omega), if_neg (by omega), add_zero]
        · intro k hk
          rw [hcr, hcp, if_neg (by omega)]
          by_cases hkn : k < n
          · rw [if_pos (by omega)]; ring
          · rw [if_neg (by omega), (hc.getD j).2.coef_eq_zero (by omega)]; ring
      exact ih _ (j + 1) (by omega) (by omega) (vecOK_axpyRange (-a) (hc.getD j).1 hput _ _)
        (below_axpyRange (-a) (hc.getD j).2 hputb _ _) hstep

theorem LowerInv.injective {n : Nat} {L : Matrix (Fin n) (Fin n) F} (h : LowerInv L) : Function.Injective (L *ᵥ ·) := by
  have hu : UpperInv (n := (Fin n)ᵒᵈ) (L : Matrix (Fin n)ᵒᵈ (Fin n)ᵒᵈ F) := ⟨fun i j hij => h.1 i j hij, h.2⟩
  exact hu.injective

theorem lSolve_spec {n : Nat} {L : CMat F} (hL : L.Shape n n) (hlow : LowerInv (L.mat n n)) {y : SVec F} (hy : VecOK y)
    (hb : Below n y) :
    ∃ r, CMat.lSolve L y = .ok r ∧ VecOK r ∧ Below n r ∧
      L.mat n n *ᵥ (fun i : Fin n => coef r i) = fun i : Fin n => coef y i := by
  have h1 : ∀ j, j < n → ∀ i, i < j → coef (L.cols.getD j []) i = 0 := by
    intro j hj i hi
    exact hlow.1 ⟨i, by omega⟩ ⟨j, hj⟩ hi
  have h2 : ∀ j, j < n → coef (L.cols.getD j []) j ≠ 0 := fun j hj => hlow.2 ⟨j, hj⟩
  unfold CMat.lSolve
  by_cases he : y = []
  · subst he
    refine ⟨[], rfl, vecOK_nil, below_nil n, ?_⟩
    have : (fun i : Fin n => coef ([] : SVec F) i) = 0 := rfl
    rw [this, mulVec_zero]
  · have : y.isEmpty = false := by rw [List.isEmpty_eq_false_iff]; exact he
    rw [this]
    simp only [Bool.false_eq_true, if_false]
    rw [hL.nrow]
    obtain ⟨r, g1, g2, g3, g4⟩ := lSolveLoop_spec hL.colsOK hL.ncol h1 h2 y (n + 2) y 0
      (by omega) (by omega) hy hb (by intro i; simp)
    refine ⟨r, g1, g2, g3, ?_⟩
    funext i
    rw [← g4 i, Finset.sum_range]; rfl

/-! ### matrix right hand sides, inverses -/

theorem mapSolve {n l : Nat} {f : SVec F → Res (SVec F)} {T : Matrix (Fin n) (Fin n) F}
    (hf : ∀ y, VecOK y → Below n y → ∃ r, f y = .ok r ∧ VecOK r ∧ Below n r ∧
      T *ᵥ (fun i : Fin n => coef r i) = fun i : Fin n => coef y i) :
    ∀ (cols : List (SVec F)), ColsOK n cols → ∃ rs, CMat.mapCols f cols = .ok rs ∧ rs.length = cols.length ∧ ColsOK n rs ∧
      ∀ j, j < cols.length → T *ᵥ (fun i : Fin n => coef (rs.getD j []) i) = fun i : Fin n => coef (cols.getD j []) i
  | [], _ => ⟨[], rfl, rfl, by intro c hc; simp at hc, by simp⟩
  | c :: cs, h => by
    obtain ⟨r, h1, h2, h3, h4⟩ := hf c (h c (by simp)).1 (h c (by simp)).2
    obtain ⟨rs, g1, g2, g3, g4⟩ := mapSolve (l := l) hf cs (fun d hd => h d (by simp [hd]))
    refine ⟨r :: rs, ?_, by simp [g2], ?_, ?_⟩
    · unfold CMat.mapCols; rw [h1]; simp only [bind_ok]; rw [g1]; rfl
    · intro d hd
      rcases List.mem_cons.1 hd with rfl | hd
      · exact ⟨h2, h3⟩
      · exact g3 d hd
    · intro j hj
      cases j with
      | zero => simpa using h4
      | succ j => simpa using g4 j (by simpa using hj)

theorem uSolveMat_spec {n l : Nat} {U A : CMat F} (hU : U.Shape n n) (hup : UpperInv (U.mat n n)) (hA : A.Shape n l) :
    ∃ X, CMat.uSolveMat U A = .ok X ∧ X.Shape n l ∧ U.mat n n * X.mat n l = A.mat n l := by
  obtain ⟨rs, h1, h2, h3, h4⟩ := mapSolve (l := l) (T := U.mat n n) (f := CMat.uSolve U)
    (fun y hy hb => uSolve_spec hU hup hy hb) A.cols hA.colsOK
  refine ⟨⟨A.nrow, rs⟩, by unfold CMat.uSolveMat; rw [h1]; rfl, ⟨?_, hA.nrow, by rw [← hA.ncol]; exact h2⟩, ?_⟩
  · rw [CMat.OK, hA.nrow]; exact h3
  · ext i j
    exact congrFun (h4 j (by rw [hA.ncol]; exact j.2)) i

theorem lSolveMat_spec {n l : Nat} {L A : CMat F} (hL : L.Shape n n) (hlo : LowerInv (L.mat n n)) (hA : A.Shape n l) :
    ∃ X, CMat.lSolveMat L A = .ok X ∧ X.Shape n l ∧ L.mat n n * X.mat n l = A.mat n l := by
  obtain ⟨rs, h1, h2, h3, h4⟩ := mapSolve (l := l) (T := L.mat n n) (f := CMat.lSolve L)
    (fun y hy hb => lSolve_spec hL hlo hy hb) A.cols hA.colsOK
  refine ⟨⟨A.nrow, rs⟩, by unfold CMat.lSolveMat; rw [h1]; rfl, ⟨?_, hA.nrow, by rw [← hA.ncol]; exact h2⟩, ?_⟩
  · rw [CMat.OK, hA.nrow]; exact h3
  · ext i j
    exact congrFun (h4 j (by rw [hA.ncol]; exact j.2)) i

theorem uInv_spec {n : Nat} {U : CMat F} (hU : U.Shape n n) (hup : UpperInv (U.mat n n)) :
    ∃ X, CMat.uInv U = .ok X ∧ X.Shape n n ∧ U.mat n n * X.mat n n = 1 ∧ X.mat n n * U.mat n n = 1 := by
  obtain ⟨X, h1, h2, h3⟩ := uSolveMat_spec hU hup (shape_identity (F := F) n)
  rw [mat_identity] at h3
  refine ⟨X, ?_, h2, h3, mul_eq_one_comm.1 h3⟩
  unfold CMat.uInv; rw [hU.nrow]; exact h1

theorem lInv_spec {n : Nat} {L : CMat F} (hL : L.Shape n n) (hlo : LowerInv (L.mat n n)) :
    ∃ X, CMat.lInv L = .ok X ∧ X.Shape n n ∧ L.mat n n * X.mat n n = 1 ∧ X.mat n n * L.mat n n = 1 := by
  obtain ⟨X, h1, h2, h3⟩ := lSolveMat_spec hL hlo (shape_identity (F := F) n)
  rw [mat_identity] at h3
  refine ⟨X, ?_, h2, h3, mul_eq_one_comm.1 h3⟩
  unfold CMat.lInv; rw [hL.nrow]; exact h1

end BATS
