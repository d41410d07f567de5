import Verif.Proofs.FactLEUP
import Mathlib.Logic.Equiv.Basic
import Mathlib.Algebra.Group.End

set_option linter.unusedSectionVars false
set_option linter.unusedSimpArgs false
set_option linter.unusedVariables false

/-! # LEUP: the main loop -/

namespace BATS
namespace Fact
open Reduction CMat Matrix

variable {F : Type} [Field F] [DecidableEq F]

/-- what the columns stand for: processed columns are combinations of the columns of `E` -/
def tcol (n j : Nat) (E U : List (SVec F)) (c s : Nat) : F :=
  if c < j then ∑ k ∈ Finset.range n, en U c k * en E k s else en E c s

/-- the invariant without the map of pivots -/
structure LCore (m n i j : Nat) (A : List (SVec F)) (s : LeupState F) (σ : Equiv.Perm Nat) : Prop where
  him : i ≤ m
  hjn : j ≤ n
  okL : ColsOK m s.L
  okE : ColsOK m s.E
  okU : ColsOK n s.U
  lL : s.L.length = m
  lE : s.E.length = n
  lU : s.U.length = n
  lP : s.P.length = n
  Llow : ∀ t, t < m → ∀ r, r ≤ t → en s.L t r = if r = t then 1 else 0
  Lid : ∀ t, i ≤ t → t < m → s.L.getD t [] = [(t, 1)]
  Uup : ∀ c, c < n → ∀ k, c ≤ k → en s.U c k = if k = c then 1 else 0
  Uid : ∀ c, j ≤ c → c < n → s.U.getD c [] = [(c, 1)]
  lc : s.coeff.length = j
  lp : s.pivs.length = j
  inc : s.pivs.Pairwise (· < ·)
  ltp : ∀ p ∈ s.pivs, p < i
  proc : ∀ k, k < j → ∃ a : F, a ≠ 0 ∧ s.E.getD k [] = [(s.pivs.getD k 0, a)] ∧ s.coeff.getD k 0 = 1 / a
  supp : ∀ c, j ≤ c → c < n → ∀ r, r < i → en s.E c r ≠ 0 → r ∈ s.pivs
  app : ∀ c, c < n → ∀ r, r < m → en A (σ c) r = ∑ t ∈ Finset.range m, en s.L t r * tcol n j s.E s.U c t
  perm : ∀ c, c < n → σ c < n
  pcol : ∀ c, c < n → s.P.getD c [] = [(σ c, 1)]

/-- the relation recorded by the map of pivots -/
def pivRel (n i j : Nat) (E : List (SVec F)) (r c : Nat) : Prop := j ≤ c ∧ c < n ∧ PivAt i (E.getD c []) r

theorem coef_single' {k r : Nat} {a : F} : coef [(k, a)] r = if k = r then a else 0 := by simp [coef]

/-- the elimination of a monomial matrix: nothing is eliminated, the remaining columns have at most one entry, in different rows, not in the
rows of the pivots -/
structure MonoI (m n j : Nat) (s : LeupState F) : Prop where
  L : ∀ t, t < m → ∀ r, en s.L t r = if r = t then 1 else 0
  U : ∀ c, c < n → ∀ k, en s.U c k = if k = c then 1 else 0
  row : ∀ c c', j ≤ c → c < n → j ≤ c' → c' < n → ∀ r, en s.E c r ≠ 0 → en s.E c' r ≠ 0 → c = c'
  col : ∀ c, j ≤ c → c < n → ∀ r r', en s.E c r ≠ 0 → en s.E c r' ≠ 0 → r = r'
  piv : ∀ c, j ≤ c → c < n → ∀ r ∈ s.pivs, en s.E c r = 0

/-- the coefficients are not zero -/
theorem LCore.coeff_ne {m n i j : Nat} {A : List (SVec F)} {s : LeupState F} {σ : Equiv.Perm Nat} (h : LCore m n i j A s σ) : ∀ a ∈ s.coeff, a ≠ 0 := by
  intro a ha
  obtain ⟨k, hk, rfl⟩ := List.mem_iff_getElem.1 ha
  obtain ⟨b, hb, _, e⟩ := h.proc k (by rw [← h.lc]; exact hk)
  have : s.coeff.getD k 0 = s.coeff[k] := by simp [List.getD_eq_getElem?_getD, hk]
  rw [← this, e]
  exact one_div_ne_zero hb

/-- the new column of `U` for the current column `j`, and the identity it satisfies -/
theorem LCore.lazy {m n i j : Nat} {A : List (SVec F)} {s : LeupState F} {σ : Equiv.Perm Nat} (h : LCore m n i j A s σ) {c : Nat} (hc : j ≤ c) (hcn : c < n) :
    ∃ u, SVec.lazyAxpy (s.E.getD c []) s.coeff s.pivs [(c, 1)] = .ok u ∧ VecOK u ∧ Below n u ∧
      (∀ k, c ≤ k → coef u k = if k = c then 1 else 0) ∧ (∀ k, j ≤ k → k ≠ c → coef u k = 0) ∧
      (∀ t, (∑ k ∈ Finset.range j, coef u k * en s.E k t) = if t < i then en s.E c t else 0) ∧
      ∀ k, k < j → coef u k = s.coeff.getD k 0 * coef (s.E.getD c []) (s.pivs.getD k 0) := by
  have hE := h.okE.getD c
  obtain ⟨u, u1, u2, u3, u4, u5, u6⟩ := lazyAxpy_spec hE.1 (coeff := s.coeff) (inds := s.pivs) (j := c) (by rw [h.lc, h.lp]) (by rw [h.lp]; exact hc)
    h.inc h.coeff_ne (by
      intro r hr
      by_cases hri : r < i
      · exact Or.inl (h.supp c hc hcn r hri hr)
      · exact Or.inr (fun q hq => by have := h.ltp q hq; omega))
  rw [h.lp] at u5 u6
  have hz : ∀ k, c < k → coef u k = 0 := by
    intro k hk
    apply coef_eq_zero_of_notMem
    intro p hp
    have := u3 p hp; omega
  refine ⟨u, u1, u2, fun p hp => by have := u3 p hp; omega, ?_, ?_, ?_, u5⟩
  · intro k hk
    split
    · rename_i e; rw [e, u4]
    · exact hz k (by omega)
  · intro k hk hne
    by_cases hkc : k < c
    · exact u6 k hk hkc
    · exact hz k (by omega)
  · intro t
    have hterm : ∀ k ∈ Finset.range j, coef u k * en s.E k t = if s.pivs.getD k 0 = t then en s.E c t else 0 := by
      intro k hk
      rw [Finset.mem_range] at hk
      obtain ⟨a, ha, e1, e2⟩ := h.proc k hk
      show coef u k * coef (s.E.getD k []) t = _
      rw [e1, u5 k hk, e2, coef_single']
      split
      · rename_i e; rw [e]; show 1 / a * coef (s.E.getD c []) t * a = coef (s.E.getD c []) t; field_simp
      · rw [mul_zero]
    rw [Finset.sum_congr rfl hterm]
    by_cases ht : t ∈ s.pivs
    · obtain ⟨k, hk, rfl⟩ := List.mem_iff_getElem.1 ht
      have hkj : k < j := by rw [← h.lp]; exact hk
      have hget : ∀ l (hl : l < s.pivs.length), s.pivs.getD l 0 = s.pivs[l] := fun l hl => by simp [List.getD_eq_getElem?_getD, hl]
      rw [Finset.sum_eq_single k]
      · rw [hget k hk, if_pos rfl, if_pos (h.ltp _ ht)]
      · intro l hl hne
        rw [Finset.mem_range] at hl
        rw [hget l (by rw [h.lp]; exact hl), if_neg]
        intro e
        have := (List.Nodup.getElem_inj_iff (h.inc.imp (fun hh => ne_of_lt hh))).1 e
        exact hne this
      · intro hh; exact absurd (Finset.mem_range.2 hkj) hh
    · rw [Finset.sum_eq_zero]
      · by_cases hti : t < i
        · rw [if_pos hti]
          by_contra hne
          exact ht (h.supp c hc hcn t hti (fun e => hne e.symm))
        · rw [if_neg hti]
      · intro l hl
        rw [Finset.mem_range] at hl
        rw [if_neg]
        rintro rfl
        exact ht (by simp [List.getD_eq_getElem?_getD, List.getElem?_eq_getElem (by rw [h.lp]; exact hl : l < s.pivs.length)])

/-- processed columns do not involve rows from `i` on -/
theorem LCore.tcol_zero {m n i j : Nat} {A : List (SVec F)} {s : LeupState F} {σ : Equiv.Perm Nat} (h : LCore m n i j A s σ) {c : Nat} (hc : c < j)
    {t : Nat} (ht : i ≤ t) : tcol n j s.E s.U c t = 0 := by
  unfold tcol
  rw [if_pos hc]
  apply Finset.sum_eq_zero
  intro k _
  have := h.hjn
  by_cases hk : k < j
  · obtain ⟨a, ha, e1, _⟩ := h.proc k hk
    show _ * coef (s.E.getD k []) t = 0
    rw [e1, coef_single', if_neg, mul_zero]
    have := h.ltp (s.pivs.getD k 0) (by simp [List.getD_eq_getElem?_getD, List.getElem?_eq_getElem (by rw [h.lp]; exact hk : k < s.pivs.length)])
    omega
  · rw [h.Uup c (by omega) k (by omega), if_neg (by omega), zero_mul]

theorem sum_pick {m t : Nat} (ht : t < m) (f : Nat → F) : (∑ x ∈ Finset.range m, (if x = t then f x else 0)) = f t := by
  rw [Finset.sum_ite_eq' (Finset.range m) t f, if_pos (Finset.mem_range.2 ht)]

/-- the elimination of row `i` by column `j` (after the columns were swapped) -/
theorem LCore.elim {m n i j : Nat} {A : List (SVec F)} {s : LeupState F} {σ : Equiv.Perm Nat} (h : LCore m n i j A s σ) (hi : i < m) (hj : j < n)
    {a : F} (ha : a ≠ 0) (hai : en s.E j i = a) {u : SVec F} (hu : VecOK u ∧ Below n u)
    (hu1 : ∀ k, j ≤ k → coef u k = if k = j then 1 else 0)
    (hu2 : ∀ t, (∑ k ∈ Finset.range j, coef u k * en s.E k t) = if t < i then en s.E j t else 0)
    {E' : List (SVec F)} (hE' : ColsOK m E') (hlE' : E'.length = n) (hlt : ∀ c, c < j → E'.getD c [] = s.E.getD c [])
    (hgt : ∀ c, j < c → c < n → ∀ r, en E' c r = en s.E c r + if i + 1 ≤ r ∧ r < m then -(en s.E c i / a) * en s.E j r else 0) (p : PMap) :
    LCore m n (i + 1) (j + 1) A ⟨s.L.set i (SVec.axpyRange (1 / a) (s.E.getD j []) (i + 1) m (s.L.getD i [])), E'.set j [(i, a)], s.U.set j u, s.P,
      s.coeff ++ [1 / a], s.pivs ++ [i], p⟩ σ := by
  have hiL : i < s.L.length := by rw [h.lL]; exact hi
  have hjE : j < E'.length := by rw [hlE']; exact hj
  have hjU : j < s.U.length := by rw [h.lU]; exact hj
  have hcj := h.okE.getD j
  have hLi := h.okL.getD i
  have hLk : ∀ t r, en (s.L.set i (SVec.axpyRange (1 / a) (s.E.getD j []) (i + 1) m (s.L.getD i []))) t r =
      en s.L t r + if t = i then (if i + 1 ≤ r ∧ r < m then 1 / a * en s.E j r else 0) else 0 := by
    intro t r
    show coef ((s.L.set i _).getD t []) r = _
    rw [getD_set _ _ hiL]
    by_cases ht : i = t
    · subst ht; rw [if_pos rfl, if_pos rfl, coef_axpyRange _ hcj.1.1]
    · rw [if_neg ht, if_neg (fun e => ht e.symm), add_zero]
  have hEk : ∀ c r, en (E'.set j [(i, a)]) c r = if c = j then (if i = r then a else 0) else en E' c r := by
    intro c r
    show coef ((E'.set j _).getD c []) r = _
    rw [getD_set _ _ hjE]
    by_cases ht : j = c
    · rw [if_pos ht, if_pos ht.symm, coef_single']
    · rw [if_neg ht, if_neg (fun e => ht e.symm)]
  have hUk : ∀ c k, en (s.U.set j u) c k = if c = j then coef u k else en s.U c k := by
    intro c k
    show coef ((s.U.set j _).getD c []) k = _
    rw [getD_set _ _ hjU]
    by_cases ht : j = c
    · rw [if_pos ht, if_pos ht.symm]
    · rw [if_neg ht, if_neg (fun e => ht e.symm)]
  have hElt : ∀ c, c < j → ∀ r, en E' c r = en s.E c r := fun c hc r => by
    show coef (E'.getD c []) r = _
    rw [hlt c hc]
  have hLrow : ∀ r, r < m → ∀ t, t < m → i < t → en s.L t r = if t = r then 1 else 0 := by
    intro r hr t ht hit
    show coef (s.L.getD t []) r = _
    rw [h.Lid t (by omega) ht, coef_single']
  -- the column sums
  have hsum : ∀ r, r < m → ∀ T : Nat → F,
      (∑ t ∈ Finset.range m, en (s.L.set i (SVec.axpyRange (1 / a) (s.E.getD j []) (i + 1) m (s.L.getD i []))) t r * T t) =
      (∑ t ∈ Finset.range m, en s.L t r * T t) + (if i + 1 ≤ r ∧ r < m then 1 / a * en s.E j r else 0) * T i := by
    intro r hr T
    simp only [hLk, add_mul, Finset.sum_add_distrib]
    congr 1
    rw [← sum_pick hi (fun t => (if i + 1 ≤ r ∧ r < m then 1 / a * en s.E j r else 0) * T t)]
    refine Finset.sum_congr rfl (fun t _ => ?_)
    split
    · rfl
    · rw [zero_mul]
  refine { him := by omega, hjn := by omega, okL := ?_, okE := ?_, okU := ?_, lL := ?_, lE := ?_, lU := ?_, lP := h.lP, Llow := ?_, Lid := ?_, Uup := ?_,
           Uid := ?_, lc := ?_, lp := ?_, inc := ?_, ltp := ?_, proc := ?_, supp := ?_, app := ?_, perm := h.perm, pcol := h.pcol }
  · exact h.okL.set i ⟨⟨sorted_axpyRange _ hcj.1.1 hLi.1.1 _ _, noZero_axpyRange _ hcj.1.2 hLi.1.2 _ _⟩, below_axpyRange _ hcj.2 hLi.2 _ _⟩
  · refine hE'.set j ⟨⟨by simp [Sorted], by intro p hp; rw [List.mem_singleton] at hp; rw [hp]; exact ha⟩, ?_⟩
    intro p hp; rw [List.mem_singleton] at hp; rw [hp]; exact hi
  · exact h.okU.set j hu
  · show (s.L.set i _).length = m; rw [List.length_set]; exact h.lL
  · show (E'.set j _).length = n; rw [List.length_set]; exact hlE'
  · show (s.U.set j _).length = n; rw [List.length_set]; exact h.lU
  · intro t ht r hr
    show en (s.L.set i _) t r = _
    rw [hLk, h.Llow t ht r hr]
    by_cases hti : t = i
    · rw [if_pos hti, if_neg (by omega : ¬(i + 1 ≤ r ∧ r < m)), add_zero]
    · rw [if_neg hti, add_zero]
  · intro t ht htm
    show (s.L.set i _).getD t [] = _
    rw [getD_set_ne _ _ (by omega)]
    exact h.Lid t (by omega) htm
  · intro c hc k hk
    show en (s.U.set j u) c k = _
    rw [hUk]
    by_cases hcj' : c = j
    · rw [if_pos hcj', hu1 k (by omega), hcj']
    · rw [if_neg hcj']; exact h.Uup c hc k hk
  · intro c hc hcn
    show (s.U.set j u).getD c [] = _
    rw [getD_set_ne _ _ (by omega)]
    exact h.Uid c (by omega) hcn
  · show (s.coeff ++ [1 / a]).length = j + 1; rw [List.length_append, h.lc]; rfl
  · show (s.pivs ++ [i]).length = j + 1; rw [List.length_append, h.lp]; rfl
  · show (s.pivs ++ [i]).Pairwise (· < ·)
    rw [List.pairwise_append]
    refine ⟨h.inc, by simp, ?_⟩
    intro x hx y hy
    rw [List.mem_singleton] at hy
    rw [hy]; exact h.ltp x hx
  · intro x hx
    have hx' : x ∈ s.pivs ++ [i] := hx
    rw [List.mem_append, List.mem_singleton] at hx'
    rcases hx' with hx' | rfl
    · have := h.ltp x hx'; omega
    · omega
  · intro k hk
    show ∃ b : F, b ≠ 0 ∧ (E'.set j [(i, a)]).getD k [] = [((s.pivs ++ [i]).getD k 0, b)] ∧ (s.coeff ++ [1 / a]).getD k 0 = 1 / b
    by_cases hkj : k = j
    · subst hkj
      refine ⟨a, ha, ?_, ?_⟩
      · rw [getD_set_self _ _ hjE]
        rw [List.getD_eq_getElem?_getD, List.getElem?_append_right (by rw [h.lp]), h.lp]; simp
      · rw [List.getD_eq_getElem?_getD, List.getElem?_append_right (by rw [h.lc]), h.lc]; simp
    · obtain ⟨b, hb, e1, e2⟩ := h.proc k (by omega)
      refine ⟨b, hb, ?_, ?_⟩
      · rw [getD_set_ne _ _ (fun e => hkj e.symm), hlt k (by omega), e1]
        rw [List.getD_eq_getElem?_getD, List.getD_eq_getElem?_getD, List.getElem?_append_left (by rw [h.lp]; omega)]
      · rw [← e2, List.getD_eq_getElem?_getD, List.getD_eq_getElem?_getD, List.getElem?_append_left (by rw [h.lc]; omega)]
  · intro c hc hcn r hr hne
    show r ∈ s.pivs ++ [i]
    have hne' : en (E'.set j [(i, a)]) c r ≠ 0 := hne
    rw [hEk, if_neg (by omega), hgt c (by omega) hcn, if_neg (by omega), add_zero] at hne'
    rw [List.mem_append, List.mem_singleton]
    by_cases hri : r = i
    · exact Or.inr hri
    · exact Or.inl (h.supp c (by omega) hcn r (by omega) hne')
  · intro c hc r hr
    show en A (σ c) r = ∑ t ∈ Finset.range m, en (s.L.set i _) t r * tcol n (j + 1) (E'.set j [(i, a)]) (s.U.set j u) c t
    rw [hsum r hr, h.app c hc r hr]
    -- what the new column stands for
    rcases lt_trichotomy c j with hcj' | hcj' | hcj'
    · have hT : ∀ t, tcol n (j + 1) (E'.set j [(i, a)]) (s.U.set j u) c t = tcol n j s.E s.U c t := by
        intro t
        unfold tcol
        rw [if_pos (by omega), if_pos hcj']
        refine Finset.sum_congr rfl (fun k _ => ?_)
        rw [hUk, if_neg (by omega)]
        by_cases hk : k < j
        · rw [hEk, if_neg (by omega), hElt k hk]
        · rw [h.Uup c hc k (by omega), if_neg (by omega), zero_mul, zero_mul]
      simp only [hT]
      rw [h.tcol_zero hcj' (le_refl i), mul_zero, add_zero]
    · subst hcj'
      have hT : ∀ t, tcol n (c + 1) (E'.set c [(i, a)]) (s.U.set c u) c t = if t ≤ i then en s.E c t else 0 := by
        intro t
        unfold tcol
        rw [if_pos (by omega)]
        have h1 : (∑ k ∈ Finset.range n, en (s.U.set c u) c k * en (E'.set c [(i, a)]) k t) =
            ∑ k ∈ Finset.range (c + 1), en (s.U.set c u) c k * en (E'.set c [(i, a)]) k t := by
          symm
          apply Finset.sum_subset (by intro x hx; rw [Finset.mem_range] at *; omega)
          intro k _ hk
          rw [Finset.mem_range] at hk
          rw [hUk, if_pos rfl, hu1 k (by omega), if_neg (by omega), zero_mul]
        rw [h1, Finset.sum_range_succ]
        have h2 : (∑ k ∈ Finset.range c, en (s.U.set c u) c k * en (E'.set c [(i, a)]) k t) = ∑ k ∈ Finset.range c, coef u k * en s.E k t := by
          refine Finset.sum_congr rfl (fun k hk => ?_)
          rw [Finset.mem_range] at hk
          rw [hUk, if_pos rfl, hEk, if_neg (by omega), hElt k hk]
        rw [h2, hu2, hUk, if_pos rfl, hu1 c (le_refl _), if_pos rfl, one_mul, hEk, if_pos rfl]
        rcases lt_trichotomy t i with ht | ht | ht
        · rw [if_pos ht, if_neg (by omega), if_pos (by omega), add_zero]
        · rw [if_neg (by omega), if_pos ht.symm, if_pos (by omega), zero_add, ht, hai]
        · rw [if_neg (by omega), if_neg (by omega), if_neg (by omega), add_zero]
      simp only [hT]
      rw [if_pos (le_refl i), hai]
      have h3 : (∑ t ∈ Finset.range m, en s.L t r * tcol n c s.E s.U c t) =
          (∑ t ∈ Finset.range m, en s.L t r * (if t ≤ i then en s.E c t else 0)) + ∑ t ∈ Finset.range m, (if t = r then (if i < t then en s.E c t else 0) else 0) := by
        rw [← Finset.sum_add_distrib]
        refine Finset.sum_congr rfl (fun t ht => ?_)
        rw [Finset.mem_range] at ht
        unfold tcol
        rw [if_neg (by omega)]
        by_cases hti : t ≤ i
        · rw [if_pos hti, if_neg (by omega : ¬ i < t), ite_self, add_zero]
        · rw [if_neg hti, mul_zero, zero_add, if_pos (by omega : i < t), hLrow r hr t ht (by omega)]
          split
          · rw [one_mul]
          · rw [zero_mul]
      rw [h3, sum_pick hr (fun t => if i < t then en s.E c t else 0)]
      congr 1
      by_cases hir : i < r
      · rw [if_pos hir, if_pos ⟨by omega, hr⟩]; field_simp
      · rw [if_neg hir, if_neg (by omega), zero_mul]
    · have hT : ∀ t, tcol n (j + 1) (E'.set j [(i, a)]) (s.U.set j u) c t =
          en s.E c t + if i + 1 ≤ t ∧ t < m then -(en s.E c i / a) * en s.E j t else 0 := by
        intro t
        unfold tcol
        rw [if_neg (by omega), hEk, if_neg (by omega), hgt c hcj' hc]
      simp only [hT]
      rw [if_neg (by omega : ¬ (i + 1 ≤ i ∧ i < m)), add_zero]
      simp only [mul_add, Finset.sum_add_distrib]
      have h0 : ∀ t, tcol n j s.E s.U c t = en s.E c t := fun t => by unfold tcol; rw [if_neg (by omega)]
      simp only [h0]
      have h3 : (∑ t ∈ Finset.range m, en s.L t r * (if i + 1 ≤ t ∧ t < m then -(en s.E c i / a) * en s.E j t else 0)) =
          ∑ t ∈ Finset.range m, (if t = r then (if i < t then -(en s.E c i / a) * en s.E j t else 0) else 0) := by
        refine Finset.sum_congr rfl (fun t ht => ?_)
        rw [Finset.mem_range] at ht
        by_cases hti : i < t
        · rw [if_pos ⟨by omega, ht⟩, if_pos hti, hLrow r hr t ht hti]
          split
          · rw [one_mul]
          · rw [zero_mul]
        · rw [if_neg (by omega : ¬ (i + 1 ≤ t ∧ t < m)), if_neg hti, ite_self, mul_zero]
      rw [h3, sum_pick hr (fun t => if i < t then -(en s.E c i / a) * en s.E j t else 0)]
      by_cases hir : i < r
      · rw [if_pos hir, if_pos ⟨by omega, hr⟩]; ring
      · rw [if_neg hir, if_neg (by omega), zero_mul, add_zero, add_zero]

end Fact
end BATS
