import Verif.Model.Reduction
import Verif.Proofs.SparseVec
import Mathlib.Algebra.BigOperators.Ring.Finset
import Mathlib.Algebra.BigOperators.Pi

set_option linter.unusedSectionVars false
set_option linter.unusedSimpArgs false
set_option linter.unusedVariables false

/-! # The standard reduction loop: invariants -/

namespace BATS

theorem rd_ok {α} {l : List α} {i : Nat} (h : i < l.length) : rd l i = .ok l[i] := by
  unfold rd; simp [h]
theorem rd_getD {α} {l : List α} {i : Nat} (d : α) (h : i < l.length) : rd l i = .ok (l.getD i d) := by
  rw [rd_ok h]; simp [h]
theorem rd_err {α} {l : List α} {i : Nat} (h : ¬ i < l.length) : rd l i = .error .ub := by
  unfold rd; simp at h; simp [h]
theorem wr_ok {α} {l : List α} {i : Nat} (a : α) (h : i < l.length) : wr l i a = .ok (l.set i a) := by
  unfold wr; simp [h]

@[simp] theorem bind_ok {α β : Type _} (a : α) (f : α → Res β) : (Except.ok a >>= f) = f a := rfl
@[simp] theorem bind_error {α β : Type _} (e : Err) (f : α → Res β) : ((Except.error e : Res α) >>= f) = .error e := rfl
@[simp] theorem pure_ok {α : Type _} (a : α) : (pure a : Res α) = .ok a := rfl

theorem getD_set_self {α} {l : List α} {i : Nat} (a d : α) (h : i < l.length) : (l.set i a).getD i d = a := by
  simp [List.getD, h]
theorem getD_set_ne {α} {l : List α} {i j : Nat} (a d : α) (h : i ≠ j) : (l.set i a).getD j d = l.getD j d := by
  simp [List.getD, List.getElem?_set_ne h]
theorem getD_set {α} {l : List α} {i j : Nat} (a d : α) (h : i < l.length) :
    (l.set i a).getD j d = if i = j then a else l.getD j d := by
  split
  · rename_i e; subst e; exact getD_set_self a d h
  · rename_i e; exact getD_set_ne a d e

theorem getD_mem_of {α} {P : α → Prop} {l : List α} {d : α} (hl : ∀ c ∈ l, P c) (hd : P d) (i : Nat) : P (l.getD i d) := by
  by_cases h : i < l.length
  · have : l.getD i d = l[i] := by simp [h]
    rw [this]; exact hl _ (List.getElem_mem h)
  · have : l.getD i d = d := by simp at h; simp [List.getD, h]
    rw [this]; exact hd

namespace Reduction

variable {F : Type _} [Field F] [DecidableEq F]

/-- index of the last stored entry -/
def low (c : SVec F) : Option Nat := c.getLast?.map Prod.fst

theorem low_nil : low ([] : SVec F) = none := rfl
theorem low_eq_none {c : SVec F} : low c = none ↔ c = [] := by
  unfold low; simp
theorem low_eq_some {c : SVec F} {i : Nat} : low c = some i ↔ ∃ h : c ≠ [], (c.getLast h).1 = i := by
  unfold low
  constructor
  · intro h
    by_cases hc : c = []
    · subst hc; simp at h
    · refine ⟨hc, ?_⟩
      rw [List.getLast?_eq_some_getLast hc] at h
      simpa using h
  · rintro ⟨hc, h⟩
    rw [List.getLast?_eq_some_getLast hc]
    simp [h]

/-- the last stored entry is the last nonzero coordinate -/
theorem low_iff {c : SVec F} (hc : VecOK c) (i : Nat) :
    low c = some i ↔ coef c i ≠ 0 ∧ ∀ i' > i, coef c i' = 0 := by
  rw [low_eq_some]
  constructor
  · rintro ⟨h, rfl⟩
    refine ⟨?_, fun i' hi => hc.1.coef_gt_getLast h hi⟩
    rw [hc.1.coef_getLast h]
    exact hc.2 _ (List.getLast_mem h)
  · rintro ⟨h1, h2⟩
    have hne : c ≠ [] := by rintro rfl; simp at h1
    refine ⟨hne, ?_⟩
    have hl : coef c (c.getLast hne).1 ≠ 0 := by
      rw [hc.1.coef_getLast hne]; exact hc.2 _ (List.getLast_mem hne)
    rcases lt_trichotomy (c.getLast hne).1 i with h | h | h
    · exact absurd (hc.1.coef_gt_getLast hne h) h1
    · exact h
    · exact absurd (h2 _ h) hl

/-- columns are valid sparse vectors with indices below `m` -/
def ColsOK (m : Nat) (cols : List (SVec F)) : Prop := ∀ c ∈ cols, VecOK c ∧ Below m c

theorem ColsOK.getD {m : Nat} {cols : List (SVec F)} (h : ColsOK m cols) (j : Nat) :
    VecOK (cols.getD j []) ∧ Below m (cols.getD j []) :=
  getD_mem_of (P := fun c => VecOK c ∧ Below m c) h ⟨vecOK_nil, below_nil m⟩ j

theorem ColsOK.set {m : Nat} {cols : List (SVec F)} (h : ColsOK m cols) (j : Nat) {c : SVec F}
    (hc : VecOK c ∧ Below m c) : ColsOK m (cols.set j c) := by
  intro d hd
  rcases List.mem_or_eq_of_mem_set hd with hd | rfl
  · exact h d hd
  · exact hc

theorem low_lt {m : Nat} {c : SVec F} (h : Below m c) {i : Nat} (hl : low c = some i) : i < m := by
  obtain ⟨hne, rfl⟩ := low_eq_some.1 hl
  exact h _ (List.getLast_mem hne)

/-- invariant of the outer loop when columns `< j` are finished -/
structure RInv (m : Nat) (j : Nat) (cols : List (SVec F)) (p2c : P2C) : Prop where
  ok : ColsOK m cols
  plen : p2c.length = m
  sound : ∀ i k, p2c[i]? = some (some k) → k < j ∧ low (cols.getD k []) = some i
  complete : ∀ k, k < j → ∀ i, low (cols.getD k []) = some i → p2c[i]? = some (some k)

/-- unit upper triangular, `ℕ`-indexed -/
def UnitUpper (V : Nat → Nat → F) : Prop := (∀ j, V j j = 1) ∧ ∀ i j, j < i → V i j = 0

/-- `cs` is obtained from `cs0` by the column operations recorded in `V` -/
def Applied (V : Nat → Nat → F) (n : Nat) (cs0 cs : List (SVec F)) : Prop :=
  ∀ j, j < n → ∀ i, coef (cs.getD j []) i = ∑ k ∈ Finset.range n, V k j * coef (cs0.getD k []) i

theorem applied_id (n : Nat) (cs : List (SVec F)) :
    Applied (fun i j => if i = j then (1 : F) else 0) n cs cs := by
  intro j hj i
  simp [hj]

theorem unitUpper_id : UnitUpper (fun i j => if i = j then (1 : F) else 0) :=
  ⟨fun j => by simp, fun i j h => by simp; omega⟩

/-- record `col j += b * col k` -/
def addCol (V : Nat → Nat → F) (j k : Nat) (b : F) : Nat → Nat → F :=
  fun i l => if l = j then V i j + b * V i k else V i l

theorem unitUpper_addCol {V : Nat → Nat → F} (h : UnitUpper V) {j k : Nat} (hk : k < j) (b : F) :
    UnitUpper (addCol V j k b) := by
  constructor
  · intro l; unfold addCol; split
    · rename_i e; subst e; rw [h.1, h.2 l k hk]; simp
    · exact h.1 l
  · intro i l hl; unfold addCol; split
    · rename_i e; subst e; rw [h.2 i l hl, h.2 i k (by omega)]; simp
    · exact h.2 i l hl

theorem applied_addCol {V : Nat → Nat → F} {n : Nat} {cs0 cs : List (SVec F)} (h : Applied V n cs0 cs)
    (hlen : cs.length = n) {j k : Nat} (hj : j < n) (hk : k < n) (b : F) :
    Applied (addCol V j k b) n cs0 (cs.set j (SVec.axpy b (cs.getD k []) (cs.getD j []))) := by
  intro l hl i
  rw [getD_set _ _ (by omega)]
  by_cases e : j = l
  · subst e
    rw [if_pos rfl, coef_axpy, h j hj i, h k hk i, Finset.mul_sum, ← Finset.sum_add_distrib]
    apply Finset.sum_congr rfl
    intro x _
    simp only [addCol, if_true]; ring
  · rw [if_neg e, h l hl i]
    apply Finset.sum_congr rfl
    intro x _
    unfold addCol
    rw [if_neg (fun h => e h.symm)]

/-- One inner loop: it terminates within the fuel, finishes column `j` and applies the same column operations
to both matrices. -/
theorem stdColLoopU_spec {m n : Nat} {j : Nat} (hj : j < n) (R0 U0 : List (SVec F)) :
    ∀ (fuel : Nat) (cols ucols : List (SVec F)) (p2c : P2C) (V : Nat → Nat → F),
      cols.length = n → ucols.length = n → RInv m j cols p2c →
      0 < fuel → (∀ i, low (cols.getD j []) = some i → i + 1 < fuel) →
      UnitUpper V → Applied V n R0 cols → Applied V n U0 ucols →
      ∃ cols' ucols' p2c' V', stdColLoopU j fuel cols ucols p2c = .ok (cols', ucols', p2c') ∧
        cols'.length = n ∧ ucols'.length = n ∧ RInv m (j + 1) cols' p2c' ∧
        UnitUpper V' ∧ Applied V' n R0 cols' ∧ Applied V' n U0 ucols' ∧
        (∀ l, l ≠ j → cols'.getD l [] = cols.getD l []) := by
  intro fuel
  induction fuel with
  | zero => intro cols ucols p2c V _ _ _ h; omega
  | succ fuel ih =>
    intro cols ucols p2c V hlen hulen inv _ hfuel hV hA hAU
    unfold stdColLoopU
    rw [rd_getD [] (by omega : j < cols.length)]
    simp only [bind_ok]
    have hok := inv.ok.getD j
    by_cases hempty : cols.getD j [] = []
    · -- the column is zero: nothing to do
      rw [hempty]
      simp only [List.isEmpty_nil, if_true]
      refine ⟨cols, ucols, p2c, V, rfl, hlen, hulen, ?_, hV, hA, hAU, fun _ _ => rfl⟩
      refine ⟨inv.ok, inv.plen, ?_, ?_⟩
      · intro i k h; have := inv.sound i k h; exact ⟨by omega, this.2⟩
      · intro k hk i hi
        by_cases hkj : k = j
        · subst hkj; rw [hempty, low_nil] at hi; cases hi
        · exact inv.complete k (by omega) i hi
    · have hne : (cols.getD j []).isEmpty = false := by
        rw [List.isEmpty_eq_false_iff]; exact hempty
      rw [hne]
      simp only [Bool.false_eq_true, if_false]
      rw [lastnz_ok hempty]
      simp only [bind_ok]
      set piv := (cols.getD j []).getLast hempty with hpiv
      have hlow : low (cols.getD j []) = some piv.1 := low_eq_some.2 ⟨hempty, rfl⟩
      have hpm : piv.1 < m := low_lt hok.2 hlow
      have hpl : piv.1 < p2c.length := by rw [inv.plen]; exact hpm
      rw [rd_ok hpl]
      simp only [bind_ok]
      cases he : p2c[piv.1] with
      | none =>
        simp only
        refine ⟨cols, ucols, _, V, rfl, hlen, hulen, ?_, hV, hA, hAU, fun _ _ => rfl⟩
        refine ⟨inv.ok, by simp [inv.plen], ?_, ?_⟩
        · intro i k h
          by_cases hi : piv.1 = i
          · subst hi
            rw [List.getElem?_set_self hpl] at h
            cases h
            exact ⟨by omega, hlow⟩
          · rw [List.getElem?_set_ne hi] at h
            have := inv.sound i k h; exact ⟨by omega, this.2⟩
        · intro k hk i hi
          by_cases hkj : k = j
          · subst hkj
            rw [hlow] at hi; cases hi
            rw [List.getElem?_set_self hpl]
          · have hc := inv.complete k (by omega) i hi
            have : piv.1 ≠ i := by
              rintro rfl
              rw [List.getElem?_eq_getElem hpl, he] at hc
              cases hc
            rw [List.getElem?_set_ne this]; exact hc
      | some k =>
        simp only
        have hsome : p2c[piv.1]? = some (some k) := by rw [List.getElem?_eq_getElem hpl, he]
        obtain ⟨hkj, hlowk⟩ := inv.sound _ _ hsome
        have hkn : k < n := by omega
        rw [rd_getD [] (by omega : k < cols.length)]
        simp only [bind_ok]
        obtain ⟨hkne, hkl⟩ := low_eq_some.1 hlowk
        rw [lastnz_ok hkne]
        simp only [bind_ok]
        have hokk := inv.ok.getD k
        have hpk : ((cols.getD k []).getLast hkne).2 ≠ 0 := hokk.1.2 _ (List.getLast_mem hkne)
        unfold CMat.fdiv
        rw [if_neg hpk]
        simp only [bind_ok]
        rw [rd_getD [] (by omega : j < ucols.length), rd_getD [] (by omega : k < ucols.length)]
        simp only [bind_ok]
        set a := piv.2 / ((cols.getD k []).getLast hkne).2 with ha
        set c' := SVec.axpy (-a) (cols.getD k []) (cols.getD j []) with hc'
        have hc'ok : VecOK c' ∧ Below m c' := ⟨vecOK_axpy _ hokk.1 hok.1, below_axpy _ hokk.2 hok.2⟩
        have hcoef : ∀ i, piv.1 ≤ i → coef c' i = 0 := by
          intro i hi
          rw [hc', coef_axpy]
          rcases Nat.lt_or_ge piv.1 i with h | h
          · rw [hok.1.1.coef_gt_getLast hempty h, hokk.1.1.coef_gt_getLast hkne (by omega)]; simp
          · have : i = piv.1 := by omega
            subst this
            rw [hok.1.1.coef_getLast hempty]
            have hk2 : coef (cols.getD k []) piv.1 = ((cols.getD k []).getLast hkne).2 := by
              rw [← hkl]; exact hokk.1.1.coef_getLast hkne
            rw [hk2, ha]
            rw [neg_mul, div_mul_cancel₀ _ hpk]
            exact add_neg_cancel _
        have hinv' : RInv m j (cols.set j c') p2c := by
          refine ⟨inv.ok.set j hc'ok, inv.plen, ?_, ?_⟩
          · intro i l h
            have := inv.sound i l h
            refine ⟨this.1, ?_⟩
            rw [getD_set_ne _ _ (by omega)]; exact this.2
          · intro l hl i hi
            rw [getD_set_ne _ _ (by omega)] at hi
            exact inv.complete l hl i hi
        have hfuel' : ∀ i, low ((cols.set j c').getD j []) = some i → i + 1 < fuel := by
          intro i hi
          rw [getD_set_self _ _ (by omega)] at hi
          have h1 := (low_iff hc'ok.1 i).1 hi
          have h2 : i < piv.1 := by
            by_contra hcon
            exact h1.1 (hcoef i (by omega))
          have := hfuel _ hlow
          omega
        obtain ⟨cols', ucols', p2c', V', h1, h2, h3, h4, h5, h6, h7, h8⟩ :=
          ih (cols.set j c') (ucols.set j (SVec.axpy (-a) (ucols.getD k []) (ucols.getD j []))) p2c
            (addCol V j k (-a)) (by simp [hlen]) (by simp [hulen]) hinv'
            (by have := hfuel _ hlow; omega) hfuel'
            (unitUpper_addCol hV hkj _) (applied_addCol hA hlen hj hkn _) (applied_addCol hAU hulen hj hkn _)
        refine ⟨cols', ucols', p2c', V', h1, h2, h3, h4, h5, h6, h7, ?_⟩
        intro l hl
        rw [h8 l hl, getD_set_ne _ _ (fun e => hl e.symm)]

theorem stdLoopU_spec {m n : Nat} (R0 U0 : List (SVec F)) :
    ∀ (todo j : Nat) (cols ucols : List (SVec F)) (p2c : P2C) (V : Nat → Nat → F),
      j + todo = n → cols.length = n → ucols.length = n → RInv m j cols p2c →
      UnitUpper V → Applied V n R0 cols → Applied V n U0 ucols →
      ∃ cols' ucols' p2c' V', stdLoopU m todo j cols ucols p2c = .ok (cols', ucols', p2c') ∧
        cols'.length = n ∧ ucols'.length = n ∧ RInv m n cols' p2c' ∧
        UnitUpper V' ∧ Applied V' n R0 cols' ∧ Applied V' n U0 ucols' := by
  intro todo
  induction todo with
  | zero =>
    intro j cols ucols p2c V hj hlen hulen inv hV hA hAU
    have : j = n := by omega
    subst this
    exact ⟨cols, ucols, p2c, V, rfl, hlen, hulen, inv, hV, hA, hAU⟩
  | succ todo ih =>
    intro j cols ucols p2c V hj hlen hulen inv hV hA hAU
    obtain ⟨c1, u1, p1, V1, h1, h2, h3, h4, h5, h6, h7, _⟩ :=
      stdColLoopU_spec (m := m) (n := n) (j := j) (by omega) R0 U0 (m + 1) cols ucols p2c V hlen hulen inv
        (by omega) (fun i hi => by have := low_lt (inv.ok.getD j).2 hi; omega) hV hA hAU
    unfold stdLoopU
    rw [h1]
    simp only [bind_ok]
    exact ih (j + 1) c1 u1 p1 V1 (by omega) h2 h3 h4 h5 h6 h7

theorem rinv_init {m : Nat} {cols : List (SVec F)} (h : ColsOK m cols) :
    RInv m 0 cols (List.replicate m none) := by
  refine ⟨h, by simp, ?_, ?_⟩
  · intro i k hk
    rw [List.getElem?_replicate] at hk
    split at hk <;> cases hk
  · intro k hk; omega

/-! The two versions of the algorithm run in lockstep. -/

theorem stdColLoopU_proj (j : Nat) : ∀ (fuel : Nat) (cols ucols : List (SVec F)) (p2c : P2C),
    ucols.length = cols.length →
    (stdColLoopU j fuel cols ucols p2c).map (fun r => (r.1, r.2.2)) = stdColLoop j fuel cols p2c ∧
    (∀ r, stdColLoopU j fuel cols ucols p2c = .ok r → r.2.1.length = r.1.length) := by
  intro fuel
  induction fuel with
  | zero => intro cols ucols p2c _; exact ⟨rfl, fun r h => by cases h⟩
  | succ fuel ih =>
    intro cols ucols p2c hlen
    unfold stdColLoopU stdColLoop
    by_cases hj : j < cols.length
    · rw [rd_getD [] hj]
      simp only [bind_ok]
      by_cases he : (cols.getD j []).isEmpty
      · simp only [he, if_true]
        exact ⟨rfl, fun r h => by cases h; exact hlen⟩
      · simp only [he, Bool.false_eq_true, if_false]
        cases hl : SVec.lastnz (cols.getD j []) with
        | error e => exact ⟨rfl, fun r h => by cases h⟩
        | ok piv =>
          simp only [bind_ok]
          cases hp : rd p2c piv.1 with
          | error e => exact ⟨rfl, fun r h => by cases h⟩
          | ok e =>
            simp only [bind_ok]
            cases e with
            | none => exact ⟨rfl, fun r h => by cases h; exact hlen⟩
            | some k =>
              simp only
              by_cases hk : k < cols.length
              · rw [rd_getD [] hk]
                simp only [bind_ok]
                cases hlk : SVec.lastnz (cols.getD k []) with
                | error e => exact ⟨rfl, fun r h => by cases h⟩
                | ok pk =>
                  simp only [bind_ok]
                  cases hd : CMat.fdiv piv.2 pk.2 with
                  | error e => exact ⟨rfl, fun r h => by cases h⟩
                  | ok a =>
                    simp only [bind_ok]
                    rw [rd_getD [] (by omega : j < ucols.length), rd_getD [] (by omega : k < ucols.length)]
                    simp only [bind_ok]
                    exact ih _ _ _ (by simp [hlen])
              · rw [rd_err hk]
                exact ⟨rfl, fun r h => by cases h⟩
    · rw [rd_err hj]
      exact ⟨rfl, fun r h => by cases h⟩

theorem stdLoopU_proj (m : Nat) : ∀ (todo j : Nat) (cols ucols : List (SVec F)) (p2c : P2C),
    ucols.length = cols.length →
    (stdLoopU m todo j cols ucols p2c).map (fun r => (r.1, r.2.2)) = stdLoop m todo j cols p2c := by
  intro todo
  induction todo with
  | zero => intro j cols ucols p2c _; rfl
  | succ todo ih =>
    intro j cols ucols p2c hlen
    unfold stdLoopU stdLoop
    obtain ⟨h1, h2⟩ := stdColLoopU_proj j (m + 1) cols ucols p2c hlen
    cases hr : stdColLoopU j (m + 1) cols ucols p2c with
    | error e =>
      rw [hr] at h1
      rw [← h1]; rfl
    | ok r =>
      rw [hr] at h1
      rw [← h1]
      exact ih (j + 1) r.1 r.2.1 r.2.2 (h2 r hr)

end Reduction
end BATS
