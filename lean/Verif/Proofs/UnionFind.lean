import Verif.Spec.UnionFind
import Verif.Proofs.Perm
import Verif.Proofs.Reduction
import Mathlib.Logic.Relation
import Mathlib.Data.Fintype.Card

set_option linter.unusedSectionVars false
set_option linter.unusedVariables false
set_option linter.unusedSimpArgs false

namespace BATS
namespace UF
open Reduction

/-- `ρ` gives the root of every node of the forest `p` -/
structure Forest (N : Nat) (p : List Nat) (ρ : Nat → Nat) : Prop where
  len : p.length = N
  lt : ∀ i x : Nat, p[i]? = some x → x < N
  step : ∀ i x : Nat, p[i]? = some x → ρ x = ρ i
  root : ∀ i x : Nat, p[i]? = some x → (ρ i = i ↔ x = i)
  rlt : ∀ i, i < N → ρ i < N
  idem : ∀ i, i < N → ρ (ρ i) = ρ i
  rank : ∃ h : Nat → Nat, ∀ i x : Nat, p[i]? = some x → x ≠ i → h x < h i

theorem Forest.get {N : Nat} {p : List Nat} {ρ : Nat → Nat} (h : Forest N p ρ) {i : Nat} (hi : i < N) : ∃ x, p[i]? = some x ∧ x < N := by
  have : i < p.length := by rw [h.len]; exact hi
  exact ⟨p[i], List.getElem?_eq_getElem this, h.lt i _ (List.getElem?_eq_getElem this)⟩

theorem forest_range (N : Nat) : Forest N (List.range N) id := by
  have hr : ∀ i x : Nat, (List.range N)[i]? = some x → i < N ∧ x = i := by
    intro i x h
    obtain ⟨h1, h2⟩ := List.getElem?_eq_some_iff.1 h
    rw [List.getElem_range] at h2
    rw [List.length_range] at h1
    exact ⟨h1, h2.symm⟩
  refine ⟨List.length_range, ?_, ?_, ?_, fun i hi => hi, fun i _ => rfl, ⟨id, ?_⟩⟩
  · intro i x h; have := hr i x h; omega
  · intro i x h; exact (hr i x h).2
  · intro i x h; have := hr i x h; simp [this.2]
  · intro i x h hne; exact absurd (hr i x h).2 hne

theorem rank_lt_root {N : Nat} {p : List Nat} {ρ : Nat → Nat} (h : Forest N p ρ) {r : Nat → Nat} (hr : ∀ i x : Nat, p[i]? = some x → x ≠ i → r x < r i) :
    ∀ (m i : Nat), r i ≤ m → i < N → ρ i ≠ i → r (ρ i) < r i := by
  intro m
  induction m with
  | zero =>
    intro i hm hi hne
    obtain ⟨x, hx, _⟩ := h.get hi
    have hxi : x ≠ i := fun e => hne ((h.root i x hx).2 e)
    have := hr i x hx hxi
    omega
  | succ m ih =>
    intro i hm hi hne
    obtain ⟨x, hx, hxN⟩ := h.get hi
    have hxi : x ≠ i := fun e => hne ((h.root i x hx).2 e)
    have h1 := hr i x hx hxi
    have h2 := h.step i x hx
    by_cases hc : ρ x = x
    · rw [← h2, hc]; exact h1
    · have := ih x (by omega) hxN hc
      rw [h2] at this; omega

/-- number of nodes of smaller rank -/
def below (N : Nat) (r : Nat → Nat) (i : Nat) : Nat := ((Finset.range N).filter (fun x => r x < r i)).card

theorem below_lt {N : Nat} {r : Nat → Nat} {i x : Nat} (hx : x < N) (h : r x < r i) : below N r x < below N r i := by
  apply Finset.card_lt_card
  rw [Finset.ssubset_iff_of_subset]
  · exact ⟨x, by simp [hx, h], by simp⟩
  · intro y hy
    simp only [Finset.mem_filter] at hy ⊢
    exact ⟨hy.1, by omega⟩

theorem below_bound {N : Nat} {r : Nat → Nat} {i : Nat} (hi : i < N) : below N r i < N := by
  have : below N r i < (Finset.range N).card := by
    apply Finset.card_lt_card
    rw [Finset.ssubset_iff_of_subset (Finset.filter_subset _ _)]
    exact ⟨i, by simp [hi], by simp⟩
  rwa [Finset.card_range] at this

theorem findRoot_spec {N : Nat} {p : List Nat} {ρ : Nat → Nat} (h : Forest N p ρ) {r : Nat → Nat} (hr : ∀ i x : Nat, p[i]? = some x → x ≠ i → r x < r i) :
    ∀ (f i : Nat), i < N → below N r i < f → findRoot p f i = .ok (ρ i) := by
  intro f
  induction f with
  | zero => intro i _ h; omega
  | succ f ih =>
    intro i hi hb
    obtain ⟨x, hx, hxN⟩ := h.get hi
    unfold findRoot
    rw [rd_some hx, bind_ok]
    by_cases e : x = i
    · rw [if_pos e, (h.root i x hx).2 e]
    · rw [if_neg e, ih x hxN (by have := below_lt (N := N) hxN (hr i x hx e); omega), h.step i x hx]

/-- redirecting a node to its root -/
theorem Forest.redirect {N : Nat} {p : List Nat} {ρ : Nat → Nat} (h : Forest N p ρ) {i : Nat} (hi : i < N) (hne : ρ i ≠ i) :
    Forest N (p.set i (ρ i)) ρ := by
  obtain ⟨r, hr⟩ := h.rank
  have hset : ∀ j x : Nat, (p.set i (ρ i))[j]? = some x → (j = i ∧ x = ρ i) ∨ p[j]? = some x := by
    intro j x hx
    by_cases e : j = i
    · left
      subst e
      rw [List.getElem?_set_self (by rw [h.len]; exact hi)] at hx
      cases hx; exact ⟨rfl, rfl⟩
    · right
      rwa [List.getElem?_set_ne (Ne.symm e)] at hx
  refine ⟨by rw [List.length_set, h.len], ?_, ?_, ?_, h.rlt, h.idem, ⟨r, ?_⟩⟩
  · intro j x hx
    rcases hset j x hx with ⟨rfl, rfl⟩ | h'
    · exact h.rlt _ hi
    · exact h.lt j x h'
  · intro j x hx
    rcases hset j x hx with ⟨rfl, rfl⟩ | h'
    · exact h.idem _ hi
    · exact h.step j x h'
  · intro j x hx
    rcases hset j x hx with ⟨rfl, rfl⟩ | h'
    · exact Iff.rfl
    · exact h.root j x h'
  · intro j x hx hne'
    rcases hset j x hx with ⟨rfl, rfl⟩ | h'
    · exact rank_lt_root h hr (r j) j (Nat.le_refl _) hi hne
    · exact hr j x h' hne'

theorem compress_spec {N : Nat} {ρ : Nat → Nat} {r : Nat → Nat} {root : Nat} :
    ∀ (f : Nat) (p : List Nat) (i : Nat), Forest N p ρ → (∀ i x : Nat, p[i]? = some x → x ≠ i → r x < r i) → i < N → ρ i = root → below N r i < f →
      ∃ p', compress root f p i = .ok p' ∧ Forest N p' ρ := by
  intro f
  induction f with
  | zero => intro p i _ _ _ _ h; omega
  | succ f ih =>
    intro p i h hr hi hroot hb
    obtain ⟨x, hx, hxN⟩ := h.get hi
    unfold compress
    rw [rd_some hx, bind_ok]
    by_cases e : x = root
    · rw [if_pos e]; exact ⟨p, rfl, h⟩
    · rw [if_neg e]
      have hxi : x ≠ i := by
        intro e'
        apply e
        rw [← hroot, (h.root i x hx).2 e', e']
      have hne : ρ i ≠ i := fun e' => hxi ((h.root i x hx).1 e')
      rw [wr_ok _ (by rw [h.len]; exact hi), bind_ok]
      have h' := h.redirect hi hne
      rw [hroot] at h'
      apply ih (p.set i root) x h' ?_ hxN (by rw [h.step i x hx, hroot])
      · have := below_lt (N := N) hxN (hr i x hx hxi); omega
      · intro j y hy hyj
        by_cases ej : j = i
        · subst ej
          rw [List.getElem?_set_self (by rw [h.len]; exact hi)] at hy
          cases hy
          rw [← hroot]
          exact rank_lt_root h hr (r j) j (Nat.le_refl _) hi hne
        · rw [List.getElem?_set_ne (Ne.symm ej)] at hy
          exact hr j y hy hyj

theorem findParent_spec {N : Nat} {p : List Nat} {ρ : Nat → Nat} (h : Forest N p ρ) {i : Nat} (hi : i < N) :
    ∃ p', findParent p i = .ok (p', ρ i) ∧ Forest N p' ρ := by
  obtain ⟨r, hr⟩ := h.rank
  have hb : below N r i < p.length := by rw [h.len]; exact below_bound hi
  obtain ⟨p', h1, h2⟩ := compress_spec p.length p i h hr hi rfl hb
  refine ⟨p', ?_, h2⟩
  unfold findParent
  rw [findRoot_spec h hr p.length i hi hb, bind_ok, h1]; rfl

/-- attaching a root to another root -/
theorem Forest.attach {N : Nat} {p : List Nat} {ρ : Nat → Nat} (h : Forest N p ρ) {a b : Nat} (ha : a < N) (hb : b < N) (hra : ρ a = a) (hrb : ρ b = b) (hab : a ≠ b) :
    Forest N (p.set a b) (fun x => if ρ x = a then b else ρ x) := by
  obtain ⟨r, hr⟩ := h.rank
  have hset : ∀ j x : Nat, (p.set a b)[j]? = some x → (j = a ∧ x = b) ∨ (j ≠ a ∧ p[j]? = some x) := by
    intro j x hx
    by_cases e : j = a
    · left
      subst e
      rw [List.getElem?_set_self (by rw [h.len]; exact ha)] at hx
      cases hx; exact ⟨rfl, rfl⟩
    · right
      rw [List.getElem?_set_ne (Ne.symm e)] at hx
      exact ⟨e, hx⟩
  refine ⟨by rw [List.length_set, h.len], ?_, ?_, ?_, ?_, ?_, ⟨fun x => if ρ x = a then r x + (r b + 1) else r x, ?_⟩⟩
  · intro j x hx
    rcases hset j x hx with ⟨rfl, rfl⟩ | ⟨_, h'⟩
    · exact hb
    · exact h.lt j x h'
  · intro j x hx
    rcases hset j x hx with ⟨rfl, rfl⟩ | ⟨_, h'⟩
    · simp only [hra, hrb, if_true]
      split <;> rfl
    · simp only [h.step j x h']
  · intro j x hx
    rcases hset j x hx with ⟨rfl, rfl⟩ | ⟨hj, h'⟩
    · simp only [hra, if_true]
    · have := h.root j x h'
      show (if ρ j = a then b else ρ j) = j ↔ x = j
      split
      · rename_i e
        constructor
        · intro e2
          rw [← e2, hrb] at e
          exact absurd e.symm hab
        · intro e2
          rw [this.2 e2] at e
          exact absurd e hj
      · exact this
  · intro i hi
    show (if ρ i = a then b else ρ i) < N
    split
    · exact hb
    · exact h.rlt i hi
  · intro i hi
    show (if ρ (if ρ i = a then b else ρ i) = a then b else ρ (if ρ i = a then b else ρ i)) = (if ρ i = a then b else ρ i)
    by_cases e : ρ i = a
    · rw [if_pos e, if_neg (by rw [hrb]; exact hab.symm), hrb]
    · rw [if_neg e, if_neg (by rw [h.idem i hi]; exact e), h.idem i hi]
  · intro j x hx hne
    rcases hset j x hx with ⟨rfl, rfl⟩ | ⟨_, h'⟩
    · simp only [hra, hrb, if_true, if_neg hab.symm]; omega
    · simp only [h.step j x h']
      have := hr j x h' hne
      split <;> omega

variable {T : Type} [LinearOrder T]

/-- edges between vertices, any value -/
def linked (N : Nat) (es : List (Nat × Nat × T)) (a b : Fin N) : Prop := ∃ d, (a.val, b.val, d) ∈ es

/-- loop invariant after the edges `es` -/
structure Inv (N : Nat) (birth : Nat → T) (es : List (Nat × Nat × T)) (S : State T) (ρ : Nat → Nat) : Prop where
  forest : Forest N S.parent ρ
  conn : ∀ x y : Fin N, ρ x = ρ y ↔ Relation.EqvGen (linked N es) x y
  len : S.pairs.length = N
  pair : ∀ x, x < N → ∃ q, S.pairs[x]? = some q ∧ q.dim = 0 ∧ q.birthInd = x ∧ q.birth = birth x ∧ (q.death = none ↔ ρ x = x) ∧
    ∀ d, q.death = some d → ∃ i j, (i, j, d) ∈ es
  cnt : S.nfinite + ((Finset.range N).filter (fun x => ρ x = x)).card = N
  elder : ∀ x, x < N → birth (ρ x) ≤ birth x

/-- bars only change by ending, at a value satisfying `P` -/
def Ext (P : T → Prop) (ps ps' : List (PPair T)) : Prop :=
  ps'.length = ps.length ∧ ∀ (x : Nat) q q', ps[x]? = some q → ps'[x]? = some q' →
    q'.birth = q.birth ∧ (q' = q ∨ (q.death = none ∧ ∃ d, q'.death = some d ∧ P d))

theorem Ext.refl (P : T → Prop) (ps : List (PPair T)) : Ext P ps ps := ⟨rfl, fun x q q' h h' => by rw [h] at h'; cases h'; exact ⟨rfl, Or.inl rfl⟩⟩

theorem Ext.trans {P : T → Prop} {a b c : List (PPair T)} (h1 : Ext P a b) (h2 : Ext P b c) : Ext P a c := by
  refine ⟨h2.1.trans h1.1, ?_⟩
  intro x q q' hq hq'
  have hlt : x < b.length := by rw [h1.1]; exact (List.getElem?_eq_some_iff.1 hq).1
  obtain ⟨e1, f1⟩ := h1.2 x q _ hq (List.getElem?_eq_getElem hlt)
  obtain ⟨e2, f2⟩ := h2.2 x _ q' (List.getElem?_eq_getElem hlt) hq'
  refine ⟨e2.trans e1, ?_⟩
  rcases f1 with f1 | ⟨f1, d, f1', f1''⟩
  · rw [f1] at f2; exact f2
  · rcases f2 with f2 | ⟨f2, _⟩
    · rw [f2]; exact Or.inr ⟨f1, d, f1', f1''⟩
    · rw [f1'] at f2; cases f2

theorem Ext.mono {P Q : T → Prop} (h : ∀ d, P d → Q d) {a b : List (PPair T)} (h1 : Ext P a b) : Ext Q a b := by
  refine ⟨h1.1, fun x q q' hq hq' => ?_⟩
  obtain ⟨e, f⟩ := h1.2 x q q' hq hq'
  refine ⟨e, ?_⟩
  rcases f with f | ⟨f, d, f', f''⟩
  · exact Or.inl f
  · exact Or.inr ⟨f, d, f', h d f''⟩

/-- two nodes already connected -/
theorem Inv.skip {N : Nat} {birth : Nat → T} {es : List (Nat × Nat × T)} {S : State T} {ρ : Nat → Nat} (h : Inv N birth es S ρ) {i j : Nat} {d : T}
    (hi : i < N) (hj : j < N) (hij : ρ i = ρ j) {par : List Nat} (hp : Forest N par ρ) : Inv N birth (es ++ [(i, j, d)]) { S with parent := par } ρ := by
  refine ⟨hp, ?_, h.len, ?_, h.cnt, h.elder⟩
  · intro x y
    rw [h.conn]
    constructor
    · intro hg
      refine hg.mono ?_
      rintro a b ⟨d', hd⟩
      exact ⟨d', List.mem_append_left _ hd⟩
    · intro hg
      induction hg with
      | rel a b hab =>
        obtain ⟨d', hd⟩ := hab
        rw [List.mem_append] at hd
        rcases hd with hd | hd
        · exact Relation.EqvGen.rel _ _ ⟨d', hd⟩
        · simp only [List.mem_singleton, Prod.mk.injEq] at hd
          rw [← h.conn, hd.1, hd.2.1]; exact hij
      | refl a => exact Relation.EqvGen.refl _
      | symm a b _ ih => exact Relation.EqvGen.symm _ _ ih
      | trans a b c _ _ ih1 ih2 => exact Relation.EqvGen.trans _ _ _ ih1 ih2
  · intro x hx
    obtain ⟨q, q1, q2, q3, q4, q5, q6⟩ := h.pair x hx
    refine ⟨q, q1, q2, q3, q4, q5, fun d' hd' => ?_⟩
    obtain ⟨a, b, hab⟩ := q6 d' hd'
    exact ⟨a, b, List.mem_append_left _ hab⟩

/-- a merge: the root `die` is attached to the root `win` -/
theorem Inv.kill {N : Nat} {birth : Nat → T} {es : List (Nat × Nat × T)} {S : State T} {ρ : Nat → Nat} (h : Inv N birth es S ρ) {i j k : Nat} {d : T}
    (hi : i < N) (hj : j < N) {die v win : Nat} (hv : v < N) (hdie : ρ v = die) (hwin : ρ win = win) (hwN : win < N) (hne : die ≠ win)
    (hor : (ρ i = die ∧ ρ j = win) ∨ (ρ i = win ∧ ρ j = die)) (hb : birth win ≤ birth die) {par : List Nat} (hp : Forest N par ρ) :
    ∃ S' ρ', UF.kill { S with parent := par } k d die v win = .ok S' ∧ Inv N birth (es ++ [(i, j, d)]) S' ρ' ∧ S'.nfinite = S.nfinite + 1 ∧
      Ext (fun x => x = d) S.pairs S'.pairs := by
  have hdN : die < N := by rw [← hdie]; exact h.forest.rlt v hv
  have hrd : ρ die = die := by rw [← hdie]; exact h.forest.idem v hv
  obtain ⟨q, q1, q2, q3, q4, q5, q6⟩ := h.pair die hdN
  have hF1 := hp.attach hdN hwN hrd hwin hne
  have hF2 : Forest N ((par.set die win).set v win) (fun x => if ρ x = die then win else ρ x) := by
    have := hF1.redirect (i := v) hv (by simp only [hdie, if_true]; intro e; rw [← e, hwin] at hdie; exact hne hdie.symm)
    simpa only [hdie, if_true] using this
  refine ⟨⟨(par.set die win).set v win, S.pairs.set die { q with deathInd := some k, death := some d }, S.nfinite + 1⟩, (fun x => if ρ x = die then win else ρ x), ?_, ?_, rfl, ?_⟩
  · unfold UF.kill
    simp only
    rw [rd_some q1, bind_ok, wr_ok _ (by rw [h.len]; exact hdN), bind_ok, wr_ok _ (by rw [hp.len]; exact hdN), bind_ok,
      wr_ok _ (by rw [List.length_set, hp.len]; exact hv), bind_ok]
    rfl
  · refine ⟨hF2, ?_, ?_, ?_, ?_, ?_⟩
    · intro x y
      constructor
      · intro e
        have hmono : ∀ a b : Fin N, ρ a = ρ b → Relation.EqvGen (linked N (es ++ [(i, j, d)])) a b := by
          intro a b hab
          refine ((h.conn a b).1 hab).mono ?_
          rintro a b ⟨d', hd⟩
          exact ⟨d', List.mem_append_left _ hd⟩
        have hnew : Relation.EqvGen (linked N (es ++ [(i, j, d)])) (⟨i, hi⟩ : Fin N) ⟨j, hj⟩ :=
          Relation.EqvGen.rel _ _ ⟨d, by simp⟩
        have hdw : Relation.EqvGen (linked N (es ++ [(i, j, d)])) (⟨die, hdN⟩ : Fin N) ⟨win, hwN⟩ := by
          rcases hor with ⟨e1, e2⟩ | ⟨e1, e2⟩
          · exact Relation.EqvGen.trans _ _ _ (hmono ⟨die, hdN⟩ ⟨i, hi⟩ (by simp only [hrd, e1]))
              (Relation.EqvGen.trans _ _ _ hnew (hmono ⟨j, hj⟩ ⟨win, hwN⟩ (by simp only [hwin, e2])))
          · exact Relation.EqvGen.trans _ _ _ (hmono ⟨die, hdN⟩ ⟨j, hj⟩ (by simp only [hrd, e2]))
              (Relation.EqvGen.trans _ _ _ (Relation.EqvGen.symm _ _ hnew) (hmono ⟨i, hi⟩ ⟨win, hwN⟩ (by simp only [hwin, e1])))
        have hto : ∀ a : Fin N, ρ a = die → Relation.EqvGen (linked N (es ++ [(i, j, d)])) a ⟨win, hwN⟩ := fun a ha =>
          Relation.EqvGen.trans _ _ _ (hmono a ⟨die, hdN⟩ (by simp only [hrd, ha])) hdw
        have e : (if ρ x = die then win else ρ x) = (if ρ y = die then win else ρ y) := e
        by_cases ex : ρ x = die
        · by_cases ey : ρ y = die
          · exact hmono x y (ex.trans ey.symm)
          · rw [if_pos ex, if_neg ey] at e
            exact Relation.EqvGen.trans _ _ _ (hto x ex) (hmono ⟨win, hwN⟩ y (by simp only [hwin]; exact e))
        · by_cases ey : ρ y = die
          · rw [if_neg ex, if_pos ey] at e
            exact Relation.EqvGen.symm _ _ (Relation.EqvGen.trans _ _ _ (hto y ey) (hmono ⟨win, hwN⟩ x (by simp only [hwin]; exact e.symm)))
          · rw [if_neg ex, if_neg ey] at e
            exact hmono x y e
      · intro hg
        induction hg with
        | rel a b hab =>
          obtain ⟨d', hd⟩ := hab
          rw [List.mem_append] at hd
          rcases hd with hd | hd
          · have : ρ a = ρ b := (h.conn a b).2 (Relation.EqvGen.rel _ _ ⟨d', hd⟩)
            simp only [this]
          · simp only [List.mem_singleton, Prod.mk.injEq] at hd
            simp only [hd.1, hd.2.1]
            rcases hor with ⟨e1, e2⟩ | ⟨e1, e2⟩
            · rw [if_pos e1, e2, if_neg hne.symm]
            · rw [if_pos e2, e1, if_neg hne.symm]
        | refl a => rfl
        | symm a b _ ih => exact ih.symm
        | trans a b c _ _ ih1 ih2 => exact ih1.trans ih2
    · rw [List.length_set, h.len]
    · intro x hx
      by_cases e : x = die
      · subst e
        refine ⟨{ q with deathInd := some k, death := some d }, List.getElem?_set_self (by rw [h.len]; exact hx), q2, q3, q4, ?_, ?_⟩
        · simp only [hrd, if_true]
          constructor
          · intro e; cases e
          · intro e; exact absurd e.symm hne
        · intro d' hd'
          simp only [Option.some.injEq] at hd'
          exact ⟨i, j, by rw [hd']; simp⟩
      · obtain ⟨q', r1, r2, r3, r4, r5, r6⟩ := h.pair x hx
        refine ⟨q', by rw [List.getElem?_set_ne (Ne.symm e)]; exact r1, r2, r3, r4, ?_, ?_⟩
        · rw [r5]
          show _ ↔ (if ρ x = die then win else ρ x) = x
          split
          · rename_i e2
            constructor
            · intro e3; rw [e2] at e3; exact absurd e3.symm e
            · intro e3; rw [← e3, hwin] at e2; exact absurd e2.symm hne
          · exact Iff.rfl
        · intro d' hd'
          obtain ⟨a, b, hab⟩ := r6 d' hd'
          exact ⟨a, b, List.mem_append_left _ hab⟩
    · have hset : (Finset.range N).filter (fun x => (if ρ x = die then win else ρ x) = x) = ((Finset.range N).filter (fun x => ρ x = x)).erase die := by
        ext x
        simp only [Finset.mem_filter, Finset.mem_erase, Finset.mem_range]
        constructor
        · rintro ⟨h1, h2⟩
          split at h2
          · rename_i e
            rw [← h2, hwin] at e
            exact absurd e.symm hne
          · rename_i e
            exact ⟨fun e2 => e (by rw [h2]; exact e2), h1, h2⟩
        · rintro ⟨h1, h2, h3⟩
          refine ⟨h2, ?_⟩
          rw [h3, if_neg h1]
      rw [hset, Finset.card_erase_of_mem (by simp [hdN, hrd])]
      have hpos : 0 < ((Finset.range N).filter (fun x => ρ x = x)).card := Finset.card_pos.2 ⟨die, by simp [hdN, hrd]⟩
      have := h.cnt
      show S.nfinite + 1 + _ = N
      omega
    · intro x hx
      show birth (if ρ x = die then win else ρ x) ≤ birth x
      split
      · rename_i e
        refine le_trans hb ?_
        rw [← e]; exact h.elder x hx
      · exact h.elder x hx
  · refine ⟨List.length_set, ?_⟩
    intro x q0 q0' h0 h0'
    by_cases e : x = die
    · subst e
      rw [List.getElem?_set_self (by rw [h.len]; exact hdN)] at h0'
      rw [q1] at h0
      cases h0; cases h0'
      exact ⟨rfl, Or.inr ⟨q5.2 hrd, d, rfl, rfl⟩⟩
    · rw [List.getElem?_set_ne (Ne.symm e), h0] at h0'
      cases h0'; exact ⟨rfl, Or.inl rfl⟩

/-- with a single root, further edges change nothing -/
theorem Inv.done {N : Nat} {birth : Nat → T} {es : List (Nat × Nat × T)} {S : State T} {ρ : Nat → Nat} (h : Inv N birth es S ρ) (hN : S.nfinite + 1 = N)
    (es' : List (Nat × Nat × T)) : Inv N birth (es ++ es') S ρ := by
  have hc : ((Finset.range N).filter (fun x => ρ x = x)).card = 1 := by have := h.cnt; omega
  obtain ⟨c, hc⟩ := Finset.card_eq_one.1 hc
  have hall : ∀ x, x < N → ρ x = c := by
    intro x hx
    have : ρ x ∈ (Finset.range N).filter (fun x => ρ x = x) := by
      simp [h.forest.rlt x hx, h.forest.idem x hx]
    rw [hc, Finset.mem_singleton] at this
    exact this
  refine ⟨h.forest, ?_, h.len, ?_, h.cnt, h.elder⟩
  · intro x y
    constructor
    · intro e
      refine ((h.conn x y).1 e).mono ?_
      rintro a b ⟨d, hd⟩
      exact ⟨d, List.mem_append_left _ hd⟩
    · intro _
      rw [hall x x.2, hall y y.2]
  · intro x hx
    obtain ⟨q, q1, q2, q3, q4, q5, q6⟩ := h.pair x hx
    refine ⟨q, q1, q2, q3, q4, q5, fun d' hd' => ?_⟩
    obtain ⟨a, b, hab⟩ := q6 d' hd'
    exact ⟨a, b, List.mem_append_left _ hab⟩

section pairs
variable {K : Type} [LinearOrder K]

theorem stepPairs_spec {fl : T → K} (hfl : StrictMono fl) {N : Nat} {birth : Nat → T} {es : List (Nat × Nat × T)} {S : State T} {ρ : Nat → Nat} (h : Inv N birth es S ρ)
    {i j k : Nat} {d : T} (hi : i < N) (hj : j < N) :
    ∃ S' m ρ', stepPairs fl S k d i j = .ok (S', m) ∧ Inv N birth (es ++ [(i, j, d)]) S' ρ' ∧ Ext (fun x => x = d) S.pairs S'.pairs := by
  obtain ⟨p1, e1, f1⟩ := findParent_spec h.forest hi
  obtain ⟨p2, e2, f2⟩ := findParent_spec f1 hj
  unfold stepPairs
  simp only [e1, e2, bind_ok]
  by_cases hij : ρ i = ρ j
  · simp only [if_pos hij]
    exact ⟨_, _, ρ, rfl, h.skip hi hj hij f2, Ext.refl _ _⟩
  · simp only [if_neg hij]
    obtain ⟨qi, a1, _, _, a4, _⟩ := h.pair (ρ i) (h.forest.rlt i hi)
    obtain ⟨qj, b1, _, _, b4, _⟩ := h.pair (ρ j) (h.forest.rlt j hj)
    rw [rd_some a1, bind_ok, rd_some b1, bind_ok, a4, b4]
    by_cases hlt : fl (birth (ρ i)) < fl (birth (ρ j))
    · rw [if_pos hlt]
      obtain ⟨S', ρ', g1, g2, g3, g4⟩ := h.kill (k := k) (d := d) hi hj (die := ρ j) (v := j) (win := ρ i) hj rfl (h.forest.idem i hi) (h.forest.rlt i hi)
        (Ne.symm hij) (Or.inr ⟨rfl, rfl⟩) (le_of_lt (hfl.lt_iff_lt.1 hlt)) f2
      rw [g1]
      exact ⟨S', true, ρ', rfl, g2, g4⟩
    · rw [if_neg hlt]
      obtain ⟨S', ρ', g1, g2, g3, g4⟩ := h.kill (k := k) (d := d) hi hj (die := ρ i) (v := i) (win := ρ j) hi rfl (h.forest.idem j hj) (h.forest.rlt j hj)
        hij (Or.inl ⟨rfl, rfl⟩) (by rw [hfl.lt_iff_lt] at hlt; exact not_lt.1 hlt) f2
      rw [g1]
      exact ⟨S', true, ρ', rfl, g2, g4⟩

theorem loopPairs_spec {fl : T → K} (hfl : StrictMono fl) {N : Nat} {birth : Nat → T} : ∀ (es2 es1 : List (Nat × Nat × T)) (k : Nat) (S : State T) (ρ : Nat → Nat),
    Inv N birth es1 S ρ → (∀ e ∈ es2, e.1 < N ∧ e.2.1 < N) →
    ∃ S' ρ', loopPairs fl N es2 k S = .ok S' ∧ Inv N birth (es1 ++ es2) S' ρ' ∧ Ext (fun x => ∃ e ∈ es2, e.2.2 = x) S.pairs S'.pairs := by
  intro es2
  induction es2 with
  | nil => intro es1 k S ρ h _; exact ⟨S, ρ, rfl, by rw [List.append_nil]; exact h, Ext.refl _ _⟩
  | cons e es2 ih =>
    obtain ⟨i, j, d⟩ := e
    intro es1 k S ρ h hr
    have hij := hr (i, j, d) (by simp)
    obtain ⟨S1, m, ρ1, s1, s2, s3⟩ := stepPairs_spec hfl h (k := k) (d := d) hij.1 hij.2
    unfold loopPairs
    simp only at s1
    simp only [s1, bind_ok]
    have hcons : es1 ++ (i, j, d) :: es2 = (es1 ++ [(i, j, d)]) ++ es2 := by simp
    have hE : Ext (fun x => ∃ e ∈ (i, j, d) :: es2, e.2.2 = x) S.pairs S1.pairs := s3.mono (fun x hx => ⟨(i, j, d), by simp, hx.symm⟩)
    by_cases hb : m = true ∧ S1.nfinite + 1 = N
    · rw [if_pos hb]
      exact ⟨S1, ρ1, rfl, by rw [hcons]; exact s2.done hb.2 es2, hE⟩
    · rw [if_neg hb]
      obtain ⟨S', ρ', t1, t2, t3⟩ := ih _ (k + 1) S1 ρ1 s2 (fun e he => hr e (by simp [he]))
      refine ⟨S', ρ', t1, by rw [hcons]; exact t2, hE.trans (t3.mono ?_)⟩
      rintro x ⟨e, he, rfl⟩
      exact ⟨e, by simp [he], rfl⟩

theorem loopPairs_split {fl : T → K} (hfl : StrictMono fl) {N : Nat} {birth : Nat → T} (b : List (Nat × Nat × T)) (hb : ∀ e ∈ b, e.1 < N ∧ e.2.1 < N) :
    ∀ (a es1 : List (Nat × Nat × T)) (k : Nat) (S : State T) (ρ : Nat → Nat),
    Inv N birth es1 S ρ → (∀ e ∈ a, e.1 < N ∧ e.2.1 < N) →
    ∃ S' S1 ρ1, loopPairs fl N (a ++ b) k S = .ok S' ∧ Inv N birth (es1 ++ a) S1 ρ1 ∧ Ext (fun x => ∃ e ∈ b, e.2.2 = x) S1.pairs S'.pairs := by
  intro a
  induction a with
  | nil =>
    intro es1 k S ρ h _
    obtain ⟨S', ρ', h1, h2, h3⟩ := loopPairs_spec hfl b es1 k S ρ h hb
    exact ⟨S', S, ρ, h1, by rw [List.append_nil]; exact h, h3⟩
  | cons e a ih =>
    obtain ⟨i, j, d⟩ := e
    intro es1 k S ρ h hr
    have hij := hr (i, j, d) (by simp)
    obtain ⟨S1, m, ρ1, s1, s2, s3⟩ := stepPairs_spec hfl h (k := k) (d := d) hij.1 hij.2
    rw [List.cons_append]
    unfold loopPairs
    simp only at s1
    simp only [s1, bind_ok]
    have hcons : es1 ++ (i, j, d) :: a = (es1 ++ [(i, j, d)]) ++ a := by simp
    rw [hcons]
    by_cases hb : m = true ∧ S1.nfinite + 1 = N
    · rw [if_pos hb]
      exact ⟨S1, S1, ρ1, rfl, s2.done hb.2 a, Ext.refl _ _⟩
    · rw [if_neg hb]
      exact ih _ (k + 1) S1 ρ1 s2 (fun e he => hr e (by simp [he]))

end pairs

/-- the bars alive at `t` in a final list of bars extending one at which exactly the edges up to `t` were processed -/
theorem count_eq {N : Nat} {birth : Nat → T} {es1 es2 : List (Nat × Nat × T)} {S1 S : State T} {ρ1 : Nat → Nat} {t : T} (h1 : Inv N birth es1 S1 ρ1)
    (hle : ∀ e ∈ es1, e.2.2 ≤ t) (hgt : ∀ e ∈ es2, t < e.2.2) (hext : Ext (fun x => t < x) S1.pairs S.pairs) (s : T) :
    S.pairs.countP (fun q => decide (q.birth ≤ s) && (match q.death with | none => true | some d => decide (t < d))) = componentsHit N (es1 ++ es2) birth s t := by
  classical
  have hrel : linkedAt N (es1 ++ es2) t = linked N es1 := by
    funext a b
    apply propext
    unfold linkedAt linked
    constructor
    · rintro ⟨d, hd, hdt⟩
      rw [List.mem_append] at hd
      rcases hd with hd | hd
      · exact ⟨d, hd⟩
      · exact absurd (hgt _ hd) (not_lt.2 hdt)
    · rintro ⟨d, hd⟩
      exact ⟨d, List.mem_append_left _ hd, hle _ hd⟩
  have hlen : S.pairs.length = N := by rw [hext.1, h1.len]
  -- alive bars are the roots
  have hget : ∀ x : Fin N, ∃ q', S.pairs[x.val]? = some q' ∧ q'.birth = birth x ∧
      ((match q'.death with | none => true | some d => decide (t < d)) = true ↔ ρ1 x = x) := by
    intro x
    obtain ⟨q, q1, q2, q3, q4, q5, q6⟩ := h1.pair x x.2
    have hlt : x.val < S.pairs.length := by rw [hlen]; exact x.2
    obtain ⟨e, f⟩ := hext.2 x q _ q1 (List.getElem?_eq_getElem hlt)
    refine ⟨_, List.getElem?_eq_getElem hlt, e.trans q4, ?_⟩
    rw [← q5]
    rcases f with f | ⟨f, d, f', f''⟩
    · rw [f]
      rcases hd : q.death with _ | d
      · simp
      · obtain ⟨i, j, hm⟩ := q6 d hd
        simpa using hle _ hm
    · rw [f', f]; simpa using f''
  have hcount : S.pairs.countP (fun q => decide (q.birth ≤ s) && (match q.death with | none => true | some d => decide (t < d))) =
      Fintype.card {x : Fin N // birth x ≤ s ∧ ρ1 x = x} := by
    rw [Fintype.card_subtype]
    have : S.pairs = (List.finRange N).map (fun x : Fin N => S.pairs[x.val]'(by rw [hlen]; exact x.2)) := by
      apply List.ext_getElem
      · simp [hlen]
      · intro i h1 h2
        simp
    rw [this, List.countP_map, List.countP_eq_length_filter]
    rw [← List.toFinset_card_of_nodup ((List.nodup_finRange N).filter _)]
    congr 1
    ext x
    rw [List.mem_toFinset, List.mem_filter, Finset.mem_filter]
    obtain ⟨q', g1, g2, g3⟩ := hget x
    have e : S.pairs[x.val]'(by rw [hlen]; exact x.2) = q' := by
      have hlt : x.val < S.pairs.length := by rw [hlen]; exact x.2
      rw [List.getElem?_eq_getElem hlt] at g1
      exact Option.some.inj g1
    simp only [List.mem_finRange, true_and, Finset.mem_univ, Function.comp_apply, e, Bool.and_eq_true, decide_eq_true_eq, g2]
    rw [g3]
  rw [hcount]
  unfold componentsHit Components
  rw [hrel, ← Nat.card_eq_fintype_card]
  apply Nat.card_congr
  have hsound : ∀ x y : Fin N, Quot.mk (linked N es1) x = Quot.mk (linked N es1) y ↔ ρ1 x = ρ1 y := by
    intro x y
    rw [h1.conn]
    exact Quot.eq
  refine Equiv.ofBijective (fun x => ⟨Quot.mk _ x.1, x.1, x.2.1, rfl⟩) ⟨?_, ?_⟩
  · rintro ⟨x, hx1, hx2⟩ ⟨y, hy1, hy2⟩ e
    simp only [Subtype.mk.injEq] at e
    have := (hsound x y).1 e
    rw [hx2, hy2] at this
    exact Subtype.ext (Fin.ext this)
  · rintro ⟨c, v, hv, rfl⟩
    refine ⟨⟨⟨ρ1 v, h1.forest.rlt v v.2⟩, le_trans (h1.elder v v.2) hv, h1.forest.idem v v.2⟩, ?_⟩
    apply Subtype.ext
    show Quot.mk _ _ = Quot.mk _ v
    rw [hsound]
    exact h1.forest.idem v v.2

/-- a list of edges sorted by value splits at `t` -/
theorem split_at (t : T) : ∀ (es : List (Nat × Nat × T)), es.Pairwise (fun e f => e.2.2 ≤ f.2.2) →
    ∃ es1 es2, es = es1 ++ es2 ∧ (∀ e ∈ es1, e.2.2 ≤ t) ∧ (∀ e ∈ es2, t < e.2.2) := by
  intro es
  induction es with
  | nil => intro _; exact ⟨[], [], rfl, by simp, by simp⟩
  | cons e es ih =>
    intro h
    rw [List.pairwise_cons] at h
    by_cases he : e.2.2 ≤ t
    · obtain ⟨a, b, rfl, h1, h2⟩ := ih h.2
      refine ⟨e :: a, b, rfl, ?_, h2⟩
      intro f hf
      rw [List.mem_cons] at hf
      rcases hf with rfl | hf
      · exact he
      · exact h1 f hf
    · refine ⟨[], e :: es, rfl, by simp, ?_⟩
      intro f hf
      rw [List.mem_cons] at hf
      rcases hf with rfl | hf
      · exact not_le.1 he
      · exact lt_of_lt_of_le (not_le.1 he) (h.1 f hf)

end UF
end BATS
