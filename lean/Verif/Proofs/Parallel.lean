import Verif.Model.Parallel
import Verif.Proofs.ReduceMat
import Mathlib.Logic.Relation
import Mathlib.Tactic.Ring
import Mathlib.Tactic.Linarith

set_option linter.unusedSectionVars false
set_option linter.unusedSimpArgs false
set_option linter.unusedVariables false

/-! # Divide-and-conquer reduction: locality, invariants, confluence, termination -/

namespace BATS
namespace Par
open Reduction

variable {F : Type} [Field F] [DecidableEq F]

theorem lookup_mem {p : PMap} {i k : Nat} (h : p.lookup i = some k) : (i, k) ∈ p := by
  induction p with
  | nil => simp at h
  | cons q p ih =>
    obtain ⟨a, b⟩ := q
    rw [List.lookup_cons] at h
    by_cases e : i = a
    · subst e; simp at h; subst h; simp
    · have : (i == a) = false := by simpa using e
      rw [this] at h; exact List.mem_cons_of_mem _ (ih h)

theorem lookup_none {p : PMap} {i : Nat} (h : p.lookup i = none) (k : Nat) : (i, k) ∉ p := by
  induction p with
  | nil => simp
  | cons q p ih =>
    obtain ⟨a, b⟩ := q
    rw [List.lookup_cons] at h
    by_cases e : i = a
    · subst e; simp at h
    · have : (i == a) = false := by simpa using e
      rw [this] at h
      intro hm
      rcases List.mem_cons.1 hm with hm | hm
      · cases hm; exact e rfl
      · exact ih h hm

/-- the part of the work on the columns `a ≤ k < b` that is finished: `nz` lists the nonzero columns that are finished, with distinct last rows given by `p`; `rest` the
columns still to be done -/
structure Prog (a b : Nat) (cols : List (SVec F)) (p : PMap) (nz rest : List Nat) : Prop where
  inc : (nz ++ rest).Pairwise (· < ·)
  rng : ∀ k ∈ nz ++ rest, a ≤ k ∧ k < b
  cover : ∀ k, a ≤ k → k < b → cols.getD k [] ≠ [] → k ∈ nz ++ rest
  nonz : ∀ k ∈ nz, cols.getD k [] ≠ []
  keys : (p.map Prod.fst).Nodup
  tab : ∀ i k, (i, k) ∈ p ↔ k ∈ nz ∧ low (cols.getD k []) = some i

/-- the two lists have the same columns `a ≤ k < b` -/
def Agree (a b : Nat) (M N : List (SVec F)) : Prop := ∀ k, a ≤ k → k < b → N.getD k [] = M.getD k []

theorem Prog.congr {a b : Nat} {M N : List (SVec F)} {p : PMap} {nz rest : List Nat} (h : Prog a b M p nz rest) (e : Agree a b M N) : Prog a b N p nz rest := by
  refine ⟨h.inc, h.rng, ?_, ?_, h.keys, ?_⟩
  · intro k h1 h2 h3; rw [e k h1 h2] at h3; exact h.cover k h1 h2 h3
  · intro k hk
    have := h.rng k (List.mem_append_left _ hk)
    rw [e k this.1 this.2]; exact h.nonz k hk
  · intro i k
    rw [h.tab]
    refine and_congr_right fun hk => ?_
    have := h.rng k (List.mem_append_left _ hk)
    rw [e k this.1 this.2]

/-- a column addition: column `j` plus `e` times column `k` -/
def app : Option (Nat × Nat × F) → List (SVec F) → List (SVec F)
  | none, M => M
  | some (j, k, e), M => M.set j (SVec.axpy e (M.getD k []) (M.getD j []))

/-- the column addition adds an earlier to a later column, both in the range -/
def OpIn (a b : Nat) : Option (Nat × Nat × F) → Prop
  | none => True
  | some (j, k, _) => a ≤ k ∧ k < j ∧ j < b

theorem OpIn.mono {a b a' b' : Nat} {o : Option (Nat × Nat × F)} (h : OpIn a b o) (ha : a' ≤ a) (hb : b ≤ b') : OpIn a' b' o := by
  cases o with
  | none => trivial
  | some o =>
    obtain ⟨j, k, e⟩ := o
    have h : a ≤ k ∧ k < j ∧ j < b := h
    exact ⟨by omega, h.2.1, by omega⟩

theorem app_length (o : Option (Nat × Nat × F)) (M : List (SVec F)) : (app o M).length = M.length := by
  cases o with
  | none => rfl
  | some o => obtain ⟨j, k, e⟩ := o; simp [app]

theorem app_outside {a b : Nat} {o : Option (Nat × Nat × F)} (h : OpIn a b o) (M : List (SVec F)) (k : Nat) (hk : k < a ∨ b ≤ k) : (app o M).getD k [] = M.getD k [] := by
  cases o with
  | none => rfl
  | some o =>
    obtain ⟨j, l, e⟩ := o
    have h : a ≤ l ∧ l < j ∧ j < b := h
    exact getD_set_ne _ _ (by omega)

theorem app_agree {a b : Nat} {o : Option (Nat × Nat × F)} (h : OpIn a b o) {M N : List (SVec F)} (e : Agree a b M N) (hM : b ≤ M.length) (hN : b ≤ N.length) :
    Agree a b (app o M) (app o N) := by
  cases o with
  | none => exact e
  | some o =>
    obtain ⟨j, l, x⟩ := o
    have h : a ≤ l ∧ l < j ∧ j < b := h
    intro k h1 h2
    unfold app
    rw [getD_set _ _ (by omega), getD_set _ _ (by omega), e l h.1 (by omega), e j (by omega) h.2.2, e k h1 h2]

theorem app_comm {a c b : Nat} {o1 o2 : Option (Nat × Nat × F)} (h1 : OpIn a c o1) (h2 : OpIn c b o2) (M : List (SVec F)) : app o1 (app o2 M) = app o2 (app o1 M) := by
  cases o1 with
  | none => rfl
  | some o1 =>
    cases o2 with
    | none => rfl
    | some o2 =>
      obtain ⟨j1, k1, e1⟩ := o1
      obtain ⟨j2, k2, e2⟩ := o2
      have h1 : a ≤ k1 ∧ k1 < j1 ∧ j1 < c := h1
      have h2 : c ≤ k2 ∧ k2 < j2 ∧ j2 < b := h2
      simp only [app]
      rw [getD_set_ne (i := j2) (j := k1) _ _ (by omega), getD_set_ne (i := j2) (j := j1) _ _ (by omega), getD_set_ne (i := j1) (j := k2) _ _ (by omega),
        getD_set_ne (i := j1) (j := j2) _ _ (by omega)]
      exact List.set_comm _ _ (by omega)

theorem app_colsOK {m : Nat} {M : List (SVec F)} (h : ColsOK m M) (o : Option (Nat × Nat × F)) : ColsOK m (app o M) := by
  cases o with
  | none => exact h
  | some o =>
    obtain ⟨j, k, e⟩ := o
    exact h.set j ⟨vecOK_axpy _ (h.getD k).1 (h.getD j).1, below_axpy _ (h.getD k).2 (h.getD j).2⟩

theorem app_applied {n : Nat} {M0 M : List (SVec F)} {V : Nat → Nat → F} (hV : UnitUpper V) (hA : Applied V n M0 M) (hl : M.length = n) {a b : Nat} (hb : b ≤ n)
    {o : Option (Nat × Nat × F)} (h : OpIn a b o) : ∃ V', UnitUpper V' ∧ Applied V' n M0 (app o M) := by
  cases o with
  | none => exact ⟨V, hV, hA⟩
  | some o =>
    obtain ⟨j, k, e⟩ := o
    have h : a ≤ k ∧ k < j ∧ j < b := h
    exact ⟨_, unitUpper_addCol hV h.2.1 e, applied_addCol hA hl (by omega) (by omega) e⟩

/-- one more than the last row of a column -/
def hgt (c : SVec F) : Nat := match low c with | some i => i + 1 | none => 0

theorem hgt_le {m : Nat} {c : SVec F} (h : Below m c) : hgt c ≤ m := by
  unfold hgt
  cases e : low c with
  | none => exact Nat.zero_le _
  | some i => exact low_lt h e

theorem hgt_lt {c c' : SVec F} {i : Nat} (hc : low c = some i) (hc' : VecOK c') (h : ∀ k, i ≤ k → coef c' k = 0) : hgt c' < hgt c := by
  unfold hgt
  rw [hc]
  cases e : low c' with
  | none => simp
  | some k =>
    have := ((low_iff hc' k).1 e).1
    have : ¬ i ≤ k := fun hh => this (h k hh)
    show k + 1 < i + 1
    omega

/-- one iteration -/
theorem colIter_spec {m a b : Nat} {cols : List (SVec F)} {p : PMap} {j : Nat} {nz rest : List Nat} (hP : Prog a b cols p nz (j :: rest)) (hok : ColsOK m cols)
    (hb : b ≤ cols.length) :
    (∃ (k : Nat) (e : F), k ∈ nz ∧ a ≤ k ∧ k < j ∧ j < b ∧ (∀ N, b ≤ N.length → Agree a b cols N → colIter j N p = .ok (app (some (j, k, e)) N, none)) ∧
      Prog a b (app (some (j, k, e)) cols) p nz (j :: rest) ∧ hgt ((app (some (j, k, e)) cols).getD j []) < hgt (cols.getD j [])) ∨
    (∃ p', (∀ N, b ≤ N.length → Agree a b cols N → colIter j N p = .ok (N, some p')) ∧
      Prog a b cols p' (if (cols.getD j []).isEmpty then nz else nz ++ [j]) rest) := by
  have hj := hP.rng j (by simp)
  have hokj := hok.getD j
  have hjr : ∀ k ∈ nz, k < j := by
    intro k hk
    have := (List.pairwise_append.1 hP.inc).2.2 k hk j (by simp)
    exact this
  by_cases hempty : cols.getD j [] = []
  · refine Or.inr ⟨p, ?_, ?_⟩
    · intro N hN e
      unfold colIter
      rw [rd_getD [] (by omega : j < N.length)]
      simp only [bind_ok]
      rw [e j hj.1 hj.2, hempty]
      rfl
    · rw [hempty]
      simp only [List.isEmpty_nil, if_true]
      refine ⟨hP.inc.sublist (List.Sublist.append_left (List.sublist_cons_self _ _) _), ?_, ?_, hP.nonz, hP.keys, hP.tab⟩
      · intro k hk
        rcases List.mem_append.1 hk with hk | hk
        · exact hP.rng k (List.mem_append_left _ hk)
        · exact hP.rng k (List.mem_append_right _ (List.mem_cons_of_mem _ hk))
      · intro k h1 h2 h3
        rcases List.mem_append.1 (hP.cover k h1 h2 h3) with hk | hk
        · exact List.mem_append_left _ hk
        · rcases List.mem_cons.1 hk with rfl | hk
          · exact absurd hempty h3
          · exact List.mem_append_right _ hk
  · have hne : (cols.getD j []).isEmpty = false := by rw [List.isEmpty_eq_false_iff]; exact hempty
    obtain ⟨piv, hpiv⟩ : ∃ piv, piv = (cols.getD j []).getLast hempty := ⟨_, rfl⟩
    have hlast : SVec.lastnz (cols.getD j []) = .ok piv := by rw [lastnz_ok hempty, hpiv]
    have hlow : low (cols.getD j []) = some piv.1 := low_eq_some.2 ⟨hempty, by rw [hpiv]⟩
    cases hl : p.lookup piv.1 with
    | none =>
      refine Or.inr ⟨(piv.1, j) :: p, ?_, ?_⟩
      · intro N hN e
        unfold colIter
        rw [rd_getD [] (by omega : j < N.length)]
        simp only [bind_ok]
        rw [e j hj.1 hj.2, hne]
        simp only [Bool.false_eq_true, if_false]
        rw [hlast]
        simp only [bind_ok]
        rw [hl]
      · rw [hne]
        simp only [Bool.false_eq_true, if_false]
        refine ⟨?_, ?_, ?_, ?_, ?_, ?_⟩
        · rw [List.append_assoc]; exact hP.inc
        · rw [List.append_assoc]; exact hP.rng
        · rw [List.append_assoc]; exact hP.cover
        · intro k hk
          rcases List.mem_append.1 hk with hk | hk
          · exact hP.nonz k hk
          · rw [List.mem_singleton] at hk; subst hk; exact hempty
        · rw [List.map_cons, List.nodup_cons]
          refine ⟨?_, hP.keys⟩
          intro hm
          obtain ⟨⟨i, k⟩, hm, e⟩ := List.mem_map.1 hm
          simp at e; subst e
          exact lookup_none hl k hm
        · intro i k
          rw [List.mem_cons]
          constructor
          · rintro (h | h)
            · cases h; exact ⟨by simp, hlow⟩
            · exact ⟨List.mem_append_left _ ((hP.tab i k).1 h).1, ((hP.tab i k).1 h).2⟩
          · rintro ⟨h1, h2⟩
            rcases List.mem_append.1 h1 with h1 | h1
            · exact Or.inr ((hP.tab i k).2 ⟨h1, h2⟩)
            · rw [List.mem_singleton] at h1; subst h1
              rw [hlow] at h2; cases h2; exact Or.inl rfl
    | some k =>
      have hmem := (hP.tab _ _).1 (lookup_mem hl)
      have hkr := hP.rng k (List.mem_append_left _ hmem.1)
      have hkj := hjr k hmem.1
      obtain ⟨hkne, hkl⟩ := low_eq_some.1 hmem.2
      have hokk := hok.getD k
      obtain ⟨pk, hpk⟩ : ∃ pk, pk = (cols.getD k []).getLast hkne := ⟨_, rfl⟩
      have hlastk : SVec.lastnz (cols.getD k []) = .ok pk := by rw [lastnz_ok hkne, hpk]
      have hpk0 : pk.2 ≠ 0 := by rw [hpk]; exact hokk.1.2 _ (List.getLast_mem hkne)
      have hcoef : ∀ i, piv.1 ≤ i → coef (SVec.axpy (-(piv.2 / pk.2)) (cols.getD k []) (cols.getD j [])) i = 0 := by
        intro i hi
        rw [coef_axpy]
        rcases Nat.lt_or_ge piv.1 i with h | h
        · rw [hokj.1.1.coef_gt_getLast hempty (by rw [← hpiv]; exact h), hokk.1.1.coef_gt_getLast hkne (by omega)]; simp
        · have : i = piv.1 := by omega
          subst this
          have e1 : coef (cols.getD j []) piv.1 = piv.2 := by rw [hpiv]; exact hokj.1.1.coef_getLast hempty
          have e2 : coef (cols.getD k []) piv.1 = pk.2 := by rw [← hkl, hpk]; exact hokk.1.1.coef_getLast hkne
          rw [e1, e2, neg_mul, div_mul_cancel₀ _ hpk0]
          exact add_neg_cancel _
      have hop : OpIn a b (some (j, k, -(piv.2 / pk.2))) := ⟨hkr.1, hkj, hj.2⟩
      have hnew : (app (some (j, k, -(piv.2 / pk.2))) cols).getD j [] = SVec.axpy (-(piv.2 / pk.2)) (cols.getD k []) (cols.getD j []) :=
        getD_set_self _ _ (by omega)
      have hother : ∀ l, l ≠ j → (app (some (j, k, -(piv.2 / pk.2))) cols).getD l [] = cols.getD l [] :=
        fun l hl => getD_set_ne _ _ (fun e => hl e.symm)
      refine Or.inl ⟨k, -(piv.2 / pk.2), hmem.1, hkr.1, hkj, hj.2, ?_, ?_, ?_⟩
      · intro N hN e
        unfold colIter
        rw [rd_getD [] (by omega : j < N.length)]
        simp only [bind_ok]
        rw [e j hj.1 hj.2, hne]
        simp only [Bool.false_eq_true, if_false]
        rw [hlast]
        simp only [bind_ok]
        rw [hl]
        simp only
        rw [rd_getD [] (by omega : k < N.length)]
        simp only [bind_ok]
        rw [e k hkr.1 hkr.2, hlastk]
        simp only [bind_ok]
        unfold CMat.fdiv
        rw [if_neg hpk0]
        simp only [bind_ok]
        simp only [app]
        rw [e k hkr.1 hkr.2, e j hj.1 hj.2]
      · refine ⟨hP.inc, hP.rng, ?_, ?_, hP.keys, ?_⟩
        · intro l h1 h2 h3
          by_cases hlj : l = j
          · subst hlj; simp
          · rw [hother l hlj] at h3; exact hP.cover l h1 h2 h3
        · intro l hl'
          rw [hother l (by have := hjr l hl'; omega)]; exact hP.nonz l hl'
        · intro i l
          rw [hP.tab]
          refine and_congr_right fun hl' => ?_
          rw [hother l (by have := hjr l hl'; omega)]
      · rw [hnew]
        exact hgt_lt hlow (vecOK_axpy _ hokk.1 hokj.1) hcoef

/-! ### steps -/

/-- what is true of a task working on the columns `a ≤ k < b` -/
def TInv (cols : List (SVec F)) : Task → Nat → Nat → Prop
  | .block j0 j1 _, a, b => j0 = a ∧ j1 = b ∧ a ≤ b
  | .seq j j1 p nz, a, b => a ≤ b ∧ j1 = b ∧ j ≤ j1 ∧ Prog a b cols p nz (List.range' j (j1 - j))
  | .fork l r, a, b => ∃ c, a ≤ c ∧ c ≤ b ∧ TInv cols l a c ∧ TInv cols r c b
  | .merge rest p nz, a, b => a ≤ b ∧ Prog a b cols p nz rest
  | .done p nz, a, b => a ≤ b ∧ Prog a b cols p nz []

theorem TInv.congr {M N : List (SVec F)} : ∀ {t : Task} {a b : Nat}, TInv M t a b → Agree a b M N → TInv N t a b := by
  intro t
  induction t with
  | block j0 j1 lv => intro a b h _; exact h
  | seq j j1 p nz => intro a b h e; exact ⟨h.1, h.2.1, h.2.2.1, h.2.2.2.congr e⟩
  | merge rest p nz => intro a b h e; exact ⟨h.1, h.2.congr e⟩
  | done p nz => intro a b h e; exact ⟨h.1, h.2.congr e⟩
  | fork l r hl hr =>
    rintro a b ⟨c, h1, h2, h3, h4⟩ e
    exact ⟨c, h1, h2, hl h3 (fun k x y => e k x (by omega)), hr h4 (fun k x y => e k (by omega) y)⟩

/-- number of columns a task may still return as nonzero -/
def size : Task → Nat
  | .block j0 j1 _ => j1 - j0
  | .seq j j1 _ nz => nz.length + (j1 - j)
  | .fork l r => size l + size r
  | .merge rest _ nz => nz.length + rest.length
  | .done _ nz => nz.length

def work (cols : List (SVec F)) (rest : List Nat) : Nat := (rest.map (fun j => 1 + hgt (cols.getD j []))).sum

/-- bound on the number of steps left -/
def mu (m md : Nat) (cols : List (SVec F)) : Task → Nat
  | .block j0 j1 lv => 4 ^ (md + 2 - lv) * (4 + (j1 - j0) * (m + 1))
  | .seq j j1 _ _ => 1 + work cols (List.range' j (j1 - j))
  | .fork l r => mu m md cols l + mu m md cols r + 2 + size r * (m + 1)
  | .merge rest _ _ => 1 + work cols rest
  | .done _ _ => 0

theorem work_le {m : Nat} {cols : List (SVec F)} (h : ColsOK m cols) (rest : List Nat) : work cols rest ≤ rest.length * (m + 1) := by
  unfold work
  induction rest with
  | nil => simp
  | cons j rest ih =>
    rw [List.map_cons, List.sum_cons, List.length_cons, Nat.add_mul, Nat.one_mul]
    have := hgt_le (h.getD j).2
    omega

theorem work_congr {M N : List (SVec F)} {rest : List Nat} (h : ∀ k ∈ rest, N.getD k [] = M.getD k []) : work N rest = work M rest := by
  unfold work
  congr 1
  exact List.map_congr_left (fun k hk => by rw [h k hk])

theorem work_dec {M N : List (SVec F)} {j : Nat} {rest : List Nat} (h : ∀ k ∈ rest, N.getD k [] = M.getD k []) (hj : hgt (N.getD j []) < hgt (M.getD j [])) :
    work N (j :: rest) < work M (j :: rest) := by
  have := work_congr h
  unfold work at *
  rw [List.map_cons, List.map_cons, List.sum_cons, List.sum_cons, this]
  omega

theorem mu_congr {m md : Nat} {M N : List (SVec F)} : ∀ {t : Task} {a b : Nat}, TInv M t a b → Agree a b M N → mu m md N t = mu m md M t := by
  intro t
  induction t with
  | block j0 j1 lv => intro a b _ _; rfl
  | seq j j1 p nz =>
    intro a b h e
    unfold mu
    rw [work_congr]
    intro k hk
    have := h.2.2.2.rng k (List.mem_append_right _ hk)
    exact e k this.1 this.2
  | merge rest p nz =>
    intro a b h e
    unfold mu
    rw [work_congr]
    intro k hk
    have := h.2.rng k (List.mem_append_right _ hk)
    exact e k this.1 this.2
  | done p nz => intro a b _ _; rfl
  | fork l r hl hr =>
    rintro a b ⟨c, h1, h2, h3, h4⟩ e
    unfold mu
    rw [hl h3 (fun k x y => e k x (by omega)), hr h4 (fun k x y => e k (by omega) y)]

variable {mbs md : Nat}

theorem step_fork_join {q : List Bool} {l r : Task} {M : List (SVec F)} {x y : PMap × List Nat} (hl : l.result = some x) (hr : r.result = some y) :
    step mbs md q (.fork l r) M = some (.ok (.merge y.2 x.1 x.2, M)) := by
  unfold step
  rw [hl, hr]

theorem step_fork {q : List Bool} {l r : Task} {M : List (SVec F)} (h : l.result = none ∨ r.result = none) :
    step mbs md (false :: q) (.fork l r) M = (step mbs md q l M).map (fun x => x.map (fun y => (.fork y.1 r, y.2))) ∧
    step mbs md (true :: q) (.fork l r) M = (step mbs md q r M).map (fun x => x.map (fun y => (.fork l y.1, y.2))) ∧
    step mbs md [] (.fork l r) M = none := by
  rcases h with h | h
  · refine ⟨?_, ?_, ?_⟩ <;> (rw [step.eq_def]; simp only [h])
  · cases e : l.result with
    | none => refine ⟨?_, ?_, ?_⟩ <;> (rw [step.eq_def]; simp only [h, e])
    | some x => refine ⟨?_, ?_, ?_⟩ <;> (rw [step.eq_def]; simp only [h, e])

theorem result_none_of_step {q : List Bool} {t : Task} {M : List (SVec F)} {x} (h : step mbs md q t M = some x) : t.result = none := by
  cases t with
  | done p nz => simp [step] at h
  | _ => rfl

theorem iterate_spec {m a b : Nat} {cols : List (SVec F)} {p : PMap} {j : Nat} {nz rest : List Nat} (hP : Prog a b cols p nz (j :: rest)) (hok : ColsOK m cols)
    (hb : b ≤ cols.length) (again : Task) (next : PMap → List Nat → Task) :
    (∃ (k : Nat) (e : F), OpIn a b (some (j, k, e)) ∧
      (∀ N, b ≤ N.length → Agree a b cols N → iterate j N p nz again next = .ok (again, app (some (j, k, e)) N)) ∧
      Prog a b (app (some (j, k, e)) cols) p nz (j :: rest) ∧ work (app (some (j, k, e)) cols) (j :: rest) < work cols (j :: rest)) ∨
    (∃ p' nz', (∀ N, b ≤ N.length → Agree a b cols N → iterate j N p nz again next = .ok (next p' nz', N)) ∧
      Prog a b cols p' nz' rest ∧ nz'.length ≤ nz.length + 1) := by
  have hj := hP.rng j (by simp)
  rcases colIter_spec hP hok hb with ⟨k, e, _, h2, h3, h4, h5, h6, h7⟩ | ⟨p', h1, h2⟩
  · refine Or.inl ⟨k, e, ⟨h2, h3, h4⟩, ?_, h6, work_dec ?_ h7⟩
    · intro N hN hA
      unfold iterate
      rw [h5 N hN hA]
      rfl
    · intro l hl
      have := List.rel_of_pairwise_cons (List.pairwise_append.1 hP.inc).2.1 hl
      exact getD_set_ne _ _ (by omega)
  · refine Or.inr ⟨p', _, ?_, h2, ?_⟩
    · intro N hN hA
      unfold iterate
      rw [h1 N hN hA]
      simp only [bind_ok]
      rw [rd_getD [] (by omega : j < N.length), hA j hj.1 hj.2]
      rfl
    · split
      · omega
      · simp

/-- One step of any task: it never fails; it performs at most one addition of an earlier to a later column of the range of the task; what it does depends only on
the columns of the range; the invariant is kept, and the bound on the number of steps left decreases. -/
theorem step_spec {m : Nat} : ∀ {t : Task} {q : List Bool} {a b : Nat} {cols : List (SVec F)}, TInv cols t a b → ColsOK m cols → b ≤ cols.length → ∀ {x},
    step mbs md q t cols = some x → ∃ (t' : Task) (o : Option (Nat × Nat × F)), OpIn a b o ∧ x = .ok (t', app o cols) ∧
      (∀ N, b ≤ N.length → Agree a b cols N → step mbs md q t N = some (.ok (t', app o N))) ∧ TInv (app o cols) t' a b ∧
      mu m md (app o cols) t' < mu m md cols t ∧ size t' ≤ size t := by
  intro t
  induction t with
  | block j0 j1 lv =>
    rintro q a b cols ⟨rfl, rfl, hab⟩ hok hb x hx
    by_cases hc : j1 - j0 < mbs ∨ md < lv
    · have hs : ∀ N : List (SVec F), step mbs md q (.block j0 j1 lv) N = some (.ok (.seq j0 j1 [] [], N)) := fun N => by unfold step; rw [if_pos hc]
      rw [hs] at hx; cases hx
      refine ⟨_, none, trivial, rfl, fun N _ _ => hs N, ⟨hab, rfl, hab, ?_⟩, ?_, ?_⟩
      · refine ⟨List.pairwise_lt_range', ?_, ?_, by simp, by simp, by simp⟩
        · intro k hk
          simp only [List.nil_append, List.mem_range'_1] at hk
          omega
        · intro k h1 h2 _
          simp only [List.nil_append, List.mem_range'_1]
          omega
      · unfold mu
        have h1 := work_le hok (List.range' j0 (j1 - j0))
        rw [List.length_range'] at h1
        have h2 : 1 ≤ 4 ^ (md + 2 - lv) := Nat.one_le_pow _ _ (by omega)
        have h3 := Nat.mul_le_mul_right (4 + (j1 - j0) * (m + 1)) h2
        show 1 + work cols _ < _
        omega
      · unfold size; simp
    · have hs : ∀ N : List (SVec F), step mbs md q (.block j0 j1 lv) N =
          some (.ok (.fork (.block j0 ((j0 + j1) / 2) (lv + 1)) (.block ((j0 + j1) / 2) j1 (lv + 1)), N)) := fun N => by unfold step; rw [if_neg hc]
      rw [hs] at hx; cases hx
      push Not at hc
      refine ⟨_, none, trivial, rfl, fun N _ _ => hs N, ⟨(j0 + j1) / 2, by omega, by omega, ⟨rfl, rfl, by omega⟩, ⟨rfl, rfl, by omega⟩⟩, ?_, ?_⟩
      · simp only [mu, size]
        obtain ⟨e, he⟩ : ∃ e, e = md + 2 - (lv + 1) := ⟨_, rfl⟩
        have h1 : md + 2 - lv = e + 1 := by omega
        rw [← he, h1, Nat.pow_succ]
        have h2 : 1 ≤ 4 ^ e := Nat.one_le_pow _ _ (by omega)
        have h3 : j1 - j0 = ((j0 + j1) / 2 - j0) + (j1 - (j0 + j1) / 2) := by omega
        rw [h3]
        generalize (j0 + j1) / 2 - j0 = s
        generalize j1 - (j0 + j1) / 2 = u
        generalize 4 ^ e = w at *
        have e1 : w * 4 * (4 + (s + u) * (m + 1)) = 16 * w + 4 * (w * (s * (m + 1))) + 4 * (w * (u * (m + 1))) := by ring
        have e2 : w * (4 + s * (m + 1)) = 4 * w + w * (s * (m + 1)) := by ring
        have e3 : w * (4 + u * (m + 1)) = 4 * w + w * (u * (m + 1)) := by ring
        rw [e1, e2, e3]
        have := Nat.le_mul_of_pos_left (u * (m + 1)) h2
        omega
      · unfold size
        unfold size
        omega
  | seq j j1 p nz =>
    rintro q a b cols ⟨hab, rfl, hj, hP⟩ hok hb x hx
    by_cases hc : j < j1
    · have hr : List.range' j (j1 - j) = j :: List.range' (j + 1) (j1 - (j + 1)) := by
        have : j1 - j = (j1 - (j + 1)) + 1 := by omega
        rw [this, List.range'_succ]
      have hs : ∀ N : List (SVec F), step mbs md q (.seq j j1 p nz) N = some (iterate j N p nz (.seq j j1 p nz) (fun p' nz' => .seq (j + 1) j1 p' nz')) :=
        fun N => by unfold step; rw [if_pos hc]
      rw [hr] at hP
      rw [hs] at hx; cases hx
      rcases iterate_spec hP hok hb (.seq j j1 p nz) (fun p' nz' => .seq (j + 1) j1 p' nz') with ⟨k, e, h1, h2, h3, h4⟩ | ⟨p', nz', h1, h2, h3⟩
      · refine ⟨_, some (j, k, e), h1, h2 cols hb (fun _ _ _ => rfl), fun N hN hA => by rw [hs, h2 N hN hA], ⟨hab, rfl, hj, by rw [hr]; exact h3⟩, ?_, le_refl _⟩
        unfold mu
        rw [hr]
        exact Nat.add_lt_add_left h4 1
      · refine ⟨_, none, trivial, h1 cols hb (fun _ _ _ => rfl), fun N hN hA => by rw [hs, h1 N hN hA]; rfl, ⟨hab, rfl, hc, h2⟩, ?_, ?_⟩
        · unfold mu
          rw [hr]
          show 1 + work cols _ < 1 + work cols (j :: _)
          unfold work
          rw [List.map_cons, List.sum_cons]
          omega
        · unfold size; omega
    · have hs : ∀ N : List (SVec F), step mbs md q (.seq j j1 p nz) N = some (.ok (.done p nz, N)) := fun N => by unfold step; rw [if_neg hc]
      rw [hs] at hx; cases hx
      refine ⟨_, none, trivial, rfl, fun N _ _ => hs N, ⟨hab, ?_⟩, ?_, ?_⟩
      · have : j1 - j = 0 := by omega
        rw [this] at hP; exact hP
      · show 0 < 1 + _; omega
      · unfold size; omega
  | merge rest p nz =>
    rintro q a b cols ⟨hab, hP⟩ hok hb x hx
    cases rest with
    | nil =>
      have hs : ∀ N : List (SVec F), step mbs md q (.merge [] p nz) N = some (.ok (.done p nz, N)) := fun N => by unfold step; rfl
      rw [hs] at hx; cases hx
      refine ⟨_, none, trivial, rfl, fun N _ _ => hs N, ⟨hab, hP⟩, ?_, ?_⟩
      · show 0 < 1 + _; omega
      · unfold size; omega
    | cons j rest =>
      have hs : ∀ N : List (SVec F), step mbs md q (.merge (j :: rest) p nz) N = some (iterate j N p nz (.merge (j :: rest) p nz) (fun p' nz' => .merge rest p' nz')) :=
        fun N => by unfold step; rfl
      rw [hs] at hx; cases hx
      rcases iterate_spec hP hok hb (.merge (j :: rest) p nz) (fun p' nz' => .merge rest p' nz') with ⟨k, e, h1, h2, h3, h4⟩ | ⟨p', nz', h1, h2, h3⟩
      · exact ⟨_, some (j, k, e), h1, h2 cols hb (fun _ _ _ => rfl), fun N hN hA => by rw [hs, h2 N hN hA], ⟨hab, h3⟩, Nat.add_lt_add_left h4 1, le_refl _⟩
      · refine ⟨_, none, trivial, h1 cols hb (fun _ _ _ => rfl), fun N hN hA => by rw [hs, h1 N hN hA]; rfl, ⟨hab, h2⟩, ?_, ?_⟩
        · show 1 + work cols rest < 1 + work cols (j :: rest)
          unfold work
          rw [List.map_cons, List.sum_cons]
          omega
        · unfold size; rw [List.length_cons]; omega
  | done p nz => intro q a b cols _ _ _ x hx; simp [step] at hx
  | fork l r ihl ihr =>
    rintro q a b cols ⟨c, h1, h2, h3, h4⟩ hok hb x hx
    by_cases hd : l.result = none ∨ r.result = none
    · have hf := fun (N : List (SVec F)) (q : List Bool) => step_fork (mbs := mbs) (md := md) (q := q) (M := N) hd
      cases q with
      | nil => rw [(hf cols []).2.2] at hx; cases hx
      | cons d q =>
        cases d with
        | false =>
          rw [(hf cols q).1] at hx
          cases hy : step mbs md q l cols with
          | none => rw [hy] at hx; cases hx
          | some y =>
            rw [hy] at hx; cases hx
            obtain ⟨t', o, g1, g2, g3, g4, g5, g6⟩ := ihl h3 hok (by omega) hy
            have hop : OpIn a b o := OpIn.mono g1 (le_refl _) h2
            refine ⟨.fork t' r, o, hop, by rw [g2]; rfl, ?_, ⟨c, h1, h2, g4, h4.congr ?_⟩, ?_, ?_⟩
            · intro N hN hA
              rw [(hf N q).1, g3 N (by omega) (fun k x y => hA k x (by omega))]
              rfl
            · intro k x y; exact app_outside g1 cols k (Or.inr x)
            · unfold mu
              rw [mu_congr (N := app o cols) h4 (fun k x y => app_outside g1 cols k (Or.inr x))]
              omega
            · unfold size; omega
        | true =>
          rw [(hf cols q).2.1] at hx
          cases hy : step mbs md q r cols with
          | none => rw [hy] at hx; cases hx
          | some y =>
            rw [hy] at hx; cases hx
            obtain ⟨t', o, g1, g2, g3, g4, g5, g6⟩ := ihr h4 hok hb hy
            have hop : OpIn a b o := OpIn.mono g1 h1 (le_refl _)
            refine ⟨.fork l t', o, hop, by rw [g2]; rfl, ?_, ⟨c, h1, h2, h3.congr ?_, g4⟩, ?_, ?_⟩
            · intro N hN hA
              rw [(hf N q).2.1, g3 N hN (fun k x y => hA k (by omega) y)]
              rfl
            · intro k x y; exact app_outside g1 cols k (Or.inl y)
            · unfold mu
              rw [mu_congr (N := app o cols) h3 (fun k x y => app_outside g1 cols k (Or.inl y))]
              have := Nat.mul_le_mul_right (m + 1) g6
              omega
            · unfold size; omega
    · push Not at hd
      obtain ⟨p1, n1, rfl⟩ : ∃ p nz, l = .done p nz := by cases l <;> simp [Task.result] at hd ⊢
      obtain ⟨p2, n2, rfl⟩ : ∃ p nz, r = .done p nz := by cases r <;> simp [Task.result] at hd ⊢
      have hs : ∀ N : List (SVec F), step mbs md q (.fork (.done p1 n1) (.done p2 n2)) N = some (.ok (.merge n2 p1 n1, N)) := fun N => step_fork_join (x := (p1, n1)) (y := (p2, n2)) rfl rfl
      rw [hs] at hx; cases hx
      obtain ⟨hac, hP1⟩ := h3
      obtain ⟨hcb, hP2⟩ := h4
      refine ⟨_, none, trivial, rfl, fun N _ _ => hs N, ⟨by omega, ?_⟩, ?_, ?_⟩
      · have e1 := hP1.rng; have e2 := hP2.rng
        simp only [List.append_nil] at e1 e2
        refine ⟨List.pairwise_append.2 ⟨by simpa using hP1.inc, by simpa using hP2.inc, ?_⟩, ?_, ?_, hP1.nonz, hP1.keys, hP1.tab⟩
        · intro x hx y hy
          have := e1 x hx; have := e2 y hy; omega
        · intro k hk
          rcases List.mem_append.1 hk with hk | hk
          · have := e1 k hk; omega
          · have := e2 k hk; omega
        · intro k g1 g2 g3
          rcases Nat.lt_or_ge k c with h | h
          · have := hP1.cover k g1 h g3
            rw [List.append_nil] at this
            exact List.mem_append_left _ this
          · have := hP2.cover k h g2 g3
            rw [List.append_nil] at this
            exact List.mem_append_right _ this
      · have := work_le hok n2
        show 1 + work cols n2 < 0 + 0 + 2 + n2.length * (m + 1)
        omega
      · exact le_refl _

/-! ### executions -/

/-- a state of the computation: the tasks and the columns -/
abbrev State (F : Type) := Task × List (SVec F)

/-- one step of some task -/
def Step (mbs md : Nat) (s s' : State F) : Prop := ∃ q, step mbs md q s.1 s.2 = some (.ok s')

theorem step_progress {t : Task} (h : t.result = none) (M : List (SVec F)) : ∃ q x, step mbs md q t M = some x := by
  induction t with
  | done p nz => cases h
  | block j0 j1 lv => refine ⟨[], ?_⟩; unfold step; split <;> exact ⟨_, rfl⟩
  | seq j j1 p nz => refine ⟨[], ?_⟩; unfold step; split <;> exact ⟨_, rfl⟩
  | merge rest p nz => refine ⟨[], ?_⟩; cases rest <;> (unfold step; exact ⟨_, rfl⟩)
  | fork l r ihl ihr =>
    by_cases hl : l.result = none
    · obtain ⟨q, x, hx⟩ := ihl hl
      exact ⟨false :: q, _, by rw [(step_fork (Or.inl hl)).1, hx]; rfl⟩
    · by_cases hr : r.result = none
      · obtain ⟨q, x, hx⟩ := ihr hr
        exact ⟨true :: q, _, by rw [(step_fork (Or.inr hr)).2.1, hx]; rfl⟩
      · obtain ⟨x, hx⟩ := Option.ne_none_iff_exists'.1 hl
        obtain ⟨y, hy⟩ := Option.ne_none_iff_exists'.1 hr
        exact ⟨[], _, step_fork_join hx hy⟩

/-- two steps from the same state lead to the same state, or can be completed to the same state by one step each -/
theorem step_diamond {m : Nat} : ∀ {t : Task} {q1 q2 : List Bool} {a b : Nat} {M : List (SVec F)} {s1 s2 : State F}, TInv M t a b → ColsOK m M → b ≤ M.length →
    step mbs md q1 t M = some (.ok s1) → step mbs md q2 t M = some (.ok s2) →
    s1 = s2 ∨ ∃ s3, Step mbs md s1 s3 ∧ Step mbs md s2 s3 := by
  intro t
  induction t with
  | block j0 j1 lv => intro q1 q2 a b M s1 s2 _ _ _ h1 h2; unfold step at h1 h2; rw [h1] at h2; cases h2; exact Or.inl rfl
  | seq j j1 p nz => intro q1 q2 a b M s1 s2 _ _ _ h1 h2; unfold step at h1 h2; rw [h1] at h2; cases h2; exact Or.inl rfl
  | merge rest p nz =>
    intro q1 q2 a b M s1 s2 _ _ _ h1 h2
    cases rest <;> (unfold step at h1 h2; rw [h1] at h2; cases h2; exact Or.inl rfl)
  | done p nz => intro q1 q2 a b M s1 s2 _ _ _ h1; simp [step] at h1
  | fork l r ihl ihr =>
    rintro q1 q2 a b M s1 s2 ⟨c, hac, hcb, hl, hr⟩ hok hb h1 h2
    by_cases hd : l.result = none ∨ r.result = none
    · have hf := fun (N : List (SVec F)) (q : List Bool) => step_fork (mbs := mbs) (md := md) (q := q) (M := N) hd
      have left : ∀ q s, step mbs md (false :: q) (.fork l r) M = some (.ok s) → ∃ u, step mbs md q l M = some (.ok u) ∧ s = (.fork u.1 r, u.2) := by
        intro q s h
        rw [(hf M q).1] at h
        cases hy : step mbs md q l M with
        | none => rw [hy] at h; cases h
        | some y =>
          rw [hy] at h
          cases y with
          | error e => cases h
          | ok u => cases h; exact ⟨u, rfl, rfl⟩
      have right : ∀ q s, step mbs md (true :: q) (.fork l r) M = some (.ok s) → ∃ u, step mbs md q r M = some (.ok u) ∧ s = (.fork l u.1, u.2) := by
        intro q s h
        rw [(hf M q).2.1] at h
        cases hy : step mbs md q r M with
        | none => rw [hy] at h; cases h
        | some y =>
          rw [hy] at h
          cases y with
          | error e => cases h
          | ok u => cases h; exact ⟨u, rfl, rfl⟩
      -- a step of the first and a step of the second task
      have both : ∀ q q' s s', step mbs md (false :: q) (.fork l r) M = some (.ok s) → step mbs md (true :: q') (.fork l r) M = some (.ok s') →
          ∃ s3, Step mbs md s s3 ∧ Step mbs md s' s3 := by
        intro q q' s s' h h'
        obtain ⟨u, hu, rfl⟩ := left q s h
        obtain ⟨u', hu', rfl⟩ := right q' s' h'
        obtain ⟨t1, o1, g1, g2, g3, g4, _⟩ := step_spec hl hok (by omega) hu
        obtain ⟨t2, o2, k1, k2, k3, k4, _⟩ := step_spec hr hok hb hu'
        cases g2; cases k2
        refine ⟨(.fork t1 t2, app o2 (app o1 M)), ⟨true :: q', ?_⟩, ⟨false :: q, ?_⟩⟩
        · show step mbs md (true :: q') (.fork t1 r) (app o1 M) = _
          rw [(step_fork (Or.inr (result_none_of_step hu'))).2.1, k3 (app o1 M) (by rw [app_length]; omega) (fun k x y => app_outside g1 M k (Or.inr x))]
          rfl
        · show step mbs md (false :: q) (.fork l t2) (app o2 M) = _
          rw [(step_fork (Or.inl (result_none_of_step hu))).1, g3 (app o2 M) (by rw [app_length]; omega) (fun k x y => app_outside k1 M k (Or.inl y)),
            app_comm g1 k1]
          rfl
      cases q1 with
      | nil => rw [(hf M []).2.2] at h1; cases h1
      | cons d1 q1 =>
        cases q2 with
        | nil => rw [(hf M []).2.2] at h2; cases h2
        | cons d2 q2 =>
          cases d1 with
          | false =>
            cases d2 with
            | true => exact Or.inr (both q1 q2 s1 s2 h1 h2)
            | false =>
              obtain ⟨u1, e1, rfl⟩ := left q1 s1 h1
              obtain ⟨u2, e2, rfl⟩ := left q2 s2 h2
              rcases ihl hl hok (by omega) e1 e2 with e | ⟨u3, ⟨p1, k1⟩, ⟨p2, k2⟩⟩
              · left; rw [e]
              · refine Or.inr ⟨(.fork u3.1 r, u3.2), ⟨false :: p1, ?_⟩, ⟨false :: p2, ?_⟩⟩
                · rw [(step_fork (Or.inl (result_none_of_step k1))).1, k1]; rfl
                · rw [(step_fork (Or.inl (result_none_of_step k2))).1, k2]; rfl
          | true =>
            cases d2 with
            | false =>
              obtain ⟨s3, k1, k2⟩ := both q2 q1 s2 s1 h2 h1
              exact Or.inr ⟨s3, k2, k1⟩
            | true =>
              obtain ⟨u1, e1, rfl⟩ := right q1 s1 h1
              obtain ⟨u2, e2, rfl⟩ := right q2 s2 h2
              rcases ihr hr hok hb e1 e2 with e | ⟨u3, ⟨p1, k1⟩, ⟨p2, k2⟩⟩
              · left; rw [e]
              · refine Or.inr ⟨(.fork l u3.1, u3.2), ⟨true :: p1, ?_⟩, ⟨true :: p2, ?_⟩⟩
                · rw [(step_fork (Or.inr (result_none_of_step k1))).2.1, k1]; rfl
                · rw [(step_fork (Or.inr (result_none_of_step k2))).2.1, k2]; rfl
    · push Not at hd
      obtain ⟨x, hx⟩ := Option.ne_none_iff_exists'.1 hd.1
      obtain ⟨y, hy⟩ := Option.ne_none_iff_exists'.1 hd.2
      rw [step_fork_join hx hy] at h1 h2
      rw [h1] at h2; cases h2; exact Or.inl rfl

/-- the invariant of a computation started on the columns `M0` -/
structure SInv (m n : Nat) (M0 : List (SVec F)) (s : State F) : Prop where
  ok : ColsOK m s.2
  len : s.2.length = n
  tinv : TInv s.2 s.1 0 n
  app : ∃ V, UnitUpper V ∧ Applied V n M0 s.2

theorem sinv_start {m n : Nat} {M0 : List (SVec F)} (h : ColsOK m M0) (hl : M0.length = n) : SInv m n M0 (.block 0 n 0, M0) :=
  ⟨h, hl, ⟨rfl, rfl, Nat.zero_le _⟩, _, unitUpper_id, applied_id n M0⟩

theorem SInv.step {m n : Nat} {M0 : List (SVec F)} {s : State F} (h : SInv m n M0 s) {q : List Bool} {x} (hx : step mbs md q s.1 s.2 = some x) :
    ∃ s', x = .ok s' ∧ SInv m n M0 s' ∧ mu m md s'.2 s'.1 < mu m md s.2 s.1 := by
  obtain ⟨t', o, g1, g2, g3, g4, g5, g6⟩ := step_spec h.tinv h.ok (by rw [h.len]) hx
  obtain ⟨V, hV, hA⟩ := h.app
  exact ⟨(t', Par.app o s.2), g2, ⟨app_colsOK h.ok o, by show (Par.app o s.2).length = n; rw [app_length, h.len], g4, app_applied hV hA h.len (le_refl n) g1⟩, g5⟩

theorem SInv.steps {m n : Nat} {M0 : List (SVec F)} {s s' : State F} (h : SInv m n M0 s) (r : Relation.ReflTransGen (Step mbs md) s s') : SInv m n M0 s' := by
  induction r with
  | refl => exact h
  | tail _ e ih =>
    obtain ⟨q, e⟩ := e
    obtain ⟨s'', h1, h2, _⟩ := ih.step e
    cases h1; exact h2

theorem exists_final {m n : Nat} {M0 : List (SVec F)} : ∀ (w : Nat) {s : State F}, SInv m n M0 s → mu m md s.2 s.1 ≤ w →
    ∃ p nz R, Relation.ReflTransGen (Step mbs md) s (.done p nz, R) := by
  intro w
  induction w with
  | zero =>
    intro s h hw
    by_cases hr : s.1.result = none
    · obtain ⟨q, x, hx⟩ := step_progress (mbs := mbs) (md := md) hr s.2
      obtain ⟨s', _, _, h3⟩ := h.step hx
      omega
    · obtain ⟨t, M⟩ := s
      cases t with
      | done p nz => exact ⟨p, nz, M, .refl⟩
      | _ => exact absurd rfl hr
  | succ w ih =>
    intro s h hw
    by_cases hr : s.1.result = none
    · obtain ⟨q, x, hx⟩ := step_progress (mbs := mbs) (md := md) hr s.2
      obtain ⟨s', h1, h2, h3⟩ := h.step hx
      obtain ⟨p, nz, R, hR⟩ := ih h2 (by omega)
      subst h1
      exact ⟨p, nz, R, .head ⟨q, hx⟩ hR⟩
    · obtain ⟨t, M⟩ := s
      cases t with
      | done p nz => exact ⟨p, nz, M, .refl⟩
      | _ => exact absurd rfl hr

theorem final_unique {m n : Nat} {M0 : List (SVec F)} {s : State F} (h : SInv m n M0 s) {p p' : PMap} {nz nz' : List Nat} {R R' : List (SVec F)}
    (h1 : Relation.ReflTransGen (Step mbs md) s (.done p nz, R)) (h2 : Relation.ReflTransGen (Step mbs md) s (.done p' nz', R')) : p = p' ∧ nz = nz' ∧ R = R' := by
  obtain ⟨r, hr⟩ : ∃ r : State F → State F → Prop, r = fun u v => SInv m n M0 u ∧ Step mbs md u v := ⟨_, rfl⟩
  have lift : ∀ {u v : State F}, SInv m n M0 u → Relation.ReflTransGen (Step mbs md) u v → Relation.ReflTransGen r u v := by
    intro u v hu e
    induction e with
    | refl => exact .refl
    | tail e1 e2 ih => exact .tail ih (by rw [hr]; exact ⟨hu.steps e1, e2⟩)
  have cr := Relation.church_rosser (r := r) (by
    intro u v w huv huw
    rw [hr] at huv huw
    obtain ⟨hu, q1, e1⟩ := huv
    obtain ⟨_, q2, e2⟩ := huw
    rcases step_diamond hu.tinv hu.ok (by rw [hu.len]) e1 e2 with e | ⟨x, k1, k2⟩
    · subst e; exact ⟨v, .refl, .refl⟩
    · obtain ⟨v', i1, i2, _⟩ := hu.step e1
      obtain ⟨w', j1, j2, _⟩ := hu.step e2
      cases i1; cases j1
      exact ⟨x, .single (by rw [hr]; exact ⟨i2, k1⟩), .single (by rw [hr]; exact ⟨j2, k2⟩)⟩) (lift h h1) (lift h h2)
  obtain ⟨z, z1, z2⟩ := cr
  have stuck : ∀ {p nz} {R : List (SVec F)} {z : State F}, Relation.ReflTransGen r (.done p nz, R) z → z = (.done p nz, R) := by
    intro p nz R z e
    rcases Relation.ReflTransGen.cases_head e with e | ⟨y, e, _⟩
    · exact e.symm
    · rw [hr] at e
      obtain ⟨_, q, e⟩ := e
      simp [step] at e
  have e1 := stuck z1
  have e2 := stuck z2
  rw [e1] at e2
  cases e2
  exact ⟨rfl, rfl, rfl⟩

/-! ### the table -/

theorem fillTable_spec : ∀ (it : PMap) (t0 : P2C), (it.map Prod.fst).Nodup → (∀ x ∈ it, x.1 < t0.length) →
    ∃ t, fillTable it t0 = .ok t ∧ t.length = t0.length ∧ ∀ i k, t[i]? = some (some k) ↔ (i, k) ∈ it ∨ (i ∉ it.map Prod.fst ∧ t0[i]? = some (some k)) := by
  intro it
  induction it with
  | nil => intro t0 _ _; exact ⟨t0, rfl, rfl, by simp⟩
  | cons q it ih =>
    obtain ⟨a, b⟩ := q
    intro t0 hk hlt
    rw [List.map_cons, List.nodup_cons] at hk
    have ha : a < t0.length := hlt (a, b) (by simp)
    obtain ⟨t, h1, h2, h3⟩ := ih (t0.set a (some b)) hk.2 (by intro x hx; rw [List.length_set]; exact hlt x (by simp [hx]))
    refine ⟨t, ?_, by rw [h2, List.length_set], ?_⟩
    · show (do let t ← wr t0 a (some b); fillTable it t) = _
      rw [wr_ok _ ha]; exact h1
    · intro i k
      rw [h3]
      by_cases e : a = i
      · subst e
        rw [List.getElem?_set_self ha]
        constructor
        · rintro (h | ⟨_, h⟩)
          · exact Or.inl (List.mem_cons_of_mem _ h)
          · cases h; exact Or.inl (by simp)
        · rintro (h | ⟨h, _⟩)
          · rcases List.mem_cons.1 h with h | h
            · cases h; exact Or.inr ⟨hk.1, rfl⟩
            · exact Or.inl h
          · exact absurd (by simp) h
      · rw [List.getElem?_set_ne e]
        constructor
        · rintro (h | ⟨h, h'⟩)
          · exact Or.inl (List.mem_cons_of_mem _ h)
          · refine Or.inr ⟨?_, h'⟩
            rw [List.map_cons, List.mem_cons]
            rintro (rfl | h'')
            · exact e rfl
            · exact h h''
        · rintro (h | ⟨h, h'⟩)
          · rcases List.mem_cons.1 h with h | h
            · cases h; exact absurd rfl e
            · exact Or.inl h
          · rw [List.map_cons, List.mem_cons] at h
            exact Or.inr ⟨fun h'' => h (Or.inr h''), h'⟩

theorem table_of_prog {m n : Nat} {R : List (SVec F)} {p : PMap} {nz : List Nat} (hok : ColsOK m R) (hP : Prog 0 n R p nz []) {it : PMap} (hit : it.Perm p) :
    ∃ t, fillTable it (List.replicate m none) = .ok t ∧ RInv m n R t := by
  obtain ⟨t, h1, h2, h3⟩ := fillTable_spec it (List.replicate m none) ((hit.map _).nodup_iff.2 hP.keys) (by
    intro x hx
    rw [List.length_replicate]
    obtain ⟨i, k⟩ := x
    exact low_lt (hok.getD k).2 ((hP.tab i k).1 (hit.mem_iff.1 hx)).2)
  refine ⟨t, h1, hok, by rw [h2, List.length_replicate], ?_, ?_⟩
  · intro i k h
    rcases (h3 i k).1 h with h | ⟨_, h⟩
    · have := (hP.tab i k).1 (hit.mem_iff.1 h)
      have hr := hP.rng k (by rw [List.append_nil]; exact this.1)
      exact ⟨hr.2, this.2⟩
    · rw [List.getElem?_replicate] at h
      split at h <;> cases h
  · intro k hk i hi
    refine (h3 i k).2 (Or.inl (hit.mem_iff.2 ((hP.tab i k).2 ⟨?_, hi⟩)))
    have := hP.cover k (Nat.zero_le _) hk (by intro e; rw [e, low_nil] at hi; cases hi)
    rwa [List.append_nil] at this

/-! ### the sequential version with a basis -/

theorem colLoopU_spec {m n a b j : Nat} (M0 U0 : List (SVec F)) {p : PMap} {nz rest : List Nat} (hb : b ≤ n) :
    ∀ (fuel : Nat) (cols ucols : List (SVec F)) (V : Nat → Nat → F), Prog a b cols p nz (j :: rest) → ColsOK m cols → cols.length = n → ucols.length = n →
      hgt (cols.getD j []) < fuel → UnitUpper V → Applied V n M0 cols → Applied V n U0 ucols →
      ∃ cols' ucols' p' V', colLoopU j fuel cols ucols p = .ok (cols', ucols', p') ∧
        Prog a b cols' p' (if (cols'.getD j []).isEmpty then nz else nz ++ [j]) rest ∧ ColsOK m cols' ∧ cols'.length = n ∧ ucols'.length = n ∧
        UnitUpper V' ∧ Applied V' n M0 cols' ∧ Applied V' n U0 ucols' ∧ (∀ l, l ≠ j → cols'.getD l [] = cols.getD l []) ∧
        (∀ mu, ColsOK mu ucols → ColsOK mu ucols') := by
  intro fuel
  induction fuel with
  | zero => intro cols ucols V _ _ _ _ h; omega
  | succ fuel ih =>
    intro cols ucols V hP hok hl hul hf hV hA hAU
    have hj := hP.rng j (by simp)
    have key : ∀ r, colIter j cols p = .ok r → (r.2 = none → ∃ k e, OpIn a b (some (j, k, e)) ∧ r.1 = app (some (j, k, e)) cols ∧
        colLoopU j (fuel + 1) cols ucols p = colLoopU j fuel r.1 (app (some (j, k, e)) ucols) p) ∧
        (∀ p', r.2 = some p' → r.1 = cols ∧ colLoopU j (fuel + 1) cols ucols p = .ok (cols, ucols, p')) := by
      intro r hr
      unfold colIter at hr
      rw [colLoopU]
      rw [rd_getD [] (by omega : j < cols.length)] at hr ⊢
      simp only [bind_ok] at hr ⊢
      by_cases he : (cols.getD j []).isEmpty = true
      · rw [if_pos he] at hr ⊢
        cases hr
        exact ⟨fun h => (by cases h), fun p' h => (by cases h; exact ⟨rfl, rfl⟩)⟩
      · rw [if_neg he] at hr ⊢
        have hempty : cols.getD j [] ≠ [] := by intro h; rw [h] at he; exact he rfl
        rw [lastnz_ok hempty] at hr ⊢
        simp only [bind_ok] at hr ⊢
        cases hlk : p.lookup ((cols.getD j []).getLast hempty).1 with
        | none =>
          rw [hlk] at hr
          simp only at hr ⊢
          cases hr
          exact ⟨fun h => (by cases h), fun p' h => (by cases h; exact ⟨rfl, rfl⟩)⟩
        | some k =>
          rw [hlk] at hr
          simp only at hr ⊢
          have hmem := (hP.tab _ _).1 (lookup_mem hlk)
          have hkr := hP.rng k (List.mem_append_left _ hmem.1)
          have hkj := (List.pairwise_append.1 hP.inc).2.2 k hmem.1 j (by simp)
          obtain ⟨hkne, hkl⟩ := low_eq_some.1 hmem.2
          rw [rd_getD [] (by omega : k < cols.length)] at hr ⊢
          simp only [bind_ok] at hr ⊢
          rw [lastnz_ok hkne] at hr ⊢
          simp only [bind_ok] at hr ⊢
          have hpk0 : ((cols.getD k []).getLast hkne).2 ≠ 0 := (hok.getD k).1.2 _ (List.getLast_mem hkne)
          unfold CMat.fdiv at hr ⊢
          rw [if_neg hpk0] at hr ⊢
          simp only [bind_ok] at hr ⊢
          cases hr
          rw [rd_getD [] (by omega : j < ucols.length), rd_getD [] (by omega : k < ucols.length)]
          simp only [bind_ok]
          exact ⟨fun _ => ⟨k, _, ⟨hkr.1, hkj, hj.2⟩, rfl, rfl⟩, fun p' h => (by cases h)⟩
    rcases colIter_spec hP hok (by omega) with ⟨k, e, _, _, hkj, hjb, h5, h6, h7⟩ | ⟨p', h1, h2⟩
    · have hr := h5 cols (by omega) (fun _ _ _ => rfl)
      obtain ⟨k', e', o1, o2, o3⟩ := (key _ hr).1 rfl
      have o2 : app (some (j, k, e)) cols = app (some (j, k', e')) cols := o2
      have o1' : a ≤ k' ∧ k' < j ∧ j < b := o1
      rw [o2] at h6 h7
      obtain ⟨c', u', p', V', g1, g2, g3, g4, g5, g6, g7, g8, g9, g10⟩ := ih (app (some (j, k', e')) cols) (app (some (j, k', e')) ucols) (addCol V j k' e') h6
        (app_colsOK hok _) (by rw [app_length, hl]) (by rw [app_length, hul]) (by omega)
        (unitUpper_addCol hV o1'.2.1 e') (applied_addCol hA hl (by omega) (by omega) e') (applied_addCol hAU hul (by omega) (by omega) e')
      refine ⟨c', u', p', V', ?_, g2, g3, g4, g5, g6, g7, g8, ?_, fun mu hu => g10 mu (app_colsOK hu _)⟩
      · rw [o3]
        show colLoopU j fuel (app (some (j, k, e)) cols) _ p = _
        rw [o2]; exact g1
      · intro l hl'
        rw [g9 l hl']
        exact getD_set_ne _ _ (fun e => hl' e.symm)
    · have hr := h1 cols (by omega) (fun _ _ _ => rfl)
      obtain ⟨_, o2⟩ := (key _ hr).2 p' rfl
      exact ⟨cols, ucols, p', V, o2, h2, hok, hl, hul, hV, hA, hAU, fun _ _ => rfl, fun _ h => h⟩

theorem colsLoopU_spec {m n a b : Nat} (M0 U0 : List (SVec F)) (hb : b ≤ n) :
    ∀ (rest : List Nat) (s : BlockRes F) (V : Nat → Nat → F), Prog a b s.cols s.p s.nz rest → ColsOK m s.cols → s.cols.length = n → s.ucols.length = n →
      UnitUpper V → Applied V n M0 s.cols → Applied V n U0 s.ucols →
      ∃ s' V', colsLoopU m rest s = .ok s' ∧ Prog a b s'.cols s'.p s'.nz [] ∧ ColsOK m s'.cols ∧ s'.cols.length = n ∧ s'.ucols.length = n ∧
        UnitUpper V' ∧ Applied V' n M0 s'.cols ∧ Applied V' n U0 s'.ucols ∧ (∀ l, (l < a ∨ b ≤ l) → s'.cols.getD l [] = s.cols.getD l []) ∧
        (∀ mu, ColsOK mu s.ucols → ColsOK mu s'.ucols) := by
  intro rest
  induction rest with
  | nil => intro s V h1 h2 h3 h4 h5 h6 h7; exact ⟨s, V, rfl, h1, h2, h3, h4, h5, h6, h7, fun _ _ => rfl, fun _ h => h⟩
  | cons j rest ih =>
    intro s V h1 h2 h3 h4 h5 h6 h7
    have hj := h1.rng j (by simp)
    obtain ⟨c', u', p', V', g1, g2, g3, g4, g5, g6, g7, g8, g9, g10⟩ := colLoopU_spec M0 U0 hb (m + 1) s.cols s.ucols V h1 h2 h3 h4
      (by have := hgt_le (h2.getD j).2; omega) h5 h6 h7
    obtain ⟨s', V'', k1, k2, k3, k4, k5, k6, k7, k8, k9, k10⟩ := ih ⟨c', u', p', if (c'.getD j []).isEmpty then s.nz else s.nz ++ [j]⟩ V' g2 g3 g4 g5 g6 g7 g8
    refine ⟨s', V'', ?_, k2, k3, k4, k5, k6, k7, k8, ?_, fun mu hu => k10 mu (g10 mu hu)⟩
    · rw [colsLoopU, g1]
      simp only [bind_ok]
      rw [rd_getD [] (by omega : j < c'.length)]
      exact k1
    · intro l hl
      rw [k9 l hl]
      exact g9 l (by omega)

theorem blockDqU_spec {m n mbs : Nat} (hm : 2 ≤ mbs) (M0 U0 : List (SVec F)) :
    ∀ (fuel j0 j1 : Nat) (cols ucols : List (SVec F)) (V : Nat → Nat → F), j0 ≤ j1 → j1 ≤ n → j1 - j0 < fuel → ColsOK m cols → cols.length = n → ucols.length = n →
      UnitUpper V → Applied V n M0 cols → Applied V n U0 ucols →
      ∃ s' V', blockDqU m mbs fuel j0 j1 cols ucols = .ok s' ∧ Prog j0 j1 s'.cols s'.p s'.nz [] ∧ ColsOK m s'.cols ∧ s'.cols.length = n ∧ s'.ucols.length = n ∧
        UnitUpper V' ∧ Applied V' n M0 s'.cols ∧ Applied V' n U0 s'.ucols ∧ (∀ l, (l < j0 ∨ j1 ≤ l) → s'.cols.getD l [] = cols.getD l []) ∧
        (∀ mu, ColsOK mu ucols → ColsOK mu s'.ucols) := by
  intro fuel
  induction fuel with
  | zero => intro j0 j1 cols ucols V _ _ h; omega
  | succ fuel ih =>
    intro j0 j1 cols ucols V h01 hn hf hok hl hul hV hA hAU
    by_cases hc : j1 - j0 < mbs
    · have e : blockDqU m mbs (fuel + 1) j0 j1 cols ucols = colsLoopU m (List.range' j0 (j1 - j0)) ⟨cols, ucols, [], []⟩ := by
        rw [blockDqU, if_pos hc]; rfl
      rw [e]
      refine colsLoopU_spec M0 U0 hn _ ⟨cols, ucols, [], []⟩ V ?_ hok hl hul hV hA hAU
      refine ⟨List.pairwise_lt_range', ?_, ?_, by simp, by simp, by simp⟩
      · intro k hk
        simp only [List.nil_append, List.mem_range'_1] at hk
        omega
      · intro k h1 h2 _
        simp only [List.nil_append, List.mem_range'_1]
        omega
    · obtain ⟨l, V1, a1, a2, a3, a4, a5, a6, a7, a8, a9, a10⟩ := ih j0 ((j0 + j1) / 2) cols ucols V (by omega) (by omega) (by omega) hok hl hul hV hA hAU
      obtain ⟨r, V2, b1, b2, b3, b4, b5, b6, b7, b8, b9, b10⟩ := ih ((j0 + j1) / 2) j1 l.cols l.ucols V1 (by omega) hn (by omega) a3 a4 a5 a6 a7 a8
      have aP : Prog j0 ((j0 + j1) / 2) r.cols l.p l.nz [] := a2.congr (fun k x y => b9 k (Or.inl y))
      have e1 := aP.rng; have e2 := b2.rng
      simp only [List.append_nil] at e1 e2
      have hP : Prog j0 j1 r.cols l.p l.nz r.nz := by
        refine ⟨List.pairwise_append.2 ⟨by simpa using aP.inc, by simpa using b2.inc, ?_⟩, ?_, ?_, aP.nonz, aP.keys, aP.tab⟩
        · intro x hx y hy
          have := e1 x hx; have := e2 y hy; omega
        · intro k hk
          rcases List.mem_append.1 hk with hk | hk
          · have := e1 k hk; omega
          · have := e2 k hk; omega
        · intro k g1 g2 g3
          rcases Nat.lt_or_ge k ((j0 + j1) / 2) with h | h
          · have := aP.cover k g1 h g3
            rw [List.append_nil] at this
            exact List.mem_append_left _ this
          · have := b2.cover k h g2 g3
            rw [List.append_nil] at this
            exact List.mem_append_right _ this
      obtain ⟨s', V3, c1, c2, c3, c4, c5, c6, c7, c8, c9, c10⟩ := colsLoopU_spec M0 U0 hn r.nz ⟨r.cols, r.ucols, l.p, l.nz⟩ V2 hP b3 b4 b5 b6 b7 b8
      refine ⟨s', V3, ?_, c2, c3, c4, c5, c6, c7, c8, ?_, fun mu hu => c10 mu (b10 mu (a10 mu hu))⟩
      · rw [blockDqU, if_neg hc, a1]
        simp only [bind_ok]
        rw [b1]
        exact c1
      · intro k hk
        have := c9 k hk
        rw [this]
        show r.cols.getD k [] = _
        rw [b9 k (by omega), a9 k (by omega)]

theorem blockDqU_diverges {m mbs : Nat} (hm : mbs ≤ 1) : ∀ (fuel j0 j1 : Nat) (cols ucols : List (SVec F)), j0 < j1 →
    blockDqU m mbs fuel j0 j1 cols ucols = .error .diverge := by
  intro fuel
  induction fuel with
  | zero => intro j0 j1 cols ucols _; rfl
  | succ fuel ih =>
    intro j0 j1 cols ucols h
    rw [blockDqU, if_neg (by omega)]
    by_cases h2 : j0 < (j0 + j1) / 2
    · rw [ih j0 _ cols ucols h2]; rfl
    · have e : (j0 + j1) / 2 = j0 := by omega
      rw [e]
      cases hl : blockDqU m mbs fuel j0 j0 cols ucols with
      | error x =>
        have : x = .diverge := by
          clear ih
          induction fuel generalizing x cols ucols with
          | zero => rw [blockDqU] at hl; cases hl; rfl
          | succ fuel ih2 =>
            rw [blockDqU] at hl
            split at hl
            · unfold blockSeqU at hl
              rw [Nat.sub_self, List.range'_zero] at hl
              unfold colsLoopU at hl
              cases hl
            · rw [show (j0 + j0) / 2 = j0 by omega] at hl
              cases h1 : blockDqU m mbs fuel j0 j0 cols ucols with
              | error y => rw [h1] at hl; cases hl; exact ih2 _ _ _ h1
              | ok y =>
                rw [h1] at hl
                simp only [bind_ok] at hl
                exfalso
                -- with block size 0 an empty range is split for ever
                have : ∀ f c u, mbs = 0 → blockDqU m mbs f j0 j0 (F := F) c u = .error .diverge := by
                  intro f
                  induction f with
                  | zero => intro c u _; rfl
                  | succ f ih3 =>
                    intro c u hz
                    rw [blockDqU, if_neg (by omega), show (j0 + j0) / 2 = j0 by omega, ih3 c u hz]
                    rfl
                rw [this fuel cols ucols (by omega)] at h1
                cases h1
        rw [this]; rfl
      | ok y =>
        simp only [bind_ok]
        rw [ih j0 j1 _ _ h]
        rfl

/-! ### no data races -/

/-- the task at the end of a path -/
def Task.sub : List Bool → Task → Option Task
  | [], t => some t
  | false :: q, .fork l _ => Task.sub q l
  | true :: q, .fork _ r => Task.sub q r
  | _ :: _, _ => none

theorem result_none_of_sub {q : List Bool} {t l r : Task} (h : t.sub q = some (.fork l r)) : t.result = none := by
  cases t with
  | done p nz => cases q with
    | nil => cases h
    | cons b q => cases b <;> cases h
  | _ => rfl

theorem race_free {m : Nat} : ∀ {u : List Bool} {t : Task} {a b : Nat} {M : List (SVec F)} {l r : Task}, TInv M t a b → ColsOK m M → b ≤ M.length →
    t.sub u = some (.fork l r) → (l.result = none ∨ r.result = none) → ∃ c, a ≤ c ∧ c ≤ b ∧
      (∀ v x, step mbs md (u ++ false :: v) t M = some x → ∃ t' o, OpIn a c o ∧ x = .ok (t', app o M) ∧
        ∀ N, b ≤ N.length → Agree a c M N → step mbs md (u ++ false :: v) t N = some (.ok (t', app o N))) ∧
      (∀ v x, step mbs md (u ++ true :: v) t M = some x → ∃ t' o, OpIn c b o ∧ x = .ok (t', app o M) ∧
        ∀ N, b ≤ N.length → Agree c b M N → step mbs md (u ++ true :: v) t N = some (.ok (t', app o N))) := by
  intro u
  induction u with
  | nil =>
    intro t a b M l r hT hok hb hs hd
    cases hs
    obtain ⟨c, h1, h2, h3, h4⟩ := hT
    refine ⟨c, h1, h2, ?_, ?_⟩
    · intro v x hx
      rw [List.nil_append, (step_fork hd).1] at hx
      cases hy : step mbs md v l M with
      | none => rw [hy] at hx; cases hx
      | some y =>
        rw [hy] at hx; cases hx
        obtain ⟨t', o, g1, g2, g3, _⟩ := step_spec h3 hok (by omega) hy
        refine ⟨.fork t' r, o, g1, by rw [g2]; rfl, fun N hN hA => ?_⟩
        rw [List.nil_append, (step_fork hd).1, g3 N (by omega) hA]; rfl
    · intro v x hx
      rw [List.nil_append, (step_fork hd).2.1] at hx
      cases hy : step mbs md v r M with
      | none => rw [hy] at hx; cases hx
      | some y =>
        rw [hy] at hx; cases hx
        obtain ⟨t', o, g1, g2, g3, _⟩ := step_spec h4 hok hb hy
        refine ⟨.fork l t', o, g1, by rw [g2]; rfl, fun N hN hA => ?_⟩
        rw [List.nil_append, (step_fork hd).2.1, g3 N hN hA]; rfl
  | cons d u ih =>
    intro t a b M l r hT hok hb hs hd
    cases t with
    | fork L R =>
      obtain ⟨c0, h1, h2, h3, h4⟩ := hT
      cases d with
      | false =>
        have hs' : L.sub u = some (.fork l r) := hs
        have hd' : L.result = none ∨ R.result = none := Or.inl (result_none_of_sub hs')
        obtain ⟨c, k1, k2, k3, k4⟩ := ih h3 hok (by omega) hs' hd
        have lift : ∀ (w : List Bool) (a' c' : Nat), (∀ x, step mbs md w L M = some x → ∃ t' o, OpIn a' c' o ∧ x = .ok (t', app o M) ∧
            ∀ N, c0 ≤ N.length → Agree a' c' M N → step mbs md w L N = some (.ok (t', app o N))) →
            ∀ x, step mbs md (false :: w) (.fork L R) M = some x → ∃ t' o, OpIn a' c' o ∧ x = .ok (t', app o M) ∧
              ∀ N, b ≤ N.length → Agree a' c' M N → step mbs md (false :: w) (.fork L R) N = some (.ok (t', app o N)) := by
          intro w a' c' hw x hx
          rw [(step_fork hd').1] at hx
          cases hy : step mbs md w L M with
          | none => rw [hy] at hx; cases hx
          | some y =>
            rw [hy] at hx; cases hx
            obtain ⟨t', o, g1, g2, g3⟩ := hw y hy
            refine ⟨.fork t' R, o, g1, by rw [g2]; rfl, fun N hN hA => ?_⟩
            rw [(step_fork hd').1, g3 N (by omega) hA]; rfl
        refine ⟨c, k1, by omega, fun v => lift _ a c (k3 v), fun v x hx => ?_⟩
        obtain ⟨t', o, g1, g2, g3⟩ := lift _ c c0 (k4 v) x hx
        exact ⟨t', o, g1.mono (le_refl _) h2, g2, fun N hN hA => g3 N hN (fun k e1 e2 => hA k e1 (by omega))⟩
      | true =>
        have hs' : R.sub u = some (.fork l r) := hs
        have hd' : L.result = none ∨ R.result = none := Or.inr (result_none_of_sub hs')
        obtain ⟨c, k1, k2, k3, k4⟩ := ih h4 hok hb hs' hd
        have lift : ∀ (w : List Bool) (a' c' : Nat), (∀ x, step mbs md w R M = some x → ∃ t' o, OpIn a' c' o ∧ x = .ok (t', app o M) ∧
            ∀ N, b ≤ N.length → Agree a' c' M N → step mbs md w R N = some (.ok (t', app o N))) →
            ∀ x, step mbs md (true :: w) (.fork L R) M = some x → ∃ t' o, OpIn a' c' o ∧ x = .ok (t', app o M) ∧
              ∀ N, b ≤ N.length → Agree a' c' M N → step mbs md (true :: w) (.fork L R) N = some (.ok (t', app o N)) := by
          intro w a' c' hw x hx
          rw [(step_fork hd').2.1] at hx
          cases hy : step mbs md w R M with
          | none => rw [hy] at hx; cases hx
          | some y =>
            rw [hy] at hx; cases hx
            obtain ⟨t', o, g1, g2, g3⟩ := hw y hy
            refine ⟨.fork L t', o, g1, by rw [g2]; rfl, fun N hN hA => ?_⟩
            rw [(step_fork hd').2.1, g3 N hN hA]; rfl
        refine ⟨c, by omega, k2, fun v x hx => ?_, fun v => lift _ c b (k4 v)⟩
        obtain ⟨t', o, g1, g2, g3⟩ := lift _ c0 c (k3 v) x hx
        exact ⟨t', o, g1.mono h1 (le_refl _), g2, fun N hN hA => g3 N hN (fun k e1 e2 => hA k (by omega) e2)⟩
    | _ => cases d <;> cases hs

/-! ### the parallel sweep -/

/-- the invariant of the parallel sweep -/
structure PInv (m n bs K : Nat) (M0 : List (SVec F)) (s : List Task × List (SVec F)) : Prop where
  ok : ColsOK m s.2
  len : s.2.length = n
  num : s.1.length = K
  tinv : ∀ (i : Nat) (t : Task), s.1[i]? = some t → TInv s.2 t (i * bs) (i * bs + bs)
  app : ∃ V, UnitUpper V ∧ Applied V n M0 s.2
  out : ∀ k, K * bs ≤ k → s.2.getD k [] = M0.getD k []

/-- one step of some task of the sweep -/
def PStep (s s' : List Task × List (SVec F)) : Prop := ∃ i, poolStep i s.1 s.2 = some (.ok s')

def pmu (m : Nat) (s : List Task × List (SVec F)) : Nat := (s.1.map (mu m 0 s.2)).sum

theorem poolStep_spec {m n bs K : Nat} {M0 : List (SVec F)} (hK : K * bs ≤ n) {s : List Task × List (SVec F)} (h : PInv m n bs K M0 s) {i : Nat} {x}
    (hx : poolStep i s.1 s.2 = some x) : ∃ t t' o, s.1[i]? = some t ∧ x = .ok (s.1.set i t', app o s.2) ∧ OpIn (i * bs) (i * bs + bs) o ∧
      (∀ N, n ≤ N.length → Agree (i * bs) (i * bs + bs) s.2 N → step 0 0 [] t N = some (.ok (t', app o N))) ∧
      PInv m n bs K M0 (s.1.set i t', app o s.2) ∧ pmu m (s.1.set i t', app o s.2) < pmu m s := by
  unfold poolStep at hx
  cases ht : s.1[i]? with
  | none => rw [ht] at hx; cases hx
  | some t =>
    rw [ht] at hx
    simp only at hx
    have hi : i < s.1.length := (List.getElem?_eq_some_iff.1 ht).1
    have hib : i * bs + bs ≤ n := by
      have : (i + 1) * bs ≤ K * bs := Nat.mul_le_mul_right _ (by rw [← h.num]; exact hi)
      rw [Nat.add_mul, Nat.one_mul] at this
      omega
    cases hy : step 0 0 [] t s.2 with
    | none => rw [hy] at hx; cases hx
    | some y =>
      rw [hy] at hx; cases hx
      obtain ⟨t', o, g1, g2, g3, g4, g5, g6⟩ := step_spec (h.tinv i t ht) h.ok (by rw [h.len]; exact hib) hy
      -- the ranges of the other tasks
      have disj : ∀ i', i' ≠ i → ∀ k, i' * bs ≤ k → k < i' * bs + bs → (app o s.2).getD k [] = s.2.getD k [] := by
        intro i' hne k h1 h2
        refine app_outside g1 s.2 k ?_
        rcases Nat.lt_or_gt_of_ne hne with hlt | hgt
        · left
          have : (i' + 1) * bs ≤ i * bs := Nat.mul_le_mul_right _ hlt
          rw [Nat.add_mul, Nat.one_mul] at this
          omega
        · right
          have : (i + 1) * bs ≤ i' * bs := Nat.mul_le_mul_right _ hgt
          rw [Nat.add_mul, Nat.one_mul] at this
          omega
      refine ⟨t, t', o, rfl, by rw [g2]; rfl, g1, fun N hN hA => g3 N (by omega) hA, ⟨app_colsOK h.ok o, ?_, ?_, ?_, ?_, ?_⟩, ?_⟩
      · show (app o s.2).length = n; rw [app_length, h.len]
      · show (s.1.set i t').length = K; rw [List.length_set, h.num]
      · intro i' u hu
        by_cases e : i = i'
        · subst e
          rw [List.getElem?_set_self hi] at hu
          cases hu
          exact g4
        · rw [List.getElem?_set_ne e] at hu
          exact (h.tinv i' u hu).congr (fun k h1 h2 => disj i' (fun hh => e hh.symm) k h1 h2)
      · obtain ⟨V, hV, hA⟩ := h.app
        exact app_applied hV hA h.len hib g1
      · intro k hk
        have : (i + 1) * bs ≤ K * bs := Nat.mul_le_mul_right _ (by rw [← h.num]; exact hi)
        rw [Nat.add_mul, Nat.one_mul] at this
        show (app o s.2).getD k [] = _
        rw [app_outside g1 s.2 k (Or.inr (by omega))]
        exact h.out k hk
      · unfold pmu
        show ((s.1.set i t').map (mu m 0 (app o s.2))).sum < _
        have key : ∀ (ts : List Task) (off i0 : Nat), i0 < ts.length → ts[i0]? = some t → off + i0 = i → (∀ (j : Nat) (u : Task), ts[j]? = some u → off + j ≠ i → mu m 0 (app o s.2) u = mu m 0 s.2 u) →
            ((ts.set i0 t').map (mu m 0 (app o s.2))).sum < (ts.map (mu m 0 s.2)).sum := by
          intro ts
          induction ts with
          | nil => intro off i0 h0; simp at h0
          | cons u ts ih =>
            intro off i0 h0 h1 h2 h3
            cases i0 with
            | zero =>
              simp only [List.getElem?_cons_zero] at h1
              cases h1
              rw [List.set_cons_zero, List.map_cons, List.map_cons, List.sum_cons, List.sum_cons]
              have : ts.map (mu m 0 (app o s.2)) = ts.map (mu m 0 s.2) := by
                apply List.map_congr_left
                intro w hw
                obtain ⟨j, hj, e⟩ := List.getElem_of_mem hw
                exact h3 (j + 1) w (by rw [List.getElem?_cons_succ, List.getElem?_eq_getElem hj, e]) (by omega)
              rw [this]
              exact Nat.add_lt_add_right g5 _
            | succ i0 =>
              rw [List.set_cons_succ, List.map_cons, List.map_cons, List.sum_cons, List.sum_cons]
              have e1 := h3 0 u (by simp) (by omega)
              have e2 := ih (off + 1) i0 (by simpa using h0) (by simpa using h1) (by omega) (by
                intro j w hw hne
                exact h3 (j + 1) w (by rw [List.getElem?_cons_succ]; exact hw) (by omega))
              omega
        refine key s.1 0 i hi ht (by omega) ?_
        intro j u hu hne
        exact mu_congr (h.tinv j u hu) (fun k h1 h2 => disj j (by omega) k h1 h2)

theorem PInv.steps {m n bs K : Nat} {M0 : List (SVec F)} (hK : K * bs ≤ n) {s s' : List Task × List (SVec F)} (h : PInv m n bs K M0 s)
    (r : Relation.ReflTransGen PStep s s') : PInv m n bs K M0 s' := by
  induction r with
  | refl => exact h
  | tail _ e ih =>
    obtain ⟨i, e⟩ := e
    obtain ⟨t, t', o, _, h2, _, _, h5, _⟩ := poolStep_spec hK ih e
    cases h2; exact h5

theorem pool_diamond {m n bs K : Nat} {M0 : List (SVec F)} (hK : K * bs ≤ n) {s s1 s2 : List Task × List (SVec F)} (h : PInv m n bs K M0 s) {i1 i2 : Nat}
    (h1 : poolStep i1 s.1 s.2 = some (.ok s1)) (h2 : poolStep i2 s.1 s.2 = some (.ok s2)) : s1 = s2 ∨ ∃ s3, PStep s1 s3 ∧ PStep s2 s3 := by
  by_cases e : i1 = i2
  · subst e; rw [h1] at h2; cases h2; exact Or.inl rfl
  · right
    obtain ⟨t, t', o, a1, a2, a3, a4, _⟩ := poolStep_spec hK h h1
    obtain ⟨u, u', o', b1, b2, b3, b4, _⟩ := poolStep_spec hK h h2
    cases a2; cases b2
    have hr : i1 * bs + bs ≤ i2 * bs ∨ i2 * bs + bs ≤ i1 * bs := by
      rcases Nat.lt_or_gt_of_ne e with hlt | hgt
      · left
        have : (i1 + 1) * bs ≤ i2 * bs := Nat.mul_le_mul_right _ hlt
        rwa [Nat.add_mul, Nat.one_mul] at this
      · right
        have : (i2 + 1) * bs ≤ i1 * bs := Nat.mul_le_mul_right _ hgt
        rwa [Nat.add_mul, Nat.one_mul] at this
    have hcomm : app o (app o' s.2) = app o' (app o s.2) := by
      rcases hr with hr | hr
      · exact app_comm a3 (b3.mono (by omega) (le_refl _)) s.2
      · exact (app_comm b3 (a3.mono (by omega) (le_refl _)) s.2).symm
    refine ⟨((s.1.set i1 t').set i2 u', app o' (app o s.2)), ⟨i2, ?_⟩, ⟨i1, ?_⟩⟩
    · unfold poolStep
      rw [List.getElem?_set_ne e, b1]
      simp only
      rw [b4 (app o s.2) (by rw [app_length, h.len]) (fun k x y => app_outside a3 s.2 k (by omega))]
      rfl
    · unfold poolStep
      rw [List.getElem?_set_ne (fun hh => e hh.symm), a1]
      simp only
      rw [a4 (app o' s.2) (by rw [app_length, h.len]) (fun k x y => app_outside b3 s.2 k (by omega)), hcomm]
      simp only [Option.map_some, Except.map]
      rw [List.set_comm _ _ e]

end Par
end BATS
