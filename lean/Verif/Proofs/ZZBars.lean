import Verif.Proofs.ZZMaps
import Verif.Proofs.QuiverPass

set_option linter.unusedSectionVars false
set_option linter.unusedSimpArgs false
set_option linter.unusedVariables false

/-! # Zigzag: `update_bars` -/

namespace BATS
namespace Zigzag
open Reduction Matrix BATS.Fact
open BATS.Quiver (piv piv_some piv_none)

variable {F : Type} [Field F] [DecidableEq F] {T : Type}

/-! ### association lists -/

theorem AMap.get_of_mem : ∀ {m : AMap}, (m.map Prod.fst).Nodup → ∀ {a b : Nat}, (a, b) ∈ m → AMap.get m a = b
  | [], _, _, _, h => by simp at h
  | (x, y) :: m, hn, a, b, h => by
    unfold AMap.get
    rw [List.map_cons, List.nodup_cons] at hn
    rcases List.mem_cons.1 h with h' | h'
    · have h1 : a = x := congrArg Prod.fst h'
      have h2 : b = y := congrArg Prod.snd h'
      rw [h1, h2]; simp [List.lookup]
    · have hne : a ≠ x := by
        rintro rfl
        exact hn.1 (List.mem_map.2 ⟨_, h', rfl⟩)
      have hb : (a == x) = false := by simpa using hne
      rw [List.lookup, hb]
      exact AMap.get_of_mem hn.2 h'

theorem AMap.mem_erase {m : AMap} {x a b : Nat} : (a, b) ∈ AMap.erase m x ↔ (a, b) ∈ m ∧ a ≠ x := by
  unfold AMap.erase; rw [List.mem_filter]; simp

theorem AMap.nodup_erase {m : AMap} (h : (m.map Prod.fst).Nodup) (x : Nat) : ((AMap.erase m x).map Prod.fst).Nodup :=
  h.sublist ((List.filter_sublist).map _)

theorem AMap.mem_put {m : AMap} {x y a b : Nat} : (a, b) ∈ AMap.put m x y ↔ (a = x ∧ b = y) ∨ ((a, b) ∈ m ∧ a ≠ x) := by
  unfold AMap.put; rw [List.mem_cons, List.mem_filter]; simp

theorem AMap.nodup_put {m : AMap} (h : (m.map Prod.fst).Nodup) (x y : Nat) : ((AMap.put m x y).map Prod.fst).Nodup := by
  unfold AMap.put
  rw [List.map_cons, List.nodup_cons]
  refine ⟨?_, h.sublist ((List.filter_sublist).map _)⟩
  intro hh
  obtain ⟨q, hq, e⟩ := List.mem_map.1 hh
  rw [List.mem_filter] at hq
  have hq2 : q.1 ≠ x := by simpa using hq.2
  exact hq2 e

/-! ### the loop over the columns -/

/-- state of the loop when the columns below `j` have been read -/
structure UL (P : Nat → Option Nat) (β : Nat → Nat) (m0 : AMap) (nb : ZPair T) (bars0 : List (ZPair T)) (j : Nat) (bars : List (ZPair T)) (m m2 : AMap)
    (c : Nat) (β' : Nat → Nat) : Prop where
  bars : bars = bars0 ++ List.replicate c nb
  nodup : (m.map Prod.fst).Nodup
  mem : ∀ a b, (a, b) ∈ m ↔ (a, b) ∈ m0 ∧ ∀ t, t < j → P t ≠ some a
  nodup2 : (m2.map Prod.fst).Nodup
  mem2 : ∀ a b, (a, b) ∈ m2 ↔ a < j ∧ b = β' a
  old : ∀ t r, t < j → P t = some r → β' t = β r
  new : ∀ t, t < j → P t = none → bars0.length ≤ β' t ∧ β' t < bars0.length + c
  surj : ∀ i, bars0.length ≤ i → i < bars0.length + c → ∃ t, t < j ∧ P t = none ∧ β' t = i
  inj : ∀ t t', t < j → t' < j → P t = none → P t' = none → β' t = β' t' → t = t'

theorem ubLoop_spec {e : Event T} {h : Nat} {cols : List (SVec F)} {n' : Nat} (hn : cols.length = n') {β : Nat → Nat} {m0 : AMap} {bars0 : List (ZPair T)}
    (hm0 : ∀ t r, t < n' → piv cols t = some r → (r, β r) ∈ m0) (hinj : ∀ t t' r, t < n' → t' < n' → piv cols t = some r → piv cols t' = some r → t = t') :
    ∀ (cs : List (SVec F)) (j : Nat) (bars : List (ZPair T)) (m m2 : AMap) (c : Nat) (β' : Nat → Nat), cs = cols.drop j → j ≤ n' →
      UL (piv cols) β m0 ⟨h, e.cind, none, e.val, none, e.entry, true⟩ bars0 j bars m m2 c β' →
      ∃ bars1 m1 m21 c1 β1, ubLoop e h j cs bars m m2 = (bars1, m1, m21) ∧ UL (piv cols) β m0 ⟨h, e.cind, none, e.val, none, e.entry, true⟩ bars0 n' bars1 m1 m21 c1 β1 := by
  intro cs
  induction cs with
  | nil =>
    intro j bars m m2 c β' hcs hj hUL
    have : j = n' := by
      have := congrArg List.length hcs
      rw [List.length_nil, List.length_drop] at this; omega
    subst this
    exact ⟨bars, m, m2, c, β', rfl, hUL⟩
  | cons cc cs ih =>
    intro j bars m m2 c β' hcs hj hUL
    have hjn : j < n' := by
      by_contra hh
      rw [List.drop_eq_nil_of_le (by omega)] at hcs; cases hcs
    have hc : cols.getD j [] = cc := by
      rw [List.getD_eq_getElem?_getD]
      have : (cols.drop j)[0]? = some cc := by rw [← hcs]; rfl
      rw [List.getElem?_drop] at this
      rw [Nat.add_zero] at this; rw [this]; rfl
    have hcs' : cs = cols.drop (j + 1) := by
      have := congrArg List.tail hcs
      rw [List.tail_cons, List.tail_drop] at this; exact this
    rcases hh : cc.head? with _ | q
    · have hg : piv cols j = none := by unfold piv; rw [hc, hh]; rfl
      rw [ubLoop, hh]
      have hbl : bars.length = bars0.length + c := by rw [hUL.bars]; simp
      refine ih (j + 1) _ _ _ (c + 1) (fun t => if t = j then bars.length else β' t) hcs' (by omega) ⟨?_, hUL.nodup, ?_, ?_, ?_, ?_, ?_, ?_, ?_⟩
      · rw [hUL.bars, List.append_assoc, ← List.replicate_succ']
      · intro a b
        rw [hUL.mem]
        constructor
        · rintro ⟨h1, h2⟩
          refine ⟨h1, fun t ht => ?_⟩
          by_cases htj : t = j
          · subst htj; rw [hg]; simp
          · exact h2 t (by omega)
        · rintro ⟨h1, h2⟩; exact ⟨h1, fun t ht => h2 t (by omega)⟩
      · exact AMap.nodup_put hUL.nodup2 _ _
      · intro a b
        rw [AMap.mem_put, hUL.mem2]
        constructor
        · rintro (⟨rfl, rfl⟩ | ⟨⟨h1, h2⟩, h3⟩)
          · exact ⟨by omega, by simp⟩
          · exact ⟨by omega, by simp only [if_neg h3]; exact h2⟩
        · rintro ⟨h1, h2⟩
          by_cases haj : a = j
          · left; exact ⟨haj, by simp only [if_pos haj] at h2; exact h2⟩
          · right; simp only [if_neg haj] at h2; exact ⟨⟨by omega, h2⟩, haj⟩
      · intro t r ht hr
        by_cases htj : t = j
        · subst htj; rw [hg] at hr; cases hr
        · simp only [if_neg htj]; exact hUL.old t r (by omega) hr
      · intro t ht hr
        by_cases htj : t = j
        · simp only [if_pos htj]; omega
        · simp only [if_neg htj]; have := hUL.new t (by omega) hr; omega
      · intro i h1 h2
        by_cases hi : i = bars.length
        · exact ⟨j, by omega, hg, by simp [hi]⟩
        · obtain ⟨t, a, b, c'⟩ := hUL.surj i h1 (by omega)
          exact ⟨t, by omega, b, by rw [if_neg (by omega : ¬ t = j)]; exact c'⟩
      · intro t t' ht ht' hr hr' he
        by_cases htj : t = j
        · by_cases htj' : t' = j
          · omega
          · simp only [if_pos htj, if_neg htj'] at he
            have := hUL.new t' (by omega) hr'; omega
        · by_cases htj' : t' = j
          · simp only [if_neg htj, if_pos htj'] at he
            have := hUL.new t (by omega) hr; omega
          · simp only [if_neg htj, if_neg htj'] at he
            exact hUL.inj t t' (by omega) (by omega) hr hr' he
    · have hg : piv cols j = some q.1 := by unfold piv; rw [hc, hh]; rfl
      rw [ubLoop, hh]
      have hqm : (q.1, β q.1) ∈ m := by
        rw [hUL.mem]
        refine ⟨hm0 j q.1 hjn hg, ?_⟩
        intro t ht hp
        have := hinj t j q.1 (by omega) hjn hp hg; omega
      have hget : AMap.get m q.1 = β q.1 := AMap.get_of_mem hUL.nodup hqm
      simp only [hget]
      refine ih (j + 1) _ _ _ c (fun t => if t = j then β q.1 else β' t) hcs' (by omega) ⟨hUL.bars, AMap.nodup_erase hUL.nodup _, ?_, ?_, ?_, ?_, ?_, ?_, ?_⟩
      · intro a b
        rw [AMap.mem_erase, hUL.mem]
        constructor
        · rintro ⟨⟨h1, h2⟩, h3⟩
          refine ⟨h1, fun t ht => ?_⟩
          by_cases htj : t = j
          · subst htj; rw [hg]; intro hh'; injection hh' with hh'; exact h3 hh'.symm
          · exact h2 t (by omega)
        · rintro ⟨h1, h2⟩
          refine ⟨⟨h1, fun t ht => h2 t (by omega)⟩, ?_⟩
          rintro rfl
          exact h2 j (by omega) hg
      · exact AMap.nodup_put hUL.nodup2 _ _
      · intro a b
        rw [AMap.mem_put, hUL.mem2]
        constructor
        · rintro (⟨rfl, rfl⟩ | ⟨⟨h1, h2⟩, h3⟩)
          · exact ⟨by omega, by simp⟩
          · exact ⟨by omega, by simp only [if_neg h3]; exact h2⟩
        · rintro ⟨h1, h2⟩
          by_cases haj : a = j
          · left; exact ⟨haj, by simp only [if_pos haj] at h2; exact h2⟩
          · right; simp only [if_neg haj] at h2; exact ⟨⟨by omega, h2⟩, haj⟩
      · intro t r ht hr
        by_cases htj : t = j
        · subst htj; rw [hg] at hr; injection hr with hr; simp [hr]
        · simp only [if_neg htj]; exact hUL.old t r (by omega) hr
      · intro t ht hr
        by_cases htj : t = j
        · subst htj; rw [hg] at hr; cases hr
        · simp only [if_neg htj]; exact hUL.new t (by omega) hr
      · intro i h1 h2
        obtain ⟨t, a, b, c'⟩ := hUL.surj i h1 h2
        exact ⟨t, by omega, b, by rw [if_neg (by omega : ¬ t = j)]; exact c'⟩
      · intro t t' ht ht' hr hr' he
        have h1 : t ≠ j := by rintro rfl; rw [hg] at hr; cases hr
        have h2 : t' ≠ j := by rintro rfl; rw [hg] at hr'; cases hr'
        simp only [if_neg h1, if_neg h2] at he
        exact hUL.inj t t' (by omega) (by omega) hr hr' he

/-- the death of a bar -/
def kill (e : Event T) (b : ZPair T) : ZPair T := { b with deathInd := some e.cind, death := some e.val, deathIsEntry := e.entry }

theorem killLoop_spec (e : Event T) : ∀ (m : AMap) (bars : List (ZPair T)), (∀ a b, (a, b) ∈ m → b < bars.length) →
    ∃ bars', killLoop e m bars = .ok bars' ∧ bars'.length = bars.length ∧
      (∀ i, (∃ a, (a, i) ∈ m) → bars'[i]? = bars[i]?.map (kill e)) ∧ ∀ i, (¬ ∃ a, (a, i) ∈ m) → bars'[i]? = bars[i]?
  | [], bars, _ => ⟨bars, rfl, rfl, fun i ⟨a, h⟩ => by simp at h, fun i _ => rfl⟩
  | (x, y) :: m, bars, h => by
    have hy : y < bars.length := h x y (by simp)
    obtain ⟨bars', h1, h2, h3, h4⟩ := killLoop_spec e m (bars.set y (kill e bars[y])) (by
      intro a b hab; rw [List.length_set]; exact h a b (by simp [hab]))
    refine ⟨bars', ?_, by rw [h2, List.length_set], ?_, ?_⟩
    · rw [killLoop]
      simp only []
      rw [rd_ok hy, bind_ok]; exact h1
    · intro i hi
      by_cases him : ∃ a, (a, i) ∈ m
      · rw [h3 i him]
        by_cases e' : y = i
        · subst e'; rw [List.getElem?_set_self hy, List.getElem?_eq_getElem hy]; rfl
        · rw [List.getElem?_set_ne e']
      · have e' : y = i := by
          obtain ⟨a, ha⟩ := hi
          rcases List.mem_cons.1 ha with hh | hh
          · injection hh with _ hh; exact hh.symm
          · exact absurd ⟨a, hh⟩ him
        rw [h4 i him]
        subst e'; rw [List.getElem?_set_self hy, List.getElem?_eq_getElem hy]; rfl
    · intro i hi
      have him : ¬ ∃ a, (a, i) ∈ m := fun ⟨a, ha⟩ => hi ⟨a, by simp [ha]⟩
      have e' : y ≠ i := by rintro rfl; exact hi ⟨x, by simp⟩
      rw [h4 i him, List.getElem?_set_ne e']

/-! ### bars as intervals -/

/-- the reported pairs belong to the bars `iv` -/
def PairsOK (es : List (Event T)) (k : Nat) (iv : List Bar) (bars : List (ZPair T)) : Prop := iv.map (pairOf es k) = bars.map some

/-- bars before position `N` -/
def EndsOK (N : Nat) (iv : List Bar) : Prop := ∀ b ∈ iv, b.start < N ∧ ∀ s, b.stop = some s → b.start < s ∧ s < N

theorem mem_alive {iv : List Bar} {i b : Nat} : b ∈ alive iv i ↔ ∃ x, iv[b]? = some x ∧ x.At i := by
  unfold alive
  rw [Finset.mem_filter, Finset.mem_range, List.getD_eq_getElem?_getD]
  constructor
  · rintro ⟨h1, h2⟩
    rw [List.getElem?_eq_getElem h1] at h2 ⊢
    exact ⟨_, rfl, h2⟩
  · rintro ⟨x, h1, h2⟩
    refine ⟨(List.getElem?_eq_some_iff.1 h1).1, ?_⟩
    rw [h1]; exact h2

theorem alive_stop {N : Nat} {iv : List Bar} (h : EndsOK N iv) {b : Nat} {x : Bar} (hb : iv[b]? = some x) : b ∈ alive iv N ↔ x.stop = none := by
  have hx := h x (List.mem_of_getElem? hb)
  rw [mem_alive]
  constructor
  · rintro ⟨y, h1, h2⟩
    rw [hb] at h1; injection h1 with h1; subst h1
    rcases hs : x.stop with _ | s
    · rfl
    · have := (hx.2 s hs).2
      have := h2.2 s hs
      omega
  · intro hs
    exact ⟨x, hb, hx.1, fun s hs' => by rw [hs] at hs'; cases hs'⟩

/-- the bars in `dead` end at `N`, `c` new bars begin at `N` -/
def nextBars (N : Nat) (iv : List Bar) (dead : Nat → Prop) [DecidablePred dead] (c : Nat) : List Bar :=
  (List.range iv.length).map (fun b => if dead b then ⟨(iv.getD b ⟨0, none⟩).start, some N⟩ else iv.getD b ⟨0, none⟩) ++ List.replicate c ⟨N, none⟩

section next
variable {N : Nat} {iv : List Bar} {dead : Nat → Prop} [DecidablePred dead] {c : Nat}

theorem nextBars_length : (nextBars N iv dead c).length = iv.length + c := by unfold nextBars; simp

theorem nextBars_old {b : Nat} {x : Bar} (hb : iv[b]? = some x) : (nextBars N iv dead c)[b]? = some (if dead b then ⟨x.start, some N⟩ else x) := by
  have hl := (List.getElem?_eq_some_iff.1 hb).1
  unfold nextBars
  rw [List.getElem?_append_left (by simpa using hl), List.getElem?_map, List.getElem?_range hl, Option.map_some, getD_of_get? hb]

theorem nextBars_new {b : Nat} (h1 : iv.length ≤ b) (h2 : b < iv.length + c) : (nextBars N iv dead c)[b]? = some ⟨N, none⟩ := by
  unfold nextBars
  rw [List.getElem?_append_right (by simpa using h1), List.getElem?_replicate]
  simp; omega

theorem nextBars_cases {b : Nat} {y : Bar} (h : (nextBars N iv dead c)[b]? = some y) :
    (∃ x, iv[b]? = some x ∧ y = if dead b then ⟨x.start, some N⟩ else x) ∨ (iv.length ≤ b ∧ b < iv.length + c ∧ y = ⟨N, none⟩) := by
  have hl := (List.getElem?_eq_some_iff.1 h).1
  rw [nextBars_length] at hl
  by_cases hb : b < iv.length
  · left
    have hx : iv[b]? = some iv[b] := List.getElem?_eq_getElem hb
    refine ⟨_, hx, ?_⟩
    rw [nextBars_old hx] at h
    injection h with h; exact h.symm
  · right
    refine ⟨by omega, hl, ?_⟩
    rw [nextBars_new (by omega) hl] at h
    injection h with h; exact h.symm

theorem nextBars_ends (h : EndsOK N iv) : EndsOK (N + 1) (nextBars N iv dead c) := by
  intro y hy
  obtain ⟨b, hb, e⟩ := List.mem_iff_getElem.1 hy
  have hb' : (nextBars N iv dead c)[b]? = some y := by rw [List.getElem?_eq_getElem hb, e]
  rcases nextBars_cases hb' with ⟨x, hx, rfl⟩ | ⟨_, _, rfl⟩
  · have := h x (List.mem_of_getElem? hx)
    split
    · exact ⟨by show x.start < N + 1; omega, fun s hs => by injection hs with hs; subst hs; exact ⟨this.1, by omega⟩⟩
    · exact ⟨by omega, fun s hs => ⟨(this.2 s hs).1, by have := (this.2 s hs).2; omega⟩⟩
  · exact ⟨by show N < N + 1; omega, fun s hs => by cases hs⟩

theorem nextBars_alive_old (h : EndsOK N iv) (hd : ∀ b, dead b → b ∈ alive iv N) {i : Nat} (hi : i ≤ N) : alive (nextBars N iv dead c) i = alive iv i := by
  ext b
  rw [mem_alive, mem_alive]
  constructor
  · rintro ⟨y, hy, hA⟩
    rcases nextBars_cases hy with ⟨x, hx, rfl⟩ | ⟨_, _, rfl⟩
    · refine ⟨x, hx, ?_⟩
      by_cases hdb : dead b
      · rw [if_pos hdb] at hA
        refine ⟨hA.1, fun s hs => ?_⟩
        rw [(alive_stop h hx).1 (hd b hdb)] at hs; cases hs
      · rw [if_neg hdb] at hA; exact hA
    · have h1 : N < i := hA.1; omega
  · rintro ⟨x, hx, hA⟩
    refine ⟨_, nextBars_old hx, ?_⟩
    by_cases hdb : dead b
    · rw [if_pos hdb]
      exact ⟨hA.1, fun s hs => by injection hs with hs; omega⟩
    · rw [if_neg hdb]; exact hA

theorem nextBars_alive_new (h : EndsOK N iv) (b : Nat) :
    b ∈ alive (nextBars N iv dead c) (N + 1) ↔ (b ∈ alive iv N ∧ ¬ dead b) ∨ (iv.length ≤ b ∧ b < iv.length + c) := by
  rw [mem_alive]
  constructor
  · rintro ⟨y, hy, hA⟩
    rcases nextBars_cases hy with ⟨x, hx, rfl⟩ | ⟨h1, h2, rfl⟩
    · left
      by_cases hdb : dead b
      · rw [if_pos hdb] at hA
        have := hA.2 N rfl; omega
      · rw [if_neg hdb] at hA
        refine ⟨?_, hdb⟩
        rw [alive_stop h hx]
        rcases hs : x.stop with _ | s
        · rfl
        · have := hA.2 s hs
          have := ((h x (List.mem_of_getElem? hx)).2 s hs).2
          omega
    · exact Or.inr ⟨h1, h2⟩
  · rintro (⟨hb, hdb⟩ | ⟨h1, h2⟩)
    · obtain ⟨x, hx, hA⟩ := mem_alive.1 hb
      refine ⟨_, nextBars_old hx, ?_⟩
      rw [if_neg hdb]
      have hs := (alive_stop h hx).1 hb
      exact ⟨by have := hA.1; omega, fun s hs' => by rw [hs] at hs'; cases hs'⟩
    · exact ⟨_, nextBars_new h1 h2, by show N < N + 1; omega, fun s hs => by cases hs⟩

end next

/-! ### `update_bars` -/

/-- what `update_bars` achieves -/
structure UBRes (es : List (Event T)) (k N n' : Nat) (P : Nat → Option Nat) (β : Nat → Nat) (iv : List Bar) (bars' : List (ZPair T)) (m' : AMap) (iv' : List Bar)
    (β' : Nat → Nat) : Prop where
  pairs : PairsOK es k iv' bars'
  ends : EndsOK (N + 1) iv'
  nodup : (m'.map Prod.fst).Nodup
  mem : ∀ a b, (a, b) ∈ m' ↔ a < n' ∧ b = β' a
  same : ∀ i, i ≤ N → alive iv' i = alive iv i
  alive : ∀ b, b ∈ alive iv' (N + 1) ↔ ∃ a, a < n' ∧ β' a = b
  inj : ∀ a a', a < n' → a' < n' → β' a = β' a' → a = a'
  old : ∀ t r, t < n' → P t = some r → β' t = β r
  new : ∀ t, t < n' → P t = none → β' t ∉ Zigzag.alive iv N

theorem updateBars_core {es : List (Event T)} {k N n n' : Nat} {e : Event T} (he : es[N]? = some e) {G : CMat F} (hG : G.Shape n n') (hmono : Monomial (G.mat n n'))
    {bars : List (ZPair T)} {m : AMap} {iv : List Bar} {β : Nat → Nat} (hpairs : PairsOK es k iv bars) (hends : EndsOK N iv) (hnd : (m.map Prod.fst).Nodup)
    (hmem : ∀ a b, (a, b) ∈ m ↔ a < n ∧ b = β a) (hal : ∀ b, b ∈ alive iv N ↔ ∃ a, a < n ∧ β a = b) (hinj : ∀ a a', a < n → a' < n → β a = β a' → a = a') :
    ∃ bars' m' iv' β', ((do
        let r := ubLoop e k 0 G.cols bars m []
        let bars' ← killLoop e r.2.1 r.1
        pure (bars', r.2.2)) : Res _) = .ok (bars', m') ∧ UBRes es k N n' (piv G.cols) β iv bars' m' iv' β' := by
  classical
  have hP : ∀ t r, t < n' → piv G.cols t = some r → r < n := fun t r ht hr => (piv_some hG hmono ht hr).1
  have hPinj : ∀ t t' r, t < n' → t' < n' → piv G.cols t = some r → piv G.cols t' = some r → t = t' := by
    intro t t' r ht ht' h1 h2
    obtain ⟨a, b, _⟩ := piv_some hG hmono ht h1
    obtain ⟨a', b', _⟩ := piv_some hG hmono ht' h2
    have := hmono.1 ⟨r, a⟩ ⟨t, ht⟩ ⟨t', ht'⟩ b b'
    simpa using this
  have hlen : iv.length = bars.length := by have := congrArg List.length hpairs; simpa using this
  obtain ⟨bars1, m1, m2, c, β', hub, hUL⟩ := ubLoop_spec (e := e) (h := k) hG.ncol (β := β) (m0 := m) (bars0 := bars)
    (fun t r ht hr => (hmem _ _).2 ⟨hP t r ht hr, rfl⟩) hPinj G.cols 0 bars m [] 0 (fun _ => 0) rfl (Nat.zero_le _)
    ⟨by simp, hnd, fun a b => ⟨fun h => ⟨h, fun t ht => by omega⟩, fun h => h.1⟩, by simp, fun a b => by simp, fun t r ht => by omega, fun t ht => by omega,
      fun i h1 h2 => by omega, fun t t' ht => by omega⟩
  have hm1 : ∀ i, (∃ a, (a, i) ∈ m1) ↔ ∃ a, a < n ∧ β a = i ∧ ∀ t, t < n' → piv G.cols t ≠ some a := by
    intro i
    constructor
    · rintro ⟨a, ha⟩
      obtain ⟨h1, h2⟩ := (hUL.mem a i).1 ha
      obtain ⟨h3, h4⟩ := (hmem a i).1 h1
      exact ⟨a, h3, h4.symm, h2⟩
    · rintro ⟨a, h1, h2, h3⟩
      exact ⟨a, (hUL.mem a i).2 ⟨(hmem a i).2 ⟨h1, h2.symm⟩, h3⟩⟩
  have hβlt : ∀ a, a < n → β a < bars.length := by
    intro a ha
    obtain ⟨x, hx, _⟩ := mem_alive.1 ((hal _).2 ⟨a, ha, rfl⟩)
    rw [← hlen]; exact (List.getElem?_eq_some_iff.1 hx).1
  have hb1 : bars1.length = bars.length + c := by rw [hUL.bars]; simp
  obtain ⟨bars', k1, k2, k3, k4⟩ := killLoop_spec e m1 bars1 (by
    intro a b hab
    obtain ⟨a', h1, h2, _⟩ := (hm1 b).1 ⟨a, hab⟩
    have := hβlt a' h1; omega)
  have hdec : DecidablePred (fun i => ∃ a, (a, i) ∈ m1) := fun i => Classical.propDecidable _
  have hdead : ∀ b, (∃ a, (a, b) ∈ m1) → b ∈ alive iv N := by
    intro b hb
    obtain ⟨a, h1, h2, _⟩ := (hm1 b).1 hb
    exact (hal b).2 ⟨a, h1, h2⟩
  refine ⟨bars', m2, nextBars N iv (fun i => ∃ a, (a, i) ∈ m1) c, β', ?_, ?_, nextBars_ends hends, hUL.nodup2, hUL.mem2, fun i hi => nextBars_alive_old hends hdead hi, ?_, ?_, ?_, ?_⟩
  · rw [hub]
    show (killLoop e m1 bars1 >>= fun bars' => pure (bars', m2)) = _
    rw [k1]; rfl
  · -- the pairs
    unfold PairsOK
    apply List.ext_getElem?
    intro b
    rw [List.getElem?_map, List.getElem?_map]
    by_cases hb : b < iv.length
    · have hx : iv[b]? = some iv[b] := List.getElem?_eq_getElem hb
      have hbb : b < bars.length := by omega
      have hpb : pairOf es k iv[b] = some bars[b] := by
        have := congrArg (fun l => l[b]?) hpairs
        simp only [List.getElem?_map, hx, List.getElem?_eq_getElem hbb, Option.map_some] at this
        injection this
      have hb1' : bars1[b]? = some bars[b] := by rw [hUL.bars, List.getElem?_append_left hbb, List.getElem?_eq_getElem hbb]
      rw [nextBars_old hx]
      by_cases hd : ∃ a, (a, b) ∈ m1
      · rw [if_pos hd, k3 b hd, hb1']
        simp only [Option.map_some]
        congr 1
        have hs := (alive_stop hends hx).1 (hdead b hd)
        have hpo : ∀ y : Bar, y.stop = none → ∀ q, pairOf es k y = some q → pairOf es k ⟨y.start, some N⟩ = some (kill e q) := by
          intro y hy q hq
          unfold pairOf at hq ⊢
          rcases hes : es[y.start]? with _ | f
          · rw [hes] at hq; cases hq
          · rw [hes] at hq
            simp only [hy, Option.bind_eq_bind, Option.bind_some, Option.pure_def, Option.some.injEq] at hq
            simp only [Option.bind_eq_bind, Option.bind_some, he, Option.pure_def, hes]
            rw [← hq]; rfl
        exact hpo _ hs _ hpb
      · rw [if_neg hd, k4 b hd, hb1']
        simp only [Option.map_some]
        rw [hpb]
    · by_cases hb2 : b < iv.length + c
      · have hnd : ¬ ∃ a, (a, b) ∈ m1 := by
          rintro ⟨a, ha⟩
          obtain ⟨a', h1, h2, _⟩ := (hm1 b).1 ⟨a, ha⟩
          have := hβlt a' h1; omega
        rw [nextBars_new (by omega) hb2, k4 b hnd, hUL.bars, List.getElem?_append_right (by omega), List.getElem?_replicate, if_pos (by omega)]
        simp only [Option.map_some]
        congr 1
        unfold pairOf
        simp only [Option.bind_eq_bind, he, Option.bind_some, Option.pure_def]
      · rw [List.getElem?_eq_none (by rw [nextBars_length]; omega), List.getElem?_eq_none (by rw [k2, hb1]; omega)]
        rfl
  · intro b
    rw [nextBars_alive_new hends]
    constructor
    · rintro (⟨h1, h2⟩ | ⟨h1, h2⟩)
      · obtain ⟨a, ha, rfl⟩ := (hal b).1 h1
        by_contra hh
        apply h2
        refine (hm1 _).2 ⟨a, ha, rfl, fun t ht hp => hh ⟨t, ht, hUL.old t a ht hp⟩⟩
      · obtain ⟨t, ht, _, e'⟩ := hUL.surj b (by omega) (by omega)
        exact ⟨t, ht, e'⟩
    · rintro ⟨t, ht, rfl⟩
      rcases hp : piv G.cols t with _ | r
      · right
        have := hUL.new t ht hp; omega
      · left
        have hr := hP t r ht hp
        rw [hUL.old t r ht hp]
        refine ⟨(hal _).2 ⟨r, hr, rfl⟩, ?_⟩
        intro hd
        obtain ⟨a, h1, h2, h3⟩ := (hm1 _).1 hd
        have := hinj a r h1 hr h2
        subst this
        exact h3 t ht hp
  · intro t t' ht ht' heq
    rcases hp : piv G.cols t with _ | r
    · rcases hp' : piv G.cols t' with _ | r'
      · exact hUL.inj t t' ht ht' hp hp' heq
      · have h1 := hUL.new t ht hp
        have h2 := hUL.old t' r' ht' hp'
        have := hβlt r' (hP t' r' ht' hp'); omega
    · rcases hp' : piv G.cols t' with _ | r'
      · have h1 := hUL.new t' ht' hp'
        have h2 := hUL.old t r ht hp
        have := hβlt r (hP t r ht hp); omega
      · have h1 := hUL.old t r ht hp
        have h2 := hUL.old t' r' ht' hp'
        have : r = r' := hinj r r' (hP t r ht hp) (hP t' r' ht' hp') (by rw [← h1, ← h2, heq])
        subst this
        exact hPinj t t' r ht ht' hp hp'
  · exact hUL.old
  · intro t ht hp hmem'
    obtain ⟨x, hx, _⟩ := mem_alive.1 hmem'
    have := (List.getElem?_eq_some_iff.1 hx).1
    have := hUL.new t ht hp; omega

end Zigzag
end BATS
