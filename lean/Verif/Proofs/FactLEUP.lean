import Verif.Proofs.FactLQU

set_option linter.unusedSectionVars false
set_option linter.unusedSimpArgs false
set_option linter.unusedVariables false

/-! # LEUP: the map of pivots and the lazy update -/

namespace BATS
namespace Fact
open Reduction CMat Matrix

variable {F : Type} [Field F] [DecidableEq F]

/-- `r` is the first nonzero row `≥ i` of the column -/
def PivAt (i : Nat) (c : SVec F) (r : Nat) : Prop := i ≤ r ∧ coef c r ≠ 0 ∧ ∀ r', i ≤ r' → r' < r → coef c r' = 0

theorem PivAt.unique {i : Nat} {c : SVec F} {r r' : Nat} (h : PivAt i c r) (h' : PivAt i c r') : r = r' := by
  rcases lt_trichotomy r r' with hh | hh | hh
  · exact absurd (h'.2.2 r h.1 hh) h.2.1
  · exact hh
  · exact absurd (h.2.2 r' h'.1 hh) h'.2.1

theorem pivAt_self {i : Nat} {c : SVec F} : PivAt i c i ↔ coef c i ≠ 0 :=
  ⟨fun h => h.2.1, fun h => ⟨le_refl _, h, fun r' h1 h2 => by omega⟩⟩

theorem pivAt_succ {i : Nat} {c : SVec F} (h : coef c i = 0) {r : Nat} : PivAt i c r ↔ PivAt (i + 1) c r := by
  constructor
  · rintro ⟨h1, h2, h3⟩
    have : r ≠ i := by rintro rfl; exact h2 h
    exact ⟨by omega, h2, fun r' a b => h3 r' (by omega) b⟩
  · rintro ⟨h1, h2, h3⟩
    refine ⟨by omega, h2, fun r' a b => ?_⟩
    by_cases hr : r' = i
    · rw [hr]; exact h
    · exact h3 r' (by omega) b

theorem lowerBound_pivAt {c : SVec F} (hc : VecOK c) (i : Nat) :
    (c[SVec.lowerBound c i]? = none ∧ ∀ r, ¬ PivAt i c r) ∨ ∃ r v, c[SVec.lowerBound c i]? = some (r, v) ∧ PivAt i c r := by
  rcases h : c[SVec.lowerBound c i]? with _ | ⟨r, v⟩
  · left
    exact ⟨rfl, fun r hr => hr.2.1 (lowerBound_none hc.1 h r hr.1)⟩
  · right
    obtain ⟨g1, g2, g3, g4, g5, g6⟩ := lowerBound_get hc h
    exact ⟨r, v, rfl, g1, by rw [g3]; exact g4, g5⟩

/-- the map lists, for the rows `≥ i`, exactly the columns related to the row -/
def PM (p : PMap) (i : Nat) (S : Nat → Nat → Prop) : Prop :=
  ∀ r, i ≤ r → p r ≠ some [] ∧ ((p r).getD []).Nodup ∧ ∀ c, c ∈ (p r).getD [] ↔ S r c

theorem PM.congr {p : PMap} {i : Nat} {S S' : Nat → Nat → Prop} (h : PM p i S) (hS : ∀ r c, i ≤ r → (S r c ↔ S' r c)) : PM p i S' :=
  fun r hr => ⟨(h r hr).1, (h r hr).2.1, fun c => ((h r hr).2.2 c).trans (hS r c hr)⟩

theorem PM.update {p : PMap} {i : Nat} {S : Nat → Nat → Prop} (h : PM p i S) {c : SVec F} (hc : VecOK c) {j : Nat}
    (hj : ∀ r, i ≤ r → ¬ S r j) : PM (updatePivot c p j i) i (fun r c' => S r c' ∨ (c' = j ∧ PivAt i c r)) := by
  intro r hr
  unfold updatePivot
  rcases lowerBound_pivAt hc i with ⟨e, hn⟩ | ⟨r0, v, e, hp⟩
  · rw [e]
    refine ⟨(h r hr).1, (h r hr).2.1, fun c' => ?_⟩
    rw [(h r hr).2.2 c']
    exact ⟨Or.inl, fun hh => hh.resolve_right (fun hh => hn r hh.2)⟩
  · rw [e]
    simp only []
    by_cases hrr : r = r0
    · subst hrr
      rw [Function.update_self]
      simp only [Option.getD_some]
      refine ⟨by simp, ?_, ?_⟩
      · rw [List.nodup_append]
        refine ⟨(h r hr).2.1, by simp, ?_⟩
        intro a ha b hb
        rw [List.mem_singleton] at hb
        rintro rfl
        rw [hb] at ha
        exact hj r hr (((h r hr).2.2 j).1 ha)
      · intro c'
        rw [List.mem_append, List.mem_singleton, (h r hr).2.2 c']
        exact ⟨fun hh => hh.imp_right (fun e => ⟨e, hp⟩), fun hh => hh.imp_right (fun e => e.1)⟩
    · rw [Function.update_of_ne hrr]
      refine ⟨(h r hr).1, (h r hr).2.1, fun c' => ?_⟩
      rw [(h r hr).2.2 c']
      exact ⟨Or.inl, fun hh => hh.resolve_right (fun hh => hrr (hh.2.unique hp))⟩

theorem getPivots_spec {m : Nat} : ∀ (cs : List (SVec F)) (j : Nat) (p : PMap) (S : Nat → Nat → Prop), ColsOK m cs → PM p 0 S →
    (∀ r c, S r c → c < j) → PM (getPivots j cs p) 0 (fun r c => S r c ∨ (j ≤ c ∧ c < j + cs.length ∧ PivAt 0 (cs.getD (c - j) []) r))
  | [], j, p, S, _, h, _ => by
    refine h.congr (fun r c _ => ⟨Or.inl, fun hh => hh.resolve_right (fun hh => ?_)⟩)
    simp at hh; omega
  | c :: cs, j, p, S, hc, h, hS => by
    have hc1 := (hc c (by simp)).1
    have h1 := h.update (j := j) hc1 (fun r _ hh => by have := hS r j hh; omega)
    have h2 := getPivots_spec cs (j + 1) _ _ (fun d hd => hc d (List.mem_cons_of_mem _ hd)) h1 (by
      rintro r c' (hh | hh)
      · have := hS r c' hh; omega
      · omega)
    refine h2.congr (fun r c' _ => ?_)
    constructor
    · rintro ((hh | ⟨rfl, hh⟩) | ⟨a1, a2, a3⟩)
      · exact Or.inl hh
      · right; refine ⟨le_refl _, by simp, ?_⟩; simpa using hh
      · right
        refine ⟨by omega, by simp; omega, ?_⟩
        rw [show c' - j = (c' - (j + 1)) + 1 by omega, List.getD_cons_succ]; exact a3
    · rintro (hh | ⟨a1, a2, a3⟩)
      · exact Or.inl (Or.inl hh)
      · by_cases hcj : c' = j
        · subst hcj
          left; right
          refine ⟨rfl, ?_⟩
          simpa using a3
        · right
          rw [show c' - j = (c' - (j + 1)) + 1 by omega, List.getD_cons_succ] at a3
          simp only [List.length_cons] at a2
          exact ⟨by omega, by omega, a3⟩

/-! ### the lazy update -/

/-- the entries added by the lazy update -/
def lz (x : SVec F) : Nat → List (F × Nat) → SVec F
  | _, [] => []
  | ii, (a, q) :: cs => if coef x q ≠ 0 then (ii, a * coef x q) :: lz x (ii + 1) cs else lz x (ii + 1) cs

theorem lz_bounds (x : SVec F) : ∀ (cs : List (F × Nat)) (ii : Nat), ∀ p ∈ lz x ii cs, ii ≤ p.1 ∧ p.1 < ii + cs.length
  | [], ii, p, hp => by simp [lz] at hp
  | (a, q) :: cs, ii, p, hp => by
    rw [lz] at hp
    simp only [List.length_cons]
    split at hp
    · rw [List.mem_cons] at hp
      rcases hp with rfl | hp
      · simp
      · have := lz_bounds x cs (ii + 1) p hp; omega
    · have := lz_bounds x cs (ii + 1) p hp; omega

theorem lz_ok (x : SVec F) : ∀ (cs : List (F × Nat)) (ii : Nat), (∀ p ∈ cs, p.1 ≠ 0) → VecOK (lz x ii cs)
  | [], ii, _ => vecOK_nil
  | (a, q) :: cs, ii, h => by
    have ih := lz_ok x cs (ii + 1) (fun p hp => h p (List.mem_cons_of_mem _ hp))
    rw [lz]
    split
    · rename_i hne
      refine ⟨sorted_cons.2 ⟨fun p hp => ?_, ih.1⟩, ?_⟩
      · have := lz_bounds x cs (ii + 1) p hp
        simp only; omega
      · intro p hp
        rw [List.mem_cons] at hp
        rcases hp with rfl | hp
        · exact mul_ne_zero (h (a, q) (by simp)) hne
        · exact ih.2 p hp
    · exact ih

theorem lz_coef (x : SVec F) : ∀ (cs : List (F × Nat)) (ii l : Nat), coef (lz x ii cs) (ii + l) = ((cs[l]?).map (fun p => p.1 * coef x p.2)).getD 0
  | [], ii, l => by simp [lz, coef]
  | (a, q) :: cs, ii, 0 => by
    rw [lz]
    have hz : coef (lz x (ii + 1) cs) (ii + 0) = 0 := by
      apply coef_eq_zero_of_notMem
      intro p hp
      have := lz_bounds x cs (ii + 1) p hp
      omega
    split
    · rw [coef_cons', if_pos (by omega), hz]; simp
    · rename_i h
      push Not at h
      rw [hz]; simp [h]
  | (a, q) :: cs, ii, l + 1 => by
    have ih := lz_coef x cs (ii + 1) l
    rw [show ii + 1 + l = ii + (l + 1) by omega] at ih
    rw [lz, List.getElem?_cons_succ, ← ih]
    split
    · rw [coef_cons', if_neg (by omega), zero_add]
    · rfl

theorem lazyMain_spec (x : SVec F) (j : Nat) : ∀ (cs : List (F × Nat)) (ii : Nat) (x' : SVec F), VecOK x' → ii + cs.length ≤ j →
    (cs.map Prod.snd).Pairwise (· < ·) → (∀ p ∈ cs, p.1 ≠ 0) → (∀ p ∈ cs, coef x' p.2 = coef x p.2) →
    (∀ e ∈ x', (∃ p ∈ cs, p.2 = e.1) ∨ ∀ p ∈ cs, p.2 < e.1) →
    SVec.lazyMain ii [(j, (1 : F))] x' cs = .ok (lz x ii cs ++ [(j, 1)])
  | cs, ii, [], _, _, _, _, h, _ => by
    have : lz x ii cs = [] := by
      have : ∀ (cs : List (F × Nat)) (ii : Nat), (∀ p ∈ cs, coef x p.2 = 0) → lz x ii cs = [] := by
        intro cs
        induction cs with
        | nil => intro _ _; rfl
        | cons p cs ih =>
          intro ii hh
          obtain ⟨a, q⟩ := p
          rw [lz, if_neg (by simpa using hh (a, q) (by simp)), ih _ (fun p hp => hh p (List.mem_cons_of_mem _ hp))]
      exact this cs ii (fun p hp => by rw [← h p hp]; rfl)
    rw [this]
    cases cs <;> simp [SVec.lazyMain]
  | [], ii, e :: x', _, _, _, _, _, _ => by simp [SVec.lazyMain, lz]
  | (a, q) :: cs, ii, (k, v) :: x', hx, hl, hp, hne, hco, hin => by
    simp only [List.length_cons] at hl
    simp only [List.map_cons, List.pairwise_cons] at hp
    have hx' : VecOK x' := ⟨(sorted_cons.1 hx.1).2, fun p hp => hx.2 p (List.mem_cons_of_mem _ hp)⟩
    have hv : v ≠ 0 := hx.2 (k, v) (by simp)
    have ha : a ≠ 0 := hne (a, q) (by simp)
    have hqk : q ≤ k := by
      rcases hin (k, v) (by simp) with ⟨p, hp', e⟩ | h
      · rw [List.mem_cons] at hp'
        rcases hp' with rfl | hp'
        · exact le_of_eq e
        · have := hp.1 p.2 (List.mem_map.2 ⟨p, hp', rfl⟩)
          simp only at e; omega
      · have := h (a, q) (by simp); simp only at this; omega
    have hcoq := hco (a, q) (by simp)
    simp only at hcoq
    rw [SVec.lazyMain, lz]
    by_cases hlt : q < k
    · have hz : coef ((k, v) :: x') q = 0 := by
        apply coef_eq_zero_of_notMem
        intro p hp'
        rw [List.mem_cons] at hp'
        rcases hp' with rfl | hp'
        · simp only; omega
        · have := (sorted_cons.1 hx.1).1 p hp'; simp only at this; omega
      rw [if_pos ⟨by omega, hlt⟩, ← hcoq, if_neg (by simpa using hz)]
      apply lazyMain_spec x j cs (ii + 1) _ hx (by omega) hp.2 (fun p h => hne p (List.mem_cons_of_mem _ h))
        (fun p h => hco p (List.mem_cons_of_mem _ h))
      intro e he
      rcases hin e he with ⟨p, hp', ee⟩ | h
      · rw [List.mem_cons] at hp'
        rcases hp' with rfl | hp'
        · exfalso
          simp only at ee
          rw [List.mem_cons] at he
          rcases he with rfl | he
          · simp only at ee; omega
          · have := (sorted_cons.1 hx.1).1 e he; simp only at this; omega
        · exact Or.inl ⟨p, hp', ee⟩
      · exact Or.inr (fun p hp' => h p (List.mem_cons_of_mem _ hp'))
    · have hkq : q = k := by omega
      subst hkq
      have hv' : coef ((q, v) :: x') q = v := coef_of_mem hx.1 (by simp)
      rw [hv'] at hcoq
      rw [if_neg (by omega), if_neg (by omega), if_pos ⟨by omega, rfl⟩, ← hcoq, if_pos hv]
      rw [lazyMain_spec x j cs (ii + 1) x' hx' (by omega) hp.2 (fun p h => hne p (List.mem_cons_of_mem _ h)), bind_ok, if_pos (mul_ne_zero ha hv)]
      · rfl
      · intro p hp'
        rw [← hco p (List.mem_cons_of_mem _ hp'), coef_cons', if_neg, zero_add]
        have := hp.1 p.2 (List.mem_map.2 ⟨p, hp', rfl⟩)
        omega
      · intro e he
        have hek := (sorted_cons.1 hx.1).1 e he
        rcases hin e (List.mem_cons_of_mem _ he) with ⟨p, hp', ee⟩ | h
        · rw [List.mem_cons] at hp'
          rcases hp' with rfl | hp'
          · simp only at ee hek; omega
          · exact Or.inl ⟨p, hp', ee⟩
        · exact Or.inr (fun p hp' => h p (List.mem_cons_of_mem _ hp'))

/-- the lazy update of a unit column -/
theorem lazyAxpy_spec {x : SVec F} (hx : VecOK x) {coeff : List F} {inds : List Nat} {j : Nat} (hl : coeff.length = inds.length)
    (hj : inds.length ≤ j) (hp : inds.Pairwise (· < ·)) (hne : ∀ a ∈ coeff, a ≠ 0)
    (hin : ∀ r, coef x r ≠ 0 → r ∈ inds ∨ ∀ q ∈ inds, q < r) :
    ∃ t, SVec.lazyAxpy x coeff inds [(j, 1)] = .ok t ∧ VecOK t ∧ Below (j + 1) t ∧ coef t j = 1 ∧
      (∀ l, l < inds.length → coef t l = coeff.getD l 0 * coef x (inds.getD l 0)) ∧ ∀ l, inds.length ≤ l → l < j → coef t l = 0 := by
  have hmain : SVec.lazyAxpy x coeff inds [(j, 1)] = .ok (lz x 0 (coeff.zip inds) ++ [(j, 1)]) := by
    unfold SVec.lazyAxpy
    have hsnd : (coeff.zip inds).map Prod.snd = inds := List.map_snd_zip (by omega)
    have hlen : (coeff.zip inds).length = inds.length := by rw [List.length_zip]; omega
    have key := lazyMain_spec x j (coeff.zip inds) 0 x hx (by omega) (by rw [hsnd]; exact hp)
      (fun p hp => hne p.1 (List.of_mem_zip hp).1) (fun p _ => rfl) (by
        intro e he
        have : coef x e.1 ≠ 0 := by rw [coef_of_mem hx.1 he]; exact hx.2 e he
        rcases hin e.1 this with h | h
        · rw [← hsnd, List.mem_map] at h; exact Or.inl h
        · exact Or.inr (fun p hp => h p.2 (List.of_mem_zip hp).2))
    by_cases hnil : x = []
    · subst hnil
      simp only [List.isEmpty_nil, if_true]
      rw [← key]
      cases coeff.zip inds <;> simp [SVec.lazyMain]
    · rw [if_neg (by simpa using hnil)]
      exact key
  have hlen : (coeff.zip inds).length = inds.length := by rw [List.length_zip]; omega
  have hb := lz_bounds x (coeff.zip inds) 0
  have hok := lz_ok x (coeff.zip inds) 0 (fun p hp => hne p.1 (List.of_mem_zip hp).1)
  refine ⟨_, hmain, ⟨?_, ?_⟩, ?_, ?_, ?_, ?_⟩
  · unfold Sorted
    rw [List.pairwise_append]
    refine ⟨hok.1, by simp, ?_⟩
    intro p hp q hq
    rw [List.mem_singleton] at hq
    have := hb p hp
    rw [hq]; simp only; omega
  · intro p hp
    rw [List.mem_append, List.mem_singleton] at hp
    rcases hp with hp | rfl
    · exact hok.2 p hp
    · exact one_ne_zero
  · intro p hp
    rw [List.mem_append, List.mem_singleton] at hp
    rcases hp with hp | rfl
    · have := hb p hp; omega
    · simp
  · rw [coef_append, coef_eq_zero_of_notMem]
    · simp [coef]
    · intro p hp
      have := hb p hp; omega
  · intro l hl'
    have := lz_coef x (coeff.zip inds) 0 l
    rw [Nat.zero_add] at this
    rw [coef_append, this]
    have h0 : coef [(j, (1 : F))] l = 0 := by simp [coef]; omega
    rw [h0, add_zero, List.getElem?_eq_getElem (by omega : l < (coeff.zip inds).length)]
    simp [List.getD_eq_getElem?_getD, List.getElem?_eq_getElem hl', List.getElem?_eq_getElem (by omega : l < coeff.length)]
  · intro l h1 h2
    apply coef_eq_zero_of_notMem
    intro p hp
    rw [List.mem_append, List.mem_singleton] at hp
    rcases hp with hp | rfl
    · have := hb p hp; omega
    · simp only; omega

/-! ### the Schur complement -/

theorem schurLoop_spec {m i : Nat} {a : F} (ha : a ≠ 0) {cj : SVec F} (hcj : VecOK cj ∧ Below m cj) : ∀ (js : List Nat) (E : List (SVec F)) (p : PMap)
    (S : Nat → Nat → Prop), ColsOK m E → js.Nodup → (∀ jj ∈ js, jj < E.length) → PM p (i + 1) S → (∀ jj ∈ js, ∀ r, i + 1 ≤ r → ¬ S r jj) →
    ∃ E' p', schurLoop m i a cj js E p = .ok (E', p') ∧ E'.length = E.length ∧ ColsOK m E' ∧ (∀ c, c ∉ js → E'.getD c [] = E.getD c []) ∧
      (∀ jj ∈ js, ∀ r, en E' jj r = en E jj r + if i + 1 ≤ r ∧ r < m then -(en E jj i / a) * coef cj r else 0) ∧
      PM p' (i + 1) (fun r c => S r c ∨ (c ∈ js ∧ PivAt (i + 1) (E'.getD c []) r))
  | [], E, p, S, hE, _, _, hp, _ => by
    refine ⟨E, p, rfl, rfl, hE, fun c _ => rfl, by simp, hp.congr (fun r c _ => ?_)⟩
    simp
  | jj :: js, E, p, S, hE, hnd, hlt, hp, hS => by
    rw [List.nodup_cons] at hnd
    have hjj : jj < E.length := hlt jj (by simp)
    have hc := hE.getD jj
    set q : F := en E jj i / a with hq
    have hok' : VecOK (SVec.axpyRange (-q) cj (i + 1) m (E.getD jj [])) :=
      ⟨sorted_axpyRange _ hcj.1.1 hc.1.1 _ _, noZero_axpyRange _ hcj.1.2 hc.1.2 _ _⟩
    have hb' : Below m (SVec.axpyRange (-q) cj (i + 1) m (E.getD jj [])) := below_axpyRange _ hcj.2 hc.2 _ _
    have hp1 := hp.update (j := jj) hok' (hS jj (by simp))
    obtain ⟨E', p', h1, h2, h3, h4, h5, h6⟩ := schurLoop_spec ha hcj js (E.set jj (SVec.axpyRange (-q) cj (i + 1) m (E.getD jj [])))
      (updatePivot (SVec.axpyRange (-q) cj (i + 1) m (E.getD jj [])) p jj (i + 1)) _ (hE.set jj ⟨hok', hb'⟩) hnd.2
      (fun k hk => by rw [List.length_set]; exact hlt k (List.mem_cons_of_mem _ hk)) hp1 (by
        rintro k hk r hr (hh | ⟨rfl, _⟩)
        · exact hS k (List.mem_cons_of_mem _ hk) r hr hh
        · exact hnd.1 hk)
    refine ⟨E', p', ?_, by rw [h2, List.length_set], h3, ?_, ?_, ?_⟩
    · rw [schurLoop, rd_getD [] hjj, bind_ok]
      unfold fdiv
      rw [if_neg ha, bind_ok]
      rw [getval_eq_coef hc.1.1]
      exact h1
    · intro c hcn
      rw [List.mem_cons, not_or] at hcn
      rw [h4 c hcn.2, getD_set_ne _ _ (Ne.symm hcn.1)]
    · intro k hk r
      rw [List.mem_cons] at hk
      by_cases hkj : k = jj
      · subst hkj
        show coef (E'.getD k []) r = _
        rw [h4 k hnd.1, getD_set_self _ _ hjj, coef_axpyRange _ hcj.1.1]
      · have hk' := hk.resolve_left hkj
        rw [h5 k hk' r]
        have e : ∀ r, en (E.set jj (SVec.axpyRange (-q) cj (i + 1) m (E.getD jj []))) k r = en E k r := by
          intro r
          show coef ((E.set jj _).getD k []) r = _
          rw [getD_set_ne _ _ (Ne.symm hkj)]
        rw [e, e]
    · refine h6.congr (fun r c _ => ?_)
      constructor
      · rintro ((hh | ⟨rfl, hh⟩) | ⟨hh1, hh2⟩)
        · exact Or.inl hh
        · refine Or.inr ⟨by simp, ?_⟩
          rw [h4 c hnd.1, getD_set_self _ _ hjj]; exact hh
        · exact Or.inr ⟨List.mem_cons_of_mem _ hh1, hh2⟩
      · rintro (hh | ⟨hh1, hh2⟩)
        · exact Or.inl (Or.inl hh)
        · rw [List.mem_cons] at hh1
          by_cases hkj : c = jj
          · subst hkj
            left; right
            rw [h4 c hnd.1, getD_set_self _ _ hjj] at hh2
            exact ⟨rfl, hh2⟩
          · exact Or.inr ⟨hh1.resolve_left hkj, hh2⟩

end Fact
end BATS
