import Verif.Model.Fact
import Verif.Proofs.Solve
import Verif.Proofs.SVecOps
import Verif.Proofs.Variants

set_option linter.unusedSectionVars false
set_option linter.unusedSimpArgs false
set_option linter.unusedVariables false

/-! # `CU_inplace`: column echelon form by first nonzero entries -/

namespace BATS
namespace Fact
open Reduction CMat Matrix

variable {F : Type} [Field F] [DecidableEq F]

/-! ### lower_bound -/

theorem lowerBound_get {c : SVec F} (hc : VecOK c) {b i0 : Nat} {v : F} (h : c[SVec.lowerBound c b]? = some (i0, v)) :
    b ≤ i0 ∧ (i0, v) ∈ c ∧ coef c i0 = v ∧ v ≠ 0 ∧ (∀ r, b ≤ r → r < i0 → coef c r = 0) ∧ SVec.lowerBound c (i0 + 1) = SVec.lowerBound c b + 1 := by
  obtain ⟨hs, hz⟩ := hc
  have hmem := List.mem_of_getElem? h
  have hv := hz _ hmem
  have hco := coef_of_mem hs hmem
  unfold SVec.lowerBound at h
  have key : ∀ (c : SVec F), Sorted c → c[(c.takeWhile (fun p => decide (p.1 < b))).length]? = some (i0, v) →
      b ≤ i0 ∧ (∀ r, b ≤ r → r < i0 → coef c r = 0) ∧
        (c.takeWhile (fun p => decide (p.1 < i0 + 1))).length = (c.takeWhile (fun p => decide (p.1 < b))).length + 1 := by
    intro c
    induction c with
    | nil => intro _ h; simp at h
    | cons p c ih =>
      obtain ⟨k, a⟩ := p
      intro hs h
      have hs' := sorted_cons.1 hs
      by_cases hk : k < b
      · rw [List.takeWhile_cons_of_pos (by simpa using hk), List.length_cons, List.getElem?_cons_succ] at h
        obtain ⟨q1, q2, q3⟩ := ih hs'.2 h
        refine ⟨q1, ?_, ?_⟩
        · intro r h1 h2
          rw [coef_cons', if_neg (by omega), q2 r h1 h2, add_zero]
        · rw [List.takeWhile_cons_of_pos (by simpa using (by omega : k < i0 + 1)), List.takeWhile_cons_of_pos (by simpa using hk), List.length_cons,
            List.length_cons, q3]
      · rw [List.takeWhile_cons_of_neg (by simpa using (by omega : b ≤ k))] at h
        simp only [List.length_nil, List.getElem?_cons_zero, Option.some.injEq, Prod.mk.injEq] at h
        obtain ⟨rfl, rfl⟩ := h
        refine ⟨by omega, ?_, ?_⟩
        · intro r h1 h2
          rw [coef_cons', if_neg (by omega), zero_add]
          apply coef_eq_zero_of_notMem
          intro p hp
          have := hs'.1 p hp
          omega
        · rw [List.takeWhile_cons_of_pos (by simp), List.takeWhile_cons_of_neg (by simpa using (by omega : b ≤ k)), List.length_cons, List.length_nil,
            Nat.zero_add]
          have : c.takeWhile (fun p => decide (p.1 < k + 1)) = [] := by
            apply takeWhile_eq_nil_of
            intro p hp
            have := hs'.1 p hp
            simpa using (by omega : k + 1 ≤ p.1)
          rw [this]; rfl
  obtain ⟨q1, q2, q3⟩ := key c hs h
  exact ⟨q1, hmem, hco, hv, q2, q3⟩

theorem lowerBound_none {c : SVec F} (hs : Sorted c) {b : Nat} (h : c[SVec.lowerBound c b]? = none) : ∀ r, b ≤ r → coef c r = 0 := by
  intro r hr
  unfold SVec.lowerBound at h
  rw [List.getElem?_eq_none_iff] at h
  have hall : c.takeWhile (fun p => decide (p.1 < b)) = c := by
    apply List.IsPrefix.eq_of_length_le (List.takeWhile_prefix _) h
  apply coef_eq_zero_of_notMem
  intro p hp
  rw [← hall] at hp
  have := mem_takeWhile_lt p hp
  omega

/-- nothing stored at `i`: the positions for `i` and `i + 1` agree -/
theorem lowerBound_skip {c : SVec F} (hc : VecOK c) {i : Nat} (h : coef c i = 0) : SVec.lowerBound c i = SVec.lowerBound c (i + 1) := by
  unfold SVec.lowerBound
  congr 1
  have hne : ∀ p ∈ c, p.1 ≠ i := by
    rintro ⟨k, a⟩ hp rfl
    rw [coef_of_mem hc.1 hp] at h
    exact hc.2 _ hp h
  clear h hc
  induction c with
  | nil => rfl
  | cons p c ih =>
    have := hne p (by simp)
    rw [List.takeWhile_cons, List.takeWhile_cons, ih (fun q hq => hne q (List.mem_cons_of_mem _ hq))]
    have : decide (p.1 < i) = decide (p.1 < i + 1) := by congr 1; rw [eq_iff_iff]; omega
    rw [this]

theorem lowerBound_zero (c : SVec F) : SVec.lowerBound c 0 = 0 := by
  unfold SVec.lowerBound
  rw [takeWhile_eq_nil_of (by intro p _; simp)]; rfl

theorem eq_nil_of_coef {c : SVec F} (hc : VecOK c) (h : ∀ r, coef c r = 0) : c = [] :=
  hc.ext vecOK_nil (fun i => by rw [h]; rfl)

theorem vecOK_scale {w : F} (hw : w ≠ 0) {v : SVec F} (hv : VecOK v) : VecOK (SVec.scale w v) := by
  have := vecOK_smul w hv
  unfold SVec.smul at this
  rwa [if_neg hw] at this

theorem below_scale {m : Nat} {w : F} {v : SVec F} (hv : Below m v) : Below m (SVec.scale w v) := by
  intro p hp
  obtain ⟨q, hq, rfl⟩ := List.mem_map.1 hp
  exact hv q hq

/-! ### the invariant -/

/-- entry `(r, c)` -/
abbrev en (C : List (SVec F)) (c r : Nat) : F := coef (C.getD c []) r

structure CUInv (m n j : Nat) (A C U : List (SVec F)) (p2c : List (Option Nat)) : Prop where
  okC : ColsOK m C
  okU : ColsOK n U
  lC : C.length = n
  lU : U.length = n
  lp : p2c.length = m
  app : ∀ c, c < n → ∀ r, en C c r = ∑ k ∈ Finset.range n, en U c k * en A k r
  diag : ∀ c, c < n → en U c c ≠ 0
  upper : ∀ c, c < n → ∀ k, c < k → en U c k = 0
  tab : ∀ r k : Nat, p2c[r]? = some (some k) → k < j ∧ en C k r = 1 ∧ ∀ r', r' < r → en C k r' = 0
  full : ∀ k, k < j → C.getD k [] ≠ [] → ∃ r : Nat, p2c[r]? = some (some k)
  elim : ∀ r k : Nat, p2c[r]? = some (some k) → ∀ c, k < c → c < j → en C c r = 0

theorem cuCol_spec {m n j : Nat} (hj : j < n) {A : List (SVec F)} {p0 : List (Option Nat)} :
    ∀ (fuel : Nat) (found : Bool) (b : Nat) (C U : List (SVec F)) (p2c : List (Option Nat)),
      CUInv m n j A C U p0 → b ≤ m → m + 1 ≤ fuel + b →
      (∀ r, r < b → en C j r ≠ 0 → ∀ k, p0[r]? ≠ some (some k)) →
      ((found = false ∧ p2c = p0 ∧ ∀ r, r < b → en C j r = 0) ∨
        (found = true ∧ ∃ r0, r0 < b ∧ p0[r0]? = some none ∧ p2c = p0.set r0 (some j) ∧ en C j r0 = 1 ∧ ∀ r, r < r0 → en C j r = 0)) →
      ∃ C' U' p', cuCol j fuel found (SVec.lowerBound (C.getD j []) b) C U p2c = .ok (C', U', p') ∧ CUInv m n (j + 1) A C' U' p'
  | 0, found, b, C, U, p2c, _, h1, h2, _, _ => by omega
  | fuel + 1, found, b, C, U, p2c, hI, hb, hf, hseen, hst => by
    have hjC : j < C.length := by rw [hI.lC]; exact hj
    have hjU : j < U.length := by rw [hI.lU]; exact hj
    have hcj := hI.okC.getD j
    have hp2c : ∀ r, b ≤ r → p2c[r]? = p0[r]? := by
      intro r hr
      rcases hst with ⟨_, e, _⟩ | ⟨_, r0, h1, _, e, _⟩
      · rw [e]
      · rw [e, List.getElem?_set_ne (by omega)]
    rw [cuCol, rd_getD [] hjC, bind_ok]
    rcases hg : (C.getD j [])[SVec.lowerBound (C.getD j []) b]? with _ | ⟨i0, v⟩
    · -- the column is finished
      have hz := lowerBound_none hcj.1.1 hg
      have hseen' : ∀ r, en C j r ≠ 0 → ∀ k, p0[r]? ≠ some (some k) := by
        intro r hr k
        by_cases hrb : r < b
        · exact hseen r hrb hr k
        · exact absurd (hz r (by omega)) hr
      refine ⟨C, U, p2c, rfl, ?_⟩
      rcases hst with ⟨_, e, hzero⟩ | ⟨_, r0, h1, h2, e, h3, h4⟩
      · have hnil : C.getD j [] = [] := by
          apply eq_nil_of_coef hcj.1
          intro r
          by_cases hrb : r < b
          · exact hzero r hrb
          · exact hz r (by omega)
        subst e
        refine { hI with tab := ?_, full := ?_, elim := ?_ }
        · intro r k h; obtain ⟨a1, a2⟩ := hI.tab r k h; exact ⟨by omega, a2⟩
        · intro k hk hne
          by_cases hkj : k = j
          · subst hkj; exact absurd hnil hne
          · exact hI.full k (by omega) hne
        · intro r k h c h1 h2
          by_cases hcj' : c = j
          · subst hcj'; show coef (C.getD c []) r = 0; rw [hnil]; rfl
          · exact hI.elim r k h c h1 (by omega)
      · subst e
        have hr0 : r0 < p0.length := (List.getElem?_eq_some_iff.1 h2).1
        have hcase : ∀ r k, (p0.set r0 (some j))[r]? = some (some k) → (r = r0 ∧ k = j) ∨ (r ≠ r0 ∧ p0[r]? = some (some k)) := by
          intro r k h
          by_cases hr : r0 = r
          · subst hr; rw [List.getElem?_set_self hr0] at h; left; exact ⟨rfl, by simpa using h.symm⟩
          · rw [List.getElem?_set_ne hr] at h; right; exact ⟨fun e => hr e.symm, h⟩
        refine { hI with lp := by rw [List.length_set]; exact hI.lp, tab := ?_, full := ?_, elim := ?_ }
        · intro r k h
          rcases hcase r k h with ⟨rfl, rfl⟩ | ⟨_, h'⟩
          · exact ⟨by omega, h3, h4⟩
          · obtain ⟨a1, a2⟩ := hI.tab r k h'; exact ⟨by omega, a2⟩
        · intro k hk hne
          by_cases hkj : k = j
          · subst hkj; exact ⟨r0, List.getElem?_set_self hr0⟩
          · obtain ⟨r, hr⟩ := hI.full k (by omega) hne
            refine ⟨r, ?_⟩
            rw [List.getElem?_set_ne, hr]
            rintro rfl; rw [h2] at hr; cases hr
        · intro r k h c h1' h2'
          rcases hcase r k h with ⟨rfl, rfl⟩ | ⟨_, h'⟩
          · omega
          · by_cases hcj' : c = j
            · subst hcj'
              by_contra hne
              exact hseen' r hne k h'
            · exact hI.elim r k h' c h1' (by omega)
    · obtain ⟨g1, g2, g3, g4, g5, g6⟩ := lowerBound_get hcj.1 hg
      have him : i0 < m := hcj.2 _ g2
      have hip : i0 < p2c.length := by
        rcases hst with ⟨_, e, _⟩ | ⟨_, r0, _, _, e, _⟩
        · rw [e, hI.lp]; exact him
        · rw [e, List.length_set, hI.lp]; exact him
      have hrd : rd p2c i0 = .ok (p2c[i0]'hip) := rd_ok hip
      simp only [hrd, bind_ok]
      have hpi : p2c[i0]? = some (p2c[i0]'hip) := List.getElem?_eq_getElem hip
      have hp0i := hp2c i0 g1
      rcases he : p2c[i0]'hip with _ | k
      · -- no pivot in this row yet
        rw [he] at hpi
        rw [hpi] at hp0i
        by_cases hfound : found = false
        · subst hfound
          rcases hst with ⟨_, e, hzero⟩ | ⟨hh, _⟩
          swap; · cases hh
          simp only [if_true]
          unfold fdiv
          rw [if_neg g4, bind_ok, rd_getD [] hjU, bind_ok]
          have hw : (1 : F) / v ≠ 0 := one_div_ne_zero g4
          have hget : (C.set j (SVec.scale (1 / v) (C.getD j []))).getD j [] = SVec.scale (1 / v) (C.getD j []) := getD_set_self _ _ hjC
          have hlb : SVec.lowerBound (SVec.scale (1 / v) (C.getD j [])) (i0 + 1) = SVec.lowerBound (C.getD j []) (i0 + 1) := by
            unfold SVec.lowerBound SVec.scale
            rw [List.takeWhile_map, List.length_map]; rfl
          have hCk : ∀ c r, en (C.set j (SVec.scale (1 / v) (C.getD j []))) c r = if c = j then en C j r * (1 / v) else en C c r := by
            intro c r
            show coef ((C.set j _).getD c []) r = _
            rw [getD_set _ _ hjC]
            by_cases h : j = c
            · rw [if_pos h, if_pos h.symm, coef_scale]
            · rw [if_neg h, if_neg (fun e => h e.symm)]
          have hUk : ∀ c r, en (U.set j (SVec.scale (1 / v) (U.getD j []))) c r = if c = j then en U j r * (1 / v) else en U c r := by
            intro c r
            show coef ((U.set j _).getD c []) r = _
            rw [getD_set _ _ hjU]
            by_cases h : j = c
            · rw [if_pos h, if_pos h.symm, coef_scale]
            · rw [if_neg h, if_neg (fun e => h e.symm)]
          have hlt : ∀ k, k < j → (C.set j (SVec.scale (1 / v) (C.getD j []))).getD k [] = C.getD k [] := fun k hk => getD_set_ne _ _ (by omega)
          have hz' : ∀ r, r < i0 → en C j r = 0 := by
            intro r hr
            by_cases hrb : r < b
            · exact hzero r hrb
            · exact g5 r (by omega) hr
          have key := cuCol_spec (m := m) (A := A) (p0 := p0) hj fuel true (i0 + 1) (C.set j (SVec.scale (1 / v) (C.getD j [])))
            (U.set j (SVec.scale (1 / v) (U.getD j []))) (p2c.set i0 (some j))
          rw [hget, hlb, g6] at key
          refine key ?_ (by omega) (by omega) ?_ (Or.inr ⟨rfl, i0, by omega, hp0i.symm, by rw [e], ?_, ?_⟩)
          · refine ⟨hI.okC.set j ⟨vecOK_scale hw hcj.1, below_scale hcj.2⟩,
              hI.okU.set j ⟨vecOK_scale hw (hI.okU.getD j).1, below_scale (hI.okU.getD j).2⟩, by rw [List.length_set]; exact hI.lC,
              by rw [List.length_set]; exact hI.lU, hI.lp, ?_, ?_, ?_, ?_, ?_, ?_⟩
            · intro c hc r
              rw [hCk]
              simp only [hUk]
              by_cases h : c = j
              · simp only [if_pos h]
                rw [hI.app j hj r, Finset.sum_mul]
                exact Finset.sum_congr rfl (fun k _ => by ring)
              · simp only [if_neg h]; exact hI.app c hc r
            · intro c hc
              rw [hUk]
              by_cases h : c = j
              · rw [if_pos h, h]; exact mul_ne_zero (hI.diag j hj) hw
              · rw [if_neg h]; exact hI.diag c hc
            · intro c hc k hk
              rw [hUk]
              by_cases h : c = j
              · rw [if_pos h, hI.upper j hj k (by omega), zero_mul]
              · rw [if_neg h]; exact hI.upper c hc k hk
            · intro r k h
              obtain ⟨a1, a2, a3⟩ := hI.tab r k h
              refine ⟨a1, ?_, ?_⟩
              · rw [hCk, if_neg (by omega)]; exact a2
              · intro r' hr'; rw [hCk, if_neg (by omega)]; exact a3 r' hr'
            · intro k hk hne
              rw [hlt k hk] at hne
              exact hI.full k hk hne
            · intro r k h c h1 h2
              rw [hCk, if_neg (by omega)]
              exact hI.elim r k h c h1 h2
          · intro r hr hne k
            by_cases hri : r = i0
            · subst hri; rw [← hp0i]; intro hh; cases hh
            · rw [hCk, if_pos rfl, hz' r (by omega), zero_mul] at hne
              exact absurd rfl hne
          · rw [hCk, if_pos rfl]
            show coef (C.getD j []) i0 * (1 / v) = 1
            rw [g3]; field_simp
          · intro r hr
            rw [hCk, if_pos rfl, hz' r hr, zero_mul]
        · have hft : found = true := by cases found <;> simp_all
          subst hft
          rcases hst with ⟨hh, _⟩ | ⟨_, r0, h1, h2, e, h3, h4⟩
          · cases hh
          simp only [Bool.true_eq_false, if_false]
          rw [← g6]
          refine cuCol_spec hj fuel true (i0 + 1) C U p2c hI (by omega) (by omega) ?_ (Or.inr ⟨rfl, r0, by omega, h2, e, h3, h4⟩)
          intro r hr hne k
          by_cases hri : r = i0
          · subst hri; rw [← hp0i]; intro hh; cases hh
          · by_cases hrb : r < b
            · exact hseen r hrb hne k
            · exact absurd (g5 r (by omega) (by omega)) hne
      · -- eliminate
        rw [he] at hpi
        rw [hpi] at hp0i
        obtain ⟨t1, t2, t3⟩ := hI.tab i0 k hp0i.symm
        simp only []
        rw [rd_getD [] (by omega : k < C.length), bind_ok, rd_getD [] (by rw [hI.lU]; omega : k < U.length), bind_ok, rd_getD [] hjU, bind_ok]
        have hck := hI.okC.getD k
        have hc'ok : VecOK (SVec.axpy (-v) (C.getD k []) (C.getD j [])) := vecOK_axpy _ hck.1 hcj.1
        have hCk : ∀ c r, en (C.set j (SVec.axpy (-v) (C.getD k []) (C.getD j []))) c r = if c = j then en C j r + -v * en C k r else en C c r := by
          intro c r
          show coef ((C.set j _).getD c []) r = _
          rw [getD_set _ _ hjC]
          by_cases h : j = c
          · rw [if_pos h, if_pos h.symm, coef_axpy]
          · rw [if_neg h, if_neg (fun e => h e.symm)]
        have hUk : ∀ c r, en (U.set j (SVec.axpy (-v) (U.getD k []) (U.getD j []))) c r = if c = j then en U j r + -v * en U k r else en U c r := by
          intro c r
          show coef ((U.set j _).getD c []) r = _
          rw [getD_set _ _ hjU]
          by_cases h : j = c
          · rw [if_pos h, if_pos h.symm, coef_axpy]
          · rw [if_neg h, if_neg (fun e => h e.symm)]
        have hzero : coef (SVec.axpy (-v) (C.getD k []) (C.getD j [])) i0 = 0 := by
          rw [coef_axpy, g3]
          have : coef (C.getD k []) i0 = 1 := t2
          rw [this]; ring
        have hlow : ∀ r, r < i0 → en (C.set j (SVec.axpy (-v) (C.getD k []) (C.getD j []))) j r = en C j r := by
          intro r hr
          rw [hCk, if_pos rfl, t3 r hr, mul_zero, add_zero]
        have hget : (C.set j (SVec.axpy (-v) (C.getD k []) (C.getD j []))).getD j [] = SVec.axpy (-v) (C.getD k []) (C.getD j []) := getD_set_self _ _ hjC
        have hzero' : en (C.set j (SVec.axpy (-v) (C.getD k []) (C.getD j []))) j i0 = 0 := by
          show coef ((C.set j _).getD j []) i0 = 0
          rw [hget]; exact hzero
        have hlt : ∀ l, l < j → (C.set j (SVec.axpy (-v) (C.getD k []) (C.getD j []))).getD l [] = C.getD l [] := fun l hl => getD_set_ne _ _ (by omega)
        have hz' : ∀ r, r < i0 + 1 → en (C.set j (SVec.axpy (-v) (C.getD k []) (C.getD j []))) j r ≠ 0 → r < b ∧ en C j r ≠ 0 := by
          intro r hr hne
          by_cases hri : r = i0
          · subst hri; exact absurd hzero' hne
          · rw [hlow r (by omega)] at hne
            by_cases hrb : r < b
            · exact ⟨hrb, hne⟩
            · exact absurd (g5 r (by omega) (by omega)) hne
        have key := cuCol_spec (m := m) (A := A) (p0 := p0) hj fuel found (i0 + 1) (C.set j (SVec.axpy (-v) (C.getD k []) (C.getD j [])))
          (U.set j (SVec.axpy (-v) (U.getD k []) (U.getD j []))) p2c
        rw [hget, ← lowerBound_skip hc'ok hzero] at key
        refine key ?_ (by omega) (by omega) ?_ ?_
        · refine ⟨hI.okC.set j ⟨hc'ok, below_axpy _ hck.2 hcj.2⟩,
            hI.okU.set j ⟨vecOK_axpy _ (hI.okU.getD k).1 (hI.okU.getD j).1, below_axpy _ (hI.okU.getD k).2 (hI.okU.getD j).2⟩,
            by rw [List.length_set]; exact hI.lC, by rw [List.length_set]; exact hI.lU, hI.lp, ?_, ?_, ?_, ?_, ?_, ?_⟩
          · intro c hc r
            rw [hCk]
            simp only [hUk]
            by_cases h : c = j
            · simp only [if_pos h]
              rw [hI.app j hj r, hI.app k (by omega) r, Finset.mul_sum, ← Finset.sum_add_distrib]
              exact Finset.sum_congr rfl (fun k _ => by ring)
            · simp only [if_neg h]; exact hI.app c hc r
          · intro c hc
            rw [hUk]
            by_cases h : c = j
            · subst h; rw [if_pos rfl, hI.upper k (by omega) c t1, mul_zero, add_zero]; exact hI.diag c hc
            · rw [if_neg h]; exact hI.diag c hc
          · intro c hc l hl
            rw [hUk]
            by_cases h : c = j
            · subst h; rw [if_pos rfl, hI.upper k (by omega) l (by omega), hI.upper c hc l hl, mul_zero, add_zero]
            · rw [if_neg h]; exact hI.upper c hc l hl
          · intro r l h
            obtain ⟨a1, a2, a3⟩ := hI.tab r l h
            refine ⟨a1, ?_, ?_⟩
            · rw [hCk, if_neg (by omega)]; exact a2
            · intro r' hr'; rw [hCk, if_neg (by omega)]; exact a3 r' hr'
          · intro l hl hne
            rw [hlt l hl] at hne
            exact hI.full l hl hne
          · intro r l h c h1 h2
            rw [hCk, if_neg (by omega)]
            exact hI.elim r l h c h1 h2
        · intro r hr hne l
          obtain ⟨q1, q2⟩ := hz' r hr hne
          exact hseen r q1 q2 l
        · rcases hst with ⟨h1, h2, h3⟩ | ⟨h1, r0, h2, h3, h4, h5, h6⟩
          · left
            refine ⟨h1, h2, ?_⟩
            intro r hr
            by_contra hne
            obtain ⟨q1, q2⟩ := hz' r hr hne
            exact q2 (h3 r q1)
          · right
            refine ⟨h1, r0, by omega, h3, h4, ?_, ?_⟩
            · rw [hlow r0 (by omega)]; exact h5
            · intro r hr; rw [hlow r (by omega)]; exact h6 r hr

theorem cuLoop_spec {m n : Nat} {A : List (SVec F)} : ∀ (t j : Nat) (C U : List (SVec F)) (p2c : List (Option Nat)),
    j + t = n → CUInv m n j A C U p2c → ∃ C' U' p', cuLoop m t j C U p2c = .ok (C', U', p') ∧ CUInv m n n A C' U' p'
  | 0, j, C, U, p2c, h, hI => by
    have : j = n := by omega
    subst this
    exact ⟨C, U, p2c, rfl, hI⟩
  | t + 1, j, C, U, p2c, h, hI => by
    have hjC : j < C.length := by rw [hI.lC]; omega
    obtain ⟨C1, U1, p1, h1, h2⟩ := cuCol_spec (by omega) (m + 1) false 0 C U p2c hI (by omega) (by omega) (by intro r hr; omega)
      (Or.inl ⟨rfl, rfl, by intro r hr; omega⟩)
    rw [cuLoop, rd_getD [] hjC, bind_ok, h1, bind_ok]
    exact cuLoop_spec t (j + 1) C1 U1 p1 (by omega) h2

/-- matrix form of the result of `CU_inplace` started with the identity -/
theorem cuInplace_spec {m n : Nat} {A : CMat F} (hA : A.Shape m n) :
    ∃ C U p2c, cuInplace A (identity n) = .ok (C, U) ∧ C.Shape m n ∧ U.Shape n n ∧ UpperInv (U.mat n n) ∧ C.mat m n = A.mat m n * U.mat n n ∧
      CUInv m n n A.cols C.cols U.cols p2c := by
  have hid := shape_identity (F := F) n
  have hget : ∀ c, c < n → (identity n : CMat F).cols.getD c [] = [(c, 1)] := by
    intro c hc; unfold identity; simp [hc]
  have init : CUInv m n 0 A.cols A.cols (identity n : CMat F).cols (List.replicate m none) := by
    refine ⟨hA.colsOK, hid.colsOK, hA.ncol, hid.ncol, List.length_replicate, ?_, ?_, ?_, ?_, fun k hk => by omega, ?_⟩
    · intro c hc r
      rw [Finset.sum_eq_single c]
      · show _ = coef ((identity n : CMat F).cols.getD c []) c * _
        rw [hget c hc]; simp [coef]
      · intro k _ hk
        show coef ((identity n : CMat F).cols.getD c []) k * _ = 0
        rw [hget c hc]; simp [coef, Ne.symm hk]
      · intro h; exact absurd (Finset.mem_range.2 hc) h
    · intro c hc
      show coef ((identity n : CMat F).cols.getD c []) c ≠ 0
      rw [hget c hc]; simp [coef]
    · intro c hc k hk
      show coef ((identity n : CMat F).cols.getD c []) k = 0
      rw [hget c hc]; simp [coef]; omega
    · intro r k h
      rw [List.getElem?_replicate] at h
      split at h <;> cases h
    · intro r k h
      rw [List.getElem?_replicate] at h
      split at h <;> cases h
  obtain ⟨C, U, p, h1, h2⟩ := cuLoop_spec n 0 A.cols _ _ (by omega) init
  refine ⟨⟨m, C⟩, ⟨n, U⟩, p, ?_, ⟨h2.okC, rfl, h2.lC⟩, ⟨h2.okU, rfl, h2.lU⟩, ⟨?_, ?_⟩, ?_, h2⟩
  · unfold cuInplace
    rw [hA.nrow, hA.ncol, h1, bind_ok]; rfl
  · intro i j hij; exact h2.upper j j.2 i hij
  · intro i; exact h2.diag i i.2
  · ext i j
    rw [Matrix.mul_apply]
    show en C j i = ∑ k : Fin n, en A.cols k i * en U j k
    rw [h2.app j j.2 i, Finset.sum_range]
    exact Finset.sum_congr rfl (fun k _ => mul_comm _ _)

theorem UpperInv.inverse {n : Nat} {V W : Matrix (Fin n) (Fin n) F} (hV : UpperInv V) (h : V * W = 1) : UpperInv W := by
  apply upperInv_of_low
  intro i
  rw [← hV.vlow_iff]
  have : V *ᵥ W.col i = (1 : Matrix (Fin n) (Fin n) F).col i := by
    rw [← h]; ext r; simp [Matrix.mulVec, Matrix.mul_apply, dotProduct, Matrix.col]
  rw [this]
  refine ⟨by simp [Matrix.col], ?_⟩
  intro k hk
  simp [Matrix.col, Matrix.one_apply, ne_of_gt hk]

end Fact
end BATS
