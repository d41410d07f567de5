import Verif.Model.Zigzag
import Verif.Proofs.ReduceMat

set_option linter.unusedSectionVars false
set_option linter.unusedSimpArgs false
set_option linter.unusedVariables false

/-! # Zigzag: `reduce_column` -/

namespace BATS
namespace Zigzag
open Reduction

variable {F : Type} [Field F] [DecidableEq F]

/-- the active columns `S` of `R` are the images under `D` of the active columns of `U`, and `U` is unit upper triangular on `S` -/
structure ColInv (D : List (SVec F)) (m n : Nat) (S : Finset Nat) (R U : List (SVec F)) : Prop where
  lenR : R.length = n
  lenU : U.length = n
  sub : ∀ j ∈ S, j < n
  okR : ColsOK m R
  okU : ColsOK n U
  eq : ∀ j ∈ S, ∀ i, coef (R.getD j []) i = ∑ c ∈ Finset.range n, coef (U.getD j []) c * coef (D.getD c []) i
  diag : ∀ j ∈ S, coef (U.getD j []) j = 1
  upper : ∀ j ∈ S, ∀ c, j < c → coef (U.getD j []) c = 0
  supp : ∀ j ∈ S, ∀ c, coef (U.getD j []) c ≠ 0 → c ∈ S

/-- the pivot table of the active columns `S` -/
structure TabInv (m : Nat) (S : Finset Nat) (R : List (SVec F)) (p : P2C) : Prop where
  len : p.length = m
  iff : ∀ i c : Nat, p[i]? = some (some c) ↔ c ∈ S ∧ low (R.getD c []) = some i

theorem low_ne_nil {c : SVec F} {i : Nat} (h : low c = some i) : c ≠ [] := by rintro rfl; cases h

theorem TabInv.none_iff {m : Nat} {S : Finset Nat} {R : List (SVec F)} {p : P2C} (h : TabInv m S R p) (i : Nat) :
    p.getD i none = none ↔ ∀ c ∈ S, low (R.getD c []) ≠ some i := by
  rw [List.getD_eq_getElem?_getD]
  constructor
  · intro h0 c hc hl
    rw [(h.iff i c).2 ⟨hc, hl⟩] at h0; cases h0
  · intro h0
    rcases hp : p[i]? with _ | _ | c
    · rfl
    · rfl
    · obtain ⟨a, b⟩ := (h.iff i c).1 hp
      exact absurd b (h0 c a)

/-- one elimination step -/
theorem elim_spec {D : List (SVec F)} {m n : Nat} {S : Finset Nat} {R U : List (SVec F)} (h : ColInv D m n S R U) {t s i : Nat} (ht : t ∈ S) (hs : s ∈ S)
    (hst : s < t) (hlt : low (R.getD t []) = some i) (hls : low (R.getD s []) = some i) :
    ∃ R' U', elim t s R U = .ok (R', U') ∧ ColInv D m n S R' U' ∧ (∀ c, c ≠ t → R'.getD c [] = R.getD c [] ∧ U'.getD c [] = U.getD c []) ∧
      ∀ i', low (R'.getD t []) = some i' → i' < i := by
  have htn := h.sub t ht
  have hsn := h.sub s hs
  obtain ⟨htne, hti⟩ := low_eq_some.1 hlt
  obtain ⟨hsne, hsi⟩ := low_eq_some.1 hls
  have okt := h.okR.getD t
  have oks := h.okR.getD s
  have hsv : ((R.getD s []).getLast hsne).2 ≠ 0 := oks.1.2 _ (List.getLast_mem hsne)
  generalize hc : CMat.fdiv ((R.getD t []).getLast htne).2 ((R.getD s []).getLast hsne).2 = ra
  unfold CMat.fdiv at hc
  rw [if_neg hsv] at hc
  subst hc
  have hq : CMat.fdiv ((R.getD t []).getLast htne).2 ((R.getD s []).getLast hsne).2 =
    Except.ok (((R.getD t []).getLast htne).2 / ((R.getD s []).getLast hsne).2) := by unfold CMat.fdiv; rw [if_neg hsv]
  set a := ((R.getD t []).getLast htne).2 / ((R.getD s []).getLast hsne).2 with ha
  refine ⟨R.set t (SVec.axpy (-a) (R.getD s []) (R.getD t [])), U.set t (SVec.axpy (-a) (U.getD s []) (U.getD t [])), ?_, ?_, ?_, ?_⟩
  · unfold elim
    rw [rd_getD [] (by rw [h.lenR]; exact htn), bind_ok, lastnz_ok htne, bind_ok, rd_getD [] (by rw [h.lenR]; exact hsn), bind_ok, lastnz_ok hsne,
      bind_ok, hq, bind_ok, rd_getD [] (by rw [h.lenU]; exact htn), bind_ok, rd_getD [] (by rw [h.lenU]; exact hsn), bind_ok]
    rfl
  · have eR : ∀ c, (R.set t (SVec.axpy (-a) (R.getD s []) (R.getD t []))).getD c [] = if t = c then SVec.axpy (-a) (R.getD s []) (R.getD t []) else R.getD c [] :=
      fun c => getD_set _ _ (by rw [h.lenR]; exact htn)
    have eU : ∀ c, (U.set t (SVec.axpy (-a) (U.getD s []) (U.getD t []))).getD c [] = if t = c then SVec.axpy (-a) (U.getD s []) (U.getD t []) else U.getD c [] :=
      fun c => getD_set _ _ (by rw [h.lenU]; exact htn)
    have okUs := h.okU.getD s
    have okUt := h.okU.getD t
    refine ⟨by rw [List.length_set, h.lenR], by rw [List.length_set, h.lenU], h.sub, h.okR.set t ⟨vecOK_axpy _ oks.1 okt.1, below_axpy _ oks.2 okt.2⟩,
      h.okU.set t ⟨vecOK_axpy _ okUs.1 okUt.1, below_axpy _ okUs.2 okUt.2⟩, ?_, ?_, ?_, ?_⟩
    · intro j hj i
      rw [eR, eU]
      by_cases e : t = j
      · subst e
        rw [if_pos rfl, if_pos rfl, coef_axpy, h.eq t ht, h.eq s hs, Finset.mul_sum, ← Finset.sum_add_distrib]
        refine Finset.sum_congr rfl (fun c _ => ?_)
        rw [coef_axpy]; ring
      · rw [if_neg e, if_neg e]; exact h.eq j hj i
    · intro j hj
      rw [eU]
      by_cases e : t = j
      · subst e
        rw [if_pos rfl, coef_axpy, h.diag t ht, h.upper s hs t hst, mul_zero, add_zero]
      · rw [if_neg e]; exact h.diag j hj
    · intro j hj c hjc
      rw [eU]
      by_cases e : t = j
      · subst e
        rw [if_pos rfl, coef_axpy, h.upper t ht c hjc, h.upper s hs c (by omega), mul_zero, add_zero]
      · rw [if_neg e]; exact h.upper j hj c hjc
    · intro j hj c hc
      rw [eU] at hc
      by_cases e : t = j
      · subst e
        rw [if_pos rfl, coef_axpy] at hc
        by_contra hcS
        have e1 : coef (U.getD t []) c = 0 := by by_contra hh; exact hcS (h.supp t ht c hh)
        have e2 : coef (U.getD s []) c = 0 := by by_contra hh; exact hcS (h.supp s hs c hh)
        rw [e1, e2, mul_zero, add_zero] at hc
        exact hc rfl
      · rw [if_neg e] at hc; exact h.supp j hj c hc
  · intro c hc
    exact ⟨getD_set_ne _ _ (fun e => hc e.symm), getD_set_ne _ _ (fun e => hc e.symm)⟩
  · intro i' hi'
    rw [getD_set_self _ _ (by rw [h.lenR]; exact htn)] at hi'
    have h1 := (low_iff (vecOK_axpy _ oks.1 okt.1) i').1 hi'
    by_contra hcon
    apply h1.1
    rw [coef_axpy]
    rcases Nat.lt_or_ge i i' with hlt' | hge
    · rw [okt.1.1.coef_gt_getLast htne (by omega), oks.1.1.coef_gt_getLast hsne (by omega)]; simp
    · have e : i' = i := by omega
      subst e
      have e1 : coef (R.getD t []) i' = ((R.getD t []).getLast htne).2 := by rw [← hti]; exact okt.1.1.coef_getLast htne
      have e2 : coef (R.getD s []) i' = ((R.getD s []).getLast hsne).2 := by rw [← hsi]; exact oks.1.1.coef_getLast hsne
      rw [e1, e2, ha, neg_mul, div_mul_cancel₀ _ hsv]
      exact add_neg_cancel _

/-- what `reduce_column` does -/
structure RedRes (D : List (SVec F)) (m n : Nat) (S : Finset Nat) (j : Nat) (R U : List (SVec F)) (p : P2C) (j' : Nat) (R' U' : List (SVec F)) (p' : P2C) : Prop where
  mem : j' ∈ S
  col : ColInv D m n S R' U'
  tab : TabInv m S R' p'
  out : ∀ c, c ∉ S → R'.getD c [] = R.getD c [] ∧ U'.getD c [] = U.getD c []
  zero : ∀ c ∈ S, c ≠ j → R.getD c [] = [] → c ≠ j' ∧ R'.getD c [] = [] ∧ U'.getD c [] = U.getD c []
  nonzero : ∀ c ∈ S, (c = j ∨ R.getD c [] ≠ []) → c ≠ j' → R'.getD c [] ≠ []
  piv : ∀ i, p'.getD i none = none ↔ p.getD i none = none ∧ low (R'.getD j' []) ≠ some i
  fresh : ∀ i, low (R'.getD j' []) = some i → p.getD i none = none

theorem reduceColLoop_spec {D : List (SVec F)} {m n : Nat} {S : Finset Nat} : ∀ (fuel : Nat) {j : Nat} {R U : List (SVec F)} {p : P2C}, j ∈ S →
    ColInv D m n S R U → TabInv m (S.erase j) R p → 0 < fuel → (∀ i, low (R.getD j []) = some i → i + 1 < fuel) →
    ∃ j' R' U' p', reduceColLoop fuel j R U p = .ok (j', R', U', p') ∧ RedRes D m n S j R U p j' R' U' p' := by
  intro fuel
  induction fuel with
  | zero => intro j R U p _ _ _ h; omega
  | succ fuel ih =>
    intro j R U p hj hC hT _ hfuel
    have hjn := hC.sub j hj
    rw [reduceColLoop, rd_getD [] (by rw [hC.lenR]; exact hjn), bind_ok]
    by_cases hempty : R.getD j [] = []
    · rw [if_pos (by rw [hempty]; rfl)]
      refine ⟨j, R, U, p, rfl, hj, hC, ⟨hT.len, ?_⟩, fun c _ => ⟨rfl, rfl⟩, fun c _ hc h0 => ⟨hc, h0, rfl⟩, fun c _ h1 h2 => ?_, fun i => ?_, fun i hi => ?_⟩
      · intro i c
        rw [hT.iff, Finset.mem_erase]
        constructor
        · rintro ⟨⟨_, a⟩, b⟩; exact ⟨a, b⟩
        · rintro ⟨a, b⟩
          refine ⟨⟨?_, a⟩, b⟩
          rintro rfl; rw [hempty] at b; cases b
      · rcases h1 with rfl | h1
        · exact absurd rfl h2
        · exact h1
      · rw [hempty]; exact ⟨fun a => ⟨a, by intro hh; cases hh⟩, fun a => a.1⟩
      · rw [hempty] at hi; cases hi
    · rw [if_neg (by simpa using hempty), lastnz_ok hempty, bind_ok]
      have okj := hC.okR.getD j
      obtain ⟨i, hi⟩ : ∃ i, i = ((R.getD j []).getLast hempty).1 := ⟨_, rfl⟩
      have hlow : low (R.getD j []) = some i := low_eq_some.2 ⟨hempty, hi.symm⟩
      rw [← hi]
      have him : i < m := low_lt okj.2 hlow
      have hip : i < p.length := by rw [hT.len]; exact him
      rw [rd_ok hip, bind_ok]
      rcases hk : p[i] with _ | k
      · have hpn : p.getD i none = none := by rw [List.getD_eq_getElem?_getD, List.getElem?_eq_getElem hip]; exact hk
        refine ⟨j, R, U, p.set i (some j), rfl, hj, hC, ⟨by rw [List.length_set, hT.len], ?_⟩, fun c _ => ⟨rfl, rfl⟩, fun c _ hc h0 => ⟨hc, h0, rfl⟩,
          fun c _ h1 h2 => ?_, fun i' => ?_, fun i' hi' => ?_⟩
        · intro i' c
          by_cases e : i = i'
          · subst e
            rw [List.getElem?_set_self hip]
            constructor
            · intro hh; cases hh; exact ⟨hj, hlow⟩
            · rintro ⟨a, b⟩
              by_cases hcj : c = j
              · rw [hcj]
              · have := (hT.iff i c).2 ⟨Finset.mem_erase.2 ⟨hcj, a⟩, b⟩
                rw [List.getElem?_eq_getElem hip, hk] at this; cases this
          · rw [List.getElem?_set_ne e, hT.iff, Finset.mem_erase]
            constructor
            · rintro ⟨⟨_, a⟩, b⟩; exact ⟨a, b⟩
            · rintro ⟨a, b⟩
              refine ⟨⟨?_, a⟩, b⟩
              rintro rfl; rw [hlow] at b; injection b with b; exact e b
        · rcases h1 with rfl | h1
          · exact absurd rfl h2
          · exact h1
        · rw [hlow, getD_set _ _ hip]
          by_cases e : i = i'
          · rw [if_pos e]; simp [e]
          · rw [if_neg e]
            exact ⟨fun a => ⟨a, by intro hh; injection hh with hh; exact e hh⟩, fun a => a.1⟩
        · rw [hlow] at hi'; injection hi' with e; rw [← e]; exact hpn
      · have hsome : p[i]? = some (some k) := by rw [List.getElem?_eq_getElem hip, hk]
        obtain ⟨hke, hlk⟩ := (hT.iff i k).1 hsome
        obtain ⟨hkj, hkS⟩ := Finset.mem_erase.1 hke
        have hkne : R.getD k [] ≠ [] := low_ne_nil hlk
        have huniq : ∀ c ∈ S, low (R.getD c []) = some i → c = j ∨ c = k := by
          intro c hc hl
          by_cases hcj : c = j
          · exact Or.inl hcj
          · have := (hT.iff i c).2 ⟨Finset.mem_erase.2 ⟨hcj, hc⟩, hl⟩
            rw [hsome] at this; injection this with this; injection this with this
            exact Or.inr this.symm
        simp only []
        by_cases hjk : j < k
        · rw [if_pos hjk]
          obtain ⟨R1, U1, e1, hC1, hother, hdec⟩ := elim_spec hC hkS hj hjk hlk hlow
          rw [e1, bind_ok]
          have hRj : R1.getD j [] = R.getD j [] := (hother j (by omega)).1
          have hT1 : TabInv m (S.erase k) R1 (p.set i (some j)) := by
            refine ⟨by rw [List.length_set, hT.len], ?_⟩
            intro i' c
            by_cases e : i = i'
            · subst e
              rw [List.getElem?_set_self hip]
              constructor
              · intro hh; cases hh; exact ⟨Finset.mem_erase.2 ⟨by omega, hj⟩, by rw [hRj]; exact hlow⟩
              · rintro ⟨a, b⟩
                obtain ⟨a1, a2⟩ := Finset.mem_erase.1 a
                rw [(hother c a1).1] at b
                rcases huniq c a2 b with rfl | hh
                · rfl
                · exact absurd hh a1
            · rw [List.getElem?_set_ne e, hT.iff, Finset.mem_erase, Finset.mem_erase]
              constructor
              · rintro ⟨⟨a0, a⟩, b⟩
                have hck : c ≠ k := by rintro rfl; rw [hlk] at b; injection b with b; exact e b
                exact ⟨⟨hck, a⟩, by rw [(hother c hck).1]; exact b⟩
              · rintro ⟨⟨a0, a⟩, b⟩
                rw [(hother c a0).1] at b
                refine ⟨⟨?_, a⟩, b⟩
                rintro rfl; rw [hlow] at b; injection b with b; exact e b
          have hnone : ∀ i', (p.set i (some j)).getD i' none = none ↔ p.getD i' none = none := by
            intro i'
            rw [getD_set _ _ hip]
            by_cases e : i = i'
            · subst e; rw [if_pos rfl, List.getD_eq_getElem?_getD, List.getElem?_eq_getElem hip, hk]; exact ⟨fun hh => (by cases hh), fun hh => (by cases hh)⟩
            · rw [if_neg e]
          obtain ⟨j', R', U', p', g0, g⟩ := ih hkS hC1 hT1 (by have := hfuel _ hlow; omega)
            (fun i' hi' => by have := hdec i' hi'; have := hfuel _ hlow; omega)
          refine ⟨j', R', U', p', g0, g.mem, g.col, g.tab, ?_, ?_, ?_, ?_, ?_⟩
          · intro c hc
            obtain ⟨a, b⟩ := g.out c hc
            have hck : c ≠ k := by rintro rfl; exact hc hkS
            exact ⟨a.trans (hother c hck).1, b.trans (hother c hck).2⟩
          · intro c hc hcj h0
            have hck : c ≠ k := by rintro rfl; exact hkne h0
            obtain ⟨a, b, d⟩ := g.zero c hc hck (by rw [(hother c hck).1]; exact h0)
            exact ⟨a, b, d.trans (hother c hck).2⟩
          · intro c hc h1 h2
            by_cases hck : c = k
            · exact g.nonzero c hc (Or.inl hck) h2
            · refine g.nonzero c hc (Or.inr ?_) h2
              rw [(hother c hck).1]
              rcases h1 with rfl | h1
              · exact hempty
              · exact h1
          · intro i'; rw [g.piv, hnone]
          · intro i' hi'; exact (hnone i').1 (g.fresh i' hi')
        · rw [if_neg hjk]
          obtain ⟨R1, U1, e1, hC1, hother, hdec⟩ := elim_spec hC hj hkS (by omega) hlow hlk
          rw [e1, bind_ok]
          have hT1 : TabInv m (S.erase j) R1 p := by
            refine ⟨hT.len, ?_⟩
            intro i' c
            rw [hT.iff, Finset.mem_erase]
            constructor
            · rintro ⟨⟨a0, a⟩, b⟩; exact ⟨⟨a0, a⟩, by rw [(hother c a0).1]; exact b⟩
            · rintro ⟨⟨a0, a⟩, b⟩; exact ⟨⟨a0, a⟩, by rw [(hother c a0).1] at b; exact b⟩
          obtain ⟨j', R', U', p', g0, g⟩ := ih hj hC1 hT1 (by have := hfuel _ hlow; omega)
            (fun i' hi' => by have := hdec i' hi'; have := hfuel _ hlow; omega)
          refine ⟨j', R', U', p', g0, g.mem, g.col, g.tab, ?_, ?_, ?_, g.piv, g.fresh⟩
          · intro c hc
            obtain ⟨a, b⟩ := g.out c hc
            have hck : c ≠ j := by rintro rfl; exact hc hj
            exact ⟨a.trans (hother c hck).1, b.trans (hother c hck).2⟩
          · intro c hc hcj h0
            obtain ⟨a, b, d⟩ := g.zero c hc hcj (by rw [(hother c hcj).1]; exact h0)
            exact ⟨a, b, d.trans (hother c hcj).2⟩
          · intro c hc h1 h2
            by_cases hcj : c = j
            · exact g.nonzero c hc (Or.inl hcj) h2
            · refine g.nonzero c hc (Or.inr ?_) h2
              rw [(hother c hcj).1]
              rcases h1 with rfl | h1
              · exact absurd rfl hcj
              · exact h1

end Zigzag
end BATS
