import Verif.Model.Update
import Verif.Proofs.Pipeline

set_option linter.unusedSectionVars false
set_option linter.unusedVariables false
set_option linter.unusedSimpArgs false

/-! # Updating a reduced complex -/

namespace BATS
open Reduction Matrix

variable {F : Type} [Field F] [DecidableEq F] {T : Type} [LinearOrder T]

/-! ### sorting the columns of `U` -/

/-- the state of the sorting loop: `u` has all columns nonzero with distinct pivots, recorded in `p`, and `P` relates
the columns of `u` and `r` -/
structure SortInv (n m : Nat) (P : SVec F → SVec F → Prop) (u r : List (SVec F)) (p : P2C) : Prop where
  lu : u.length = n
  lr : r.length = n
  lp : p.length = n
  oku : ColsOK n u
  okr : ColsOK m r
  tab : ∀ i c : Nat, c < n → (p[i]? = some (some c) ↔ low (u.getD c []) = some i)
  bound : ∀ i c : Nat, p[i]? = some (some c) → c < n
  ne : ∀ c, c < n → u.getD c [] ≠ []
  rel : ∀ c, c < n → P (u.getD c []) (r.getD c [])

namespace SortInv
variable {n m : Nat} {P : SVec F → SVec F → Prop} {u r : List (SVec F)} {p : P2C}

theorem low_ex (h : SortInv n m P u r p) {c : Nat} (hc : c < n) : ∃ i, i < n ∧ low (u.getD c []) = some i := by
  cases e : low (u.getD c []) with
  | none => exact absurd (low_eq_none.1 e) (h.ne c hc)
  | some i => exact ⟨i, low_lt (h.oku.getD c).2 e, rfl⟩

theorem total (h : SortInv n m P u r p) {i : Nat} (hi : i < n) : ∃ c, c < n ∧ p[i]? = some (some c) := by
  classical
  choose f hf using fun c : Fin n => h.low_ex c.2
  have hinj : Function.Injective (fun c : Fin n => (⟨f c, (hf c).1⟩ : Fin n)) := by
    intro c c' e
    have e' : f c = f c' := by simpa using e
    have h1 := (h.tab (f c) c.val c.2).2 (hf c).2
    have h2 := (h.tab (f c) c'.val c'.2).2 (by rw [e']; exact (hf c').2)
    rw [h1] at h2
    exact Fin.ext (by simpa using h2)
  obtain ⟨c, hc⟩ := Finite.surjective_of_injective hinj ⟨i, hi⟩
  have hc' : f c = i := by simpa using hc
  exact ⟨c.val, c.2, (h.tab i c.val c.2).2 (by rw [← hc']; exact (hf c).2)⟩

end SortInv

theorem getD_set_set {α} (l : List α) (a b : Nat) (x y d : α) (i : Nat) (ha : a < l.length) (hb : b < l.length) :
    ((l.set a x).set b y).getD i d = if i = b then y else if i = a then x else l.getD i d := by
  rw [getD_set' _ _ _ _ _ (by simpa using hb), getD_set' _ _ _ _ _ ha]

theorem colsOK_swap {m : Nat} {l : List (SVec F)} (h : ColsOK m l) (a b : Nat) :
    ColsOK m ((l.set a (l.getD b [])).set b (l.getD a [])) :=
  (h.set a (h.getD b)).set b (h.getD a)

theorem sortColsLoop_spec {n m : Nat} {P : SVec F → SVec F → Prop} : ∀ (todo j : Nat) (u r : List (SVec F)) (p : P2C),
    j + todo = n → SortInv n m P u r p → (∀ i, i < j → p[i]? = some (some i)) →
    ∃ u' r', RedCpx.sortColsLoop todo j u r p = .ok (u', r') ∧ u'.length = n ∧ r'.length = n ∧ ColsOK n u' ∧ ColsOK m r' ∧
      (∀ c, c < n → low (u'.getD c []) = some c) ∧ ∀ c, c < n → P (u'.getD c []) (r'.getD c [])
  | 0, j, u, r, p, hj, h, hd => by
    refine ⟨u, r, rfl, h.lu, h.lr, h.oku, h.okr, fun c hc => (h.tab c c hc).1 (hd c (by omega)), h.rel⟩
  | todo + 1, j, u, r, p, hj, h, hd => by
    have hjn : j < n := by omega
    obtain ⟨pc, hpc, hpj⟩ := h.total hjn
    unfold RedCpx.sortColsLoop
    rw [rd_some hpj, bind_ok]
    by_cases e : pc = j
    · subst e
      rw [if_pos rfl]
      apply sortColsLoop_spec todo (pc + 1) u r p (by omega) h
      intro i hi
      rcases Nat.lt_or_ge i pc with h1 | h1
      · exact hd i h1
      · have : i = pc := by omega
        subst this; exact hpj
    · rw [if_neg (by simpa using e)]
      have ru : rd u j = .ok (u.getD j []) := by rw [rd_getD [] (by rw [h.lu]; omega)]
      rw [ru, bind_ok, lastnz_ok (h.ne j hjn), bind_ok]
      simp only
      rw [rd_getD [] (by rw [h.lu]; omega), bind_ok, rd_getD [] (by rw [h.lr]; omega), bind_ok, rd_getD [] (by rw [h.lr]; omega), bind_ok,
        wr_lt _ (by rw [h.lp]; omega), bind_ok]
      obtain ⟨pj, hpjn, hlow⟩ := h.low_ex hjn
      have hlast : ((u.getD j []).getLast (h.ne j hjn)).1 = pj := by
        obtain ⟨_, h2⟩ := low_eq_some.1 hlow; exact h2
      rw [hlast, wr_lt _ (by simp [h.lp]; omega), bind_ok]
      have hlowp : low (u.getD pc []) = some j := (h.tab j pc hpc).1 hpj
      have htj : p[pj]? = some (some j) := (h.tab pj j hjn).2 hlow
      have hne : pj ≠ j := by
        intro e2; subst e2; rw [hpj] at htj; simp at htj; exact e htj
      have hge : j < pj := by
        by_contra hc
        have hlt : pj < j := by omega
        have := hd pj hlt
        rw [this] at htj; simp at htj; exact hne htj
      have hget : ∀ i : Nat, ((p.set j (some j)).set pj (some pc))[i]? =
          if i = pj then some (some pc) else if i = j then some (some j) else p[i]? := by
        intro i
        rw [List.getElem?_set, List.getElem?_set]
        by_cases e1 : i = pj
        · subst e1; simp [h.lp, hpjn]
        · rw [if_neg (fun hh => e1 hh.symm), if_neg e1]
          by_cases e2 : i = j
          · subst e2; simp [h.lp, hjn]
          · rw [if_neg (fun hh => e2 hh.symm), if_neg e2]
      have gu := fun i => getD_set_set u pc j (u.getD j []) (u.getD pc []) [] i (by rw [h.lu]; omega) (by rw [h.lu]; omega)
      have gr := fun i => getD_set_set r pc j (r.getD j []) (r.getD pc []) [] i (by rw [h.lr]; omega) (by rw [h.lr]; omega)
      apply sortColsLoop_spec todo (j + 1) _ _ _ (by omega)
      · refine ⟨by simp [h.lu], by simp [h.lr], by simp [h.lp], colsOK_swap h.oku pc j, colsOK_swap h.okr pc j, ?_, ?_, ?_, ?_⟩
        · intro i c hc
          rw [hget, gu]
          by_cases e1 : i = pj
          · subst e1
            rw [if_pos rfl]
            by_cases c1 : c = j
            · subst c1; rw [if_pos rfl, hlowp]
              constructor
              · intro h1; simp at h1; omega
              · intro h1; simp at h1; omega
            · rw [if_neg c1]
              by_cases c2 : c = pc
              · subst c2; rw [if_pos rfl, hlow]; simp
              · rw [if_neg c2, ← h.tab i c hc, htj]
                constructor
                · intro h1; simp at h1; omega
                · intro h1; simp at h1; omega
          · rw [if_neg e1]
            by_cases e2 : i = j
            · subst e2
              rw [if_pos rfl]
              by_cases c1 : c = i
              · subst c1; rw [if_pos rfl, hlowp]; simp
              · rw [if_neg c1]
                by_cases c2 : c = pc
                · subst c2; rw [if_pos rfl, hlow]; simp; omega
                · rw [if_neg c2, ← h.tab i c hc, hpj]; simp; omega
            · rw [if_neg e2]
              by_cases c1 : c = j
              · subst c1; rw [if_pos rfl, h.tab i c hc, hlowp, hlow]; simp; omega
              · rw [if_neg c1]
                by_cases c2 : c = pc
                · subst c2; rw [if_pos rfl, h.tab i c hc, hlowp, hlow]; simp; omega
                · rw [if_neg c2, h.tab i c hc]
        · intro i c hic
          rw [hget] at hic
          split at hic
          · simp at hic; omega
          · split at hic
            · simp at hic; omega
            · exact h.bound i c hic
        · intro c hc
          rw [gu]
          split
          · exact h.ne pc hpc
          · split
            · exact h.ne j hjn
            · exact h.ne c hc
        · intro c hc
          rw [gu, gr]
          split
          · exact h.rel pc hpc
          · split
            · exact h.rel j hjn
            · exact h.rel c hc
      · intro i hi
        rw [hget, if_neg (by omega)]
        by_cases e2 : i = j
        · subst e2; rw [if_pos rfl]
        · rw [if_neg e2]; exact hd i (by omega)

/-! ### `update_reduction2` -/

/-- column relation `r = M u` -/
def ColRel {m n : Nat} (M : Matrix (Fin m) (Fin n) F) (u r : SVec F) : Prop :=
  ∀ i : Fin m, coef r i = ∑ l : Fin n, M i l * coef u l

theorem mul_eq_colRel {m n : Nat} (M : Matrix (Fin m) (Fin n) F) (u r : List (SVec F)) :
    M * matOf n n u = matOf m n r ↔ ∀ c, c < n → ColRel M (u.getD c []) (r.getD c []) := by
  constructor
  · intro h c hc i
    have := congrFun (congrFun h i) ⟨c, hc⟩
    rw [Matrix.mul_apply] at this
    exact this.symm
  · intro h
    ext i c
    rw [Matrix.mul_apply]
    exact (h c.val c.2 i).symm

theorem updateReduction2_spec {m n : Nat} {M U R : CMat F} (hM : M.Shape m n) (hU : U.Shape n n) (hR : R.Shape m n)
    (hinj : Function.Injective (U.mat n n *ᵥ ·)) (he : M.mat m n * U.mat n n = R.mat m n) :
    ∃ r, RedCpx.updateReduction2 U R = .ok r ∧ LevelUOK m n M r := by
  obtain ⟨U1, R1, p, V, h1, hU1, hR1, hV, e1, e2, ht⟩ := reduceStdU_spec hU hR
  have hne : ∀ c, c < n → U1.cols.getD c [] ≠ [] := by
    intro c hc h0
    have hz : U1.mat n n *ᵥ (Pi.single ⟨c, hc⟩ 1) = U1.mat n n *ᵥ 0 := by
      rw [Matrix.mulVec_single_one, Matrix.mulVec_zero]
      funext i
      show coef (U1.cols.getD c []) i = 0
      rw [h0]; rfl
    rw [e1, ← Matrix.mulVec_mulVec, ← Matrix.mulVec_mulVec] at hz
    have := hV.upperInv.injective (hinj hz)
    have := congrFun this ⟨c, hc⟩
    simp at this
  have hinv : SortInv n m (ColRel (M.mat m n)) U1.cols R1.cols p := by
    refine ⟨hU1.ncol, hR1.ncol, ht.len, hU1.colsOK, hR1.colsOK, ?_, ht.bound, hne, ?_⟩
    · intro i c hc
      constructor
      · intro h
        have hi : i < n := by
          rw [← ht.len]; exact (List.getElem?_eq_some_iff.1 h).1
        exact (low_matOf hU1.colsOK ⟨i, hi⟩ ⟨c, hc⟩).1 ((ht.iff ⟨i, hi⟩ ⟨c, hc⟩).1 h)
      · intro h
        have hi : i < n := low_lt (hU1.colsOK.getD c).2 h
        exact (ht.iff ⟨i, hi⟩ ⟨c, hc⟩).2 ((low_matOf hU1.colsOK ⟨i, hi⟩ ⟨c, hc⟩).2 h)
    · apply (mul_eq_colRel _ _ _).1
      show M.mat m n * U1.mat n n = R1.mat m n
      rw [e1, e2, ← he, Matrix.mul_assoc]
  obtain ⟨u', r', h2, lu, lr, oku, okr, hlow, hrel⟩ := sortColsLoop_spec n 0 _ _ _ (by omega) hinv (by omega)
  have hRs : (⟨R1.nrow, r'⟩ : CMat F).Shape m n := ⟨by rw [CMat.OK, hR1.nrow]; exact okr, hR1.nrow, lr⟩
  have hUs : (⟨U1.nrow, u'⟩ : CMat F).Shape n n := ⟨by rw [CMat.OK, hU1.nrow]; exact oku, hU1.nrow, lu⟩
  obtain ⟨R2, U2, p2, W, h3, hR2, hU2, hW, f1, f2, ht2⟩ := reduceStdU_spec hRs hUs
  have hup : UpperInv (matOf n n u') := by
    apply upperInv_of_low
    intro i
    exact (low_matOf oku i i).2 (hlow i i.2)
  have hfac := (mul_eq_colRel (M.mat m n) u' r').2 hrel
  have hU2up : UpperInv (U2.mat n n) := by
    rw [f2]; exact hup.mul hW.upperInv
  have heq : M.mat m n * U2.mat n n = R2.mat m n := by
    rw [f1, f2, ← Matrix.mul_assoc]
    show M.mat m n * matOf n n u' * W = matOf m n r' * W
    rw [hfac]
  refine ⟨(R2, U2, p2), ?_, levelOK_of_factor hM hR2 hU2up heq.symm ht2, hU2, hU2up, heq⟩
  unfold RedCpx.updateReduction2
  rw [h1, bind_ok]
  simp only
  rw [hR1.ncol, h2, bind_ok]
  exact h3

/-! ### permuting `U` and `R` -/

/-- lists of matrices with prescribed shapes -/
structure ShapesBy (N : Nat) (r c : Nat → Nat) (L : List (CMat F)) : Prop where
  len : L.length = N
  shape : ∀ l, l < N → (L.getD l ⟨0, []⟩).Shape (r l) (c l)

theorem modifyBy_spec {N : Nat} {r c : Nat → Nat} {L : List (CMat F)} (hL : ShapesBy N r c L) {k : Nat} (hk : k < N)
    {f : CMat F → Res (CMat F)} {ρ γ : Nat → Nat} (hf : Reindexes f (r k) (c k) ρ γ) :
    ∃ L', Cpx.modify L k f = .ok L' ∧ ShapesBy N r c L' ∧
      ∀ l i j, l < N → i < r l → j < c l → ent L' l i j = if l = k then ent L l (ρ i) (γ j) else ent L l i j := by
  obtain ⟨A', h1, h2, h3⟩ := hf _ (hL.shape k hk)
  have hkl : k < L.length := by rw [hL.len]; exact hk
  have hr : rd L k = .ok (L.getD k ⟨0, []⟩) := by rw [rd_lt hkl]; simp [hkl]
  refine ⟨L.set k A', ?_, ⟨by simp [hL.len], ?_⟩, ?_⟩
  · unfold Cpx.modify
    rw [hr, bind_ok, h1, bind_ok, wr_lt A' hkl]
  · intro l hl
    rw [getD_set' _ _ _ _ _ hkl]
    split
    · rename_i e; subst e; exact h2
    · exact hL.shape l hl
  · intro l i j hl hi hj
    unfold ent
    rw [getD_set' _ _ _ _ _ hkl]
    split
    · rename_i e; subst e; exact h3 i j hi hj
    · rfl

theorem permuteMatrices_spec {N : Nat} {d : Nat → Nat} {rd0 : Nat → Nat} (h2 : 2 ≤ N) (hrd : ∀ k, rd0 (k + 1) = d k)
    {U R : List (CMat F)} (hU : ShapesBy N d d U) (hR : ShapesBy N rd0 d R) {k : Nat} (hk : k < N) {p : List Nat}
    (hp : IsPermOf (d k) p) :
    ∃ U' R', RedCpx.permuteMatrices U R k p = .ok (U', R') ∧ ShapesBy N d d U' ∧ ShapesBy N rd0 d R' ∧
      (∀ l i j, l < N → i < d l → j < d l → ent U' l i j = ent U l (if l = k ∧ k ≠ 0 then p.getD i 0 else i) j) ∧
      (∀ l i j, l < N → i < rd0 l → j < d l → ent R' l i j = ent R l (if l = k + 1 then p.getD i 0 else i) j) := by
  obtain ⟨q, q1, q2, q3⟩ := Perm.invPerm_spec hp
  unfold RedCpx.permuteMatrices
  rw [q1, bind_ok]
  by_cases h0 : k = 0
  · subst h0
    rw [if_pos rfl]
    obtain ⟨R', e1, e2, e3⟩ := modifyBy_spec hR (k := 1) (by omega) (permuteRows_inv_reindexes (m := rd0 1) (n := d 1) (by rw [hrd]; exact hp) (by rw [hrd]; exact q2) q3)
    refine ⟨U, R', by rw [e1]; rfl, hU, e2, ?_, ?_⟩
    · intro l i j _ _ _; simp
    · intro l i j hl hi hj
      rw [e3 l i j hl hi hj]
      by_cases e : l = 1 <;> simp [e]
  · rw [if_neg h0]
    obtain ⟨U', e1, e2, e3⟩ := modifyBy_spec hU hk (permuteRows_inv_reindexes (n := d k) hp q2 q3)
    by_cases h1 : k = R.length - 1
    · rw [if_pos h1]
      refine ⟨U', R, by rw [e1]; rfl, e2, hR, ?_, ?_⟩
      · intro l i j hl hi hj
        rw [e3 l i j hl hi hj]
        by_cases e : l = k <;> simp [e, h0]
      · intro l i j hl hi hj
        rw [hR.len] at h1
        rw [if_neg (by omega)]
    · rw [if_neg h1, e1, bind_ok]
      rw [hR.len] at h1
      obtain ⟨R', f1, f2, f3⟩ := modifyBy_spec hR (k := k + 1) (by omega) (permuteRows_inv_reindexes (m := rd0 (k + 1)) (n := d (k + 1)) (by rw [hrd]; exact hp) (by rw [hrd]; exact q2) q3)
      refine ⟨U', R', by rw [f1]; rfl, e2, f2, ?_, ?_⟩
      · intro l i j hl hi hj
        rw [e3 l i j hl hi hj]
        by_cases e : l = k <;> simp [e, h0]
      · intro l i j hl hi hj
        rw [f3 l i j hl hi hj]
        by_cases e : l = k + 1 <;> simp [e]

theorem permuteMatricesFrom_spec {N : Nat} {d : Nat → Nat} {rd0 : Nat → Nat} (h2 : 2 ≤ N) (hrd : ∀ k, rd0 (k + 1) = d k) :
    ∀ (ps : List (List Nat)) (k : Nat) (U R : List (CMat F)), k + ps.length = N → ShapesBy N d d U → ShapesBy N rd0 d R →
      (∀ a, a < ps.length → IsPermOf (d (k + a)) (ps.getD a [])) →
      ∃ U' R', RedCpx.permuteMatricesFrom k ps U R = .ok (U', R') ∧ ShapesBy N d d U' ∧ ShapesBy N rd0 d R' ∧
      (∀ l i j, l < N → i < d l → j < d l → ent U' l i j = ent U l (if k ≤ l ∧ 1 ≤ l then (ps.getD (l - k) []).getD i 0 else i) j) ∧
      (∀ l i j, l < N → i < rd0 l → j < d l → ent R' l i j = ent R l (if k < l then (ps.getD (l - (k + 1)) []).getD i 0 else i) j)
  | [], k, U, R, hk, hU, hR, _ => by
    refine ⟨U, R, rfl, hU, hR, ?_, ?_⟩
    · intro l i j hl _ _; simp at hk; rw [if_neg (by omega)]
    · intro l i j hl _ _; simp at hk; rw [if_neg (by omega)]
  | p :: ps, k, U, R, hk, hU, hR, hp => by
    simp only [List.length_cons] at hk
    have hpk : IsPermOf (d k) p := by simpa using hp 0 (by simp)
    obtain ⟨U1, R1, a1, a2, a3, a4, a5⟩ := permuteMatrices_spec h2 hrd hU hR (k := k) (by omega) hpk
    obtain ⟨U2, R2, b1, b2, b3, b4, b5⟩ := permuteMatricesFrom_spec h2 hrd ps (k + 1) U1 R1 (by omega) a2 a3 (fun a ha => by
      have := hp (a + 1) (by simpa using ha)
      rw [show k + (a + 1) = k + 1 + a by omega] at this
      simpa using this)
    have hlt : ∀ (a i : Nat), a < ps.length → i < d (k + 1 + a) → (ps.getD a []).getD i 0 < d (k + 1 + a) := by
      intro a i ha hi
      have := hp (a + 1) (by simpa using ha)
      rw [show k + (a + 1) = k + 1 + a by omega] at this
      exact sigma_getD _ _ (by simpa using this) i hi
    refine ⟨U2, R2, ?_, b2, b3, ?_, ?_⟩
    · unfold RedCpx.permuteMatricesFrom
      rw [a1, bind_ok]; exact b1
    · intro l i j hl hi hj
      rw [b4 l i j hl hi hj]
      by_cases h : k + 1 ≤ l
      · rw [if_pos ⟨h, by omega⟩, if_pos ⟨by omega, by omega⟩]
        have hlk : l - k = l - (k + 1) + 1 := by omega
        rw [hlk, List.getD_cons_succ]
        have := hlt (l - (k + 1)) i (by omega) (by rw [show k + 1 + (l - (k + 1)) = l by omega]; exact hi)
        rw [show k + 1 + (l - (k + 1)) = l by omega] at this
        rw [a4 l _ j hl this hj, if_neg (by omega)]
      · rw [if_neg (by omega), a4 l i j hl hi hj]
        by_cases e : l = k
        · subst e
          by_cases h0 : l = 0
          · simp [h0]
          · rw [if_pos ⟨rfl, h0⟩, if_pos ⟨le_refl _, by omega⟩, Nat.sub_self, List.getD_cons_zero]
        · rw [if_neg (by omega), if_neg (by omega)]
    · intro l i j hl hi hj
      rw [b5 l i j hl hi hj]
      by_cases h : k + 1 < l
      · rw [if_pos h, if_pos (by omega)]
        have hlk : l - (k + 1) = l - (k + 1 + 1) + 1 := by omega
        rw [hlk, List.getD_cons_succ]
        have hi' : i < d (l - 1) := by rw [← hrd]; rw [show l - 1 + 1 = l by omega]; exact hi
        have := hlt (l - (k + 1 + 1)) i (by omega) (by rw [show k + 1 + (l - (k + 1 + 1)) = l - 1 by omega]; exact hi')
        rw [show k + 1 + (l - (k + 1 + 1)) = l - 1 by omega] at this
        rw [a5 l _ j hl (by rw [← hrd, show l - 1 + 1 = l by omega] at this; exact this) hj, if_neg (by omega)]
      · rw [if_neg h, a5 l i j hl hi hj]
        by_cases e : l = k + 1
        · subst e; rw [if_pos rfl, if_pos (by omega), Nat.sub_self, List.getD_cons_zero]
        · rw [if_neg e, if_neg (by omega)]

/-! ### the second loop -/

theorem updateFrom_spec {N : Nat} (Q : Nat → CMat F → CMat F → P2C → Prop) (U0 R0 : List (CMat F))
    (hstep : ∀ k, k < N → ∃ r, RedCpx.updateReduction2 (U0.getD k ⟨0, []⟩) (R0.getD k ⟨0, []⟩) = .ok r ∧ Q k r.1 r.2.1 r.2.2) :
    ∀ (todo k : Nat) (U R : List (CMat F)) (p : List P2C), k + todo = N → U.length = N → R.length = N → p.length = N →
      (∀ l, k ≤ l → U.getD l ⟨0, []⟩ = U0.getD l ⟨0, []⟩ ∧ R.getD l ⟨0, []⟩ = R0.getD l ⟨0, []⟩) →
      (∀ l, l < k → Q l (R.getD l ⟨0, []⟩) (U.getD l ⟨0, []⟩) (p.getD l [])) →
      ∃ U' R' p', RedCpx.updateFrom todo k U R p = .ok (U', R', p') ∧ U'.length = N ∧ R'.length = N ∧ p'.length = N ∧
        ∀ l, l < N → Q l (R'.getD l ⟨0, []⟩) (U'.getD l ⟨0, []⟩) (p'.getD l [])
  | 0, k, U, R, p, hk, lU, lR, lp, _, hd => ⟨U, R, p, rfl, lU, lR, lp, fun l hl => hd l (by omega)⟩
  | todo + 1, k, U, R, p, hk, lU, lR, lp, hs, hd => by
    obtain ⟨r, h1, h2⟩ := hstep k (by omega)
    unfold RedCpx.updateFrom
    rw [rd_getD ⟨0, []⟩ (by omega), bind_ok, rd_getD ⟨0, []⟩ (by omega), bind_ok, (hs k (le_refl _)).1, (hs k (le_refl _)).2, h1, bind_ok,
      wr_lt _ (by omega), bind_ok, wr_lt _ (by omega), bind_ok, wr_lt _ (by omega), bind_ok]
    apply updateFrom_spec Q U0 R0 hstep todo (k + 1) _ _ _ (by omega) (by simp [lU]) (by simp [lR]) (by simp [lp])
    · intro l hl
      rw [getD_set' _ _ _ _ _ (by omega), getD_set' _ _ _ _ _ (by omega), if_neg (by omega), if_neg (by omega)]
      exact hs l (by omega)
    · intro l hl
      rw [getD_set' _ _ _ _ _ (by omega), getD_set' _ _ _ _ _ (by omega), getD_set' _ _ _ _ _ (by omega)]
      by_cases e : l = k
      · subst e; rw [if_pos rfl, if_pos rfl, if_pos rfl]; exact h2
      · rw [if_neg e, if_neg e, if_neg e]; exact hd l (by omega)

/-- permuting the bases of a reduced complex with basis gives a reduced complex of the reindexed chain complex -/
theorem redPermuteBasis_spec {C C' : List (CMat F)} (hC : IsChainComplex C) (h2 : 2 ≤ C.length) (h0 : ZeroBdry0 C) (h0' : ZeroBdry0 C') {X : RedCpx F}
    (hX : BasisOK C X) {ps : List (List Nat)} (hl : ps.length = C.length) (hp : ∀ k, k < C.length → IsPermOf (cdim C k) (ps.getD k []))
    (hr : ReindexedBy C C' (fun k i => (ps.getD k []).getD i 0)) :
    ∃ X', X.permuteBasis ps = .ok X' ∧ BasisOK C' X' := by
  have hU : ShapesBy C.length (cdim C) (cdim C) X.U := ⟨hX.lenU, fun l hl => (hX.fac l hl).shape⟩
  have hR : ShapesBy C.length (rdim C) (cdim C) X.R := ⟨hX.tab.lenR, fun l hl => (hX.tab.lev l hl).shapeR⟩
  obtain ⟨U1, R1, a1, a2, a3, a4, a5⟩ := permuteMatricesFrom_spec h2 (fun k => rfl) ps 0 X.U X.R (by omega) hU hR
    (fun a ha => by rw [Nat.zero_add]; exact hp a (by omega))
  have hC' := hr.complex hC
  have hlen := hr.same.len
  have hcd := hr.same.cdim
  have hrdm := hr.same.rdim hr.ne
  have hstep : ∀ k, k < C.length → ∃ r, RedCpx.updateReduction2 (U1.getD k ⟨0, []⟩) (R1.getD k ⟨0, []⟩) = .ok r ∧
      LevelUOK (rdim C k) (cdim C k) (C'.getD k ⟨0, []⟩) (r.1, r.2.1, r.2.2) := by
    intro k hk
    have hM : (C'.getD k ⟨0, []⟩).Shape (rdim C k) (cdim C k) := by
      have := hC'.shape k (by omega)
      rw [hcd, hrdm] at this; exact this
    have hfac := hX.fac k hk
    have hent : ∀ i j, i < rdim C k → j < cdim C k → ∑ l : Fin (cdim C k), ent C k i l * ent X.U k l j = ent X.R k i j := by
      intro i j hi hj
      have := congrFun (congrFun hfac.eq ⟨i, hi⟩) ⟨j, hj⟩
      rw [Matrix.mul_apply] at this
      exact this
    have hbij : Function.Bijective (fun i : Fin (cdim C k) => (⟨(ps.getD k []).getD i 0, sigma_getD _ _ (hp k hk) i i.2⟩ : Fin (cdim C k))) :=
      (Finite.injective_iff_bijective).1 (fun i j e => Fin.ext (getD_inj _ _ (hp k hk) i j i.2 j.2 (by simpa using e)))
    by_cases hk0 : k = 0
    · subst hk0
      have hUe : (U1.getD 0 ⟨0, []⟩).mat (cdim C 0) (cdim C 0) = (X.U.getD 0 ⟨0, []⟩).mat (cdim C 0) (cdim C 0) := by
        ext i j
        have := a4 0 i j hk i.2 j.2
        rw [if_neg (by omega)] at this
        exact this
      obtain ⟨r, h1, h2⟩ := updateReduction2_spec (U := U1.getD 0 ⟨0, []⟩) (R := R1.getD 0 ⟨0, []⟩) hM (a2.shape 0 hk) (a3.shape 0 hk)
        (by rw [hUe]; exact hfac.upper.injective) (by
          ext i j
          rw [Matrix.mul_apply]
          have hz : ent R1 0 i j = ∑ l : Fin (cdim C 0), ent C 0 i l * ent X.U 0 l j := by
            rw [hent i j i.2 j.2, a5 0 i j hk i.2 j.2, if_neg (by omega)]
          have hz2 : ent R1 0 i j = 0 := by
            rw [hz]; exact Finset.sum_eq_zero (fun l _ => by rw [ent_zero_bdry h0, zero_mul])
          show ∑ l : Fin (cdim C 0), ent C' 0 i l * ent U1 0 l j = ent R1 0 i j
          rw [hz2]
          exact Finset.sum_eq_zero (fun l _ => by rw [ent_zero_bdry h0', zero_mul]))
      exact ⟨r, h1, h2⟩
    · obtain ⟨k', rfl⟩ : ∃ k', k = k' + 1 := ⟨k - 1, by omega⟩
      have hUe : ∀ i j : Fin (cdim C (k' + 1)), ent U1 (k' + 1) i j = ent X.U (k' + 1) ((ps.getD (k' + 1) []).getD i 0) j := by
        intro i j
        have := a4 (k' + 1) i j hk i.2 j.2
        rw [if_pos (by omega)] at this
        exact this
      obtain ⟨r, h1, h2⟩ := updateReduction2_spec (U := U1.getD (k' + 1) ⟨0, []⟩) (R := R1.getD (k' + 1) ⟨0, []⟩) hM (a2.shape _ hk) (a3.shape _ hk)
        (by
          intro x y hxy
          apply hfac.upper.injective
          funext i
          obtain ⟨i', hi'⟩ := hbij.2 i
          have := congrFun hxy i'
          simp only [Matrix.mulVec, dotProduct] at this ⊢
          have e : ∀ j : Fin (cdim C (k' + 1)), (X.U.getD (k' + 1) ⟨0, []⟩).mat (cdim C (k' + 1)) (cdim C (k' + 1)) i j =
              (U1.getD (k' + 1) ⟨0, []⟩).mat (cdim C (k' + 1)) (cdim C (k' + 1)) i' j := by
            intro j
            have h := hUe i' j
            rw [← hi']
            exact h.symm
          simp only [e]
          exact this) (by
          ext i j
          rw [Matrix.mul_apply]
          show ∑ l : Fin (cdim C (k' + 1)), ent C' (k' + 1) i l * ent U1 (k' + 1) l j = ent R1 (k' + 1) i j
          have hi : i.val < cdim C k' := i.2
          rw [a5 (k' + 1) i j hk i.2 j.2, if_pos (by omega), show k' + 1 - (0 + 1) = k' by omega,
            ← hent _ _ (sigma_getD _ _ (hp k' (by omega)) i hi) j.2]
          have h3 : ∀ l : Fin (cdim C (k' + 1)), ent C' (k' + 1) i l * ent U1 (k' + 1) l j =
              (fun l' : Fin (cdim C (k' + 1)) => ent C (k' + 1) ((ps.getD k' []).getD i 0) l' * ent X.U (k' + 1) l' j)
                ⟨(ps.getD (k' + 1) []).getD l 0, sigma_getD _ _ (hp (k' + 1) hk) l l.2⟩ := by
            intro l
            simp only
            rw [hr.succ k' i l hk hi l.2, hUe l j]
          rw [Finset.sum_congr rfl (fun l _ => h3 l)]
          exact Fintype.sum_bijective _ hbij _ _ (fun l => rfl))
      exact ⟨r, h1, h2⟩
  obtain ⟨U2, R2, p2, b1, b2, b3, b4, b5⟩ := updateFrom_spec (N := C.length) (fun k R U p => LevelUOK (rdim C k) (cdim C k) (C'.getD k ⟨0, []⟩) (R, U, p))
    U1 R1 hstep ps.length 0 U1 R1 X.p2c (by omega) a2.len a3.len hX.tab.lenP (fun l _ => ⟨rfl, rfl⟩) (by omega)
  obtain ⟨I, hI, ht⟩ := tabOK_of_levels hC' U2 R2 p2 (by omega) (by omega) (fun k hk => by
    rw [hcd, hrdm]; exact (b5 k (by omega)).1)
  refine ⟨⟨U2, R2, I, p2⟩, ?_, ht, by show U2.length = _; omega, fun k hk => by
    rw [hcd, hrdm]; exact (b5 k (by omega)).2⟩
  unfold RedCpx.permuteBasis
  rw [a1, bind_ok]
  simp only
  rw [b1, bind_ok]
  simp only
  rw [hI]; rfl

end BATS
