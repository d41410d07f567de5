import Verif.Model.DG
import Verif.Proofs.UpdateFilt
import Verif.Proofs.VecOps3
import Verif.Proofs.Duality

set_option linter.unusedSectionVars false
set_option linter.unusedVariables false
set_option linter.unusedSimpArgs false

/-! # Differential graded vector spaces: construction, sorting -/

namespace BATS
namespace DG
open Reduction Matrix

variable {F : Type} [Field F] [DecidableEq F]

/-- the degree: `co` for cochain complexes -/
def deg (co : Bool) : Int := if co then 1 else -1

/-- number of faces at level `l`; level 0 has `e` (the augmentation) -/
def rr (e : Nat) (d : Nat → Nat) : Nat → Nat
  | 0 => e
  | l + 1 => d l

/-- rows of the `l`-th differential -/
def dr (co : Bool) (e : Nat) (d : Nat → Nat) (l : Nat) : Nat := if co then d l else rr e d l
/-- columns of the `l`-th differential -/
def dc (co : Bool) (e : Nat) (d : Nat → Nat) (l : Nat) : Nat := if co then rr e d l else d l

/-- entry of the `l`-th differential at face `a`, coface `b` -/
def dent (co : Bool) (D : List (CMat F)) (l a b : Nat) : F := if co then ent D l b a else ent D l a b

/-- shapes of a DG vector space with `N` dimensions -/
abbrev DShapes (co : Bool) (e N : Nat) (d : Nat → Nat) (D : List (CMat F)) : Prop := ShapesBy (N + 1) (dr co e d) (dc co e d) D

/-- `D` holds the differentials of `B`, with the basis of dimension `k` in the order `σ k` -/
structure DGSorted (co : Bool) (e : Nat) (B : List (CMat F)) (σ : Nat → Nat → Nat) (D : List (CMat F)) : Prop where
  sh : DShapes co e B.length (cdim B) D
  zero : ∀ a b, a < e → b < cdim B 0 → dent co D 0 a b = 1
  succ : ∀ k a b, k + 1 < B.length → a < cdim B k → b < cdim B (k + 1) → dent co D (k + 1) a b = ent B (k + 1) (σ k a) (σ (k + 1) b)

/-! ### construction -/

theorem fill_shape (m n : Nat) {a : F} (ha : a ≠ 0) : (DGVS.fill m n a).Shape m n := by
  refine ⟨?_, rfl, by simp [DGVS.fill]⟩
  intro c hc
  simp only [DGVS.fill, List.mem_replicate] at hc
  rw [hc.2]
  refine ⟨dense_ok ha m, ?_⟩
  intro p hp
  simp only [SVec.dense, List.mem_map, List.mem_range] at hp
  obtain ⟨i, hi, rfl⟩ := hp
  exact hi

theorem fill_ent (m n : Nat) (a : F) {i j : Nat} (hi : i < m) (hj : j < n) : ent1 (DGVS.fill m n a) i j = a := by
  unfold ent1 DGVS.fill
  have : (List.replicate n (SVec.dense a m)).getD j [] = SVec.dense a m := by
    rw [List.getD_eq_getElem?_getD, List.getElem?_replicate, if_pos hj]; rfl
  rw [this, coef_dense, if_pos hi]

theorem zero_shape (m n : Nat) : (CMat.zero (F := F) m n).Shape m n := by
  refine ⟨?_, rfl, by simp [CMat.zero]⟩
  intro c hc
  simp only [CMat.zero, List.mem_replicate] at hc
  rw [hc.2]
  exact ⟨vecOK_nil, below_nil _⟩

theorem transposeAll_spec : ∀ (Bs : List (CMat F)), (∀ M ∈ Bs, M.OK) → ∃ Ts, DGVS.transposeAll Bs = .ok Ts ∧ Ts.length = Bs.length ∧
    ∀ k, k < Bs.length → (Ts.getD k ⟨0, []⟩).Shape (Bs.getD k ⟨0, []⟩).cols.length (Bs.getD k ⟨0, []⟩).nrow ∧
      ∀ i j, i < (Bs.getD k ⟨0, []⟩).nrow → j < (Bs.getD k ⟨0, []⟩).cols.length → ent Ts k j i = ent Bs k i j
  | [], _ => ⟨[], rfl, rfl, by intro k hk; simp at hk⟩
  | M :: Bs, h => by
    have hM : M.Shape M.nrow M.cols.length := ⟨h M (by simp), rfl, rfl⟩
    obtain ⟨T, t1, t2, t3⟩ := transpose_spec hM
    obtain ⟨Ts, s1, s2, s3⟩ := transposeAll_spec Bs (fun N hN => h N (by simp [hN]))
    refine ⟨T :: Ts, by unfold DGVS.transposeAll; rw [t1, bind_ok, s1]; rfl, by simp [s2], ?_⟩
    intro k hk
    cases k with
    | zero =>
      refine ⟨t2, fun i j hi hj => ?_⟩
      exact congrFun (congrFun t3 ⟨j, hj⟩) ⟨i, hi⟩
    | succ k => simpa [ent] using s3 k (by simpa using hk)

/-- augmentation rank -/
def aug (b : Bool) : Nat := if b then 1 else 0

theorem getD_cons_snoc (d0 z : CMat F) (L : List (CMat F)) (l : Nat) :
    (d0 :: L ++ [z]).getD l ⟨0, []⟩ = if l = 0 then d0 else if l ≤ L.length then L.getD (l - 1) ⟨0, []⟩ else if l = L.length + 1 then z else ⟨0, []⟩ := by
  cases l with
  | zero => rfl
  | succ l =>
    rw [if_neg (by omega)]
    show (L ++ [z]).getD l _ = _
    by_cases h : l < L.length
    · rw [if_pos (by omega), List.getD_eq_getElem?_getD, List.getElem?_append_left h, ← List.getD_eq_getElem?_getD]; rfl
    · rw [if_neg (by omega), List.getD_eq_getElem?_getD, List.getElem?_append_right (by omega)]
      by_cases h' : l = L.length
      · rw [if_pos (by omega), h', Nat.sub_self]; rfl
      · rw [if_neg (by omega)]
        obtain ⟨m, hm⟩ : ∃ m, l - L.length = m + 1 := ⟨l - L.length - 1, by omega⟩
        rw [hm]; rfl

theorem ofComplex_spec (co b : Bool) {B : List (CMat F)} (hB : IsChainComplex B) :
    ∃ D, DGVS.ofComplex (deg co) b B = .ok ⟨deg co, D⟩ ∧ DGSorted co (aug b) B (fun _ i => i) D := by
  cases B with
  | nil => exact absurd rfl hB.ne
  | cons B0 Bs =>
    have hlast : (Bs.getLastD B0).cols.length = cdim (B0 :: Bs) Bs.length := by
      unfold cdim
      congr 1
      cases Bs with
      | nil => rfl
      | cons M Ms =>
        rw [List.getLastD_eq_getLast?, List.getLast?_eq_getElem?]
        simp
    have hd0 : B0.cols.length = cdim (B0 :: Bs) 0 := rfl
    have hgd : ∀ k, (B0 :: Bs).getD (k + 1) ⟨0, []⟩ = Bs.getD k ⟨0, []⟩ := fun k => rfl
    have hbs : ∀ k, k < Bs.length → (Bs.getD k ⟨0, []⟩).Shape (cdim (B0 :: Bs) k) (cdim (B0 :: Bs) (k + 1)) := by
      intro k hk
      have := hB.shape (k + 1) (by simpa using hk)
      exact this
    have hend : cdim (B0 :: Bs) (Bs.length + 1) = 0 := cdim_of_ge (by simp)
    cases co with
    | false =>
      refine ⟨_, by unfold DGVS.ofComplex deg; simp only [Bool.false_eq_true, if_false, if_true]; rfl, ⟨?_, ?_⟩, ?_, ?_⟩
      · simp
      · intro l hl
        rw [getD_cons_snoc]
        by_cases h0 : l = 0
        · subst h0
          rw [if_pos rfl]
          cases b
          · exact zero_shape _ _
          · exact fill_shape _ _ one_ne_zero
        · obtain ⟨l, rfl⟩ : ∃ m, l = m + 1 := ⟨l - 1, by omega⟩
          rw [if_neg h0]
          by_cases h1 : l + 1 ≤ Bs.length
          · rw [if_pos h1, Nat.add_sub_cancel]
            exact hbs l (by omega)
          · rw [if_neg h1]
            have : l = Bs.length := by simp at hl; omega
            subst this
            rw [if_pos rfl, hlast]
            have := zero_shape (F := F) (cdim (B0 :: Bs) Bs.length) 0
            simp only [dr, dc, rr, Bool.false_eq_true, if_false]
            rw [hend]; exact this
      · intro x y hx hy
        cases b with
        | false => simp [aug] at hx
        | true => exact fill_ent 1 _ (1 : F) hx hy
      · intro k x y hk hx hy
        simp only [List.length_cons] at hk
        unfold dent ent
        rw [if_neg (by simp), getD_cons_snoc, if_neg (by omega), if_pos (by omega)]
        rfl
    | true =>
      obtain ⟨Ts, t1, t2, t3⟩ := transposeAll_spec Bs (fun M hM => by
        obtain ⟨k, hk, rfl⟩ := List.mem_iff_getElem.1 hM
        have := (hbs k hk).ok
        rw [getD_eq_get _ hk] at this
        exact this)
      refine ⟨_, by
        unfold DGVS.ofComplex deg
        simp only [if_true]
        rw [if_neg (by decide), t1, bind_ok]; rfl, ⟨?_, ?_⟩, ?_, ?_⟩
      · simp [t2]
      · intro l hl
        rw [getD_cons_snoc]
        by_cases h0 : l = 0
        · subst h0
          rw [if_pos rfl]
          cases b
          · exact zero_shape _ _
          · exact fill_shape _ _ one_ne_zero
        · obtain ⟨l, rfl⟩ : ∃ m, l = m + 1 := ⟨l - 1, by omega⟩
          rw [if_neg h0, t2]
          by_cases h1 : l + 1 ≤ Bs.length
          · rw [if_pos h1, Nat.add_sub_cancel]
            have := (t3 l (by omega)).1
            rw [(hbs l (by omega)).nrow, (hbs l (by omega)).ncol] at this
            exact this
          · rw [if_neg h1]
            have : l = Bs.length := by simp at hl; omega
            subst this
            rw [if_pos rfl, hlast]
            have := zero_shape (F := F) 0 (cdim (B0 :: Bs) Bs.length)
            simp only [dr, dc, rr, if_true]
            rw [hend]; exact this
      · intro x y hx hy
        cases b with
        | false => simp [aug] at hx
        | true => exact fill_ent _ 1 (1 : F) hy hx
      · intro k x y hk hx hy
        simp only [List.length_cons] at hk
        have := (t3 k (by omega)).2 x y (by rw [(hbs k (by omega)).nrow]; exact hx) (by rw [(hbs k (by omega)).ncol]; exact hy)
        unfold dent
        rw [if_pos rfl]
        unfold ent at this ⊢
        rw [getD_cons_snoc, if_neg (by omega), if_pos (by omega), Nat.add_sub_cancel, this]
        rfl

/-! ### sorting -/

/-- one step of `ipermute_basis` -/
theorem ipermute1_spec (co : Bool) {e N : Nat} {d : Nat → Nat} {D : List (CMat F)} (hD : DShapes co e N d D) {k : Nat} (hk : k < N) {p : List Nat}
    (hp : IsPermOf (d k) p) :
    ∃ D', DGVS.ipermuteBasis1 (deg co) D k p = .ok D' ∧ DShapes co e N d D' ∧ D'.getD 0 ⟨0, []⟩ = D.getD 0 ⟨0, []⟩ ∧
      ∀ l a b, l + 1 < N → a < d l → b < d (l + 1) →
        dent co D' (l + 1) a b = dent co D (l + 1) (if l = k then p.getD a 0 else a) (if l + 1 = k then p.getD b 0 else b) := by
  obtain ⟨q, q1, q2, q3⟩ := Perm.invPerm_spec hp
  have hlen : D.length - 2 = N - 1 := by rw [hD.len]; omega
  have hsig : ∀ i, i < d k → p.getD i 0 < d k := sigma_getD _ _ hp
  -- level 0 is not touched by an operation at a level `≥ 1`
  have h00 : ∀ {D D' : List (CMat F)} {l : Nat} {f : CMat F → Res (CMat F)}, l ≠ 0 → Cpx.modify D l f = .ok D' → D'.getD 0 ⟨0, []⟩ = D.getD 0 ⟨0, []⟩ := by
    intro D D' l f hl h
    unfold Cpx.modify at h
    by_cases hlt : l < D.length
    · rw [rd_getD ⟨0, []⟩ hlt, bind_ok] at h
      cases hf : f (D.getD l ⟨0, []⟩) with
      | error e => rw [hf] at h; cases h
      | ok M =>
        rw [hf, bind_ok, wr_lt _ hlt] at h
        cases h
        rw [getD_set' _ _ _ _ _ hlt, if_neg (fun h => hl h.symm)]
    · unfold rd at h; rw [List.getElem?_eq_none (by omega)] at h; cases h
  unfold DGVS.ipermuteBasis1 deg
  cases co with
  | false =>
    simp only [Bool.false_eq_true, if_false, if_true]
    by_cases h0 : k = 0
    · subst h0
      rw [if_pos rfl, q1, bind_ok]
      obtain ⟨D', e1, e2, e3⟩ := modifyBy_spec hD (k := 1) (by omega)
        (permuteRows_inv_reindexes (m := dr false e d 1) (n := dc false e d 1) hp q2 q3)
      refine ⟨D', e1, e2, h00 one_ne_zero e1, fun l a b hl ha hb => ?_⟩
      simp only [dent, Bool.false_eq_true, if_false]
      rw [e3 (l + 1) a b (by omega) ha hb, if_neg (show ¬ l + 1 = 0 by omega)]
      by_cases h : l = 0 <;> simp [h]
    · rw [if_neg h0, hlen]
      obtain ⟨D1, e1, e2, e3⟩ := modifyBy_spec hD (k := k) (by omega) (ipermuteCols_reindexes (m := dr false e d k) (n := dc false e d k) hp)
      by_cases h1 : k = N - 1
      · rw [if_pos h1]
        refine ⟨D1, e1, e2, h00 h0 e1, fun l a b hl ha hb => ?_⟩
        simp only [dent, Bool.false_eq_true, if_false]
        rw [e3 (l + 1) a b (by omega) ha hb, if_neg (show ¬ l = k by omega)]
        by_cases h : l + 1 = k <;> simp [h]
      · rw [if_neg h1, e1, bind_ok, q1, bind_ok]
        obtain ⟨D2, f1, f2, f3⟩ := modifyBy_spec e2 (k := k + 1) (by omega)
          (permuteRows_inv_reindexes (m := dr false e d (k + 1)) (n := dc false e d (k + 1)) hp q2 q3)
        refine ⟨D2, f1, f2, (h00 (by omega) f1).trans (h00 h0 e1), fun l a b hl ha hb => ?_⟩
        simp only [dent, Bool.false_eq_true, if_false]
        rw [f3 (l + 1) a b (by omega) ha hb]
        by_cases h : l = k
        · subst h
          rw [if_pos rfl, if_pos rfl, if_neg (by omega), e3 _ _ _ (by omega) (hsig a ha) (show id b < d (l + 1) from hb), if_neg (by omega)]; rfl
        · rw [if_neg (by omega), if_neg h, e3 (l + 1) a b (by omega) ha hb]
          by_cases h' : l + 1 = k <;> simp [h']
  | true =>
    simp only [if_true]
    rw [if_neg (by decide)]
    by_cases h0 : k = 0
    · subst h0
      rw [if_pos rfl]
      obtain ⟨D', e1, e2, e3⟩ := modifyBy_spec hD (k := 1) (by omega)
        (ipermuteCols_reindexes (m := dr true e d 1) (n := dc true e d 1) hp)
      refine ⟨D', e1, e2, h00 one_ne_zero e1, fun l a b hl ha hb => ?_⟩
      simp only [dent, if_true]
      rw [e3 (l + 1) b a (by omega) hb ha, if_neg (show ¬ l + 1 = 0 by omega)]
      by_cases h : l = 0 <;> simp [h]
    · rw [if_neg h0, hlen]
      by_cases h1 : k = N - 1
      · rw [if_pos h1, q1, bind_ok]
        obtain ⟨D1, e1, e2, e3⟩ := modifyBy_spec hD (k := k) (by omega) (permuteRows_inv_reindexes (m := dr true e d k) (n := dc true e d k) hp q2 q3)
        refine ⟨D1, e1, e2, h00 h0 e1, fun l a b hl ha hb => ?_⟩
        simp only [dent, if_true]
        rw [e3 (l + 1) b a (by omega) hb ha, if_neg (show ¬ l = k by omega)]
        by_cases h : l + 1 = k <;> simp [h]
      · rw [if_neg h1]
        obtain ⟨D1, e1, e2, e3⟩ := modifyBy_spec hD (k := k + 1) (by omega) (ipermuteCols_reindexes (m := dr true e d (k + 1)) (n := dc true e d (k + 1)) hp)
        rw [e1, bind_ok, q1, bind_ok]
        obtain ⟨D2, f1, f2, f3⟩ := modifyBy_spec e2 (k := k) (by omega)
          (permuteRows_inv_reindexes (m := dr true e d k) (n := dc true e d k) hp q2 q3)
        refine ⟨D2, f1, f2, (h00 h0 f1).trans (h00 (by omega) e1), fun l a b hl ha hb => ?_⟩
        simp only [dent, if_true]
        rw [f3 (l + 1) b a (by omega) hb ha]
        by_cases h : l + 1 = k
        · subst h
          rw [if_pos rfl, if_pos rfl, if_neg (by omega), e3 _ _ _ (by omega) (hsig b hb) (show id a < d l from ha), if_neg (by omega)]; rfl
        · rw [if_neg h, if_neg h, e3 (l + 1) b a (by omega) hb ha]
          by_cases h' : l = k <;> simp [h']

theorem ipermuteFrom_spec (co : Bool) {e N : Nat} {d : Nat → Nat} : ∀ (ps : List (List Nat)) (k : Nat) (D : List (CMat F)), DShapes co e N d D →
    k + ps.length = N → (∀ a, a < ps.length → IsPermOf (d (k + a)) (ps.getD a [])) →
    ∃ D', DGVS.ipermuteBasisFrom (deg co) k ps D = .ok D' ∧ DShapes co e N d D' ∧ D'.getD 0 ⟨0, []⟩ = D.getD 0 ⟨0, []⟩ ∧
      ∀ l a b, l + 1 < N → a < d l → b < d (l + 1) →
        dent co D' (l + 1) a b = dent co D (l + 1) (if k ≤ l then (ps.getD (l - k) []).getD a 0 else a)
          (if k ≤ l + 1 then (ps.getD (l + 1 - k) []).getD b 0 else b)
  | [], k, D, hD, hk, _ => by
    refine ⟨D, rfl, hD, rfl, fun l a b hl ha hb => ?_⟩
    simp only [List.length_nil] at hk
    rw [if_neg (by omega), if_neg (by omega)]
  | p :: ps, k, D, hD, hk, hp => by
    simp only [List.length_cons] at hk
    have hp0 : IsPermOf (d k) p := by simpa using hp 0 (by simp)
    have hps : ∀ a, a < ps.length → IsPermOf (d (k + 1 + a)) (ps.getD a []) := by
      intro a ha
      have := hp (a + 1) (by simp only [List.length_cons]; omega)
      rw [show k + (a + 1) = k + 1 + a by omega] at this
      simpa using this
    obtain ⟨D1, e1, e2, e3, e4⟩ := ipermute1_spec co hD (k := k) (by omega) hp0
    obtain ⟨D2, f1, f2, f3, f4⟩ := ipermuteFrom_spec co ps (k + 1) D1 e2 (by omega) hps
    refine ⟨D2, by unfold DGVS.ipermuteBasisFrom; rw [e1, bind_ok]; exact f1, f2, f3.trans e3, fun l a b hl ha hb => ?_⟩
    rw [f4 l a b hl ha hb]
    have hA : (if k + 1 ≤ l then (ps.getD (l - (k + 1)) []).getD a 0 else a) < d l := by
      by_cases h : k + 1 ≤ l
      · rw [if_pos h]
        have := hps (l - (k + 1)) (by omega)
        rw [show k + 1 + (l - (k + 1)) = l by omega] at this
        exact sigma_getD _ _ this a ha
      · rw [if_neg h]; exact ha
    have hB : (if k + 1 ≤ l + 1 then (ps.getD (l + 1 - (k + 1)) []).getD b 0 else b) < d (l + 1) := by
      by_cases h : k + 1 ≤ l + 1
      · rw [if_pos h]
        have := hps (l + 1 - (k + 1)) (by omega)
        rw [show k + 1 + (l + 1 - (k + 1)) = l + 1 by omega] at this
        exact sigma_getD _ _ this b hb
      · rw [if_neg h]; exact hb
    rw [e4 l _ _ hl hA hB]
    congr 1
    · by_cases h : k + 1 ≤ l
      · rw [if_pos h, if_neg (by omega), if_pos (by omega), show l - k = l - (k + 1) + 1 by omega, List.getD_cons_succ]
      · rw [if_neg h]
        by_cases h' : l = k
        · subst h'; rw [if_pos rfl, if_pos (le_refl _), Nat.sub_self, List.getD_cons_zero]
        · rw [if_neg h', if_neg (by omega)]
    · by_cases h : k + 1 ≤ l + 1
      · rw [if_pos h, if_neg (by omega), if_pos (by omega), show l + 1 - k = l + 1 - (k + 1) + 1 by omega, List.getD_cons_succ]
      · rw [if_neg h]
        by_cases h' : l + 1 = k
        · rw [if_pos h', if_pos (by omega), h', Nat.sub_self, List.getD_cons_zero]
        · rw [if_neg h', if_neg (by omega)]

/-- `ipermute_basis` puts a DG vector space in the order given by the permutations -/
theorem ipermuteBasis_spec (co : Bool) {e : Nat} {B : List (CMat F)} {σ : Nat → Nat → Nat} {D : List (CMat F)} (h : DGSorted co e B σ D)
    {ps : List (List Nat)} (hl : ps.length = B.length) (hp : ∀ k, k < B.length → IsPermOf (cdim B k) (ps.getD k [])) :
    ∃ D', DGVS.ipermuteBasis ⟨deg co, D⟩ ps = .ok ⟨deg co, D'⟩ ∧ DGSorted co e B (fun k i => σ k ((ps.getD k []).getD i 0)) D' := by
  obtain ⟨D', e1, e2, e3, e4⟩ := ipermuteFrom_spec co ps 0 D h.sh (by omega) (fun a ha => by rw [Nat.zero_add]; exact hp a (by omega))
  refine ⟨D', by unfold DGVS.ipermuteBasis; simp only; rw [e1]; rfl, e2, ?_, ?_⟩
  · intro a b ha hb
    have := h.zero a b ha hb
    unfold dent ent at this ⊢
    rw [e3]; exact this
  · intro k a b hk ha hb
    rw [e4 k a b hk ha hb, if_pos (by omega), if_pos (by omega), Nat.sub_zero, Nat.sub_zero]
    exact h.succ k _ _ hk (sigma_getD _ _ (hp k (by omega)) a ha) (sigma_getD _ _ (hp (k + 1) hk) b hb)

end DG
end BATS
