import Verif.Model.Chain
import Verif.Proofs.SVecOps
import Verif.Proofs.Perm
import Verif.Proofs.Complex
import Verif.Spec.Perm

set_option linter.unusedSectionVars false
set_option linter.unusedVariables false
set_option linter.unusedSimpArgs false

/-! # Permuting the bases of a chain complex -/

namespace BATS
open Reduction

variable {F : Type} [Field F] [DecidableEq F]

theorem mapColsRes_spec {m m' : Nat} {f : SVec F → Res (SVec F)} {P : SVec F → SVec F → Prop}
    (hf : ∀ c, VecOK c → Below m c → ∃ w, f c = .ok w ∧ VecOK w ∧ Below m' w ∧ P c w) :
    ∀ (cs : List (SVec F)), ColsOK m cs →
      ∃ r, CMat.mapCols f cs = .ok r ∧ r.length = cs.length ∧ ColsOK m' r ∧ ∀ j, j < cs.length → P (cs.getD j []) (r.getD j [])
  | [], _ => ⟨[], rfl, rfl, by intro c hc; simp at hc, by simp⟩
  | c :: cs, h => by
    obtain ⟨w, h1, h2, h3, h4⟩ := hf c (h c (by simp)).1 (h c (by simp)).2
    obtain ⟨r, g1, g2, g3, g4⟩ := mapColsRes_spec hf cs (fun d hd => h d (by simp [hd]))
    refine ⟨w :: r, by unfold CMat.mapCols; rw [h1, bind_ok, g1]; rfl, by simp [g2], ?_, ?_⟩
    · intro d hd
      rcases List.mem_cons.1 hd with rfl | hd
      · exact ⟨h2, h3⟩
      · exact g3 d hd
    · intro j hj
      cases j with
      | zero => exact h4
      | succ j => simpa using g4 j (by simpa using hj)

/-- `permute_rows(perm)` moves row `i` to row `perm[i]` -/
theorem permuteRows_spec {m n : Nat} {A : CMat F} (hA : A.Shape m n) {p : List Nat} (hp : IsPermOf m p) :
    ∃ A', CMat.permuteRows p A = .ok A' ∧ A'.Shape m n ∧
      ∀ i j x : Nat, j < n → p[i]? = some x → ent1 A' x j = ent1 A i j := by
  have hpl := Perm.isPerm_length hp
  obtain ⟨r, h1, h2, h3, h4⟩ := mapColsRes_spec (m := m) (m' := m) (f := SVec.permute p)
    (P := fun c w => ∀ i (h : i < p.length), coef w p[i] = coef c i) (by
      intro c hc hb
      obtain ⟨w, g1, g2, g3, g4, g5⟩ := permute_spec (Perm.isPerm_nodup hp) hc (by rw [hpl]; exact hb)
      exact ⟨w, g1, g2, g5 m (fun k hk => (Perm.isPerm_mem hp).1 hk), g3⟩) A.cols hA.colsOK
  refine ⟨⟨A.nrow, r⟩, by unfold CMat.permuteRows; rw [h1]; rfl, ⟨?_, hA.nrow, by rw [← hA.ncol, ← h2]⟩, ?_⟩
  · show ColsOK A.nrow r
    rw [hA.nrow]; exact h3
  · intro i j x hj hx
    obtain ⟨hi, rfl⟩ := List.getElem?_eq_some_iff.1 hx
    exact h4 j (by rw [hA.ncol]; exact hj) i hi

theorem shape_of_gather {m n : Nat} {A : CMat F} (hA : A.Shape m n) {r : List (SVec F)} (hl : r.length = n)
    (h : ∀ c ∈ r, c ∈ A.cols) : (⟨A.nrow, r⟩ : CMat F).Shape m n :=
  ⟨fun c hc => hA.ok c (h c hc), hA.nrow, hl⟩

/-- `permute_cols(perm)` moves column `i` to column `perm[i]` -/
theorem permuteCols_spec {m n : Nat} {A : CMat F} (hA : A.Shape m n) {p : List Nat} (hp : IsPermOf n p) :
    ∃ A', CMat.permuteCols p A = .ok A' ∧ A'.Shape m n ∧ ∀ i j x : Nat, p[j]? = some x → ent1 A' i x = ent1 A i j := by
  obtain ⟨r, h1, h2, h3⟩ := Perm.applyPermSwap_spec ([] : SVec F) hp hA.ncol
  obtain ⟨q, q1, q2, q3⟩ := Perm.invPerm_spec hp
  refine ⟨⟨A.nrow, r⟩, by unfold CMat.permuteCols; rw [h1]; rfl, shape_of_gather hA h2 ?_, ?_⟩
  · intro c hc
    obtain ⟨x, hx, rfl⟩ := List.mem_iff_getElem.1 hc
    have hxq : x < q.length := by rw [Perm.isPerm_length q2, ← h2]; exact hx
    have := h3 q[x] x ((q3 _ _).2 (List.getElem?_eq_getElem hxq))
    rw [List.getElem?_eq_getElem hx] at this
    exact List.mem_of_getElem? this.symm
  · intro i j x hx
    unfold ent1
    rw [List.getD_eq_getElem?_getD, List.getD_eq_getElem?_getD, h3 j x hx]

/-- `ipermute_cols(perm)` brings column `perm[j]` to column `j` -/
theorem ipermuteCols_spec {m n : Nat} {A : CMat F} (hA : A.Shape m n) {p : List Nat} (hp : IsPermOf n p) :
    ∃ A', CMat.ipermuteCols p A = .ok A' ∧ A'.Shape m n ∧ ∀ i j x : Nat, p[j]? = some x → ent1 A' i j = ent1 A i x := by
  obtain ⟨r, h1, h2, h3⟩ := Perm.applyIPermSwap_spec ([] : SVec F) hp hA.ncol
  refine ⟨⟨A.nrow, r⟩, by unfold CMat.ipermuteCols; rw [h1]; rfl, shape_of_gather hA h2 ?_, ?_⟩
  · intro c hc
    obtain ⟨x, hx, rfl⟩ := List.mem_iff_getElem.1 hc
    have hxq : x < p.length := by rw [Perm.isPerm_length hp, ← h2]; exact hx
    have := h3 x p[x] (List.getElem?_eq_getElem hxq)
    rw [List.getElem?_eq_getElem hx] at this
    exact List.mem_of_getElem? this.symm
  · intro i j x hx
    unfold ent1
    rw [List.getD_eq_getElem?_getD, List.getD_eq_getElem?_getD, h3 j x hx]

/-! ### the loop over dimensions -/

/-- `B'` has the shapes of `B` -/
structure SameShape (B B' : List (CMat F)) : Prop where
  len : B'.length = B.length
  shape : ∀ l, l < B.length → (B'.getD l ⟨0, []⟩).Shape (B.getD l ⟨0, []⟩).nrow (B.getD l ⟨0, []⟩).cols.length

theorem SameShape.nrow {B B' : List (CMat F)} (h : SameShape B B') {l : Nat} (hl : l < B.length) :
    (B'.getD l ⟨0, []⟩).nrow = (B.getD l ⟨0, []⟩).nrow := (h.shape l hl).nrow
theorem SameShape.ncol {B B' : List (CMat F)} (h : SameShape B B') {l : Nat} (hl : l < B.length) :
    (B'.getD l ⟨0, []⟩).cols.length = (B.getD l ⟨0, []⟩).cols.length := (h.shape l hl).ncol

/-- all matrices well formed, consecutive shapes match -/
def ShapesOK (B : List (CMat F)) : Prop :=
  ∀ l, l < B.length → (B.getD l ⟨0, []⟩).Shape (rdim B l) (cdim B l)

theorem SameShape.cdim {B B' : List (CMat F)} (h : SameShape B B') (l : Nat) : cdim B' l = BATS.cdim B l := by
  unfold BATS.cdim
  by_cases hl : l < B.length
  · exact h.ncol hl
  · rw [List.getD_eq_getElem?_getD, List.getD_eq_getElem?_getD, List.getElem?_eq_none (by rw [h.len]; omega),
      List.getElem?_eq_none (by omega)]

theorem SameShape.rdim {B B' : List (CMat F)} (h : SameShape B B') (hne : 0 < B.length) (l : Nat) : rdim B' l = BATS.rdim B l := by
  cases l with
  | zero => exact h.nrow hne
  | succ l => exact h.cdim l

theorem SameShape.ok {B B' : List (CMat F)} (h : SameShape B B') (hB : ShapesOK B) : ShapesOK B' := by
  intro l hl
  rw [h.len] at hl
  rw [h.cdim, h.rdim (by omega), ← (hB l hl).nrow, ← (hB l hl).ncol]
  exact h.shape l hl

theorem SameShape.refl {B : List (CMat F)} (hB : ShapesOK B) : SameShape B B :=
  ⟨rfl, fun l hl => ⟨(hB l hl).ok, rfl, rfl⟩⟩

theorem SameShape.trans {B B' B'' : List (CMat F)} (h : SameShape B B') (h' : SameShape B' B'') : SameShape B B'' :=
  ⟨by rw [h'.len, h.len], fun l hl => by
    have := h'.shape l (by rw [h.len]; exact hl)
    rw [h.nrow hl, h.ncol hl] at this; exact this⟩

theorem getD_set' {α} (l : List α) (k : Nat) (a d : α) (i : Nat) (hk : k < l.length) :
    (l.set k a).getD i d = if i = k then a else l.getD i d := by
  rw [List.getD_eq_getElem?_getD, List.getElem?_set, List.getD_eq_getElem?_getD]
  by_cases h : k = i
  · subst h; simp [hk]
  · rw [if_neg h, if_neg (fun e => h e.symm)]

/-- an operation on one matrix that keeps the shape and reads entry `(i,j)` from `(ρ i, γ j)` -/
def Reindexes (f : CMat F → Res (CMat F)) (m n : Nat) (ρ γ : Nat → Nat) : Prop :=
  ∀ A : CMat F, A.Shape m n → ∃ A', f A = .ok A' ∧ A'.Shape m n ∧ ∀ i j, i < m → j < n → ent1 A' i j = ent1 A (ρ i) (γ j)

theorem modify_spec {B : List (CMat F)} (hB : ShapesOK B) {k : Nat} (hk : k < B.length) {f : CMat F → Res (CMat F)}
    {ρ γ : Nat → Nat} (hf : Reindexes f (rdim B k) (cdim B k) ρ γ) :
    ∃ B', Cpx.modify B k f = .ok B' ∧ SameShape B B' ∧
      ∀ l i j, l < B.length → i < rdim B l → j < cdim B l →
        ent B' l i j = if l = k then ent B l (ρ i) (γ j) else ent B l i j := by
  obtain ⟨A', h1, h2, h3⟩ := hf _ (hB k hk)
  have hr : rd B k = .ok (B.getD k ⟨0, []⟩) := by
    rw [rd_lt hk]; simp [hk]
  refine ⟨B.set k A', ?_, ⟨by simp, ?_⟩, ?_⟩
  · unfold Cpx.modify
    rw [hr, bind_ok, h1, bind_ok, wr_lt A' hk]
  · intro l hl
    rw [getD_set' _ _ _ _ _ hk]
    split
    · rename_i e; subst e
      rw [(hB l hl).nrow, (hB l hl).ncol]; exact h2
    · exact ⟨(hB l hl).ok, rfl, rfl⟩
  · intro l i j hl hi hj
    unfold ent
    rw [getD_set' _ _ _ _ _ hk]
    split
    · rename_i e; subst e; exact h3 i j hi hj
    · rfl

theorem permuteRows_reindexes {m n : Nat} {p : List Nat} (hp : IsPermOf m p) :
    Reindexes (F := F) (CMat.permuteRows p) m n (fun i => p.idxOf i) id := by
  intro A hA
  obtain ⟨A', h1, h2, h3⟩ := permuteRows_spec hA hp
  refine ⟨A', h1, h2, fun i j hi hj => ?_⟩
  have hmem : i ∈ p := (Perm.isPerm_mem hp).2 hi
  exact h3 (p.idxOf i) j i hj (by
    rw [List.getElem?_eq_getElem (List.idxOf_lt_length_iff.2 hmem)]; simp)

theorem permuteCols_reindexes {m n : Nat} {p : List Nat} (hp : IsPermOf n p) :
    Reindexes (F := F) (CMat.permuteCols p) m n id (fun i => p.idxOf i) := by
  intro A hA
  obtain ⟨A', h1, h2, h3⟩ := permuteCols_spec hA hp
  refine ⟨A', h1, h2, fun i j hi hj => ?_⟩
  have hmem : j ∈ p := (Perm.isPerm_mem hp).2 hj
  exact h3 i (p.idxOf j) j (by
    rw [List.getElem?_eq_getElem (List.idxOf_lt_length_iff.2 hmem)]; simp)

theorem ipermuteCols_reindexes {m n : Nat} {p : List Nat} (hp : IsPermOf n p) :
    Reindexes (F := F) (CMat.ipermuteCols p) m n id (fun i => p.getD i 0) := by
  intro A hA
  obtain ⟨A', h1, h2, h3⟩ := ipermuteCols_spec hA hp
  refine ⟨A', h1, h2, fun i j hi hj => ?_⟩
  have hl := Perm.isPerm_length hp
  exact h3 i j (p.getD j 0) (by simp [hl, hj])

theorem permuteRows_inv_reindexes {m n : Nat} {p q : List Nat} (hp : IsPermOf m p) (hq : IsPermOf m q)
    (hqp : ∀ i x : Nat, p[i]? = some x ↔ q[x]? = some i) :
    Reindexes (F := F) (CMat.permuteRows q) m n (fun i => p.getD i 0) id := by
  intro A hA
  obtain ⟨A', h1, h2, h3⟩ := permuteRows_spec hA hq
  refine ⟨A', h1, h2, fun i j hi hj => ?_⟩
  have hl := Perm.isPerm_length hp
  exact h3 (p.getD i 0) j i hj ((hqp _ _).1 (by simp [hl, hi]))

/-- the effect of one step of `permute_basis` / `ipermute_basis`: reindex dimension `k` by `σ` -/
def StepSpec (σ : List Nat → Nat → Nat) (stp : List (CMat F) → Nat → List Nat → Res (List (CMat F))) : Prop :=
  ∀ (B : List (CMat F)) (k : Nat) (p : List Nat), 2 ≤ B.length → k < B.length → ShapesOK B → IsPermOf (cdim B k) p →
    ∃ B', stp B k p = .ok B' ∧ SameShape B B' ∧
      ∀ l i j, l < B.length → i < rdim B l → j < cdim B l →
        ent B' l i j = ent B l (if l = k + 1 then σ p i else i) (if l = k ∧ k ≠ 0 then σ p j else j)

theorem ipermuteBasis1_spec : StepSpec (F := F) (fun p i => p.getD i 0) Cpx.ipermuteBasis1 := by
  intro B k p h2 hk hB hp
  obtain ⟨q, q1, q2, q3⟩ := Perm.invPerm_spec hp
  unfold Cpx.ipermuteBasis1
  by_cases h0 : k = 0
  · subst h0
    rw [if_pos rfl, q1, bind_ok]
    obtain ⟨B', e1, e2, e3⟩ := modify_spec (k := 1) hB (by omega) (permuteRows_inv_reindexes (n := cdim B 1) hp q2 q3)
    refine ⟨B', e1, e2, fun l i j hl hi hj => ?_⟩
    rw [e3 l i j hl hi hj]
    by_cases h : l = 1
    · simp [h]
    · simp [h]
  · rw [if_neg h0]
    obtain ⟨B1, e1, e2, e3⟩ := modify_spec hB hk (ipermuteCols_reindexes (m := rdim B k) hp)
    by_cases h1 : k = B.length - 1
    · rw [if_pos h1]
      refine ⟨B1, e1, e2, fun l i j hl hi hj => ?_⟩
      rw [e3 l i j hl hi hj]
      have : l ≠ k + 1 := by omega
      by_cases h : l = k
      · simp [h, h0]
      · simp [h, this]
    · rw [if_neg h1, e1, bind_ok, q1, bind_ok]
      obtain ⟨B2, f1, f2, f3⟩ := modify_spec (k := k + 1) (e2.ok hB) (by rw [e2.len]; omega)
        (permuteRows_inv_reindexes (m := rdim B1 (k + 1)) (n := cdim B1 (k + 1))
          (by show IsPermOf (cdim B1 k) p; rw [e2.cdim]; exact hp) (by show IsPermOf (cdim B1 k) q; rw [e2.cdim]; exact q2) q3)
      refine ⟨B2, f1, e2.trans f2, fun l i j hl hi hj => ?_⟩
      rw [f3 l i j (by rw [e2.len]; exact hl) (by rw [e2.rdim (by omega)]; exact hi) (by rw [e2.cdim]; exact hj)]
      by_cases h : l = k + 1
      · subst h
        rw [if_pos rfl, if_pos rfl]
        simp only [id]
        rw [e3 _ _ _ hl _ hj, if_neg (by omega), if_neg (by omega)]
        · show p.getD i 0 < cdim B k
          have hi' : i < cdim B k := hi
          have hpl := Perm.isPerm_length hp
          have : p.getD i 0 = p[i]'(by omega) := by
            rw [List.getD_eq_getElem?_getD, List.getElem?_eq_getElem (by omega)]; rfl
          rw [this]
          exact (Perm.isPerm_mem hp).1 (List.getElem_mem _)
      · rw [if_neg h, if_neg h, e3 l i j hl hi hj]
        by_cases h' : l = k
        · simp [h', h0]
        · simp [h']

theorem permuteBasis1_spec : StepSpec (F := F) (fun p i => p.idxOf i) Cpx.permuteBasis1 := by
  intro B k p h2 hk hB hp
  unfold Cpx.permuteBasis1
  by_cases h0 : k = 0
  · subst h0
    rw [if_pos rfl]
    obtain ⟨B', e1, e2, e3⟩ := modify_spec (k := 1) hB (by omega) (permuteRows_reindexes (n := cdim B 1) hp)
    refine ⟨B', e1, e2, fun l i j hl hi hj => ?_⟩
    rw [e3 l i j hl hi hj]
    by_cases h : l = 1
    · simp [h]
    · simp [h]
  · rw [if_neg h0]
    obtain ⟨B1, e1, e2, e3⟩ := modify_spec hB hk (permuteCols_reindexes (m := rdim B k) hp)
    by_cases h1 : k = B.length - 1
    · rw [if_pos h1]
      refine ⟨B1, e1, e2, fun l i j hl hi hj => ?_⟩
      rw [e3 l i j hl hi hj]
      have : l ≠ k + 1 := by omega
      by_cases h : l = k
      · simp [h, h0]
      · simp [h, this]
    · rw [if_neg h1, e1, bind_ok]
      obtain ⟨B2, f1, f2, f3⟩ := modify_spec (k := k + 1) (e2.ok hB) (by rw [e2.len]; omega)
        (permuteRows_reindexes (m := rdim B1 (k + 1)) (n := cdim B1 (k + 1))
          (by show IsPermOf (cdim B1 k) p; rw [e2.cdim]; exact hp))
      refine ⟨B2, f1, e2.trans f2, fun l i j hl hi hj => ?_⟩
      rw [f3 l i j (by rw [e2.len]; exact hl) (by rw [e2.rdim (by omega)]; exact hi) (by rw [e2.cdim]; exact hj)]
      by_cases h : l = k + 1
      · subst h
        rw [if_pos rfl, if_pos rfl]
        simp only [id]
        rw [e3 _ _ _ hl _ hj, if_neg (by omega), if_neg (by omega)]
        · show p.idxOf i < cdim B k
          have hi' : i < cdim B k := hi
          have hpl := Perm.isPerm_length hp
          rw [← hpl]
          exact List.idxOf_lt_length_iff.2 ((Perm.isPerm_mem hp).2 hi')
      · rw [if_neg h, if_neg h, e3 l i j hl hi hj]
        by_cases h' : l = k
        · simp [h', h0]
        · simp [h']

/-- the loop over dimensions, abstractly -/
def stepFrom (stp : List (CMat F) → Nat → List Nat → Res (List (CMat F))) : Nat → List (List Nat) → List (CMat F) → Res (List (CMat F))
  | _, [], B => .ok B
  | k, p :: ps, B => do
    let B1 ← stp B k p
    stepFrom stp (k + 1) ps B1

theorem ipermuteBasisFrom_eq : ∀ (ps : List (List Nat)) (k : Nat) (B : List (CMat F)),
    Cpx.ipermuteBasisFrom k ps B = stepFrom Cpx.ipermuteBasis1 k ps B
  | [], _, _ => rfl
  | p :: ps, k, B => by
    unfold Cpx.ipermuteBasisFrom stepFrom
    congr 1; funext B1; exact ipermuteBasisFrom_eq ps (k + 1) B1

theorem permuteBasisFrom_eq : ∀ (ps : List (List Nat)) (k : Nat) (B : List (CMat F)),
    Cpx.permuteBasisFrom k ps B = stepFrom Cpx.permuteBasis1 k ps B
  | [], _, _ => rfl
  | p :: ps, k, B => by
    unfold Cpx.permuteBasisFrom stepFrom
    congr 1; funext B1; exact permuteBasisFrom_eq ps (k + 1) B1

/-- `σ p` maps indices below `n` to indices below `n` -/
def SigmaOK (σ : List Nat → Nat → Nat) : Prop := ∀ n p, IsPermOf n p → ∀ i, i < n → σ p i < n

theorem stepFrom_spec {σ : List Nat → Nat → Nat} (hσ : SigmaOK σ)
    {stp : List (CMat F) → Nat → List Nat → Res (List (CMat F))} (hstp : StepSpec σ stp) :
    ∀ (ps : List (List Nat)) (k : Nat) (B : List (CMat F)), 2 ≤ B.length → k + ps.length = B.length → ShapesOK B →
      (∀ a, a < ps.length → IsPermOf (cdim B (k + a)) (ps.getD a [])) →
      ∃ B', stepFrom stp k ps B = .ok B' ∧ SameShape B B' ∧
        ∀ l i j, l < B.length → i < rdim B l → j < cdim B l →
          ent B' l i j = ent B l (if k + 1 ≤ l then σ (ps.getD (l - 1 - k) []) i else i)
            (if k ≤ l ∧ l ≠ 0 then σ (ps.getD (l - k) []) j else j)
  | [], k, B, h2, hl, hB, _ => by
    refine ⟨B, rfl, SameShape.refl hB, fun l i j hll hi hj => ?_⟩
    simp only [List.length_nil, add_zero] at hl
    rw [if_neg (by omega), if_neg (by omega)]
  | p :: ps, k, B, h2, hl, hB, hp => by
    simp only [List.length_cons] at hl
    have hp0 : IsPermOf (cdim B k) p := by simpa using hp 0 (by simp)
    obtain ⟨B1, e1, e2, e3⟩ := hstp B k p h2 (by omega) hB hp0
    obtain ⟨B2, f1, f2, f3⟩ := stepFrom_spec hσ hstp ps (k + 1) B1 (by rw [e2.len]; exact h2) (by rw [e2.len]; omega) (e2.ok hB)
      (fun a ha => by
        have := hp (a + 1) (by simp only [List.length_cons]; omega)
        rw [e2.cdim, show k + 1 + a = k + (a + 1) by omega]; simpa using this)
    refine ⟨B2, by unfold stepFrom; rw [e1, bind_ok, f1], e2.trans f2, fun l i j hll hi hj => ?_⟩
    rw [f3 l i j (by rw [e2.len]; exact hll) (by rw [e2.rdim (by omega)]; exact hi) (by rw [e2.cdim]; exact hj)]
    have hcol : j < cdim B l := hj
    by_cases c1 : k + 1 + 1 ≤ l
    · have hrow : σ (ps.getD (l - 1 - (k + 1)) []) i < rdim B l := by
        obtain ⟨l', rfl⟩ : ∃ l', l = l' + 1 := ⟨l - 1, by omega⟩
        have hP := hp (l' - k) (by simp only [List.length_cons]; omega)
        rw [show k + (l' - k) = l' by omega, show l' - k = (l' + 1 - 1 - (k + 1)) + 1 by omega] at hP
        exact hσ (cdim B l') _ (by simpa using hP) i hi
      have hcol' : σ (ps.getD (l - (k + 1)) []) j < cdim B l := by
        have hP := hp (l - k) (by simp only [List.length_cons]; omega)
        rw [show k + (l - k) = l by omega, show l - k = (l - (k + 1)) + 1 by omega] at hP
        exact hσ (cdim B l) _ (by simpa using hP) j hj
      rw [if_pos c1, if_pos (by omega), e3 _ _ _ hll hrow hcol', if_neg (by omega), if_neg (by omega), if_pos (by omega),
        if_pos (by omega), show l - 1 - k = (l - 1 - (k + 1)) + 1 by omega, show l - k = (l - (k + 1)) + 1 by omega]
      simp
    · rw [if_neg c1]
      by_cases c2 : l = k + 1
      · subst c2
        have hcol' : σ (ps.getD (k + 1 - (k + 1)) []) j < cdim B (k + 1) := by
          have hP := hp 1 (by simp only [List.length_cons]; omega)
          exact hσ (cdim B (k + 1)) _ (by simpa using hP) j hj
        rw [if_pos (by omega), e3 _ _ _ hll hi hcol', if_pos rfl, if_neg (by omega), if_pos (by omega), if_pos (by omega)]
        simp
      · rw [if_neg (by omega), e3 _ _ _ hll hi hj, if_neg c2]
        by_cases c3 : l = k
        · subst c3
          by_cases c4 : l = 0
          · simp [c4]
          · simp [c4]
        · rw [if_neg (by omega), if_neg (by omega), if_neg (by omega)]

end BATS
