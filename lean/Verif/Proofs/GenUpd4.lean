import Verif.Proofs.GenUpd3

set_option linter.unusedSectionVars false
set_option linter.unusedVariables false
set_option linter.unusedSimpArgs false

/-! # The general update of a reduced DG vector space (degree -1) -/

namespace BATS
namespace GenUpd
open Reduction Matrix DG

variable {F : Type} [Field F] [DecidableEq F]

/-- the members of the last differential are not updated: `R[N]` and `p2c[N]` keep the size they had at the beginning -/
def stale (N m a : Nat) (Y : RedDG F) : RedDG F := ⟨Y.degree, Y.U, Y.R.set N ⟨a, []⟩, Y.I, Y.p2c.set N (List.replicate m none)⟩

theorem modify_set {L L' : List (CMat F)} {k N : Nat} (hk : k ≠ N) {f : CMat F → Res (CMat F)} (Z : CMat F) (h : Cpx.modify L k f = .ok L') :
    Cpx.modify (L.set N Z) k f = .ok (L'.set N Z) := by
  unfold Cpx.modify at h ⊢
  have hr : rd (L.set N Z) k = rd L k := by
    unfold rd; rw [List.getElem?_set_ne (fun e => hk e.symm)]
  rw [hr]
  cases e1 : rd L k with
  | error x => rw [e1] at h; cases h
  | ok A =>
    rw [e1, bind_ok] at h
    rw [bind_ok]
    cases e2 : f A with
    | error x => rw [e2] at h; cases h
    | ok B =>
      rw [e2, bind_ok] at h
      rw [bind_ok]
      by_cases hl : k < L.length
      · rw [wr_lt _ hl] at h
        cases h
        rw [wr_lt _ (by simpa using hl), List.set_comm _ _ (fun e => hk e.symm)]
      · unfold wr at h
        rw [if_neg hl] at h; cases h

theorem permuteMatrices_set {N k : Nat} (hN : 2 ≤ N) (hk : k < N) {U R U' R' : List (CMat F)} (hR : R.length = N + 1) {p : List Nat} (Z : CMat F)
    (h : RedDG.permuteMatrices (-1) U R k p = .ok (U', R')) : RedDG.permuteMatrices (-1) U (R.set N Z) k p = .ok (U', R'.set N Z) := by
  unfold RedDG.permuteMatrices at h ⊢
  cases e0 : Perm.invPerm p with
  | error x => rw [e0] at h; cases h
  | ok q =>
    rw [e0, bind_ok] at h
    rw [bind_ok]
    simp only [if_true, List.length_set] at h ⊢
    by_cases h0 : k = 0
    · rw [if_pos h0] at h ⊢
      cases e1 : Cpx.modify R 1 (CMat.permuteRows q) with
      | error x => rw [e1] at h; cases h
      | ok R1 =>
        rw [e1, bind_ok] at h
        rw [modify_set (by omega) Z e1, bind_ok]
        cases h; rfl
    · rw [if_neg h0] at h ⊢
      by_cases h1 : k = R.length - 2
      · rw [if_pos h1] at h ⊢
        cases e1 : Cpx.modify U k (CMat.permuteRows q) with
        | error x => rw [e1] at h; cases h
        | ok U1 =>
          rw [e1, bind_ok] at h
          rw [bind_ok]
          cases h; rfl
      · rw [if_neg h1] at h ⊢
        cases e1 : Cpx.modify U k (CMat.permuteRows q) with
        | error x => rw [e1] at h; cases h
        | ok U1 =>
          rw [e1, bind_ok] at h
          rw [bind_ok]
          cases e2 : Cpx.modify R (k + 1) (CMat.permuteRows q) with
          | error x => rw [e2] at h; cases h
          | ok R1 =>
            rw [e2, bind_ok] at h
            rw [modify_set (by omega) Z e2, bind_ok]
            cases h; rfl

theorem modify_length {L L' : List (CMat F)} {k : Nat} {f : CMat F → Res (CMat F)} (h : Cpx.modify L k f = .ok L') : L'.length = L.length := by
  unfold Cpx.modify at h
  cases e1 : rd L k with
  | error x => rw [e1] at h; cases h
  | ok A =>
    rw [e1, bind_ok] at h
    cases e2 : f A with
    | error x => rw [e2] at h; cases h
    | ok B =>
      rw [e2, bind_ok] at h
      unfold wr at h
      split at h
      · cases h; simp
      · cases h

theorem permuteMatrices_length {k : Nat} {U R U' R' : List (CMat F)} {p : List Nat} (h : RedDG.permuteMatrices (-1) U R k p = .ok (U', R')) : R'.length = R.length := by
  unfold RedDG.permuteMatrices at h
  cases e0 : Perm.invPerm p with
  | error x => rw [e0] at h; cases h
  | ok q =>
    rw [e0, bind_ok] at h
    simp only [if_true] at h
    by_cases h0 : k = 0
    · rw [if_pos h0] at h
      cases e1 : Cpx.modify R 1 (CMat.permuteRows q) with
      | error x => rw [e1] at h; cases h
      | ok R1 => rw [e1, bind_ok] at h; cases h; exact modify_length e1
    · rw [if_neg h0] at h
      by_cases h1 : k = R.length - 2
      · rw [if_pos h1] at h
        cases e1 : Cpx.modify U k (CMat.permuteRows q) with
        | error x => rw [e1] at h; cases h
        | ok U1 => rw [e1, bind_ok] at h; cases h; rfl
      · rw [if_neg h1] at h
        cases e1 : Cpx.modify U k (CMat.permuteRows q) with
        | error x => rw [e1] at h; cases h
        | ok U1 =>
          rw [e1, bind_ok] at h
          cases e2 : Cpx.modify R (k + 1) (CMat.permuteRows q) with
          | error x => rw [e2] at h; cases h
          | ok R1 => rw [e2, bind_ok] at h; cases h; exact modify_length e2

theorem permuteMatricesFrom_set {N : Nat} (hN : 2 ≤ N) (Z : CMat F) : ∀ (ps : List (List Nat)) (k : Nat) (U R U' R' : List (CMat F)), k + ps.length = N → R.length = N + 1 →
    RedDG.permuteMatricesFrom (-1) k ps U R = .ok (U', R') → RedDG.permuteMatricesFrom (-1) k ps U (R.set N Z) = .ok (U', R'.set N Z)
  | [], k, U, R, U', R', _, _, h => by cases h; rfl
  | p :: ps, k, U, R, U', R', hk, hR, h => by
    rw [List.length_cons] at hk
    unfold RedDG.permuteMatricesFrom at h ⊢
    cases e1 : RedDG.permuteMatrices (-1) U R k p with
    | error x => rw [e1] at h; cases h
    | ok s =>
      obtain ⟨U1, R1⟩ := s
      rw [e1, bind_ok] at h
      rw [permuteMatrices_set hN (by omega) hR Z e1, bind_ok]
      exact permuteMatricesFrom_set hN Z ps (k + 1) U1 R1 U' R' (by omega) (by rw [permuteMatrices_length e1, hR]) h

/-! ### the indices -/

theorem zipExtract_congr : ∀ (Rs : List (CMat F)) (ps qs : List P2C), ps.length = qs.length →
    (∀ k, k < Rs.length → extractBasisIndices (Rs.getD k ⟨0, []⟩) (ps.getD k []) = extractBasisIndices (Rs.getD k ⟨0, []⟩) (qs.getD k [])) →
    RedDG.zipExtract Rs ps = RedDG.zipExtract Rs qs
  | [], ps, qs, _, _ => rfl
  | A :: Rs, [], [], _, _ => rfl
  | A :: Rs, p :: ps, q :: qs, hl, h => by
    unfold RedDG.zipExtract
    have h0 := h 0 (by simp)
    simp only [List.getD_cons_zero] at h0
    rw [h0, zipExtract_congr Rs ps qs (by simpa using hl) (fun k hk => by simpa using h (k + 1) (by simpa using hk))]
  | A :: Rs, [], q :: qs, hl, _ => by simp at hl
  | A :: Rs, p :: ps, [], hl, _ => by simp at hl

theorem basisIndsLoop_none (m : Nat) : ∀ (cs : List (SVec F)) (j : Nat), j + cs.length ≤ m → basisIndsLoop (List.replicate m none) j cs = .ok (basisIndsTopLoop j cs)
  | [], j, _ => rfl
  | c :: cs, j, h => by
    rw [List.length_cons] at h
    have ih := basisIndsLoop_none m cs (j + 1) (by omega)
    unfold basisIndsLoop basisIndsTopLoop
    by_cases hc : c.length = 0
    · rw [if_pos hc, if_pos hc]
      have hr : rd (List.replicate m (none : Option Nat)) j = .ok none := rd_some (by rw [List.getElem?_replicate, if_pos (by omega)])
      rw [hr, bind_ok, ih, bind_ok]; rfl
    · rw [if_neg hc, if_neg hc]; exact ih

theorem dropLast_set_last {α : Type} (L : List α) (N : Nat) (Z : α) (h : L.length = N + 1) : (L.set N Z).dropLast = L.dropLast := by
  apply List.ext_getElem?
  intro i
  rw [List.getElem?_dropLast, List.getElem?_dropLast, List.length_set]
  split
  · rw [List.getElem?_set_ne (by omega)]
  · rfl

theorem setIndices_stale {N m n a : Nat} (hN : 1 ≤ N) {R : List (CMat F)} {p : List P2C} (hR : R.length = N + 1) (hp : p.length = N + 1)
    (hc : (at' R (N - 1)).cols.length = n) (hn : n ≤ m) (hpN : p.getD N [] = List.replicate n none) :
    RedDG.setIndices (-1) (R.set N ⟨a, []⟩) (p.set N (List.replicate m none)) = RedDG.setIndices (-1) R p := by
  unfold RedDG.setIndices
  simp only [List.length_set, if_true]
  rw [if_neg (by omega), if_neg (by omega), dropLast_set_last _ _ _ hR]
  have h1 : RedDG.zipExtract R.dropLast (p.set N (List.replicate m none)).tail = RedDG.zipExtract R.dropLast p.tail := by
    apply zipExtract_congr
    · simp
    · intro k hk
      rw [List.length_dropLast, hR] at hk
      rw [getD_tail, getD_tail, getD_set' _ _ _ _ _ (by omega)]
      by_cases e : k + 1 = N
      · rw [if_pos e, e, hpN, getD_dropLast _ _ _ (by omega)]
        have hk' : k = N - 1 := by omega
        subst hk'
        unfold extractBasisIndices
        rw [basisIndsLoop_none m _ 0 (by have : (R.getD (N - 1) ⟨0, []⟩).cols.length = n := hc
                                         omega), basisIndsLoop_none n _ 0 (by have : (R.getD (N - 1) ⟨0, []⟩).cols.length = n := hc
                                                                              omega)]
      · rw [if_neg e]
  have h2 : rd (R.set N ⟨a, []⟩) (R.length - 2) = rd R (R.length - 2) := by
    unfold rd; rw [List.getElem?_set_ne (by omega)]
  rw [h1, h2]

/-! ### the update -/

theorem table_no_cols {m : Nat} {n : Nat} (hn : n = 0) (M : Matrix (Fin m) (Fin n) F) : IsPivotTable M (List.replicate m none) := by
  subst hn
  refine ⟨by simp, ?_, fun i j => j.elim0⟩
  intro i j h
  rw [List.getElem?_replicate] at h
  split at h <;> simp at h

/-- the old matrices in the order after the permutation; the first one is not permuted -/
def permuted (ps : List (List Nat)) (D : List (CMat F)) : Nat → Nat → Nat → F
  | 0, i, j => ent D 0 i j
  | l + 1, i, j => ent D (l + 1) ((ps.getD l []).getD i 0) ((ps.getD (l + 1) []).getD j 0)

theorem mat_of_perm {n : Nat} {U U' : CMat F} {g : Fin n ≃ Fin n} (h : ∀ i j : Fin n, ent1 U' i j = ent1 U (g i) j) (hU : UpperInv (U.mat n n)) :
    Function.Injective (U'.mat n n *ᵥ ·) := by
  intro x y hxy
  apply hU.injective
  funext i
  have := congrFun hxy (g.symm i)
  show ∑ j : Fin n, ent1 U i j * x j = ∑ j : Fin n, ent1 U i j * y j
  have h1 : ∀ z : Fin n → F, (U'.mat n n *ᵥ z) (g.symm i) = ∑ j : Fin n, ent1 U i j * z j := by
    intro z
    show ∑ j : Fin n, ent1 U' (g.symm i) j * z j = _
    apply Finset.sum_congr rfl
    intro j _
    rw [h, Equiv.apply_symm_apply]
  rw [← h1 x, ← h1 y]; exact this

theorem todo_of_permuted {e N : Nat} {d1 : Nat → Nat} {D : List (CMat F)} {Y : RedDG F} (hN : 1 ≤ N) (hY : DGBasis false e N d1 D Y) {ps : List (List Nat)} (hl : ps.length = N)
    (hp : ∀ k, k < N → IsPermOf (d1 k) (ps.getD k [])) {U1 R1 : List (CMat F)} (sU : ShapesBy (N + 1) (dc false e d1) (dc false e d1) U1) (sR : DShapes false e N d1 R1)
    (eU : ∀ l i j, l < N + 1 → i < dc false e d1 l → j < dc false e d1 l →
        ent U1 l i j = ent Y.U l (if uc false N l ∧ 0 ≤ uk false l then (ps.getD (uk false l - 0) []).getD i 0 else i) j)
    (eR : ∀ l i j, l < N + 1 → i < dr false e d1 l → j < dc false e d1 l →
        ent R1 l i j = ent Y.R l (if rc false N l ∧ 0 ≤ rk false l then (ps.getD (rk false l - 0) []).getD i 0 else i) j) {l : Nat} (hlN : l < N) :
    Todo e d1 (permuted ps D) U1 R1 l := by
  have hs1 := sU.shape l (by omega)
  have hs2 := sR.shape l (by omega)
  have hf := hY.fac l (by omega)
  have hfe : ∀ i j, i < rr e d1 l → j < d1 l → ent Y.R l i j = ∑ x ∈ Finset.range (d1 l), ent D l i x * ent Y.U l x j := by
    intro i j hi hj
    have h1 := hf.eq
    have h2 := congrFun (congrFun h1 ⟨i, hi⟩) ⟨j, hj⟩
    rw [Matrix.mul_apply] at h2
    rw [Finset.sum_range]
    exact h2.symm
  cases l with
  | zero =>
    have hU0 : ∀ i j, i < d1 0 → j < d1 0 → ent U1 0 i j = ent Y.U 0 i j := by
      intro i j hi hj
      rw [eU 0 i j (by omega) hi hj, if_neg]
      rintro ⟨h, _⟩
      simp [uc] at h
    have hR0 : ∀ i j, i < rr e d1 0 → j < d1 0 → ent R1 0 i j = ent Y.R 0 i j := by
      intro i j hi hj
      rw [eR 0 i j (by omega) hi hj, if_neg]
      rintro ⟨h, _⟩
      simp [rc] at h
    refine ⟨⟨hs1, hs2.colsOK, hs2.ncol, ?_⟩, hs2.nrow, ?_⟩
    · intro i j hi hj
      show ent R1 0 i j = ∑ x ∈ Finset.range (d1 0), ent D 0 i x * ent U1 0 x j
      rw [hR0 i j hi hj, hfe i j hi hj]
      apply Finset.sum_congr rfl
      intro x hx
      rw [hU0 x j (Finset.mem_range.1 hx) hj]
    · apply mat_of_perm (U := at' Y.U 0) (g := Equiv.refl _)
      · intro i j; exact hU0 i j i.2 j.2
      · exact hf.upper
  | succ l =>
    obtain ⟨g, hg⟩ := perm_equiv (hp (l + 1) hlN)
    have hU0 : ∀ i j, i < d1 (l + 1) → j < d1 (l + 1) → ent U1 (l + 1) i j = ent Y.U (l + 1) ((ps.getD (l + 1) []).getD i 0) j := by
      intro i j hi hj
      rw [eU (l + 1) i j (by omega) hi hj, if_pos ⟨by simp [uc]; exact hlN, Nat.zero_le _⟩]; rfl
    have hR0 : ∀ i j, i < d1 l → j < d1 (l + 1) → ent R1 (l + 1) i j = ent Y.R (l + 1) ((ps.getD l []).getD i 0) j := by
      intro i j hi hj
      rw [eR (l + 1) i j (by omega) hi hj, if_pos ⟨by simp [rc], Nat.zero_le _⟩]; rfl
    refine ⟨⟨hs1, hs2.colsOK, hs2.ncol, ?_⟩, hs2.nrow, ?_⟩
    · intro i j hi hj
      show ent R1 (l + 1) i j = ∑ x ∈ Finset.range (d1 (l + 1)), ent D (l + 1) ((ps.getD l []).getD i 0) ((ps.getD (l + 1) []).getD x 0) * ent U1 (l + 1) x j
      rw [hR0 i j hi hj, hfe _ j (sigma_getD _ _ (hp l (by omega)) i hi) hj, Finset.sum_range, Finset.sum_range, ← Equiv.sum_comp g]
      apply Finset.sum_congr rfl
      intro x _
      rw [hU0 x j x.2 hj, hg x]
    · apply mat_of_perm (U := at' Y.U (l + 1)) (g := g)
      · intro i j
        rw [hg i]; exact hU0 i j i.2 j.2
      · exact hf.upper

theorem updateBasis_spec {T : Type} {e N m a : Nat} {d1 d2 : Nat → Nat} {D1 D2 : List (CMat F)} {Y : RedDG F} (hN : 2 ≤ N) (hd1 : d1 N = 0) (hd2 : d2 N = 0)
    (hY : DGBasis false e N d1 D1 Y) (hD1 : DShapes false e N d1 D1) (hD2 : DShapes false e N d2 D2)
    (hDD : ∀ l, l + 1 < N → (at' D2 l).mat (rr e d2 l) (d2 l) * (at' D2 (l + 1)).mat (d2 l) (d2 (l + 1)) = 0)
    {u : UpdInfo T} (hl : u.perm.length = N) (hp : ∀ k, k < N → IsPermOf (d1 k) (u.perm.getD k []))
    (v : Valid e N d1 d2 (permuted u.perm D1) (ent D2) u.ndel u.insIdx u.insCols) (hm : d2 (N - 1) ≤ m) :
    ∃ Y', (stale N m a Y).updateBasis u = .ok (stale N m a Y') ∧ DGBasis false e N d2 D2 Y' := by
  have hYU : ShapesBy (N + 1) (dc false e d1) (dc false e d1) Y.U := ⟨hY.lenU, fun l hl => (hY.fac l (by omega)).shape⟩
  have hYR : DShapes false e N d1 Y.R := ⟨hY.tab.lenR, fun l hl => (hY.tab.lev l (by omega)).shapeR⟩
  obtain ⟨U1, R1, a1, a2, a3, a4, a5⟩ := permuteMatricesFrom_dg false (by omega) hd1 u.perm 0 Y.U Y.R (by omega) hYU hYR (by
    intro k hk; rw [Nat.zero_add]; exact hp k (by omega))
  have hlR1 : R1.length = N + 1 := a3.len
  have hlU1 : U1.length = N + 1 := a2.len
  have a1' := permuteMatricesFrom_set hN (⟨a, []⟩ : CMat F) u.perm 0 Y.U Y.R U1 R1 (by omega) hY.tab.lenR a1
  have htodo : ∀ l, l < N → Todo e d1 (permuted u.perm D1) U1 (R1.set N ⟨a, []⟩) l := by
    intro l hlN
    have := todo_of_permuted (by omega) hY hl hp a2 a3 a4 a5 hlN
    unfold Todo at this ⊢
    rw [at_set _ (by omega), if_neg (by omega)]; exact this
  obtain ⟨U2, R2, b1, b2, b3, b4, b5, b6⟩ := cellsLoop_spec v N 0 U1 (R1.set N ⟨a, []⟩) (by omega) hlU1 (by simp [hlR1]) (by intro l hl; omega)
    (fun _ => htodo 0 (by omega)) (fun l _ h => htodo l h)
  rw [at_set _ (by omega), if_pos rfl] at b6
  have hfact : ∀ l, l < N → Fact (rr e d2 l) (d2 l) (at' D2 l) (at' R2 l) (at' U2 l) := fun l hl => (b4 l hl).fact (hD2.shape l (by omega)) (fun i j _ _ => rfl)
  have hlp : Y.p2c.length = N + 1 := hY.tab.lenP
  obtain ⟨U3, R3, p3, c1, c2, c3, c4, c5, c6, c7, c8⟩ := finishDown_spec hDD N U2 R2 (Y.p2c.set N (List.replicate m none)) (le_refl _) b2 b3 (by simp [hlp]) hfact
    (by intro l h1 h2; omega)
  rw [b6] at c7
  rw [getD_set' _ _ _ _ _ (by omega), if_pos rfl] at c8
  rw [b5] at c6
  -- the repaired state
  have aR := at_set R3 (k := N) (by omega) ⟨d2 (N - 1), []⟩
  have aP : ∀ l, (p3.set N (List.replicate (d2 (N - 1)) none)).getD l [] = if l = N then List.replicate (d2 (N - 1)) none else p3.getD l [] :=
    fun l => getD_set' _ _ _ _ _ (by omega)
  have hsN : (⟨d2 (N - 1), []⟩ : CMat F).Shape (rr e d2 N) (d2 N) := by
    obtain ⟨M, rfl⟩ : ∃ M, N = M + 1 := ⟨N - 1, by omega⟩
    refine ⟨?_, rfl, hd2.symm⟩
    intro c hc; simp at hc
  have hlevN : LevelOK (rr e d2 N) (d2 N) (at' D2 N) ⟨d2 (N - 1), []⟩ (List.replicate (d2 (N - 1)) none) := by
    refine ⟨hD2.shape N (by omega), hsN, ?_, ?_⟩
    · have : d2 (N - 1) = rr e d2 N := by
        obtain ⟨M, rfl⟩ : ∃ M, N = M + 1 := ⟨N - 1, by omega⟩
        rfl
      rw [this]
      exact table_no_cols hd2 _
    · intro i j
      have := j.2
      omega
  have hlev : ∀ l, l ≤ N → LevelOK (dr false e d2 l) (dc false e d2 l) (D2.getD l ⟨0, []⟩) ((R3.set N ⟨d2 (N - 1), []⟩).getD l ⟨0, []⟩)
      ((p3.set N (List.replicate (d2 (N - 1)) none)).getD l []) := by
    intro l hl
    rw [aP l]
    have := aR l
    unfold at' at this
    rw [this]
    by_cases e1 : l = N
    · subst e1
      rw [if_pos rfl, if_pos rfl]; exact hlevN
    · rw [if_neg e1, if_neg e1]
      exact (c5 l (by omega)).1
  obtain ⟨I, i1, i2⟩ := setIndices_ok false (by omega) (e := e) (d := d2) (D := D2) (R := R3.set N ⟨d2 (N - 1), []⟩) (ps := p3.set N (List.replicate (d2 (N - 1)) none))
    (by simp [c3]) (by simp [c4]) hlev U3
  have hR3 : R3 = (R3.set N ⟨d2 (N - 1), []⟩).set N ⟨a, []⟩ := by
    rw [List.set_set]
    apply List.ext_getElem?
    intro i
    rw [List.getElem?_set]
    by_cases hi : N = i
    · subst hi
      rw [if_pos rfl, if_pos (by omega), List.getElem?_eq_getElem (by omega), ← c7]
      unfold at'
      rw [List.getD_eq_getElem?_getD, List.getElem?_eq_getElem (by omega)]; rfl
    · rw [if_neg hi]
  have hp3 : p3 = (p3.set N (List.replicate (d2 (N - 1)) none)).set N (List.replicate m none) := by
    rw [List.set_set]
    apply List.ext_getElem?
    intro i
    rw [List.getElem?_set]
    by_cases hi : N = i
    · subst hi
      rw [if_pos rfl, if_pos (by omega), List.getElem?_eq_getElem (by omega), ← c8]
      rw [List.getD_eq_getElem?_getD, List.getElem?_eq_getElem (by omega)]; rfl
    · rw [if_neg hi]
  have hsi : RedDG.setIndices (-1) R3 p3 = .ok I := by
    rw [hR3, hp3, setIndices_stale (n := d2 (N - 1)) (by omega) (by simp [c3]) (by simp [c4]) ?_ hm (by rw [aP, if_pos rfl])]
    · exact i1
    · rw [aR, if_neg (by omega)]
      exact (c5 (N - 1) (by omega)).1.shapeR.ncol
  refine ⟨⟨-1, U3, R3.set N ⟨d2 (N - 1), []⟩, I, p3.set N (List.replicate (d2 (N - 1)) none)⟩, ?_, i2, c2, ?_⟩
  · have hdeg : Y.degree = -1 := hY.tab.deg
    unfold RedDG.updateBasis
    show (do
      let s ← RedDG.permuteMatricesFrom Y.degree 0 u.perm Y.U (Y.R.set N ⟨a, []⟩)
      let t ← RedDG.cellsLoop Y.degree u.perm.length u.ndel u.insIdx u.insCols u.perm.length 0 s.1 s.2
      let w ← if Y.degree = -1 then RedDG.finishDown u.perm.length u.perm.length t.1 t.2 (Y.p2c.set N (List.replicate m none))
        else RedDG.finishUp (u.perm.length + 1) 0 t.1 t.2 (Y.p2c.set N (List.replicate m none))
      let I ← RedDG.setIndices Y.degree w.2.1 w.2.2
      pure (⟨Y.degree, w.1, w.2.1, I, w.2.2⟩ : RedDG F)) = _
    rw [hdeg, a1', bind_ok, hl]
    simp only [if_true]
    rw [b1, bind_ok]
    simp only
    rw [c1, bind_ok]
    simp only
    rw [hsi, bind_ok]
    show Except.ok _ = Except.ok _
    unfold stale
    simp only
    rw [← hR3, ← hp3]
  · intro l hl
    show FactorOK _ _ _ (at' (R3.set N ⟨d2 (N - 1), []⟩) l) (at' U3 l)
    rw [aR]
    by_cases e1 : l = N
    · subst e1
      rw [if_pos rfl, c6]
      have hsU : (at' U1 l).Shape (d2 l) (d2 l) := by
        have := a2.shape l (by omega)
        rw [hd2]
        have e2 : dc false e d1 l = 0 := hd1
        rw [e2] at this; exact this
      refine ⟨hsU, ⟨fun i => ?_, fun i => ?_⟩, ?_⟩
      · have : i.val < d2 l := i.2
        omega
      · have : i.val < d2 l := i.2
        omega
      · ext i j
        have : j.val < d2 l := j.2
        omega
    · rw [if_neg e1]
      exact (c5 l (by omega)).2

end GenUpd
end BATS
