import Verif.Proofs.GenUpd1

set_option linter.unusedSectionVars false
set_option linter.unusedVariables false
set_option linter.unusedSimpArgs false

/-! # The general update: the loop over the dimensions (degree -1) -/

namespace BATS
namespace GenUpd
open Reduction Matrix DG

variable {F : Type} [Field F] [DecidableEq F]

/-- entry of a list of matrices -/
abbrev at' (L : List (CMat F)) (k : Nat) : CMat F := L.getD k ⟨0, []⟩

theorem at_set (L : List (CMat F)) {k : Nat} (hk : k < L.length) (A : CMat F) (l : Nat) : at' (L.set k A) l = if l = k then A else at' L l := by
  unfold at'; rw [getD_set' _ _ _ _ _ hk]

theorem modify_ok {L : List (CMat F)} {k : Nat} (hk : k < L.length) {f : CMat F → Res (CMat F)} {A : CMat F} (h : f (at' L k) = .ok A) :
    Cpx.modify L k f = .ok (L.set k A) := by
  unfold Cpx.modify
  rw [rd_getD ⟨0, []⟩ hk, bind_ok, h, bind_ok, wr_lt _ hk]

theorem deleteCells_spec {N k nd n : Nat} {U R : List (CMat F)} (hU : U.length = N + 1) (hR : R.length = N + 1) (hk : k < N)
    (sU : (at' U k).nrow = n) (lU : (at' U k).cols.length = n) (lR : (at' R k).cols.length = n) (hnd : nd ≤ n) (hR1 : k + 1 < N → (at' R (k + 1)).nrow = n) :
    ∃ U' R', RedDG.deleteCells (-1) N k nd U R = .ok (U', R') ∧ U'.length = N + 1 ∧ R'.length = N + 1 ∧
      at' U' k = ⟨n - nd, (at' U k).cols.take (n - nd)⟩ ∧ at' R' k = ⟨(at' R k).nrow, (at' R k).cols.take (n - nd)⟩ ∧
      (∀ l, l ≠ k → at' U' l = at' U l) ∧ (∀ l, l ≠ k → ¬ (l = k + 1 ∧ k + 1 < N) → at' R' l = at' R l) ∧
      (k + 1 < N → at' R' (k + 1) = ⟨n - nd, (at' R (k + 1)).cols⟩) := by
  unfold RedDG.deleteCells
  by_cases h0 : nd = 0
  · subst h0
    rw [if_pos rfl]
    refine ⟨U, R, rfl, hU, hR, ?_, ?_, fun _ _ => rfl, fun _ _ _ => rfl, ?_⟩
    · rw [Nat.sub_zero, ← lU, List.take_length, lU, ← sU]
    · rw [Nat.sub_zero, ← lR, List.take_length]
    · intro h; rw [Nat.sub_zero, ← hR1 h]
  · rw [if_neg h0, if_pos rfl]
    obtain ⟨R1, hR1e, hR1l, hR1a, hR1b⟩ : ∃ R1, RedDG.modifyAbove N k (CMat.eraseFinalRowsUnsafe nd) R = .ok R1 ∧ R1.length = N + 1 ∧
        (∀ l, ¬ (l = k + 1 ∧ k + 1 < N) → at' R1 l = at' R l) ∧ (k + 1 < N → at' R1 (k + 1) = ⟨n - nd, (at' R (k + 1)).cols⟩) := by
      unfold RedDG.modifyAbove
      by_cases h1 : k < N - 1
      · rw [if_pos h1]
        have h1' : k + 1 < N := by omega
        refine ⟨R.set (k + 1) ⟨n - nd, (at' R (k + 1)).cols⟩, modify_ok (by omega) ?_, by simp [hR], ?_, ?_⟩
        · unfold CMat.eraseFinalRowsUnsafe; rw [hR1 h1', if_pos hnd]
        · intro l hl
          rw [at_set _ (by omega), if_neg (fun e => hl ⟨e, h1'⟩)]
        · intro _
          rw [at_set _ (by omega), if_pos rfl]
      · rw [if_neg h1]
        exact ⟨R, rfl, hR, fun _ _ => rfl, fun h => by omega⟩
    have e1 : Cpx.modify U k (CMat.eraseFinalColumns nd) = .ok (U.set k ⟨n, (at' U k).cols.take (n - nd)⟩) := by
      apply modify_ok (by omega)
      unfold CMat.eraseFinalColumns; rw [lU, if_pos hnd, sU]
    have e2 : Cpx.modify (U.set k ⟨n, (at' U k).cols.take (n - nd)⟩) k (CMat.eraseFinalRowsUnsafe nd) =
        .ok ((U.set k ⟨n, (at' U k).cols.take (n - nd)⟩).set k ⟨n - nd, (at' U k).cols.take (n - nd)⟩) := by
      apply modify_ok (by simp; omega)
      rw [at_set _ (by omega), if_pos rfl]
      unfold CMat.eraseFinalRowsUnsafe; rw [if_pos hnd]
    have e3 : Cpx.modify R1 k (CMat.eraseFinalColumns nd) = .ok (R1.set k ⟨(at' R k).nrow, (at' R k).cols.take (n - nd)⟩) := by
      apply modify_ok (by omega)
      rw [hR1a k (by omega)]
      unfold CMat.eraseFinalColumns; rw [lR, if_pos hnd]
    refine ⟨(U.set k ⟨n, (at' U k).cols.take (n - nd)⟩).set k ⟨n - nd, (at' U k).cols.take (n - nd)⟩, R1.set k ⟨(at' R k).nrow, (at' R k).cols.take (n - nd)⟩, ?_, ?_, ?_, ?_, ?_, ?_, ?_, ?_⟩
    · rw [hR1e, bind_ok, e1, bind_ok, e2, bind_ok, e3, bind_ok]; rfl
    · simp [hU]
    · simp [hR1l]
    · rw [at_set _ (by simp; omega), if_pos rfl]
    · rw [at_set _ (by omega), if_pos rfl]
    · intro l hl
      rw [at_set _ (by simp; omega), if_neg hl, at_set _ (by omega), if_neg hl]
    · intro l hl hl'
      rw [at_set _ (by omega), if_neg hl, hR1a l hl']
    · intro h
      rw [at_set _ (by omega), if_neg (by omega), hR1b h]

theorem insertCells_spec {N k : Nat} {U R : List (CMat F)} (hU : U.length = N + 1) (hR : R.length = N + 1) (hk : k < N) {ins : List Nat} {cols : List (List (Nat × Int))}
    (hne : ins ≠ []) (hc : cols.length = ins.length) {U' R' : CMat F}
    (e1 : CMat.insertColumns ins (ins.map (fun i => [(i, (1 : F))])) (CMat.insertZeroRows ins (at' U k)) = .ok U')
    (e2 : CMat.insertColumns ins (cols.map SVec.castInts) (at' R k) = .ok R') :
    ∃ U2 R2, RedDG.insertCells (-1) N k ins cols U R = .ok (U2, R2) ∧ U2.length = N + 1 ∧ R2.length = N + 1 ∧ at' U2 k = U' ∧ at' R2 k = R' ∧
      (∀ l, l ≠ k → at' U2 l = at' U l) ∧ (∀ l, l ≠ k → ¬ (l = k + 1 ∧ k + 1 < N) → at' R2 l = at' R l) ∧
      (k + 1 < N → at' R2 (k + 1) = CMat.insertZeroRows ins (at' R (k + 1))) := by
  unfold RedDG.insertCells
  rw [if_neg hne, if_neg (by omega), if_pos rfl]
  obtain ⟨R1, hR1e, hR1l, hR1a, hR1b⟩ : ∃ R1, RedDG.modifyAbove N k (fun A => .ok (CMat.insertZeroRows ins A)) R = .ok R1 ∧ R1.length = N + 1 ∧
      (∀ l, ¬ (l = k + 1 ∧ k + 1 < N) → at' R1 l = at' R l) ∧ (k + 1 < N → at' R1 (k + 1) = CMat.insertZeroRows ins (at' R (k + 1))) := by
    unfold RedDG.modifyAbove
    by_cases h1 : k < N - 1
    · rw [if_pos h1]
      have h1' : k + 1 < N := by omega
      refine ⟨R.set (k + 1) (CMat.insertZeroRows ins (at' R (k + 1))), modify_ok (by omega) rfl, by simp [hR], ?_, ?_⟩
      · intro l hl
        rw [at_set _ (by omega), if_neg (fun e => hl ⟨e, h1'⟩)]
      · intro _
        rw [at_set _ (by omega), if_pos rfl]
    · rw [if_neg h1]
      exact ⟨R, rfl, hR, fun _ _ => rfl, fun h => by omega⟩
  have f1 : Cpx.modify R1 k (CMat.insertColumns ins ((cols.take ins.length).map SVec.castInts)) = .ok (R1.set k R') := by
    apply modify_ok (by omega)
    rw [hR1a k (by omega), ← hc, List.take_length]; exact e2
  have f2 : Cpx.modify U k (fun A => .ok (CMat.insertZeroRows ins A)) = .ok (U.set k (CMat.insertZeroRows ins (at' U k))) :=
    modify_ok (by omega) rfl
  have f3 : Cpx.modify (U.set k (CMat.insertZeroRows ins (at' U k))) k (CMat.insertColumns ins (ins.map (fun i => [(i, (1 : F))]))) =
      .ok ((U.set k (CMat.insertZeroRows ins (at' U k))).set k U') := by
    apply modify_ok (by simp; omega)
    rw [at_set _ (by omega), if_pos rfl]; exact e1
  refine ⟨(U.set k (CMat.insertZeroRows ins (at' U k))).set k U', R1.set k R', ?_, ?_, ?_, ?_, ?_, ?_, ?_, ?_⟩
  · rw [hR1e, bind_ok, f1, bind_ok, f2, bind_ok, f3, bind_ok]; rfl
  · simp [hU]
  · simp [hR1l]
  · rw [at_set _ (by simp; omega), if_pos rfl]
  · rw [at_set _ (by omega), if_pos rfl]
  · intro l hl
    rw [at_set _ (by simp; omega), if_neg hl, at_set _ (by omega), if_neg hl]
  · intro l hl hl'
    rw [at_set _ (by omega), if_neg hl, hR1a l hl']
  · intro h
    rw [at_set _ (by omega), if_neg (by omega), hR1b h]

/-- the update information fits the old matrices `M1` (in the order after the permutation) and the new ones `M2`: `d1`, `d2` are the numbers of
cells, `e` is the number of rows of the first matrix -/
structure Valid (e N : Nat) (d1 d2 : Nat → Nat) (M1 M2 : Nat → Nat → Nat → F) (ndel : List Nat) (insIdx : List (List Nat))
    (insCols : List (List (List (Nat × Int)))) : Prop where
  lenD : ndel.length = N
  lenI : insIdx.length = N
  lenC : insCols.length = N
  del : ∀ k, k < N → ndel.getD k 0 ≤ d1 k
  dim : ∀ k, k < N → d1 k - ndel.getD k 0 + (insIdx.getD k []).length = d2 k
  sorted : ∀ k, k < N → (insIdx.getD k []).Pairwise (· < ·)
  bound : ∀ k, k < N → ∀ r ∈ insIdx.getD k [], r < d2 k
  ncols : ∀ k, k < N → (insCols.getD k []).length = (insIdx.getD k []).length
  colOK : ∀ k, k < N → ∀ c ∈ insCols.getD k [], VecOK (SVec.castInts (F := F) c) ∧ Below (rr e d2 k) (SVec.castInts (F := F) c)
  zero : ∀ k, k + 1 < N → ∀ i x, d1 k - ndel.getD k 0 ≤ i → i < d1 k → x < d1 (k + 1) - ndel.getD (k + 1) 0 → M1 (k + 1) i x = 0
  kept0 : ∀ i j, i < e → j < d2 0 → j ∉ insIdx.getD 0 [] → M2 0 i j = M1 0 i (oldRow (insIdx.getD 0 []) j)
  kept : ∀ k, k + 1 < N → ∀ i j, i < d2 k → j < d2 (k + 1) → j ∉ insIdx.getD (k + 1) [] →
    M2 (k + 1) i j = if i ∈ insIdx.getD k [] then 0 else M1 (k + 1) (oldRow (insIdx.getD k []) i) (oldRow (insIdx.getD (k + 1) []) j)
  new : ∀ k, k < N → ∀ i a, i < rr e d2 k → a < (insIdx.getD k []).length →
    M2 k i ((insIdx.getD k []).getD a 0) = coef (SVec.castInts ((insCols.getD k []).getD a [])) i

section loop
variable {e N : Nat} {d1 d2 : Nat → Nat} {M1 M2 : Nat → Nat → Nat → F} {ndel : List Nat} {insIdx : List (List Nat)} {insCols : List (List (List (Nat × Int)))}

/-- rows of matrix `k` when its turn comes -/
def pm (e : Nat) (d1 : Nat → Nat) (insIdx : List (List Nat)) : Nat → Nat
  | 0 => e
  | k + 1 => d1 k + (insIdx.getD k []).length

/-- matrix `k` when its turn comes -/
def PM (M1 : Nat → Nat → Nat → F) (insIdx : List (List Nat)) : Nat → Nat → Nat → F
  | 0 => M1 0
  | k + 1 => fun i j => if i ∈ insIdx.getD k [] then 0 else M1 (k + 1) (oldRow (insIdx.getD k []) i) j

/-- a level that is done -/
def Done (e : Nat) (d2 : Nat → Nat) (M2 : Nat → Nat → Nat → F) (U R : List (CMat F)) (l : Nat) : Prop :=
  Lev (rr e d2 l) (d2 l) (M2 l) (at' U l) (at' R l) ∧ (at' R l).nrow = rr e d2 l ∧ Diag (d2 l) (at' U l)

/-- the level whose turn it is -/
def Ready (e : Nat) (d1 d2 : Nat → Nat) (M1 : Nat → Nat → Nat → F) (insIdx : List (List Nat)) (U R : List (CMat F)) (l : Nat) : Prop :=
  Lev (pm e d1 insIdx l) (d1 l) (PM M1 insIdx l) (at' U l) (at' R l) ∧ (at' R l).nrow = rr e d2 l ∧ Function.Injective ((at' U l).mat (d1 l) (d1 l) *ᵥ ·)

/-- a level not yet touched -/
def Todo (e : Nat) (d1 : Nat → Nat) (M1 : Nat → Nat → Nat → F) (U R : List (CMat F)) (l : Nat) : Prop :=
  Lev (rr e d1 l) (d1 l) (M1 l) (at' U l) (at' R l) ∧ (at' R l).nrow = rr e d1 l ∧ Function.Injective ((at' U l).mat (d1 l) (d1 l) *ᵥ ·)

theorem oldRow_nil (i : Nat) : oldRow [] i = i := rfl

theorem step_spec (v : Valid e N d1 d2 M1 M2 ndel insIdx insCols) {k : Nat} (hk : k < N) {U R : List (CMat F)} (hU : U.length = N + 1) (hR : R.length = N + 1)
    (hr : Ready e d1 d2 M1 insIdx U R k) (ht : k + 1 < N → Todo e d1 M1 U R (k + 1)) :
    ∃ s t U2 R2, RedDG.makeUpper (at' U k) (at' R k) = .ok s ∧
      RedDG.deleteCells (-1) N k (ndel.getD k 0) (U.set k s.1) (R.set k s.2) = .ok t ∧
      RedDG.insertCells (-1) N k (insIdx.getD k []) (insCols.getD k []) t.1 t.2 = .ok (U2, R2) ∧
      U2.length = N + 1 ∧ R2.length = N + 1 ∧ Done e d2 M2 U2 R2 k ∧ (k + 1 < N → Ready e d1 d2 M1 insIdx U2 R2 (k + 1)) ∧
      (∀ l, l ≠ k → at' U2 l = at' U l) ∧ (∀ l, l ≠ k → ¬ (l = k + 1 ∧ k + 1 < N) → at' R2 l = at' R l) := by
  obtain ⟨hr1, hr2, hr3⟩ := hr
  obtain ⟨Uk, Rk, h1, h2, h3, h4⟩ := makeUpper_lev hr1 hr3
  have aU := at_set U (k := k) (by omega) Uk
  have aR := at_set R (k := k) (by omega) Rk
  have hdel := v.del k hk
  have hdim := v.dim k hk
  obtain ⟨U1, R1, g1, g2, g3, g4, g5, g6, g7, g8⟩ := deleteCells_spec (N := N) (k := k) (nd := ndel.getD k 0) (n := d1 k) (U := U.set k Uk) (R := R.set k Rk)
    (by simp [hU]) (by simp [hR]) hk (by rw [aU, if_pos rfl]; exact h2.shU.nrow) (by rw [aU, if_pos rfl]; exact h2.shU.ncol)
    (by rw [aR, if_pos rfl]; exact h2.lenR) hdel (fun h => by rw [aR, if_neg (by omega)]; exact (ht h).2.1)
  rw [aU, if_pos rfl] at g4
  rw [aR, if_pos rfl] at g5
  have g6' : ∀ l, l ≠ k → at' U1 l = at' U l := fun l hl => by rw [g6 l hl, aU, if_neg hl]
  have g7' : ∀ l, l ≠ k → ¬ (l = k + 1 ∧ k + 1 < N) → at' R1 l = at' R l := fun l hl hl' => by rw [g7 l hl hl', aR, if_neg hl]
  have g8' : k + 1 < N → at' R1 (k + 1) = ⟨d1 k - ndel.getD k 0, (at' R (k + 1)).cols⟩ := fun h => by rw [g8 h, aR, if_neg (by omega)]
  have hrows : rr e d2 k ≤ pm e d1 insIdx k := by
    cases k with
    | zero => exact le_refl _
    | succ k =>
      have := v.dim k (by omega)
      have := v.del k (by omega)
      show d2 k ≤ d1 k + _
      omega
  have hz : ∀ i x, rr e d2 k ≤ i → i < pm e d1 insIdx k → x < d1 k - ndel.getD k 0 → PM M1 insIdx k i x = 0 := by
    intro i x hi hi' hx
    cases k with
    | zero => exact absurd hi' (Nat.not_lt.2 hi)
    | succ k =>
      have hi1 : d2 k ≤ i := hi
      have hi2 : i < d1 k + (insIdx.getD k []).length := hi'
      have d0 := v.dim k (by omega)
      have d3 := v.del k (by omega)
      show (if i ∈ insIdx.getD k [] then 0 else M1 (k + 1) (oldRow (insIdx.getD k []) i) x) = 0
      by_cases hm : i ∈ insIdx.getD k []
      · rw [if_pos hm]
      · rw [if_neg hm, oldRow_ge (v.bound k (by omega)) hi1]
        exact v.zero k hk _ x (by omega) (by omega) hx
  obtain ⟨l1, l2⟩ := delete_lev h2 h4 (Nat.sub_le (d1 k) (ndel.getD k 0)) hrows hz Rk.nrow
  have hbk := v.bound k hk
  -- the level whose rows change
  have hlev : ∀ A : CMat F, k + 1 < N → A.cols = (CMat.insertZeroRows (insIdx.getD k []) (at' R (k + 1))).cols →
      Lev (pm e d1 insIdx (k + 1)) (d1 (k + 1)) (PM M1 insIdx (k + 1)) (at' U (k + 1)) A := by
    intro A h e
    obtain ⟨q1, _, _⟩ := ht h
    have := insRows_lev q1 (v.sorted k hk) (fun r hr => by have := hbk r hr; show r < d1 k + _; omega)
    refine ⟨this.shU, ?_, ?_, ?_⟩
    · rw [e]; exact this.okR
    · rw [e]; exact this.lenR
    · intro i j hi hj
      unfold ent1; rw [e]
      exact this.eq i j hi hj
  by_cases hne : insIdx.getD k [] = []
  · refine ⟨(Uk, Rk), (U1, R1), U1, R1, h1, g1, ?_, g2, g3, ?_, ?_, g6', g7'⟩
    · unfold RedDG.insertCells; rw [if_pos hne]
    · rw [hne, List.length_nil, Nat.add_zero] at hdim
      refine ⟨?_, by rw [g5, h3, hr2], by rw [g4, ← hdim]; exact l2⟩
      rw [g4, g5]
      rw [hdim] at l1 ⊢
      refine ⟨l1.shU, l1.okR, l1.lenR, ?_⟩
      intro i j hi hj
      rw [l1.eq i j hi hj]
      apply Finset.sum_congr rfl
      intro x hx
      rw [Finset.mem_range] at hx
      congr 1
      cases k with
      | zero => rw [v.kept0 i x hi hx (by rw [hne]; simp), hne]; rfl
      | succ k => rw [v.kept k hk i x hi hx (by rw [hne]; simp), hne]; rfl
    · intro h
      rw [hne, List.length_nil, Nat.add_zero] at hdim
      obtain ⟨q1, q2, q3⟩ := ht h
      refine ⟨?_, ?_, by rw [g6' _ (by omega)]; exact q3⟩
      · rw [g6' _ (by omega), g8' h]
        show Lev (d1 k + _) _ (fun i j => if i ∈ insIdx.getD k [] then 0 else M1 (k + 1) (oldRow (insIdx.getD k []) i) j) _ _
        rw [hne]
        refine ⟨q1.shU, q1.okR, q1.lenR, ?_⟩
        intro i j hi hj
        have := q1.eq i j hi hj
        show ent1 (at' R (k + 1)) i j = ∑ x ∈ Finset.range (d1 (k + 1)), (if i ∈ [] then 0 else M1 (k + 1) (oldRow [] i) x) * _
        rw [this]
        apply Finset.sum_congr rfl
        intro x _
        rw [if_neg (by simp), oldRow_nil]
      · rw [g8' h]; exact hdim
  · have hl : (insIdx.getD k []).length = ((insCols.getD k []).map (SVec.castInts (F := F))).length := by rw [List.length_map, v.ncols k hk]
    obtain ⟨U', R', i1, i2, i3, i4, i5⟩ := insert_lev (M2 := M2 k) l1 (by show Rk.nrow = _; rw [h3, hr2]) l2 (v.sorted k hk) (by rw [hdim]; exact hbk) hl
      (by intro c hc
          obtain ⟨c', hc', rfl⟩ := List.mem_map.1 hc
          exact v.colOK k hk c' hc')
      (by intro i j hi hj hn
          rw [hdim] at hj
          cases k with
          | zero => exact v.kept0 i j hi hj hn
          | succ k => exact v.kept k hk i j hi hj hn)
      (by intro i a hi ha
          rw [v.new k hk i a hi ha]
          congr 1
          rw [List.getD_eq_getElem?_getD (l := List.map _ _), List.getElem?_map, List.getD_eq_getElem?_getD]
          have : a < (insCols.getD k []).length := by rw [v.ncols k hk]; exact ha
          rw [List.getElem?_eq_getElem this]; rfl)
    rw [hdim] at i3 i5
    obtain ⟨U2, R2, j1, j2, j3, j4, j5, j6, j7, j8⟩ := insertCells_spec g2 g3 hk hne (v.ncols k hk) (U' := U') (R' := R') (by rw [g4]; exact i1) (by rw [g5]; exact i2)
    refine ⟨(Uk, Rk), (U1, R1), U2, R2, h1, g1, j1, j2, j3, ?_, ?_, ?_, ?_⟩
    · rw [Done, j4, j5]; exact ⟨i3, i4, i5⟩
    · intro h
      obtain ⟨q1, q2, q3⟩ := ht h
      refine ⟨?_, ?_, by rw [j6 _ (by omega), g6' _ (by omega)]; exact q3⟩
      · rw [j6 _ (by omega), g6' _ (by omega)]
        apply hlev _ h
        rw [j8 h, g8' h]; rfl
      · rw [j8 h, g8' h]; exact hdim
    · intro l hl; rw [j6 l hl, g6' l hl]
    · intro l hl hl'; rw [j7 l hl hl', g7' l hl hl']

theorem cellsLoop_spec (v : Valid e N d1 d2 M1 M2 ndel insIdx insCols) : ∀ (todo k : Nat) (U R : List (CMat F)), k + todo = N → U.length = N + 1 → R.length = N + 1 →
    (∀ l, l < k → Done e d2 M2 U R l) → (k < N → Ready e d1 d2 M1 insIdx U R k) → (∀ l, k < l → l < N → Todo e d1 M1 U R l) →
    ∃ U' R', RedDG.cellsLoop (-1) N ndel insIdx insCols todo k U R = .ok (U', R') ∧ U'.length = N + 1 ∧ R'.length = N + 1 ∧
      (∀ l, l < N → Done e d2 M2 U' R' l) ∧ at' U' N = at' U N ∧ at' R' N = at' R N
  | 0, k, U, R, hk, hU, hR, h1, _, _ => ⟨U, R, rfl, hU, hR, fun l hl => h1 l (by omega), rfl, rfl⟩
  | todo + 1, k, U, R, hk, hU, hR, h1, h2, h3 => by
    have hkN : k < N := by omega
    obtain ⟨s, t, U2, R2, a1, a2, a3, a4, a5, a6, a7, a8, a9⟩ := step_spec v hkN hU hR (h2 hkN) (fun h => h3 (k + 1) (by omega) h)
    obtain ⟨U', R', b1, b2, b3, b4, b5, b6⟩ := cellsLoop_spec v todo (k + 1) U2 R2 (by omega) a4 a5 (by
        intro l hl
        by_cases e1 : l = k
        · subst e1; exact a6
        · have := h1 l (by omega)
          unfold Done at this ⊢
          rw [a8 l e1, a9 l e1 (by omega)]; exact this) a7 (by
        intro l hl hl'
        have := h3 l (by omega) hl'
        unfold Todo at this ⊢
        rw [a8 l (by omega), a9 l (by omega) (by omega)]; exact this)
    refine ⟨U', R', ?_, b2, b3, b4, by rw [b5, a8 N (by omega)], by rw [b6, a9 N (by omega) (by omega)]⟩
    unfold RedDG.cellsLoop
    simp only [if_true]
    rw [rd_getD ⟨0, []⟩ (by omega), bind_ok, rd_getD ⟨0, []⟩ (by omega), bind_ok, a1, bind_ok, wr_lt _ (by omega), bind_ok, wr_lt _ (by omega), bind_ok,
      rd_getD 0 (by rw [v.lenD]; exact hkN), bind_ok, a2, bind_ok, rd_getD [] (by rw [v.lenI]; exact hkN), bind_ok, rd_getD [] (by rw [v.lenC]; exact hkN), bind_ok,
      a3, bind_ok]
    exact b1

end loop

end GenUpd
end BATS
