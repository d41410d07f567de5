import Verif.Proofs.CSC
import Verif.Proofs.SimplicialRec
import Verif.Spec.Homology
import Verif.Proofs.SparseVec
import Mathlib.Algebra.BigOperators.Intervals

set_option linter.unusedSectionVars false
set_option linter.unusedVariables false
set_option linter.unusedSimpArgs false

/-! # Boundary matrices of a simplicial complex -/

namespace BATS

open Finset in
/-- the sign cancellation behind `d ∘ d = 0` -/
theorem alternating_double_sum {R : Type} [CommRing R] (n : Nat) (g : Nat → Nat → R) (hg : ∀ k l, l < k → k ≤ n → g k l = g l (k - 1)) :
    ∑ k ∈ range (n + 1), ∑ l ∈ range n, (-1) ^ (k + l) * g k l = 0 := by
  rw [← Finset.sum_product']
  apply Finset.sum_involution (fun p _ => if p.2 < p.1 then (p.2, p.1 - 1) else (p.2 + 1, p.1))
  · rintro ⟨k, l⟩ h
    simp only [mem_product, mem_range] at h
    simp only
    by_cases hkl : l < k
    · simp only [hkl, if_true]
      rw [hg k l hkl (by omega)]
      obtain ⟨m, rfl⟩ : ∃ m, k = m + 1 := ⟨k - 1, by omega⟩
      simp only [Nat.add_sub_cancel]
      rw [show m + 1 + l = (l + m) + 1 by ring, pow_succ]; ring
    · simp only [hkl, if_false]
      rw [hg (l + 1) k (by omega) (by omega)]
      simp only [Nat.add_sub_cancel]
      rw [show l + 1 + k = (k + l) + 1 by ring, pow_succ]; ring
  · rintro ⟨k, l⟩ h _
    simp only
    by_cases hkl : l < k
    · simp only [hkl, if_true, ne_eq, Prod.mk.injEq, not_and]; intro h; omega
    · simp only [hkl, if_false, ne_eq, Prod.mk.injEq, not_and]; intro h; omega
  · rintro ⟨k, l⟩ h
    simp only [mem_product, mem_range] at h
    by_cases hkl : l < k
    · have h2 : ¬ (k - 1 < l) := by omega
      simp only [hkl, if_true, h2, if_false, Prod.mk.injEq, and_true]; omega
    · have h2 : k < l + 1 := by omega
      simp only [hkl, if_false, h2, if_true, Nat.add_sub_cancel]
  · rintro ⟨k, l⟩ h
    simp only [mem_product, mem_range] at h
    by_cases hkl : l < k
    · simp only [hkl, if_true, mem_product, mem_range]; omega
    · simp only [hkl, if_false, mem_product, mem_range]; omega

theorem eraseIdx_eraseIdx_lt {α : Type} (s : List α) : ∀ (k l : Nat), l < k → (s.eraseIdx k).eraseIdx l = (s.eraseIdx l).eraseIdx (k - 1) := by
  induction s with
  | nil => intro k l _; simp
  | cons a s ih =>
    intro k l h
    obtain ⟨k, rfl⟩ : ∃ m, k = m + 1 := ⟨k - 1, by omega⟩
    cases l with
    | zero => simp
    | succ l =>
      obtain ⟨k, rfl⟩ : ∃ m, k = m + 1 := ⟨k - 1, by omega⟩
      simp only [List.eraseIdx_cons_succ, Nat.add_sub_cancel]
      have := ih (k + 1) l (by omega)
      simp only [Nat.add_sub_cancel] at this
      rw [this]

theorem eraseIdx_inj_of_nodup {α : Type} {s : List α} (h : s.Nodup) {j k : Nat} (hj : j < s.length) (hk : k < s.length)
    (e : s.eraseIdx j = s.eraseIdx k) : j = k := by
  have key : ∀ {j k : Nat} (hj : j < s.length) (hk : k < s.length), j < k → s.eraseIdx j = s.eraseIdx k → False := by
    intro j k hj hk hjk e
    have : s[k] ∈ s.eraseIdx j := by
      rw [List.mem_eraseIdx_iff_getElem]
      exact ⟨k, hk, by omega, rfl⟩
    rw [e, List.mem_eraseIdx_iff_getElem] at this
    obtain ⟨i, hi, hne, hh⟩ := this
    exact hne (h.getElem_inj_iff.1 hh)
  rcases Nat.lt_trichotomy j k with h1 | h1 | h1
  · exact absurd e (fun e => key hj hk h1 e)
  · exact h1
  · exact absurd e.symm (fun e => key hk hj h1 e)

variable {F : Type} [Field F] [DecidableEq F]

theorem coef_map_range (n : Nat) (g : Nat → Nat) (a : Nat → F) (i : Nat) :
    coef ((List.range n).map (fun k => (g k, a k))) i = ∑ k ∈ Finset.range n, if g k = i then a k else 0 := by
  induction n with
  | zero => simp
  | succ n ih => rw [List.range_succ, List.map_append, coef_append, ih, Finset.sum_range_succ]; simp

namespace SCpx
open Reduction CSC

/-- stored column of the `(d+1)`-simplex `s` -/
structure ColOK (cells : Cells) (d : Nat) (s : List Nat) (col : SVec F) : Prop where
  sorted : (col.map Prod.fst).Pairwise (· ≤ ·)
  perm : col.Perm ((List.range (d + 2)).map (fun k => ((cells d).idxOf (s.eraseIdx k), (-1 : F) ^ (d + k))))

theorem ColOK.coef {cells : Cells} {d : Nat} {s : List Nat} {col : SVec F} (h : ColOK cells d s col) (i : Nat) :
    coef col i = ∑ k ∈ Finset.range (d + 2), if (cells d).idxOf (s.eraseIdx k) = i then (-1 : F) ^ (d + k) else 0 := by
  rw [coef_perm h.perm, coef_map_range]

/-- the boundary matrix in dimension `d+1` -/
structure BdMat (cells : Cells) (d : Nat) (M : CMat F) : Prop where
  nrow : M.nrow = (cells d).length
  ncol : M.cols.length = (cells (d + 1)).length
  col : ∀ (j : Nat) (s : List Nat), (cells (d + 1))[j]? = some s → ∃ c, M.cols[j]? = some c ∧ ColOK cells d s c

theorem boundaryCsc_spec {X : SCpx} {cells : Cells} (h : Inv X cells) {d : Nat} (hd : d + 1 < X.ncells.length) :
    ∃ A M, boundaryCsc X (d + 1) = .ok A ∧ A.toCMat = .ok M ∧ BdMat (F := F) cells d M ∧
      ∃ colptr bs, A = ⟨colptr, rows bs, vals bs, (cells d).length, bs.length⟩ ∧ M = ⟨(cells d).length, bs.map blockCol⟩ ∧
        (∀ b ∈ bs, b.1.length = b.2.length) ∧ Delimits colptr bs ∧ ∀ b ∈ bs, b.1.Pairwise (· ≤ ·) := by
  obtain ⟨Fs, Cs, a1, a2, a3, a4, a5⟩ := h.bd d hd
  obtain ⟨hF, hC⟩ := BdOK.lengths (X := X) a3 a4 a5
  -- the blocks
  have hfst : (Fs.zip Cs).map Prod.fst = Fs := List.map_fst_zip (by omega)
  have hsnd : (Fs.zip Cs).map Prod.snd = Cs := List.map_snd_zip (by omega)
  have hlen : (Fs.zip Cs).length = (cells (d + 1)).length := by simp [a3, a4]
  have hdel : Delimits ((List.range ((cells (d + 1)).length + 1)).map (· * (d + 2))) (Fs.zip Cs) := by
    intro j hj
    rw [hlen] at hj
    rw [List.getElem?_map, List.getElem?_range (by omega)]
    simp only [Option.map_some, Option.some.injEq, rows]
    rw [List.map_take, hfst]
    rw [flatten_length_uniform (n := d + 2) (fun l hl => hF l (List.mem_of_mem_take hl)), List.length_take, a3, Nat.min_eq_left hj, Nat.mul_comm]
  obtain ⟨A, bs', g1, g2, g3, g4, g5, g6⟩ := mk'_toCMat (F := F) (bs := Fs.zip Cs) (cells d).length (by
    intro b hb
    obtain ⟨b1, b2⟩ := b
    have := List.of_mem_zip hb
    rw [hF _ this.1, hC _ this.2]) hdel
  refine ⟨A, _, ?_, g3, ⟨rfl, ?_, ?_⟩, _, bs', g4, rfl, g5, g6, ?_⟩
  · unfold boundaryCsc
    simp only [Nat.add_sub_cancel]
    rw [rd_some (h.dim d (by omega)).nc, bind_ok, rd_some (h.dim (d + 1) hd).nc, bind_ok, rd_some a1, bind_ok, rd_some a2, bind_ok]
    simp only [rows, vals, hfst, hsnd, hlen] at g1
    exact g1
  · simp [← g2.length_eq, hlen]
  · intro j s hs
    obtain ⟨f, c, b1, b2, b3⟩ := a5 j s hs
    have hj := (List.getElem?_eq_some_iff.1 hs).1
    have hz : (Fs.zip Cs)[j]? = some (f, c) := by
      rw [List.getElem?_zip_eq_some]; exact ⟨b1, b2⟩
    have hj' : j < bs'.length := by rw [← g2.length_eq, hlen]; exact hj
    have hsb := List.Forall₂.get g2 (i := j) (by omega) hj'
    simp only [List.get_eq_getElem] at hsb
    rw [(List.getElem?_eq_some_iff.1 hz).2] at hsb
    refine ⟨blockCol bs'[j], by simp [hj'], ?_, ?_⟩
    · unfold blockCol
      rw [List.map_map]
      have : ((bs'[j].1.zip bs'[j].2).map (Prod.fst ∘ fun p : Nat × Int => (p.1, (p.2 : F)))) = bs'[j].1 := by
        show (bs'[j].1.zip bs'[j].2).map Prod.fst = _
        exact List.map_fst_zip (by rw [hsb.lf, hsb.lc])
      rw [this]; exact hsb.sorted
    · unfold blockCol
      have := (hsb.perm.trans b3.perm).map (fun p : Nat × Int => (p.1, (p.2 : F)))
      refine this.trans ?_
      unfold facePairs
      rw [List.map_map]
      apply List.Perm.of_eq
      apply List.map_congr_left
      intro k _
      simp
  · intro b hb
    obtain ⟨i, hi, e⟩ := List.getElem_of_mem hb
    have := List.Forall₂.get g2 (i := i) (by rw [g2.length_eq]; exact hi) hi
    simp only [List.get_eq_getElem] at this
    rw [e] at this
    exact this.sorted

theorem boundaries_spec {X : SCpx} {cells : Cells} (h : Inv X cells) : ∀ n d, d + n + 1 ≤ X.ncells.length →
    ∃ Ms, boundaries (F := F) X n (d + 1) = .ok Ms ∧ Ms.length = n ∧ ∀ i, i < n → ∃ M, Ms[i]? = some M ∧ BdMat cells (d + i) M := by
  intro n
  induction n with
  | zero => intro d _; exact ⟨[], rfl, rfl, by intro i hi; omega⟩
  | succ n ih =>
    intro d hd
    obtain ⟨A, M, g1, g2, g3, _⟩ := boundaryCsc_spec (F := F) h (d := d) (by omega)
    obtain ⟨Ms, e1, e2, e3⟩ := ih (d + 1) (by omega)
    refine ⟨M :: Ms, ?_, by simp [e2], ?_⟩
    · unfold boundaries
      rw [g1, bind_ok, g2, bind_ok, e1]; rfl
    · intro i hi
      cases i with
      | zero => exact ⟨M, rfl, g3⟩
      | succ i =>
        obtain ⟨M', m1, m2⟩ := e3 i (by omega)
        exact ⟨M', by simpa using m1, by rw [show d + (i + 1) = d + 1 + i by omega]; exact m2⟩

theorem chainComplex_spec {X : SCpx} {cells : Cells} (h : Inv X cells) :
    ∃ B : List (CMat F), chainComplex X = .ok B ∧ B.length = X.ncells.length ∧ B[0]? = some (CMat.zero 1 (cells 0).length) ∧
      ∀ d, d + 1 < X.ncells.length → ∃ M, B[d + 1]? = some M ∧ BdMat cells d M := by
  have hne := h.sizes.ne
  obtain ⟨Ms, e1, e2, e3⟩ := boundaries_spec (F := F) h X.maxdim 0 (by unfold maxdim; omega)
  refine ⟨CMat.zero 1 (cells 0).length :: Ms, ?_, ?_, rfl, ?_⟩
  · unfold chainComplex
    rw [rd_some (h.dim 0 hne).nc, bind_ok, e1]; rfl
  · simp only [List.length_cons, e2, maxdim]; omega
  · intro d hd
    obtain ⟨M, m1, m2⟩ := e3 d (by unfold maxdim; omega)
    exact ⟨M, by simpa using m1, by rwa [Nat.zero_add] at m2⟩

section cdim
variable {X : SCpx} {cells : Cells} {B : List (CMat F)}

theorem cdim_eq (h : Inv X cells) (h0 : B[0]? = some (CMat.zero 1 (cells 0).length)) (hl : B.length = X.ncells.length)
    (hb : ∀ d, d + 1 < X.ncells.length → ∃ M, B[d + 1]? = some M ∧ BdMat cells d M) (k : Nat) : cdim B k = (cells k).length := by
  unfold cdim
  rw [List.getD_eq_getElem?_getD]
  cases k with
  | zero => rw [h0]; simp [CMat.zero]
  | succ d =>
    by_cases hd : d + 1 < X.ncells.length
    · obtain ⟨M, m1, m2⟩ := hb d hd
      rw [m1]; exact m2.ncol
    · rw [List.getElem?_eq_none (by omega), h.top _ (by omega)]; rfl

/-- entry of the boundary matrix -/
theorem ent_eq (h : Inv X cells) (hb : ∀ d, d + 1 < X.ncells.length → ∃ M, B[d + 1]? = some M ∧ BdMat cells d M) {d j : Nat}
    {s : List Nat} (hs : (cells (d + 1))[j]? = some s) (i : Nat) :
    ent B (d + 1) i j = ∑ k ∈ Finset.range (d + 2), if (cells d).idxOf (s.eraseIdx k) = i then (-1 : F) ^ (d + k) else 0 := by
  have hd : d + 1 < X.ncells.length := by
    by_contra hc
    rw [h.top _ (by omega)] at hs; simp at hs
  obtain ⟨M, m1, m2⟩ := hb d hd
  obtain ⟨c, c1, c2⟩ := m2.col j s hs
  unfold ent
  rw [List.getD_eq_getElem?_getD (l := B), m1, Option.getD_some, List.getD_eq_getElem?_getD, c1, Option.getD_some]
  exact c2.coef i

theorem bdry_apply (k : Nat) (i : Fin (rdim B k)) (j : Fin (cdim B k)) : bdry B k i j = ent B k i j := rfl

/-- consecutive boundary matrices compose to zero -/
theorem square_zero (h : Inv X cells) (h0 : B[0]? = some (CMat.zero 1 (cells 0).length)) (hl : B.length = X.ncells.length)
    (hb : ∀ d, d + 1 < X.ncells.length → ∃ M, B[d + 1]? = some M ∧ BdMat cells d M) (k : Nat) : bdry B k * bdryUp B k = 0 := by
  ext i j
  rw [Matrix.mul_apply, Matrix.zero_apply]
  cases k with
  | zero =>
    apply Finset.sum_eq_zero
    intro m _
    have : bdry B 0 i m = 0 := by
      show coef ((B.getD 0 ⟨0, []⟩).cols.getD m []) i = 0
      rw [List.getD_eq_getElem?_getD (l := B), h0, Option.getD_some]
      simp only [CMat.zero, List.getD_eq_getElem?_getD, List.getElem?_replicate]
      split <;> simp
    rw [this, zero_mul]
  | succ d =>
    have hc := cdim_eq h h0 hl hb
    have hj : (j : Nat) < (cells (d + 2)).length := by rw [← hc]; exact j.2
    obtain ⟨s, hs⟩ : ∃ s, (cells (d + 2))[(j : Nat)]? = some s := ⟨_, List.getElem?_eq_getElem hj⟩
    have hsm := List.mem_of_getElem? hs
    -- the row sums of the faces of `s`
    have hup : ∀ m : Fin (cdim B (d + 1)), bdryUp B (d + 1) m j =
        ∑ k ∈ Finset.range (d + 3), if (cells (d + 1)).idxOf (s.eraseIdx k) = m then (-1 : F) ^ (d + 1 + k) else 0 :=
      fun m => ent_eq h hb hs m
    have e1 : ∑ m : Fin (cdim B (d + 1)), bdry B (d + 1) i m * bdryUp B (d + 1) m j =
        ∑ k ∈ Finset.range (d + 3), (-1 : F) ^ (d + 1 + k) * ent B (d + 1) i ((cells (d + 1)).idxOf (s.eraseIdx k)) := by
      simp only [hup, Finset.mul_sum]
      rw [Finset.sum_comm]
      apply Finset.sum_congr rfl
      intro k hk
      rw [Finset.mem_range] at hk
      have hm := h.ok.closed (d + 1) s hsm k (by omega)
      have hlt : (cells (d + 1)).idxOf (s.eraseIdx k) < cdim B (d + 1) := by rw [hc]; exact List.idxOf_lt_length_iff.2 hm
      rw [Finset.sum_eq_single (⟨_, hlt⟩ : Fin (cdim B (d + 1)))]
      · rw [if_pos rfl, mul_comm]; rfl
      · intro b _ hb
        rw [if_neg (fun e => hb (Fin.ext e.symm)), mul_zero]
      · intro h; exact absurd (Finset.mem_univ _) h
    rw [e1]
    have e2 : ∀ k ∈ Finset.range (d + 3), (-1 : F) ^ (d + 1 + k) * ent B (d + 1) i ((cells (d + 1)).idxOf (s.eraseIdx k)) =
        ∑ l ∈ Finset.range (d + 2), (-1 : F) ^ (2 * d + 1) * ((-1) ^ (k + l) *
          (if (cells d).idxOf ((s.eraseIdx k).eraseIdx l) = i then (1 : F) else 0)) := by
      intro k hk
      rw [Finset.mem_range] at hk
      have hm := h.ok.closed (d + 1) s hsm k (by omega)
      have hg : (cells (d + 1))[(cells (d + 1)).idxOf (s.eraseIdx k)]? = some (s.eraseIdx k) := by
        rw [List.getElem?_eq_getElem (List.idxOf_lt_length_iff.2 hm), List.getElem_idxOf]
      rw [ent_eq h hb hg, Finset.mul_sum]
      apply Finset.sum_congr rfl
      intro l _
      split
      · rw [mul_one, ← pow_add, ← pow_add]; congr 1; ring
      · simp
    rw [Finset.sum_congr rfl e2]
    simp only [← Finset.mul_sum]
    rw [alternating_double_sum (R := F) (d + 2) (fun k l => if (cells d).idxOf ((s.eraseIdx k).eraseIdx l) = i then (1 : F) else 0)]
    · rw [mul_zero]
    · intro k l hlk _
      rw [eraseIdx_eraseIdx_lt s k l hlk]

/-- simplices with distinct vertices give well-formed columns -/
theorem ColOK.vecOK (h : CellsOK cells) {d : Nat} {s : List Nat} (hs : s ∈ cells (d + 1)) (hn : s.Nodup) {col : SVec F}
    (hc : ColOK cells d s col) : VecOK col ∧ Below (cells d).length col := by
  have hlen := h.len _ _ hs
  have hidx : ∀ k, k < d + 2 → (cells d).idxOf (s.eraseIdx k) < (cells d).length := fun k hk =>
    List.idxOf_lt_length_iff.2 (h.closed d s hs k hk)
  have hnd : (col.map Prod.fst).Nodup := by
    rw [(hc.perm.map Prod.fst).nodup_iff, List.map_map]
    rw [List.nodup_map_iff_inj_on List.nodup_range]
    intro j hj k hk e
    simp only [Function.comp_apply] at e
    rw [List.mem_range] at hj hk
    have e' := (List.idxOf_inj (h.closed d s hs j hj)).1 e
    exact eraseIdx_inj_of_nodup hn (by omega) (by omega) e'
  refine ⟨⟨?_, ?_⟩, ?_⟩
  · have h1 : (col.map Prod.fst).Pairwise (· < ·) := by
      have := hc.sorted.and hnd
      exact this.imp (fun h => lt_of_le_of_ne h.1 h.2)
    rw [List.pairwise_map] at h1
    exact h1
  · intro p hp
    have := hc.perm.subset hp
    rw [List.mem_map] at this
    obtain ⟨k, _, rfl⟩ := this
    exact pow_ne_zero _ (neg_ne_zero.2 one_ne_zero)
  · intro p hp
    have := hc.perm.subset hp
    rw [List.mem_map] at this
    obtain ⟨k, hk, rfl⟩ := this
    exact hidx k (List.mem_range.1 hk)

theorem isChainComplex_of (h : Inv X cells) (hn : ∀ d s, s ∈ cells d → s.Nodup) (h0 : B[0]? = some (CMat.zero 1 (cells 0).length))
    (hl : B.length = X.ncells.length) (hb : ∀ d, d + 1 < X.ncells.length → ∃ M, B[d + 1]? = some M ∧ BdMat cells d M) :
    IsChainComplex B := by
  have hc := cdim_eq h h0 hl hb
  refine ⟨?_, ?_, fun k _ => square_zero h h0 hl hb k⟩
  · intro e; rw [e] at h0; simp at h0
  · intro k hk
    cases k with
    | zero =>
      have e : B.getD 0 ⟨0, []⟩ = CMat.zero 1 (cells 0).length := by rw [List.getD_eq_getElem?_getD, h0]; rfl
      have r0 : rdim B 0 = 1 := by unfold rdim; rw [e]; rfl
      rw [hc, r0, e]
      refine ⟨?_, rfl, by simp [CMat.zero]⟩
      intro c hcm
      have : c = [] := by simp [CMat.zero] at hcm; exact hcm.2
      subst this
      exact ⟨⟨List.Pairwise.nil, by intro p hp; simp at hp⟩, by intro p hp; simp at hp⟩
    | succ d =>
      obtain ⟨M, m1, m2⟩ := hb d (by omega)
      have e : B.getD (d + 1) ⟨0, []⟩ = M := by rw [List.getD_eq_getElem?_getD, m1]; rfl
      have r0 : rdim B (d + 1) = (cells d).length := by show cdim B d = _; exact hc d
      rw [hc, r0, e]
      refine ⟨?_, m2.nrow, m2.ncol⟩
      intro c hcm
      obtain ⟨j, hj, ej⟩ := List.getElem_of_mem hcm
      have hj' : j < (cells (d + 1)).length := by rw [← m2.ncol]; exact hj
      obtain ⟨c', c1, c2⟩ := m2.col j _ (List.getElem?_eq_getElem hj')
      rw [List.getElem?_eq_getElem hj, ej] at c1
      cases c1
      rw [m2.nrow]
      exact c2.vecOK h.ok (List.getElem_mem hj') (hn _ _ (List.getElem_mem hj'))

end cdim

end SCpx
end BATS
