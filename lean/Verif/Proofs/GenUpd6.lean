import Verif.Proofs.GenUpd5

set_option linter.unusedSectionVars false
set_option linter.unusedVariables false
set_option linter.unusedSimpArgs false

/-! # `UpdateInfo2` describes the difference of two filtrations -/

namespace BATS.GenUpd
open Reduction Matrix DG SCpx UpdInfo

variable {F : Type} [Field F] [DecidableEq F]

/-- incidence of the `d`-simplex `t` in the `(d+1)`-simplex `s` -/
def inc (F : Type) [Field F] (d : Nat) (s t : List Nat) : F := ∑ k ∈ Finset.range (d + 2), if s.eraseIdx k = t then (-1 : F) ^ (d + k) else 0

theorem inc_eq_zero {d : Nat} {s t : List Nat} (h : ∀ k, k < d + 2 → s.eraseIdx k ≠ t) : inc F d s t = 0 := by
  unfold inc
  apply Finset.sum_eq_zero
  intro k hk
  rw [if_neg (h k (Finset.mem_range.1 hk))]

section
variable {X : SCpx} {cells : Cells} {B : List (CMat F)}

theorem idxOf_eq_iff (h : CellsOK cells) {d i : Nat} {s t : List Nat} (hs : s ∈ cells d) (ht : (cells d)[i]? = some t) : (cells d).idxOf s = i ↔ s = t := by
  obtain ⟨hi, e⟩ := List.getElem?_eq_some_iff.1 ht
  constructor
  · intro h1
    rw [← e, ← List.getElem_idxOf (List.idxOf_lt_length_iff.2 hs)]
    simp only [h1]
  · rintro rfl
    rw [← e]; exact List.Nodup.idxOf_getElem (h.nodup d) i hi

theorem ent_inc (h : Inv X cells) (hb : ∀ d, d + 1 < X.ncells.length → ∃ M, B[d + 1]? = some M ∧ BdMat cells d M) {d i j : Nat} {s t : List Nat}
    (hs : (cells (d + 1))[j]? = some s) (ht : (cells d)[i]? = some t) : ent B (d + 1) i j = inc F d s t := by
  rw [ent_eq h hb hs]
  unfold inc
  apply Finset.sum_congr rfl
  intro k hk
  have hm := h.ok.closed d s (List.mem_of_getElem? hs) k (Finset.mem_range.1 hk)
  by_cases hc : s.eraseIdx k = t
  · rw [if_pos hc, if_pos ((idxOf_eq_iff h.ok hm ht).2 hc)]
  · rw [if_neg hc, if_neg (fun e => hc ((idxOf_eq_iff h.ok hm ht).1 e))]

theorem boundary_ok (h : Inv X cells) {d j : Nat} {s : List Nat} (hg : (cells (d + 1))[j]? = some s) :
    ∃ f c, X.boundary (d + 1) j = .ok (f, c) ∧ Block cells d s f c := by
  have hd : d + 1 < X.ncells.length := by
    by_contra hc
    rw [h.top _ (by omega)] at hg; simp at hg
  obtain ⟨Fs, Cs, a1, a2, a3, a4, a5⟩ := h.bd d hd
  obtain ⟨hF, hC⟩ := BdOK.lengths (X := X) a3 a4 a5
  obtain ⟨f, c, b1, b2, b3⟩ := a5 j s hg
  have hjl := (List.getElem?_eq_some_iff.1 hg).1
  have hmul := Nat.mul_le_mul_left (d + 2) (show j + 1 ≤ (cells (d + 1)).length by omega)
  refine ⟨f, c, ?_, b3⟩
  unfold SCpx.boundary
  rw [show d + 1 - 1 = d by omega, rd_some a1, bind_ok, rd_some a2, bind_ok, if_neg, pure_ok]
  · rw [flatten_slice_uniform hF b1, flatten_slice_uniform hC b2]
  · rw [flatten_length_uniform hF, flatten_length_uniform hC, a3, a4]
    simp only [Bool.or_self, decide_eq_true_eq, not_lt]
    exact hmul

theorem bdryEntries_ok (ip : List Nat) : ∀ (f : List Nat) (c : List Int), f.length ≤ c.length → (∀ x ∈ f, x < ip.length) →
    bdryEntries ip f c = .ok ((f.zip c).map (fun p => (ip.getD p.1 0, p.2)))
  | [], c, _, _ => by simp [bdryEntries]
  | x :: f, [], h, _ => by simp at h
  | x :: f, v :: c, h, hx => by
    have ih := bdryEntries_ok ip f c (by simpa using h) (fun y hy => hx y (by simp [hy]))
    have hxl := hx x (by simp)
    have r : rd ip x = .ok (ip.getD x 0) := by
      rw [rd_lt hxl, List.getD_eq_getElem?_getD, List.getElem?_eq_getElem hxl]; rfl
    rw [bdryEntries, r, bind_ok, ih, bind_ok]
    rfl

theorem coef_castInts (v : List (Nat × Int)) (i : Nat) : coef (SVec.castInts (F := F) v) i = coef (v.map (fun p => (p.1, (p.2 : F)))) i := by
  unfold SVec.castInts
  induction v with
  | nil => rfl
  | cons p v ih =>
    rw [List.map_cons, List.filter_cons]
    by_cases h : ((p.2 : F)) ≠ 0
    · rw [if_pos (by simpa using h), coef_cons', coef_cons', ih]
    · rw [if_neg (by simpa using h), coef_cons', ih]
      have : (p.2 : F) = 0 := by simpa using h
      simp [this]

/-- the column stored for an inserted cell -/
theorem insertedCol_spec (h : Inv X cells) {iperms2 : List (List Nat)} {p2 ip2 : List Nat} {d j : Nat} {s : List Nat} (hs : (cells (d + 1))[j]? = some s) (hn : s.Nodup)
    (hp2 : IsPermOf (cells d).length p2) (hip2 : IsPermOf (cells d).length ip2) (hinv : ∀ i x : Nat, p2[i]? = some x ↔ ip2[x]? = some i)
    (hr : rd iperms2 d = .ok ip2) :
    ∃ c, insertedCol X iperms2 (d + 1) j = .ok c ∧ VecOK (SVec.castInts (F := F) c) ∧ Below (cells d).length (SVec.castInts (F := F) c) ∧
      ∀ i, i < (cells d).length → coef (SVec.castInts (F := F) c) i = inc F d s (cellAt (cells d) p2 i) := by
  obtain ⟨f, c, b1, b2⟩ := boundary_ok h hs
  have hsm := List.mem_of_getElem? hs
  have hlen := h.ok.len _ _ hsm
  have hil := Perm.isPerm_length hip2
  have hidx : ∀ k, k < d + 2 → (cells d).idxOf (s.eraseIdx k) < (cells d).length := fun k hk => List.idxOf_lt_length_iff.2 (h.ok.closed d s hsm k hk)
  have hfl : ∀ x ∈ f, x < ip2.length := by
    intro x hx
    obtain ⟨i, hi, e⟩ := List.getElem_of_mem hx
    have hz : (f.zip c)[i]? = some (x, c[i]'(by rw [b2.lc, ← b2.lf]; exact hi)) := by
      rw [List.getElem?_zip_eq_some]
      exact ⟨by rw [List.getElem?_eq_getElem hi, e], List.getElem?_eq_getElem _⟩
    have := b2.perm.subset (List.mem_of_getElem? hz)
    unfold facePairs at this
    rw [List.mem_map] at this
    obtain ⟨k, hk, e'⟩ := this
    have e1 : (cells d).idxOf (s.eraseIdx k) = x := congrArg Prod.fst e'
    rw [← e1, hil]
    exact hidx k (List.mem_range.1 hk)
  -- the entries
  have hE := bdryEntries_ok ip2 f c (by rw [b2.lf, b2.lc]) hfl
  have hP : ((f.zip c).map (fun p => (ip2.getD p.1 0, p.2))).Perm ((List.range (d + 2)).map (fun k => (ip2.getD ((cells d).idxOf (s.eraseIdx k)) 0, (-1 : Int) ^ (d + k)))) := by
    refine (b2.perm.map _).trans ?_
    unfold facePairs
    rw [List.map_map]; rfl
  obtain ⟨c', hc'⟩ : ∃ c', c' = ((f.zip c).map (fun p => (ip2.getD p.1 0, p.2))).insertionSort (fun x y => x.1 ≤ y.1) := ⟨_, rfl⟩
  have hP' : c'.Perm ((List.range (d + 2)).map (fun k => (ip2.getD ((cells d).idxOf (s.eraseIdx k)) 0, (-1 : Int) ^ (d + k)))) := by
    rw [hc']; exact (List.perm_insertionSort _ _).trans hP
  have hnd : (c'.map Prod.fst).Nodup := by
    rw [(hP'.map Prod.fst).nodup_iff, List.map_map, List.nodup_map_iff_inj_on List.nodup_range]
    intro a ha b hb e
    rw [List.mem_range] at ha hb
    have e1 := getD_inj _ _ hip2 _ _ (hidx a ha) (hidx b hb) e
    have e2 := (List.idxOf_inj (h.ok.closed d s hsm a ha)).1 e1
    exact eraseIdx_inj_of_nodup hn (by omega) (by omega) e2
  have hso : c'.Pairwise (fun x y => x.1 < y.1) := by
    have htot : Std.Total (fun p q : Nat × Int => p.1 ≤ q.1) := ⟨fun a b => Nat.le_total _ _⟩
    have htr : IsTrans (Nat × Int) (fun p q : Nat × Int => p.1 ≤ q.1) := ⟨fun a b c => Nat.le_trans⟩
    have h1 : c'.Pairwise (fun x y => x.1 ≤ y.1) := by rw [hc']; exact List.pairwise_insertionSort _ _
    have h2 : c'.Pairwise (fun x y => x.1 ≠ y.1) := by
      unfold List.Nodup at hnd
      rw [List.pairwise_map] at hnd; exact hnd
    exact (h1.and h2).imp (fun h => lt_of_le_of_ne h.1 h.2)
  refine ⟨c', ?_, ⟨?_, ?_⟩, ?_, ?_⟩
  · unfold insertedCol
    rw [if_neg (by omega), b1, bind_ok, show d + 1 - 1 = d by omega, hr, bind_ok]
    show (do let es ← bdryEntries ip2 f c; _) = _
    rw [hE, bind_ok, ← hc']; rfl
  · unfold SVec.castInts
    apply List.Pairwise.filter
    rw [List.pairwise_map]; exact hso
  · intro q hq
    unfold SVec.castInts at hq
    simpa using (List.mem_filter.1 hq).2
  · intro q hq
    unfold SVec.castInts at hq
    obtain ⟨r, hr', e⟩ := List.mem_map.1 (List.mem_filter.1 hq).1
    obtain ⟨k, hk, e'⟩ := List.mem_map.1 (hP'.subset hr')
    rw [← congrArg Prod.fst e]
    show r.1 < _
    rw [← congrArg Prod.fst e']
    exact sigma_getD _ _ hip2 _ (hidx k (List.mem_range.1 hk))
  · intro i hi
    rw [coef_castInts, coef_perm (hP'.map _), List.map_map]
    have : ((fun p : Nat × Int => (p.1, (p.2 : F))) ∘ fun k => (ip2.getD ((cells d).idxOf (s.eraseIdx k)) 0, (-1 : Int) ^ (d + k))) =
        fun k => (ip2.getD ((cells d).idxOf (s.eraseIdx k)) 0, (-1 : F) ^ (d + k)) := by
      funext k; simp
    rw [this, coef_map_range]
    unfold inc
    apply Finset.sum_congr rfl
    intro k hk
    rw [Finset.mem_range] at hk
    have hm := h.ok.closed d s hsm k hk
    have hpi := sigma_getD _ _ hp2 i hi
    simp only at hpi
    have hcell : (cells d)[p2.getD i 0]? = some (cellAt (cells d) p2 i) := by
      rw [cellAt, List.getD_eq_getElem?_getD (l := cells d), List.getElem?_eq_getElem hpi]; rfl
    have hiff := idxOf_eq_iff h.ok hm hcell
    have hpi' : p2[i]? = some (p2.getD i 0) := by
      rw [List.getD_eq_getElem?_getD, List.getElem?_eq_getElem (by rw [Perm.isPerm_length hp2]; exact hi)]; rfl
    have hq := (hinv _ _).1 hpi'
    have hq' : ip2.getD (p2.getD i 0) 0 = i := by rw [List.getD_eq_getElem?_getD, hq]; rfl
    by_cases hc : s.eraseIdx k = cellAt (cells d) p2 i
    · rw [if_pos hc, if_pos]
      rw [hiff.2 hc]; exact hq'
    · rw [if_neg hc, if_neg]
      intro e
      apply hc
      rw [← hiff]
      exact getD_inj _ _ hip2 _ _ (hidx k hk) hpi (by rw [e, hq'])

theorem findIdx_spec (h : Inv X cells) {d : Nat} {σ : List Nat} (hl : σ.length = d + 1) : X.findIdx σ = if σ ∈ cells d then some ((cells d).idxOf σ) else none := by
  have hne : σ ≠ [] := by rintro rfl; simp at hl
  by_cases hm : σ ∈ cells d
  · rw [if_pos hm]
    have := h.trie.get h.ok hne (by rw [hl]; exact hm)
    rw [hl] at this; exact this
  · rw [if_neg hm]
    exact h.trie.none hne (by rw [hl]; exact hm)

end

end BATS.GenUpd
