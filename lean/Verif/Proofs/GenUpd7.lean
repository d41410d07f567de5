import Verif.Proofs.GenUpd6

set_option linter.unusedSectionVars false
set_option linter.unusedVariables false
set_option linter.unusedSimpArgs false

/-! # `UpdateInfo2` describes the difference of two filtrations: all dimensions -/

namespace BATS.GenUpd
open Reduction Matrix DG SCpx UpdInfo

variable {F : Type} [Field F] [DecidableEq F]

abbrev RowT := Nat × List Nat × List (List (Nat × Int)) × List Nat

theorem rowsInfo_spec {X1 X2 : SCpx} {iperms1 perms2 iperms2 : List (List Nat)} {P : Nat → RowT → Prop} : ∀ todo dim,
    (∀ k, dim ≤ k → k < dim + todo → ∃ r, rowInfo X1 X2 iperms1 perms2 iperms2 k = .ok r ∧ P k r) →
    ∃ rs, rowsInfo X1 X2 iperms1 perms2 iperms2 todo dim = .ok rs ∧ rs.length = todo ∧ ∀ i, i < todo → P (dim + i) (rs.getD i (0, [], [], []))
  | 0, dim, _ => ⟨[], rfl, rfl, by intro i hi; omega⟩
  | todo + 1, dim, h => by
    obtain ⟨r, r1, r2⟩ := h dim (le_refl _) (by omega)
    obtain ⟨rs, s1, s2, s3⟩ := rowsInfo_spec todo (dim + 1) (fun k h1 h2 => h k (by omega) (by omega))
    refine ⟨r :: rs, ?_, by simp [s2], ?_⟩
    · rw [rowsInfo, r1, bind_ok, s1, bind_ok]; rfl
    · intro i hi
      cases i with
      | zero => simpa using r2
      | succ i =>
        have := s3 i (by omega)
        rw [show dim + (i + 1) = dim + 1 + i by omega]
        simpa using this

/-- what is known about dimension `k` -/
structure DimRow (F : Type) [Field F] [DecidableEq F] (cells1 cells2 : Cells) (P1 P2 : Nat → List Nat) (k : Nat) (r : RowT) : Prop where
  row : RowOK (cells1 k) (cells2 k) (P1 k) (P2 k) r.1 r.2.1 r.2.2.2
  len : r.2.2.1.length = r.2.1.length
  col : ∀ d, k = d + 1 → ∀ a, a < r.2.1.length → VecOK (SVec.castInts (F := F) (r.2.2.1.getD a [])) ∧ Below (cells2 d).length (SVec.castInts (F := F) (r.2.2.1.getD a [])) ∧
    ∀ i, i < (cells2 d).length → coef (SVec.castInts (F := F) (r.2.2.1.getD a [])) i = inc F d (cellAt (cells2 k) (P2 k) (r.2.1.getD a 0)) (cellAt (cells2 d) (P2 d) i)

theorem cellAt_get {L : List (List Nat)} {p : List Nat} (hp : IsPermOf L.length p) {f : Nat} (hf : f < L.length) :
    L[p.getD f 0]? = some (cellAt L p f) := by
  have hpi := sigma_getD _ _ hp f hf
  simp only at hpi
  rw [cellAt, List.getD_eq_getElem?_getD (l := L), List.getElem?_eq_getElem hpi]; rfl

theorem cellAt_mem {L : List (List Nat)} {p : List Nat} (hp : IsPermOf L.length p) {f : Nat} (hf : f < L.length) : cellAt L p f ∈ L :=
  List.mem_of_getElem? (cellAt_get hp hf)

theorem dimRow_spec {X1 X2 : SCpx} {cells1 cells2 : Cells} (h1 : Inv X1 cells1) (h2 : Inv X2 cells2) (hn : ∀ d s, s ∈ cells2 d → s.Nodup) (h0 : ∀ s ∈ cells2 0, s ∈ cells1 0)
    {P1 P2 IP1 IP2 : Nat → List Nat} {iperms1 perms2 iperms2 : List (List Nat)} {N : Nat} (hN1 : X1.ncells.length = N) (hN2 : X2.ncells.length = N)
    (hp1 : ∀ k, k < N → IsPermOf (cells1 k).length (P1 k)) (hp2 : ∀ k, k < N → IsPermOf (cells2 k).length (P2 k))
    (hip1 : ∀ k, k < N → IsPermOf (cells1 k).length (IP1 k)) (hip2 : ∀ k, k < N → IsPermOf (cells2 k).length (IP2 k))
    (hv1 : ∀ k, k < N → ∀ i x : Nat, (P1 k)[i]? = some x ↔ (IP1 k)[x]? = some i) (hv2 : ∀ k, k < N → ∀ i x : Nat, (P2 k)[i]? = some x ↔ (IP2 k)[x]? = some i)
    (r1 : ∀ k, k < N → rd iperms1 k = .ok (IP1 k)) (r2 : ∀ k, k < N → rd perms2 k = .ok (P2 k)) (r3 : ∀ k, k < N → rd iperms2 k = .ok (IP2 k)) {k : Nat} (hk : k < N) :
    ∃ r, rowInfo X1 X2 iperms1 perms2 iperms2 k = .ok r ∧ DimRow F cells1 cells2 P1 P2 k r := by
  -- the inserted columns
  have hcols : ∃ col : Nat → List (Nat × Int), ∀ f, f < (cells2 k).length → cellAt (cells2 k) (P2 k) f ∉ cells1 k →
      insertedCol X2 iperms2 k ((P2 k).getD f 0) = .ok (col f) ∧ ∀ d, k = d + 1 → VecOK (SVec.castInts (F := F) (col f)) ∧ Below (cells2 d).length (SVec.castInts (F := F) (col f)) ∧
        ∀ i, i < (cells2 d).length → coef (SVec.castInts (F := F) (col f)) i = inc F d (cellAt (cells2 k) (P2 k) f) (cellAt (cells2 d) (P2 d) i) := by
    cases k with
    | zero =>
      refine ⟨fun _ => [], fun f hf hm => ?_⟩
      exact absurd (h0 _ (cellAt_mem (hp2 0 hk) hf)) hm
    | succ d =>
      have key : ∀ f, ∃ c, f < (cells2 (d + 1)).length → insertedCol X2 iperms2 (d + 1) ((P2 (d + 1)).getD f 0) = .ok c ∧ VecOK (SVec.castInts (F := F) c) ∧
          Below (cells2 d).length (SVec.castInts (F := F) c) ∧
          ∀ i, i < (cells2 d).length → coef (SVec.castInts (F := F) c) i = inc F d (cellAt (cells2 (d + 1)) (P2 (d + 1)) f) (cellAt (cells2 d) (P2 d) i) := by
        intro f
        by_cases hf : f < (cells2 (d + 1)).length
        · obtain ⟨c, c1, c2, c3, c4⟩ := insertedCol_spec (F := F) h2 (cellAt_get (hp2 _ hk) hf) (hn _ _ (cellAt_mem (hp2 _ hk) hf)) (hp2 d (by omega)) (hip2 d (by omega))
            (hv2 d (by omega)) (r3 d (by omega))
          exact ⟨c, fun _ => ⟨c1, c2, c3, c4⟩⟩
        · exact ⟨[], fun h => absurd h hf⟩
      choose col hcol using key
      refine ⟨col, fun f hf _ => ⟨(hcol f hf).1, ?_⟩⟩
      intro d' e
      have : d = d' := by omega
      subst this
      exact (hcol f hf).2
  obtain ⟨col, hcol⟩ := hcols
  obtain ⟨nd, ins, perm, e1, e2⟩ := rowInfo_spec (X1 := X1) (X2 := X2) (iperms2 := iperms2) (h1.ok.nodup k) (h2.ok.nodup k) (hp1 k hk) (hp2 k hk) (hip1 k hk) (hv1 k hk)
    (by unfold SCpx.numCells; exact rd_some (h1.dim k (by omega)).nc) (by unfold SCpx.numCells; exact rd_some (h2.dim k (by omega)).nc)
    (getSimplices_spec h2 (by omega)) (r2 k hk) (r1 k hk) (fun σ hσ => findIdx_spec h1 (h2.ok.len k σ hσ)) (fun f hf hm => (hcol f hf hm).1)
  refine ⟨_, e1, e2, by simp, ?_⟩
  intro d hd a ha
  have hmem : ins.getD a 0 ∈ ins := getD_mem_of_lt ha
  obtain ⟨hlt, hm⟩ := (e2.insMem _).1 hmem
  have := (hcol _ hlt hm).2 d hd
  have eg : (ins.map col).getD a [] = col (ins.getD a 0) := by
    rw [List.getD_eq_getElem?_getD, List.getD_eq_getElem?_getD, List.getElem?_map, List.getElem?_eq_getElem ha]; rfl
  show VecOK (SVec.castInts (F := F) ((ins.map col).getD a [])) ∧ Below (cells2 d).length (SVec.castInts (F := F) ((ins.map col).getD a [])) ∧
    ∀ i, i < (cells2 d).length → coef (SVec.castInts (F := F) ((ins.map col).getD a [])) i = inc F d (cellAt (cells2 k) (P2 k) (ins.getD a 0)) (cellAt (cells2 d) (P2 d) i)
  rw [eg]; exact this

variable {T : Type} [LinearOrder T]

/-- the filtration data of one side -/
structure Side (Φ : Filt T) (cells : Cells) (N : Nat) : Prop where
  inv : Inv Φ.X cells
  num : Φ.X.ncells.length = N
  len : Φ.val.length = N
  row : ∀ k, (Φ.val.getD k []).length = (cells k).length

theorem Side.perm {Φ : Filt T} {cells : Cells} {N : Nat} (h : Side Φ cells N) (k : Nat) : IsPermOf (cells k).length ((FiltCpx.filtrationSortperm Φ.val).getD k []) := by
  rw [filtrationSortperm_getD, ← h.row k]
  exact Perm.stableSortperm_perm _

theorem Side.plen {Φ : Filt T} {cells : Cells} {N : Nat} (h : Side Φ cells N) : (FiltCpx.filtrationSortperm Φ.val).length = N := by
  unfold FiltCpx.filtrationSortperm; rw [List.length_map, h.len]

theorem rd_getD' {α : Type} {l : List (List α)} {k : Nat} (h : k < l.length) : rd l k = .ok (l.getD k []) := by
  rw [rd_lt h, List.getD_eq_getElem?_getD, List.getElem?_eq_getElem h]; rfl

/-- the order of the cells -/
def ordOf (Φ : Filt T) (k : Nat) : List Nat := (FiltCpx.filtrationSortperm Φ.val).getD k []

theorem ofFilt_rows {Φ1 Φ2 : Filt T} {cells1 cells2 : Cells} {N : Nat} (s1 : Side Φ1 cells1 N) (s2 : Side Φ2 cells2 N) (hn : ∀ d s, s ∈ cells2 d → s.Nodup)
    (h0 : ∀ s ∈ cells2 0, s ∈ cells1 0) :
    ∃ u : UpdInfo T, UpdInfo.ofFilt Φ1 Φ2 = .ok u ∧ u.newval = Φ2.val ∧ u.perms2 = FiltCpx.filtrationSortperm Φ2.val ∧ u.reversed = false ∧
      u.ndel.length = N ∧ u.insIdx.length = N ∧ u.insCols.length = N ∧ u.perm.length = N ∧
      ∀ k, k < N → DimRow F cells1 cells2 (ordOf Φ1) (ordOf Φ2) k (u.ndel.getD k 0, u.insIdx.getD k [], u.insCols.getD k [], u.perm.getD k []) := by
  obtain ⟨q1, a1, a2, a3⟩ := filtrationIperm_spec (FiltCpx.filtrationSortperm Φ1.val) (fun k => (cells1 k).length) (fun k _ => s1.perm k)
  obtain ⟨q2, b1, b2, b3⟩ := filtrationIperm_spec (FiltCpx.filtrationSortperm Φ2.val) (fun k => (cells2 k).length) (fun k _ => s2.perm k)
  have l1 := s1.plen
  have l2 := s2.plen
  obtain ⟨rs, c1, c2, c3⟩ := rowsInfo_spec (P := DimRow F cells1 cells2 (ordOf Φ1) (ordOf Φ2)) N 0 (fun k _ hk =>
    dimRow_spec (F := F) s1.inv s2.inv hn h0 (P1 := ordOf Φ1) (P2 := ordOf Φ2) (IP1 := fun k => q1.getD k []) (IP2 := fun k => q2.getD k []) (N := N) s1.num s2.num
      (fun k _ => s1.perm k) (fun k _ => s2.perm k) (fun k hk => (a3 k (by omega)).1) (fun k hk => (b3 k (by omega)).1)
      (fun k hk => (a3 k (by omega)).2) (fun k hk => (b3 k (by omega)).2)
      (fun k hk => rd_getD' (by omega)) (fun k hk => rd_getD' (by omega)) (fun k hk => rd_getD' (by omega)) (by omega))
  refine ⟨⟨rs.map (·.1), rs.map (·.2.1), rs.map (·.2.2.1), rs.map (·.2.2.2), Φ2.val, FiltCpx.filtrationSortperm Φ2.val, false⟩, ?_, rfl, rfl, rfl, by simp [c2], by simp [c2], by simp [c2], by simp [c2], ?_⟩
  · unfold UpdInfo.ofFilt
    rw [if_neg (by rw [s1.len, s2.len]; simp), a1, bind_ok, b1, bind_ok, s1.len, c1, bind_ok]; rfl
  · intro k hk
    have := c3 k hk
    rw [Nat.zero_add] at this
    have hkl : k < rs.length := by omega
    have e : rs.getD k (0, [], [], []) = rs[k] := by rw [List.getD_eq_getElem?_getD, List.getElem?_eq_getElem hkl]; rfl
    rw [e] at this
    have g1 : (rs.map (·.1)).getD k 0 = rs[k].1 := by rw [List.getD_eq_getElem?_getD, List.getElem?_map, List.getElem?_eq_getElem hkl]; rfl
    have g2 : (rs.map (·.2.1)).getD k [] = rs[k].2.1 := by rw [List.getD_eq_getElem?_getD, List.getElem?_map, List.getElem?_eq_getElem hkl]; rfl
    have g3 : (rs.map (·.2.2.1)).getD k [] = rs[k].2.2.1 := by rw [List.getD_eq_getElem?_getD, List.getElem?_map, List.getElem?_eq_getElem hkl]; rfl
    have g4 : (rs.map (·.2.2.2)).getD k [] = rs[k].2.2.2 := by rw [List.getD_eq_getElem?_getD, List.getElem?_map, List.getElem?_eq_getElem hkl]; rfl
    simp only [g1, g2, g3, g4]
    exact this

/-- the two complexes of one side -/
structure Cx (Φ : Filt T) (cells : Cells) (N : Nat) (B : List (CMat F)) (e : Nat) (D : List (CMat F)) : Prop where
  side : Side Φ cells N
  len : B.length = N
  cdim : ∀ k, cdim B k = (cells k).length
  bd : ∀ d, d + 1 < N → ∃ M, B[d + 1]? = some M ∧ BdMat cells d M
  sorted : DGSorted false e B (fun k i => ((FiltDG.sortPerms (deg false) Φ.val).getD k []).getD i 0) D

theorem sortPerms_false (val : List (List T)) : FiltDG.sortPerms (deg false) val = FiltCpx.filtrationSortperm val := by
  simp [FiltDG.sortPerms, deg]

theorem Cx.ent_succ {Φ : Filt T} {cells : Cells} {N e : Nat} {B D : List (CMat F)} (h : Cx Φ cells N B e D) {d i j : Nat} (hd : d + 1 < N) (hi : i < (cells d).length)
    (hj : j < (cells (d + 1)).length) : ent D (d + 1) i j = inc F d (cellAt (cells (d + 1)) (ordOf Φ (d + 1)) j) (cellAt (cells d) (ordOf Φ d) i) := by
  have := h.sorted.succ d i j (by rw [h.len]; exact hd) (by rw [h.cdim]; exact hi) (by rw [h.cdim]; exact hj)
  have e1 : dent false D (d + 1) i j = ent D (d + 1) i j := rfl
  rw [← e1, this]
  simp only [sortPerms_false]
  exact ent_inc h.side.inv (by rw [h.side.num]; exact h.bd) (cellAt_get (h.side.perm _) hj) (cellAt_get (h.side.perm _) hi)

theorem Cx.ent_zero {Φ : Filt T} {cells : Cells} {N e : Nat} {B D : List (CMat F)} (h : Cx Φ cells N B e D) {i j : Nat} (hi : i < e) (hj : j < (cells 0).length) : ent D 0 i j = 1 :=
  h.sorted.zero i j hi (by rw [h.cdim]; exact hj)

theorem valid_ofFilt {Φ1 Φ2 : Filt T} {cells1 cells2 : Cells} {N e : Nat} {B1 B2 D1 D2 : List (CMat F)} (c1 : Cx Φ1 cells1 N B1 e D1) (c2 : Cx Φ2 cells2 N B2 e D2)
    (hn : ∀ d s, s ∈ cells2 d → s.Nodup) (h0 : ∀ s ∈ cells2 0, s ∈ cells1 0) :
    ∃ u : UpdInfo T, UpdInfo.ofFilt Φ1 Φ2 = .ok u ∧ u.newval = Φ2.val ∧ u.perms2 = FiltCpx.filtrationSortperm Φ2.val ∧ u.perm.length = N ∧
      (∀ k, k < N → IsPermOf (cdim B1 k) (u.perm.getD k [])) ∧ Valid e N (cdim B1) (cdim B2) (permuted u.perm D1) (ent D2) u.ndel u.insIdx u.insCols := by
  obtain ⟨u, u1, u2, u3, _, l1, l2, l3, l4, hr⟩ := ofFilt_rows (F := F) c1.side c2.side hn h0
  have hrow : ∀ k, k < N → RowOK (cells1 k) (cells2 k) (ordOf Φ1 k) (ordOf Φ2 k) (u.ndel.getD k 0) (u.insIdx.getD k []) (u.perm.getD k []) := fun k hk => (hr k hk).row
  have hp1 : ∀ k, IsPermOf (cells1 k).length (ordOf Φ1 k) := fun k => c1.side.perm k
  have hp2 : ∀ k, IsPermOf (cells2 k).length (ordOf Φ2 k) := fun k => c2.side.perm k
  have hins0 : 0 < N → u.insIdx.getD 0 [] = [] := by
    intro hN
    rw [List.eq_nil_iff_forall_not_mem]
    intro f hf
    obtain ⟨h, hm⟩ := ((hrow 0 hN).insMem f).1 hf
    exact hm (h0 _ (cellAt_mem (hp2 0) h))
  have hper : ∀ k i, k < N → i < (cells1 k).length → (u.perm.getD k []).getD i 0 < (cells1 k).length := fun k i hk hi => sigma_getD _ _ (hrow k hk).isPerm i hi
  have hM1 : ∀ d i j, d + 1 < N → i < (cells1 d).length → j < (cells1 (d + 1)).length → permuted u.perm D1 (d + 1) i j =
      inc F d (cellAt (cells1 (d + 1)) (ordOf Φ1 (d + 1)) ((u.perm.getD (d + 1) []).getD j 0)) (cellAt (cells1 d) (ordOf Φ1 d) ((u.perm.getD d []).getD i 0)) := by
    intro d i j hd hi hj
    exact c1.ent_succ hd (hper d i (by omega) hi) (hper (d + 1) j hd hj)
  refine ⟨u, u1, u2, u3, l4, fun k hk => by rw [c1.cdim]; exact (hrow k hk).isPerm, l1, l2, l3, ?_, ?_, ?_, ?_, ?_, ?_, ?_, ?_, ?_, ?_⟩
  · intro k hk; rw [c1.cdim]; exact (hrow k hk).ndLe
  · intro k hk; rw [c1.cdim, c2.cdim]; exact (hrow k hk).dim
  · intro k hk; exact (hrow k hk).sorted
  · intro k hk r hm; rw [c2.cdim]; exact (((hrow k hk).insMem r).1 hm).1
  · intro k hk; exact (hr k hk).len
  · intro k hk c hc
    obtain ⟨a, ha, ea⟩ := List.getElem_of_mem hc
    have hlen : (u.insCols.getD k []).length = (u.insIdx.getD k []).length := (hr k hk).len
    cases k with
    | zero =>
      rw [hins0 hk] at hlen
      have : a < 0 := by rw [hlen] at ha; exact ha
      omega
    | succ d =>
      obtain ⟨v1, v2, _⟩ := (hr (d + 1) hk).col d rfl a (by show a < (u.insIdx.getD (d + 1) []).length; omega)
      have eg : (u.insCols.getD (d + 1) []).getD a [] = c := by rw [List.getD_eq_getElem?_getD (l := u.insCols.getD (d + 1) []), List.getElem?_eq_getElem ha]; exact ea
      simp only [eg] at v1 v2
      refine ⟨v1, ?_⟩
      show Below (cdim B2 d) _
      rw [c2.cdim]; exact v2
  · intro k hk i x h1 h2 h3
    rw [c1.cdim] at h1 h2 h3
    rw [hM1 k i x hk h2 (by omega)]
    apply inc_eq_zero
    intro q hq e1
    have hg := (hrow k (by omega)).gone i h1 h2
    have ho := (hrow (k + 1) hk).old x h3
    apply hg
    rw [← e1]
    exact c2.side.inv.ok.closed k _ ho q hq
  · intro i j hi hj hm
    rw [c2.cdim] at hj
    by_cases hN : 0 < N
    · rw [hins0 hN, oldRow_nil]
      have hd := (hrow 0 hN).dim
      rw [hins0 hN] at hd
      simp only [List.length_nil] at hd
      rw [c2.ent_zero hi hj]
      show 1 = ent D1 0 i j
      rw [c1.ent_zero hi (by omega)]
    · exfalso
      have : cells2 0 = [] := c2.side.inv.top 0 (by rw [c2.side.num]; omega)
      rw [this] at hj; simp at hj
  · intro k hk i j hi hj hm
    rw [c2.cdim] at hi hj
    rw [c2.ent_succ hk hi hj]
    have hkj : cellAt (cells2 (k + 1)) (ordOf Φ2 (k + 1)) j ∈ cells1 (k + 1) := by
      by_contra hc
      exact hm (((hrow (k + 1) hk).insMem j).2 ⟨hj, hc⟩)
    obtain ⟨kj1, kj2⟩ := (hrow (k + 1) hk).kept j hj hkj
    by_cases hci : i ∈ u.insIdx.getD k []
    · rw [if_pos hci]
      apply inc_eq_zero
      intro q hq e1
      apply (((hrow k (by omega)).insMem i).1 hci).2
      rw [← e1]
      exact c1.side.inv.ok.closed k _ hkj q hq
    · rw [if_neg hci]
      have hki : cellAt (cells2 k) (ordOf Φ2 k) i ∈ cells1 k := by
        by_contra hc
        exact hci (((hrow k (by omega)).insMem i).2 ⟨hi, hc⟩)
      obtain ⟨ki1, ki2⟩ := (hrow k (by omega)).kept i hi hki
      rw [hM1 k _ _ hk (by omega) (by omega), kj2, ki2]
  · intro k hk i a hi ha
    cases k with
    | zero =>
      rw [hins0 hk] at ha; simp at ha
    | succ d =>
      have hi' : i < cdim B2 d := hi
      rw [c2.cdim] at hi'
      obtain ⟨_, _, v3⟩ := (hr (d + 1) hk).col d rfl a ha
      have v3' := v3 i hi'
      have hmem := ((hrow (d + 1) hk).insMem _).1 (getD_mem_of_lt ha)
      rw [c2.ent_succ hk hi' hmem.1]
      exact v3'.symm

end BATS.GenUpd
