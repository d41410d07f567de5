import Verif.Proofs.GenUpd4
import Verif.Proofs.Sublevel
import Verif.Proofs.SimplicialMap

set_option linter.unusedSectionVars false
set_option linter.unusedVariables false
set_option linter.unusedSimpArgs false

/-! # What `UpdateInfo2` computes in one dimension -/

namespace BATS.GenUpd
open Reduction Matrix DG SCpx UpdInfo

/-! ### one dimension -/

/-- the cell at position `f` of the filtration -/
def cellAt (L : List (List Nat)) (p : List Nat) (f : Nat) : List Nat := L.getD (p.getD f 0) []

/-- is the cell at position `f` of the second filtration in the first complex? -/
def keptB (L1 L2 : List (List Nat)) (p2 : List Nat) (f : Nat) : Bool := decide (cellAt L2 p2 f ∈ L1)

/-- position in the first filtration of the cell at position `f` of the second -/
def oldPos (L1 L2 : List (List Nat)) (p2 ip1 : List Nat) (f : Nat) : Nat := ip1.getD (L1.idxOf (cellAt L2 p2 f)) 0

def accOf (L1 L2 : List (List Nat)) (p2 ip1 : List Nat) (f : Nat) : List Nat := ((List.range f).filter (keptB L1 L2 p2)).map (oldPos L1 L2 p2 ip1)

def insOf (L1 L2 : List (List Nat)) (p2 : List Nat) (f : Nat) : List Nat := (List.range f).filter (fun x => !keptB L1 L2 p2 x)

theorem accOf_succ_pos {L1 L2 : List (List Nat)} {p2 ip1 : List Nat} {f : Nat} (h : keptB L1 L2 p2 f = true) : accOf L1 L2 p2 ip1 (f + 1) = accOf L1 L2 p2 ip1 f ++ [oldPos L1 L2 p2 ip1 f] := by
  unfold accOf; rw [List.range_succ, List.filter_append, List.filter_cons, if_pos h]; simp

theorem accOf_succ_neg {L1 L2 : List (List Nat)} {p2 ip1 : List Nat} {f : Nat} (h : keptB L1 L2 p2 f = false) : accOf L1 L2 p2 ip1 (f + 1) = accOf L1 L2 p2 ip1 f := by
  unfold accOf; rw [List.range_succ, List.filter_append, List.filter_cons, if_neg (by simp [h])]; simp

theorem insOf_succ_pos {L1 L2 : List (List Nat)} {p2 : List Nat} {f : Nat} (h : keptB L1 L2 p2 f = true) : insOf L1 L2 p2 (f + 1) = insOf L1 L2 p2 f := by
  unfold insOf; rw [List.range_succ, List.filter_append, List.filter_cons, if_neg (by simp [h])]; simp

theorem insOf_succ_neg {L1 L2 : List (List Nat)} {p2 : List Nat} {f : Nat} (h : keptB L1 L2 p2 f = false) : insOf L1 L2 p2 (f + 1) = insOf L1 L2 p2 f ++ [f] := by
  unfold insOf; rw [List.range_succ, List.filter_append, List.filter_cons, if_pos (by simp [h])]; simp

theorem accOf_len (L1 L2 : List (List Nat)) (p2 ip1 : List Nat) (f : Nat) : (accOf L1 L2 p2 ip1 f).length + (insOf L1 L2 p2 f).length = f := by
  induction f with
  | zero => rfl
  | succ f ih =>
    by_cases h : keptB L1 L2 p2 f = true
    · rw [accOf_succ_pos h, insOf_succ_pos h, List.length_append, List.length_singleton]; omega
    · have h' : keptB L1 L2 p2 f = false := by simpa using h
      rw [accOf_succ_neg h', insOf_succ_neg h', List.length_append, List.length_singleton]; omega

theorem accOf_mono (L1 L2 : List (List Nat)) (p2 ip1 : List Nat) {f n : Nat} (h : f ≤ n) : accOf L1 L2 p2 ip1 f <+: accOf L1 L2 p2 ip1 n := by
  induction n, h using Nat.le_induction with
  | base => exact List.prefix_rfl
  | succ n _ ih =>
    by_cases h : keptB L1 L2 p2 n = true
    · rw [accOf_succ_pos h]; exact ih.trans (List.prefix_append _ _)
    · rw [accOf_succ_neg (by simpa using h)]; exact ih

theorem insOf_mem {L1 L2 : List (List Nat)} {p2 : List Nat} {n f : Nat} : f ∈ insOf L1 L2 p2 n ↔ f < n ∧ cellAt L2 p2 f ∉ L1 := by
  unfold insOf keptB; simp

theorem insOf_sorted (L1 L2 : List (List Nat)) (p2 : List Nat) (n : Nat) : (insOf L1 L2 p2 n).Pairwise (· < ·) :=
  List.pairwise_lt_range.filter _

theorem insertedBefore_insOf (L1 L2 : List (List Nat)) (p2 : List Nat) {f n : Nat} (h : f ≤ n) : insertedBefore (insOf L1 L2 p2 n) f = (insOf L1 L2 p2 f).length := by
  induction n, h using Nat.le_induction with
  | base =>
    unfold insertedBefore; rw [List.filter_eq_self.2]
    intro r hr; simpa using (insOf_mem.1 hr).1
  | succ n hn ih =>
    by_cases h : keptB L1 L2 p2 n = true
    · rw [insOf_succ_pos h]; exact ih
    · rw [insOf_succ_neg (by simpa using h)]
      unfold insertedBefore at ih ⊢
      rw [List.filter_append, List.length_append, ih, List.filter_cons, if_neg (by simp; omega)]; rfl

/-- the entry of the permutation found at a kept cell -/
theorem accOf_oldRow {L1 L2 : List (List Nat)} {p2 ip1 : List Nat} {f n : Nat} (hf : f < n) (hk : cellAt L2 p2 f ∈ L1) :
    oldRow (insOf L1 L2 p2 n) f < (accOf L1 L2 p2 ip1 n).length ∧ (accOf L1 L2 p2 ip1 n)[oldRow (insOf L1 L2 p2 n) f]? = some (oldPos L1 L2 p2 ip1 f) := by
  have hb : keptB L1 L2 p2 f = true := by simpa [keptB] using hk
  have e : oldRow (insOf L1 L2 p2 n) f = (accOf L1 L2 p2 ip1 f).length := by
    unfold oldRow; rw [insertedBefore_insOf _ _ _ (le_of_lt hf)]
    have := accOf_len L1 L2 p2 ip1 f; omega
  have hpre := accOf_mono L1 L2 p2 ip1 (show f + 1 ≤ n by omega)
  rw [accOf_succ_pos hb] at hpre
  obtain ⟨t, ht⟩ := hpre
  rw [e, ← ht]
  constructor
  · simp
  · rw [List.append_assoc, List.getElem?_append_right (le_refl _)]; simp

section loops
variable {X1 X2 : SCpx} {iperms2 : List (List Nat)} {dim n1 : Nat} {L1 L2 : List (List Nat)} {p2 ip1 : List Nat} {col : Nat → List (Nat × Int)}

theorem rowLoop_spec (hL1 : L1.Nodup) (hp2 : IsPermOf L2.length p2) (hip1 : IsPermOf n1 ip1) (hn1 : L1.length = n1)
    (hfind : ∀ σ ∈ L2, X1.findIdx σ = if σ ∈ L1 then some (L1.idxOf σ) else none)
    (hcol : ∀ f, f < L2.length → cellAt L2 p2 f ∉ L1 → insertedCol X2 iperms2 dim (p2.getD f 0) = .ok (col f))
    (hacc : (accOf L1 L2 p2 ip1 L2.length).length ≤ n1) :
    ∀ (todo f : Nat) (inter : List Bool), f + todo = L2.length → inter.length = n1 →
      ∃ inter', rowLoop X1 X2 iperms2 dim n1 L2 p2 ip1 todo f ⟨accOf L1 L2 p2 ip1 f, inter, insOf L1 L2 p2 f, (insOf L1 L2 p2 f).map col⟩ =
          .ok ⟨accOf L1 L2 p2 ip1 L2.length, inter', insOf L1 L2 p2 L2.length, (insOf L1 L2 p2 L2.length).map col⟩ ∧
        inter'.length = n1 ∧ ∀ j, j < n1 → (inter'.getD j false = true ↔ inter.getD j false = true ∨ ∃ f', f ≤ f' ∧ f' < L2.length ∧ cellAt L2 p2 f' = L1.getD j []) := by
  intro todo
  induction todo with
  | zero =>
    intro f inter hf hi
    have : f = L2.length := by omega
    subst this
    refine ⟨inter, rfl, hi, fun j hj => ?_⟩
    constructor
    · exact Or.inl
    · rintro (h | ⟨f', a, b, _⟩)
      · exact h
      · omega
  | succ todo ih =>
    intro f inter hf hi
    have hpl := Perm.isPerm_length hp2
    have hpf := sigma_getD _ _ hp2 f (by omega)
    simp only at hpf
    have r1 : rd p2 f = .ok (p2.getD f 0) := by
      rw [rd_lt (by omega), List.getD_eq_getElem?_getD, List.getElem?_eq_getElem (by omega)]; rfl
    have r2 : rd L2 (p2.getD f 0) = .ok (cellAt L2 p2 f) := by
      rw [rd_lt hpf, cellAt, List.getD_eq_getElem?_getD (l := L2), List.getElem?_eq_getElem hpf]; rfl
    have hmem : cellAt L2 p2 f ∈ L2 := by
      rw [cellAt, List.getD_eq_getElem?_getD (l := L2), List.getElem?_eq_getElem hpf]; exact List.getElem_mem _
    rw [rowLoop, r1, bind_ok, r2, bind_ok, hfind _ hmem]
    by_cases hk : cellAt L2 p2 f ∈ L1
    · have hb : keptB L1 L2 p2 f = true := by simpa [keptB] using hk
      have hidx : L1.idxOf (cellAt L2 p2 f) < n1 := by rw [← hn1]; exact List.idxOf_lt_length_iff.2 hk
      have hil := Perm.isPerm_length hip1
      have r3 : rd ip1 (L1.idxOf (cellAt L2 p2 f)) = .ok (oldPos L1 L2 p2 ip1 f) := by
        rw [rd_lt (by omega), oldPos, List.getD_eq_getElem?_getD, List.getElem?_eq_getElem (by omega)]; rfl
      have hal : (accOf L1 L2 p2 ip1 f).length < n1 := by
        have := (accOf_mono L1 L2 p2 ip1 (show f + 1 ≤ L2.length by omega)).length_le
        rw [accOf_succ_pos hb, List.length_append, List.length_singleton] at this
        omega
      obtain ⟨inter', i1, i2, i3⟩ := ih (f + 1) (inter.set (L1.idxOf (cellAt L2 p2 f)) true) (by omega) (by simpa using hi)
      refine ⟨inter', ?_, i2, fun j hj => ?_⟩
      · rw [if_pos hk]
        show (do let fj1 ← rd ip1 (L1.idxOf (cellAt L2 p2 f)); _) = _
        rw [r3, bind_ok, if_pos hal, wr_lt _ (show L1.idxOf (cellAt L2 p2 f) < inter.length by omega), bind_ok]
        rw [accOf_succ_pos hb, insOf_succ_pos hb] at i1
        exact i1
      · rw [i3 j hj, getD_set' _ _ _ _ _ (by omega)]
        constructor
        · rintro (h | ⟨f', a, b, c⟩)
          · by_cases hji : j = L1.idxOf (cellAt L2 p2 f)
            · refine Or.inr ⟨f, le_refl _, by omega, ?_⟩
              rw [hji, List.getD_eq_getElem?_getD, List.getElem?_eq_getElem (by omega)]
              simp
            · rw [if_neg hji] at h; exact Or.inl h
          · exact Or.inr ⟨f', by omega, b, c⟩
        · rintro (h | ⟨f', a, b, c⟩)
          · left
            by_cases hji : j = L1.idxOf (cellAt L2 p2 f)
            · rw [if_pos hji]
            · rw [if_neg hji]; exact h
          · by_cases hff : f' = f
            · left
              subst hff
              rw [if_pos]
              rw [c, List.getD_eq_getElem?_getD, List.getElem?_eq_getElem (by omega)]
              exact (List.Nodup.idxOf_getElem hL1 j (by omega)).symm
            · exact Or.inr ⟨f', by omega, b, c⟩
    · have hb : keptB L1 L2 p2 f = false := by simpa [keptB] using hk
      obtain ⟨inter', i1, i2, i3⟩ := ih (f + 1) inter (by omega) hi
      refine ⟨inter', ?_, i2, fun j hj => ?_⟩
      · rw [if_neg hk]
        show (do let c ← insertedCol X2 iperms2 dim (p2.getD f 0); _) = _
        rw [hcol f (by omega) hk, bind_ok]
        rw [accOf_succ_neg hb, insOf_succ_neg hb, List.map_append] at i1
        exact i1
      · rw [i3 j hj]
        constructor
        · rintro (h | ⟨f', a, b, c⟩)
          · exact Or.inl h
          · exact Or.inr ⟨f', by omega, b, c⟩
        · rintro (h | ⟨f', a, b, c⟩)
          · exact Or.inl h
          · by_cases hff : f' = f
            · subst hff
              exfalso
              apply hk
              rw [c, List.getD_eq_getElem?_getD, List.getElem?_eq_getElem (by omega)]
              exact List.getElem_mem _
            · exact Or.inr ⟨f', by omega, b, c⟩

/-- the cells that are not kept -/
def tailOf (inter : List Bool) (ip1 : List Nat) (j : Nat) : List Nat := ((List.range j).filter (fun x => !inter.getD x false)).map (fun x => ip1.getD x 0)

theorem tailLoop_spec {inter : List Bool} (hi : inter.length = n1) (hip1 : ip1.length = n1) {acc : List Nat} (hacc : acc.length + (tailOf inter ip1 n1).length ≤ n1) :
    ∀ todo j, j + todo = n1 → tailLoop n1 inter ip1 todo j (acc ++ tailOf inter ip1 j) = .ok (acc ++ tailOf inter ip1 n1) := by
  have hmono : ∀ a b, a ≤ b → (tailOf inter ip1 a).length ≤ (tailOf inter ip1 b).length := by
    intro a b hab
    unfold tailOf
    rw [List.length_map, List.length_map]
    exact ((List.range_sublist.2 hab).filter _).length_le
  intro todo
  induction todo with
  | zero =>
    intro j hj
    have : j = n1 := by omega
    subst this; rfl
  | succ todo ih =>
    intro j hj
    have r1 : rd inter j = .ok (inter.getD j false) := by
      rw [rd_lt (by omega), List.getD_eq_getElem?_getD, List.getElem?_eq_getElem (by omega)]; rfl
    have r2 : rd ip1 j = .ok (ip1.getD j 0) := by
      rw [rd_lt (by omega), List.getD_eq_getElem?_getD, List.getElem?_eq_getElem (by omega)]; rfl
    rw [tailLoop, r1, bind_ok]
    have ih' := ih (j + 1) (by omega)
    by_cases hb : inter.getD j false = true
    · rw [if_pos hb]
      have e : tailOf inter ip1 (j + 1) = tailOf inter ip1 j := by
        unfold tailOf; rw [List.range_succ, List.filter_append, List.filter_cons, if_neg (by simp only [hb]; simp)]; simp
      rw [e] at ih'; exact ih'
    · rw [if_neg hb]
      have hb' : inter.getD j false = false := by simpa using hb
      have e : tailOf inter ip1 (j + 1) = tailOf inter ip1 j ++ [ip1.getD j 0] := by
        unfold tailOf; rw [List.range_succ, List.filter_append, List.filter_cons, if_pos (by simp only [hb']; simp)]; simp
      have hlen := hmono (j + 1) n1 (by omega)
      rw [e, List.length_append, List.length_singleton] at hlen
      rw [r2, bind_ok, if_pos (by rw [List.length_append]; omega)]
      rw [e, ← List.append_assoc] at ih'; exact ih'

end loops

/-! ### the permutation of one dimension -/

theorem accOf_lt {L1 L2 : List (List Nat)} {p2 ip1 : List Nat} (hip1 : IsPermOf L1.length ip1) {n x : Nat} (hx : x ∈ accOf L1 L2 p2 ip1 n) : x < L1.length := by
  unfold accOf at hx
  rw [List.mem_map] at hx
  obtain ⟨f, hf, rfl⟩ := hx
  rw [List.mem_filter] at hf
  have : cellAt L2 p2 f ∈ L1 := by simpa [keptB] using hf.2
  exact sigma_getD _ _ hip1 _ (List.idxOf_lt_length_iff.2 this)

theorem accOf_nodup {L1 L2 : List (List Nat)} (h2 : L2.Nodup) {p2 ip1 : List Nat} (hp2 : IsPermOf L2.length p2) (hip1 : IsPermOf L1.length ip1) :
    (accOf L1 L2 p2 ip1 L2.length).Nodup := by
  unfold accOf
  apply List.Nodup.map_on _ (List.nodup_range.filter _)
  intro x hx y hy e
  rw [List.mem_filter, List.mem_range] at hx hy
  have kx : cellAt L2 p2 x ∈ L1 := by simpa [keptB] using hx.2
  have ky : cellAt L2 p2 y ∈ L1 := by simpa [keptB] using hy.2
  have e1 := getD_inj _ _ hip1 _ _ (List.idxOf_lt_length_iff.2 kx) (List.idxOf_lt_length_iff.2 ky) e
  have e2 := (List.idxOf_inj kx).1 e1
  have px := sigma_getD _ _ hp2 x hx.1
  have py := sigma_getD _ _ hp2 y hy.1
  simp only at px py
  unfold cellAt at e2
  rw [List.getD_eq_getElem?_getD (l := L2), List.getElem?_eq_getElem px, List.getD_eq_getElem?_getD (l := L2), List.getElem?_eq_getElem py] at e2
  have e3 := (List.Nodup.getElem_inj_iff h2).1 (by simpa using e2)
  exact getD_inj _ _ hp2 _ _ hx.1 hy.1 e3


/-- what is computed in one dimension: cells `L1` in the order `p1` before, `L2` in the order `p2` after -/
structure RowOK (L1 L2 : List (List Nat)) (p1 p2 : List Nat) (nd : Nat) (ins : List Nat) (perm : List Nat) : Prop where
  isPerm : IsPermOf L1.length perm
  ndLe : nd ≤ L1.length
  dim : L1.length - nd + ins.length = L2.length
  insMem : ∀ f, f ∈ ins ↔ f < L2.length ∧ cellAt L2 p2 f ∉ L1
  sorted : ins.Pairwise (· < ·)
  kept : ∀ f, f < L2.length → cellAt L2 p2 f ∈ L1 → oldRow ins f < L1.length - nd ∧ cellAt L1 p1 (perm.getD (oldRow ins f) 0) = cellAt L2 p2 f
  old : ∀ x, x < L1.length - nd → cellAt L1 p1 (perm.getD x 0) ∈ L2
  keptList : (perm.take (L1.length - nd)).map (cellAt L1 p1) = ((List.range L2.length).map (cellAt L2 p2)).filter (fun σ => decide (σ ∈ L1))
  gone : ∀ x, L1.length - nd ≤ x → x < L1.length → cellAt L1 p1 (perm.getD x 0) ∉ L2

theorem getD_mem_of_lt {l : List Nat} {x : Nat} (h : x < l.length) : l.getD x 0 ∈ l := by
  rw [List.getD_eq_getElem?_getD, List.getElem?_eq_getElem h]; exact List.getElem_mem _

theorem rowInfo_spec {X1 X2 : SCpx} {iperms1 perms2 iperms2 : List (List Nat)} {dim : Nat} {L1 L2 : List (List Nat)} {p1 p2 ip1 : List Nat} {col : Nat → List (Nat × Int)}
    (hL1 : L1.Nodup) (hL2 : L2.Nodup) (hp1 : IsPermOf L1.length p1) (hp2 : IsPermOf L2.length p2) (hip1 : IsPermOf L1.length ip1)
    (hinv : ∀ i x : Nat, p1[i]? = some x ↔ ip1[x]? = some i)
    (n1 : X1.numCells dim = .ok L1.length) (n2 : X2.numCells dim = .ok L2.length) (s2 : X2.getSimplices dim = .ok L2)
    (r1 : rd perms2 dim = .ok p2) (r2 : rd iperms1 dim = .ok ip1)
    (hfind : ∀ σ ∈ L2, X1.findIdx σ = if σ ∈ L1 then some (L1.idxOf σ) else none)
    (hcol : ∀ f, f < L2.length → cellAt L2 p2 f ∉ L1 → insertedCol X2 iperms2 dim (p2.getD f 0) = .ok (col f)) :
    ∃ nd ins perm, rowInfo X1 X2 iperms1 perms2 iperms2 dim = .ok (nd, ins, ins.map col, perm) ∧ RowOK L1 L2 p1 p2 nd ins perm := by
  have hil := Perm.isPerm_length hip1
  have hnd := accOf_nodup (L1 := L1) hL2 hp2 hip1
  have hlt : ∀ x ∈ accOf L1 L2 p2 ip1 L2.length, x < L1.length := fun x hx => accOf_lt hip1 hx
  have hback : ∀ j, j < L1.length → p1.getD (ip1.getD j 0) 0 = j := by
    intro j hj
    have : ip1[j]? = some (ip1.getD j 0) := by
      rw [List.getD_eq_getElem?_getD, List.getElem?_eq_getElem (by omega)]; rfl
    rw [List.getD_eq_getElem?_getD, (hinv _ _).2 this]; rfl
  have hcell : ∀ σ ∈ L1, cellAt L1 p1 (ip1.getD (L1.idxOf σ) 0) = σ := by
    intro σ hσ
    have h := List.idxOf_lt_length_iff.2 hσ
    rw [cellAt, hback _ h, List.getD_eq_getElem?_getD, List.getElem?_eq_getElem h]; simp
  have hsub : (accOf L1 L2 p2 ip1 L2.length).length ≤ L1.length := by
    have := (List.subperm_of_subset hnd (l₂ := List.range L1.length) (fun x hx => List.mem_range.2 (hlt x hx))).length_le
    simpa using this
  obtain ⟨inter, i1, i2, i3⟩ := rowLoop_spec hL1 hp2 hip1 rfl hfind hcol hsub L2.length 0 (List.replicate L1.length false) (by omega) (by simp)
  -- the flags
  have hint : ∀ j, j < L1.length → (inter.getD j false = true ↔ L1.getD j [] ∈ L2) := by
    intro j hj
    rw [i3 j hj]
    constructor
    · rintro (h | ⟨f, _, hf, e⟩)
      · rw [List.getD_eq_getElem?_getD, List.getElem?_replicate, if_pos hj] at h; simp at h
      · rw [← e, cellAt]
        have := sigma_getD _ _ hp2 f hf
        simp only at this
        rw [List.getD_eq_getElem?_getD (l := L2), List.getElem?_eq_getElem this]; exact List.getElem_mem _
    · intro h
      right
      have hlt2 := List.idxOf_lt_length_iff.2 h
      have hm : L2.idxOf (L1.getD j []) ∈ p2 := (Perm.isPerm_mem hp2).2 hlt2
      obtain ⟨f, hf, e⟩ := List.getElem_of_mem hm
      refine ⟨f, Nat.zero_le _, by rw [← Perm.isPerm_length hp2]; exact hf, ?_⟩
      have e' : p2.getD f 0 = L2.idxOf (L1.getD j []) := by rw [List.getD_eq_getElem?_getD, List.getElem?_eq_getElem hf]; exact e
      rw [cellAt, e', List.getD_eq_getElem?_getD, List.getElem?_eq_getElem hlt2]
      simp
  -- the tail
  have htm : ∀ x, x ∈ tailOf inter ip1 L1.length ↔ ∃ j, j < L1.length ∧ L1.getD j [] ∉ L2 ∧ ip1.getD j 0 = x := by
    intro x
    unfold tailOf
    rw [List.mem_map]
    constructor
    · rintro ⟨j, hj, rfl⟩
      rw [List.mem_filter, List.mem_range] at hj
      refine ⟨j, hj.1, fun h => ?_, rfl⟩
      have := (hint j hj.1).2 h
      rw [this] at hj; simp at hj
    · rintro ⟨j, hj, h, rfl⟩
      refine ⟨j, ?_, rfl⟩
      rw [List.mem_filter, List.mem_range]
      refine ⟨hj, ?_⟩
      by_contra hc
      apply h
      rw [← hint j hj]
      simpa using hc
  have htn : (tailOf inter ip1 L1.length).Nodup := by
    unfold tailOf
    apply List.Nodup.map_on _ (List.nodup_range.filter _)
    intro x hx y hy e
    rw [List.mem_filter, List.mem_range] at hx hy
    exact getD_inj _ _ hip1 _ _ hx.1 hy.1 e
  have htl : ∀ x ∈ tailOf inter ip1 L1.length, x < L1.length := by
    intro x hx
    obtain ⟨j, hj, _, rfl⟩ := (htm x).1 hx
    exact sigma_getD _ _ hip1 _ hj
  have hgone : ∀ x ∈ tailOf inter ip1 L1.length, cellAt L1 p1 x ∉ L2 := by
    intro x hx
    obtain ⟨j, hj, h, rfl⟩ := (htm x).1 hx
    rw [cellAt, hback j hj]; exact h
  have hold : ∀ x ∈ accOf L1 L2 p2 ip1 L2.length, cellAt L1 p1 x ∈ L2 := by
    intro x hx
    unfold accOf at hx
    rw [List.mem_map] at hx
    obtain ⟨f, hf, rfl⟩ := hx
    rw [List.mem_filter, List.mem_range] at hf
    have hk : cellAt L2 p2 f ∈ L1 := by simpa [keptB] using hf.2
    rw [oldPos, hcell _ hk, cellAt]
    have := sigma_getD _ _ hp2 f hf.1
    simp only at this
    rw [List.getD_eq_getElem?_getD (l := L2), List.getElem?_eq_getElem this]; exact List.getElem_mem _
  have hperm : (accOf L1 L2 p2 ip1 L2.length ++ tailOf inter ip1 L1.length).Perm (List.range L1.length) := by
    apply (List.perm_ext_iff_of_nodup _ List.nodup_range).2
    · intro x
      rw [List.mem_append, List.mem_range]
      constructor
      · rintro (h | h)
        · exact hlt x h
        · exact htl x h
      · intro hx
        have hx1 : p1[x]? = some (p1.getD x 0) := by
          rw [List.getD_eq_getElem?_getD, List.getElem?_eq_getElem (by rw [Perm.isPerm_length hp1]; exact hx)]; rfl
        have hix := (hinv _ _).1 hx1
        have hjl := sigma_getD _ _ hp1 x hx
        simp only at hjl
        have hipx : ip1.getD (p1.getD x 0) 0 = x := by rw [List.getD_eq_getElem?_getD, hix]; rfl
        by_cases hm : L1.getD (p1.getD x 0) [] ∈ L2
        · left
          have hlt2 := List.idxOf_lt_length_iff.2 hm
          have hmm : L2.idxOf (L1.getD (p1.getD x 0) []) ∈ p2 := (Perm.isPerm_mem hp2).2 hlt2
          obtain ⟨f, hf, e⟩ := List.getElem_of_mem hmm
          have e' : cellAt L2 p2 f = L1.getD (p1.getD x 0) [] := by
            have e' : p2.getD f 0 = L2.idxOf (L1.getD (p1.getD x 0) []) := by rw [List.getD_eq_getElem?_getD, List.getElem?_eq_getElem hf]; exact e
            rw [cellAt, e', List.getD_eq_getElem?_getD, List.getElem?_eq_getElem hlt2]
            simp
          have hm1 : L1.getD (p1.getD x 0) [] ∈ L1 := by
            rw [List.getD_eq_getElem?_getD (l := L1), List.getElem?_eq_getElem hjl]; exact List.getElem_mem _
          unfold accOf
          rw [List.mem_map]
          refine ⟨f, ?_, ?_⟩
          · rw [List.mem_filter, List.mem_range]
            refine ⟨by rw [← Perm.isPerm_length hp2]; exact hf, ?_⟩
            simp only [keptB, decide_eq_true_eq, e']; exact hm1
          · rw [oldPos, e', List.getD_eq_getElem?_getD (l := L1), List.getElem?_eq_getElem hjl, Option.getD_some, List.Nodup.idxOf_getElem hL1]
            exact hipx
        · right
          exact (htm x).2 ⟨_, hjl, hm, hipx⟩
    · apply List.Nodup.append hnd htn
      intro x h1 h2
      exact hgone x h2 (hold x h1)
  have hlen : (accOf L1 L2 p2 ip1 L2.length).length + (tailOf inter ip1 L1.length).length = L1.length := by
    have := hperm.length_eq
    simpa using this
  have ht := tailLoop_spec i2 hil (le_of_eq hlen) L1.length 0 (by omega)
  have ht0 : tailOf inter ip1 0 = [] := rfl
  rw [ht0, List.append_nil] at ht
  have hal := accOf_len L1 L2 p2 ip1 L2.length
  have hL1' : L1.length - (L1.length - (accOf L1 L2 p2 ip1 L2.length).length) = (accOf L1 L2 p2 ip1 L2.length).length := by omega
  have hst := List.perm_insertionSort (· ≤ ·) (tailOf inter ip1 L1.length)
  refine ⟨L1.length - (accOf L1 L2 p2 ip1 L2.length).length, insOf L1 L2 p2 L2.length,
    accOf L1 L2 p2 ip1 L2.length ++ (tailOf inter ip1 L1.length).insertionSort (· ≤ ·), ?_, ?_⟩
  · unfold rowInfo
    rw [n1, bind_ok, n2, bind_ok, s2, bind_ok, r1, bind_ok, r2, bind_ok]
    have i1' : rowLoop X1 X2 iperms2 dim L1.length L2 p2 ip1 L2.length 0 ⟨[], List.replicate L1.length false, [], []⟩ =
      .ok ⟨accOf L1 L2 p2 ip1 L2.length, inter, insOf L1 L2 p2 L2.length, (insOf L1 L2 p2 L2.length).map col⟩ := i1
    rw [i1', bind_ok]
    show (do let acc ← tailLoop L1.length inter ip1 L1.length 0 (accOf L1 L2 p2 ip1 L2.length); _) = _
    rw [ht, bind_ok]
    have hz : L1.length - (accOf L1 L2 p2 ip1 L2.length ++ tailOf inter ip1 L1.length).length = 0 := by rw [List.length_append]; omega
    simp only [hz, List.replicate_zero, List.append_nil, List.take_left, List.drop_left, pure_ok]
  · refine ⟨?_, Nat.sub_le _ _, by omega, fun f => insOf_mem, insOf_sorted _ _ _ _, ?_, ?_, ?_, ?_⟩
    · exact ((List.Perm.refl _).append hst).trans hperm
    · intro f hf hk
      obtain ⟨a1, a2⟩ := accOf_oldRow (ip1 := ip1) hf hk
      rw [hL1']
      refine ⟨a1, ?_⟩
      rw [List.getD_eq_getElem?_getD, List.getElem?_append_left a1, a2, Option.getD_some, oldPos, hcell _ hk]
    · intro x hx
      rw [hL1'] at hx
      apply hold
      rw [List.getD_eq_getElem?_getD, List.getElem?_append_left hx, List.getElem?_eq_getElem hx]
      exact List.getElem_mem _
    · rw [hL1', List.take_left]
      unfold accOf
      rw [List.filter_map, List.map_map]
      apply List.map_congr_left
      intro f hf
      rw [List.mem_filter] at hf
      have hk : cellAt L2 p2 f ∈ L1 := by simpa [keptB] using hf.2
      exact hcell _ hk
    · intro x hx hx1
      rw [hL1'] at hx
      apply hgone
      rw [← hst.mem_iff]
      have hl : x - (accOf L1 L2 p2 ip1 L2.length).length < ((tailOf inter ip1 L1.length).insertionSort (· ≤ ·)).length := by rw [hst.length_eq]; omega
      rw [List.getD_eq_getElem?_getD, List.getElem?_append_right hx, List.getElem?_eq_getElem hl]
      exact List.getElem_mem _

end BATS.GenUpd
