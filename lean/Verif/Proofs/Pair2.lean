import Verif.Proofs.Pair1
import Verif.Proofs.Relative
import Verif.Proofs.MatOps3
import Verif.Proofs.SimplicialHomology

set_option linter.unusedSectionVars false
set_option linter.unusedVariables false
set_option linter.unusedSimpArgs false

/-! # Submatrices of compressed-column matrices, the relative chain complex of a pair -/

namespace BATS
namespace CSC
open Reduction
variable {F : Type} [Field F] [DecidableEq F]

/-- the selected entries of a block -/
def pick (prow : List (Option Nat)) : List (Nat × Int) → List Nat × List Int
  | [] => ([], [])
  | p :: b =>
    match prow.getD p.1 none with
    | some k => (k :: (pick prow b).1, p.2 :: (pick prow b).2)
    | none => pick prow b

theorem pick_length (prow : List (Option Nat)) : ∀ b, (pick prow b).1.length = (pick prow b).2.length
  | [] => rfl
  | p :: b => by
    rw [pick]
    split
    · simp [pick_length prow b]
    · exact pick_length prow b

theorem submatrixCol_spec {A : CSC} {prow : List (Option Nat)} : ∀ (r : List Nat) (v : List Int) (p : Nat) (r' : List Nat) (v' : List Int),
    r.length = v.length → A.rowind.drop p = r ++ r' → A.val.drop p = v ++ v' → (∀ i ∈ r, i < prow.length) →
    submatrixCol A prow r.length p = .ok (pick prow (r.zip v)) := by
  intro r
  induction r with
  | nil => intro v p r' v' hl _ _ _; rfl
  | cons i r ih =>
    intro v p r' v' hl h1 h2 h3
    cases v with
    | nil => simp at hl
    | cons a v =>
      have e1 : A.rowind[p]? = some i := by
        have : (A.rowind.drop p)[0]? = some i := by rw [h1]; rfl
        rw [List.getElem?_drop] at this; simpa using this
      have e2 : A.val[p]? = some a := by
        have : (A.val.drop p)[0]? = some a := by rw [h2]; rfl
        rw [List.getElem?_drop] at this; simpa using this
      have ih' := ih v (p + 1) r' v' (by simpa using hl) (by
        rw [← List.drop_drop, h1]; rfl) (by rw [← List.drop_drop, h2]; rfl) (fun j hj => h3 j (by simp [hj]))
      show submatrixCol A prow (r.length + 1) p = _
      rw [submatrixCol, rd_some e1, bind_ok, rd_getD none (h3 i (by simp)), bind_ok, rd_some e2, bind_ok, ih', bind_ok, List.zip_cons_cons, pick]
      dsimp only
      cases prow.getD i none <;> rfl

theorem rows_drop {bs : List (List Nat × List Int)} {j : Nat} (hj : j < bs.length) :
    (rows bs).drop (rows (bs.take j)).length = bs[j].1 ++ rows (bs.drop (j + 1)) := by
  have : bs = bs.take j ++ bs[j] :: bs.drop (j + 1) := by rw [← List.drop_eq_getElem_cons hj, List.take_append_drop]
  conv_lhs => rw [this]
  rw [rows_append]
  have : (rows (List.take j (List.take j bs ++ bs[j] :: List.drop (j + 1) bs))).length = (rows (bs.take j)).length := by
    rw [List.take_append_of_le_length (by rw [List.length_take]; omega), List.take_take, Nat.min_self]
  rw [this, List.drop_left]
  rfl

theorem vals_drop {bs : List (List Nat × List Int)} (hl : ∀ b ∈ bs, b.1.length = b.2.length) {j : Nat} (hj : j < bs.length) :
    (vals bs).drop (rows (bs.take j)).length = bs[j].2 ++ vals (bs.drop (j + 1)) := by
  have e : (rows (bs.take j)).length = (vals (bs.take j)).length := rows_vals_length (fun b hb => hl b (List.mem_of_mem_take hb))
  rw [e]
  have : bs = bs.take j ++ bs[j] :: bs.drop (j + 1) := by rw [← List.drop_eq_getElem_cons hj, List.take_append_drop]
  conv_lhs => rw [this]
  rw [vals_append]
  have : (vals (List.take j (List.take j bs ++ bs[j] :: List.drop (j + 1) bs))).length = (vals (bs.take j)).length := by
    rw [List.take_append_of_le_length (by rw [List.length_take]; omega), List.take_take, Nat.min_self]
  rw [this, List.drop_left]
  rfl

/-- prefix lengths of blocks -/
def ptrs (bs : List (List Nat × List Int)) : List Nat := (List.range (bs.length + 1)).map (fun j => (rows (bs.take j)).length)

theorem ptrs_append (bs : List (List Nat × List Int)) (b : List Nat × List Int) : ptrs (bs ++ [b]) = ptrs bs ++ [(rows bs ++ b.1).length] := by
  unfold ptrs
  rw [List.length_append, List.length_singleton, List.range_succ, List.map_append, List.map_singleton]
  congr 1
  · apply List.map_congr_left
    intro j hj
    rw [List.mem_range] at hj
    rw [List.take_append_of_le_length (by omega)]
  · rw [List.take_of_length_le (by simp), rows_append]; simp [rows]

theorem delimits_ptrs (bs : List (List Nat × List Int)) : Delimits (ptrs bs) bs := by
  intro j hj
  unfold ptrs
  rw [List.getElem?_map, List.getElem?_range (by omega)]; rfl

theorem submatrixLoop_blocks {colptr : List Nat} {bs : List (List Nat × List Int)} {m n : Nat} (hl : ∀ b ∈ bs, b.1.length = b.2.length)
    (hc : Delimits colptr bs) {prow : List (Option Nat)} (hp : ∀ b ∈ bs, ∀ i ∈ b.1, i < prow.length) : ∀ (cind : List Nat) (acc : List (List Nat × List Int)),
    (∀ j ∈ cind, j < bs.length) →
    submatrixLoop ⟨colptr, rows bs, vals bs, m, n⟩ prow cind (ptrs acc) (rows acc) (vals acc) =
      .ok (ptrs (acc ++ cind.map (fun j => pick prow ((bs.getD j ([], [])).1.zip (bs.getD j ([], [])).2))),
        rows (acc ++ cind.map (fun j => pick prow ((bs.getD j ([], [])).1.zip (bs.getD j ([], [])).2))),
        vals (acc ++ cind.map (fun j => pick prow ((bs.getD j ([], [])).1.zip (bs.getD j ([], [])).2)))) := by
  intro cind
  induction cind with
  | nil => intro acc _; rw [List.map_nil, List.append_nil]; rfl
  | cons j cind ih =>
    intro acc h
    have hj := h j (by simp)
    have hb : bs.getD j ([], []) = bs[j] := by rw [List.getD_eq_getElem?_getD, List.getElem?_eq_getElem hj]; rfl
    have hlb := hl bs[j] (List.getElem_mem hj)
    have e : (rows (bs.take (j + 1))).length - (rows (bs.take j)).length = bs[j].1.length := by
      rw [List.take_add_one, List.getElem?_eq_getElem hj, rows_append, List.length_append]
      simp [rows]
    have hcol := submatrixCol_spec (A := ⟨colptr, rows bs, vals bs, m, n⟩) (prow := prow) bs[j].1 bs[j].2 (rows (bs.take j)).length _ _ hlb (rows_drop hj)
      (vals_drop hl hj) (hp _ (List.getElem_mem hj))
    rw [submatrixLoop]
    dsimp only
    rw [rd_some (hc j (by omega)), bind_ok, rd_some (hc (j + 1) (by omega)), bind_ok, e, hcol, bind_ok]
    have hr : rows acc ++ (pick prow (bs[j].1.zip bs[j].2)).1 = rows (acc ++ [pick prow (bs[j].1.zip bs[j].2)]) := by rw [rows_append]; simp [rows]
    have hv : vals acc ++ (pick prow (bs[j].1.zip bs[j].2)).2 = vals (acc ++ [pick prow (bs[j].1.zip bs[j].2)]) := by rw [vals_append]; simp [vals]
    rw [← ptrs_append acc, hr, hv, ih _ (fun i hi => h i (by simp [hi])), List.map_cons, hb, List.append_assoc, List.singleton_append]

/-- reading a selected block agrees with selecting from the column -/
theorem pick_subvector {prow : List (Option Nat)} : ∀ (b : List (Nat × Int)), (∀ p ∈ b, p.1 < prow.length) →
    SVec.subvectorLoop prow (b.map (fun p => (p.1, (p.2 : F)))) = .ok (blockCol (pick prow b)) := by
  intro b
  induction b with
  | nil => intro _; rfl
  | cons p b ih =>
    intro h
    rw [List.map_cons, SVec.subvectorLoop, rd_getD none (h p (by simp)), bind_ok, ih (fun q hq => h q (by simp [hq])), bind_ok, pick]
    cases prow.getD p.1 none <;> rfl

theorem pick_mem {prow : List (Option Nat)} : ∀ (b : List (Nat × Int)) (k : Nat), k ∈ (pick prow b).1 → ∃ p ∈ b, prow.getD p.1 none = some k := by
  intro b
  induction b with
  | nil => intro k hk; simp [pick] at hk
  | cons p b ih =>
    intro k hk
    rw [pick] at hk
    split at hk
    · rename_i l hl
      rcases List.mem_cons.1 hk with rfl | hk
      · exact ⟨p, by simp, hl⟩
      · obtain ⟨q, h1, h2⟩ := ih k hk
        exact ⟨q, by simp [h1], h2⟩
    · obtain ⟨q, h1, h2⟩ := ih k hk
      exact ⟨q, by simp [h1], h2⟩

theorem pick_sorted {prow : List (Option Nat)} (hm : ∀ i j a b : Nat, prow.getD i none = some a → prow.getD j none = some b → i ≤ j → a ≤ b) :
    ∀ (b : List (Nat × Int)), (b.map Prod.fst).Pairwise (· ≤ ·) → (pick prow b).1.Pairwise (· ≤ ·) := by
  intro b
  induction b with
  | nil => intro _; exact List.Pairwise.nil
  | cons p b ih =>
    intro h
    rw [List.map_cons, List.pairwise_cons] at h
    rw [pick]
    split
    · rename_i l hl
      refine List.pairwise_cons.2 ⟨?_, ih h.2⟩
      intro k hk
      obtain ⟨q, h1, h2⟩ := pick_mem b k hk
      exact hm p.1 q.1 l k hl h2 (h.1 q.1 (List.mem_map_of_mem h1))
    · exact ih h.2

/-- selecting increasing rows and any columns of a compressed matrix with sorted columns, then reading it as columns, is the same as reading it as
columns and selecting -/
theorem submatrix_toCMat {colptr : List Nat} {bs : List (List Nat × List Int)} {m : Nat} (hl : ∀ b ∈ bs, b.1.length = b.2.length)
    (hc : Delimits colptr bs) (hs : ∀ b ∈ bs, b.1.Pairwise (· ≤ ·)) (hm : ∀ b ∈ bs, ∀ i ∈ b.1, i < m) {rind cind : List Nat}
    (hr : rind.Pairwise (· < ·)) (hrb : ∀ i ∈ rind, i < m) (hcb : ∀ j ∈ cind, j < bs.length) :
    ∃ S, (⟨colptr, rows bs, vals bs, m, bs.length⟩ : CSC).submatrix rind cind = .ok S ∧
      (S.toCMat : Res (CMat F)) = CMat.submatrix rind cind ⟨m, bs.map blockCol⟩ := by
  have hnd : rind.Nodup := hr.imp (fun h => Nat.ne_of_lt h)
  obtain ⟨prow, p1, p2, p3, p4⟩ := Perm.partialPermLoop_spec rind 0 (List.replicate m none) (by simpa using hrb) hnd
  rw [List.length_replicate] at p2
  have hsel : ∀ i a : Nat, prow.getD i none = some a → ∃ h : a < rind.length, rind[a] = i := by
    intro i a e
    by_cases hi : i ∈ rind
    · obtain ⟨l, hl, rfl⟩ := List.mem_iff_getElem.1 hi
      rw [List.getD_eq_getElem?_getD, p3 l hl] at e
      have : l = a := by simpa using e
      subst this
      exact ⟨hl, rfl⟩
    · rw [List.getD_eq_getElem?_getD, p4 i hi, List.getElem?_replicate] at e
      split at e <;> simp at e
  have hmono : ∀ i j a b : Nat, prow.getD i none = some a → prow.getD j none = some b → i ≤ j → a ≤ b := by
    intro i j a b e1 e2 hij
    obtain ⟨h1, q1⟩ := hsel i a e1
    obtain ⟨h2, q2⟩ := hsel j b e2
    by_contra hn
    have := List.pairwise_iff_getElem.1 hr b a h2 h1 (by omega)
    omega
  have hloop := submatrixLoop_blocks (m := m) (n := bs.length) hl hc (prow := prow) (by rw [p2]; exact hm) cind [] hcb
  have hp0 : ptrs [] = [0] := rfl
  have hr0 : rows [] = [] := rfl
  have hv0 : vals [] = [] := rfl
  rw [hp0, hr0, hv0, List.nil_append] at hloop
  obtain ⟨pk, hpk⟩ : ∃ pk, pk = cind.map (fun j => pick prow ((bs.getD j ([], [])).1.zip (bs.getD j ([], [])).2)) := ⟨_, rfl⟩
  rw [← hpk] at hloop
  have hpl : pk.length = cind.length := by rw [hpk, List.length_map]
  refine ⟨⟨ptrs pk, rows pk, vals pk, rind.length, cind.length⟩, ?_, ?_⟩
  · unfold submatrix Perm.partialPerm
    dsimp only
    rw [p1, bind_ok, hloop]; rfl
  · rw [← hpl, toCMat_blocks rind.length (by
      intro b hb
      rw [hpk] at hb
      obtain ⟨j, _, rfl⟩ := List.mem_map.1 hb
      exact pick_length prow _) (delimits_ptrs pk)]
    unfold CMat.submatrix Perm.partialPerm
    dsimp only
    rw [p1, bind_ok]
    have : ∀ (cs : List Nat), (∀ j ∈ cs, j < bs.length) → CMat.submatrixLoop prow (bs.map (blockCol (F := F))) cs =
        .ok ((cs.map (fun j => pick prow ((bs.getD j ([], [])).1.zip (bs.getD j ([], [])).2))).map blockCol) := by
      intro cs
      induction cs with
      | nil => intro _; rfl
      | cons j cs ih =>
        intro h
        have hj := h j (by simp)
        have hb : bs.getD j ([], []) = bs[j] := by rw [List.getD_eq_getElem?_getD, List.getElem?_eq_getElem hj]; rfl
        have hbm := List.getElem_mem hj
        rw [CMat.submatrixLoop, rd_some (a := blockCol bs[j]) (by rw [List.getElem?_map, List.getElem?_eq_getElem hj]; rfl), bind_ok]
        unfold SVec.subvector
        have hps := pick_subvector (F := F) (prow := prow) (bs[j].1.zip bs[j].2) (by
          intro p hp
          rw [p2]
          exact hm _ hbm p.1 (List.of_mem_zip (a := p.1) (b := p.2) hp).1)
        have hfst : (bs[j].1.zip bs[j].2).map Prod.fst = bs[j].1 := List.map_fst_zip (by rw [hl _ hbm])
        have hsrt : SVec.sort (blockCol (F := F) (pick prow (bs[j].1.zip bs[j].2))) = blockCol (pick prow (bs[j].1.zip bs[j].2)) := by
          unfold SVec.sort
          apply List.Pairwise.insertionSort_eq
          have h1 := pick_sorted hmono (bs[j].1.zip bs[j].2) (by rw [hfst]; exact hs _ hbm)
          have h2 : (blockCol (F := F) (pick prow (bs[j].1.zip bs[j].2))).map Prod.fst = (pick prow (bs[j].1.zip bs[j].2)).1 := by
            unfold blockCol
            rw [List.map_map]
            exact List.map_fst_zip (by rw [pick_length])
          rw [← h2, List.pairwise_map] at h1
          exact h1
        show ((SVec.subvectorLoop prow (blockCol bs[j]) >>= fun r => pure (SVec.sort r)) >>= _) = _
        have e0 : (blockCol bs[j] : SVec F) = (bs[j].1.zip bs[j].2).map (fun p => (p.1, (p.2 : F))) := rfl
        rw [e0, hps, bind_ok, hsrt]
        show (CMat.submatrixLoop prow _ cs >>= fun r => pure (_ :: r)) = _
        rw [ih (fun i hi => h i (by simp [hi])), bind_ok, List.map_cons, List.map_cons, hb]; rfl
    rw [this cind hcb, bind_ok, hpk]; rfl

end CSC
end BATS
