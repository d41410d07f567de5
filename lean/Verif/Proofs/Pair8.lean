import Verif.Proofs.Pair7

set_option linter.unusedSectionVars false
set_option linter.unusedVariables false
set_option linter.unusedSimpArgs false

/-! # Pairs which are not pairs; the relative map of a chain map; sorted columns -/

namespace BATS
open Reduction Matrix Module CSC
namespace SCpx
variable {F : Type} [Field F] [DecidableEq F]

theorem none_mem_of_not {X : SCpx} {cX cA : Cells} (hX : Inv X cX) (hA : CellsOK cA) {k : Nat} (h : ∃ s ∈ cA k, s ∉ cX k) :
    none ∈ (cA k).map X.findIdx := by
  obtain ⟨s, h1, h2⟩ := h
  have hl := hA.len k s h1
  have hne : s ≠ [] := by intro e; rw [e] at hl; simp at hl
  rw [List.mem_map]
  refine ⟨s, h1, ?_⟩
  exact hX.trie.none hne (by rw [hl, Nat.add_sub_cancel]; exact h2)

theorem relativeLevels_thrown {X : SCpx} {cX cA : Cells} (hX : Inv X cX) (hA : CellsOK cA) :
    ∀ (n k : Nat) (prev : List Nat), k + n + 1 ≤ X.ncells.length → prev.Pairwise (· < ·) → (∀ i ∈ prev, i < (cX k).length) →
      (∃ d, k + 1 ≤ d ∧ d < k + 1 + n ∧ ∃ s ∈ cA d, s ∉ cX d) →
      (relativeLevels X prev (k + 1) ((List.range' (k + 1) n).map (fun d => (cA d).map X.findIdx)) : Res (List (CMat F))) = .error .thrown := by
  intro n
  induction n with
  | zero => rintro k prev _ _ _ ⟨d, h1, h2, _⟩; omega
  | succ n ih =>
    intro k prev hk hp hpl hbad
    rw [List.range'_succ, List.map_cons, relativeLevels]
    unfold numCells
    rw [rd_some (hX.dim (k + 1) (by omega)).nc, bind_ok]
    by_cases hb : ∃ s ∈ cA (k + 1), s ∉ cX (k + 1)
    · rw [complementOf_none (none_mem_of_not hX hA hb)]; rfl
    · have hs1 : ∀ s ∈ cA (k + 1), s ∈ cX (k + 1) := by
        intro s hs
        by_contra hn
        exact hb ⟨s, hs, hn⟩
      obtain ⟨A, M, g1, g2, g3, colptr, bs, g4, g5, g6, g7, g8⟩ := boundaryCsc_spec (F := F) hX (d := k) (by omega)
      obtain ⟨c, c1, c2, c3⟩ := complement_of (cX := cX) hA hs1
      have hbl : bs.length = (cX (k + 1)).length := by
        have := g3.ncol; rw [g5] at this; simpa using this
      have hrow : ∀ b ∈ bs, ∀ i ∈ b.1, i < (cX k).length := by
        intro b hb i hi
        obtain ⟨j, hj, rfl⟩ := List.getElem_of_mem hb
        have hj' : j < (cX (k + 1)).length := by omega
        obtain ⟨col, q1, q2⟩ := g3.col j _ (List.getElem?_eq_getElem hj')
        rw [g5] at q1
        simp only [List.getElem?_map, List.getElem?_eq_getElem hj, Option.map_some, Option.some.injEq] at q1
        have hm : i ∈ col.map Prod.fst := by
          rw [← q1]
          unfold blockCol
          rw [List.map_map]
          have : (bs[j].1.zip bs[j].2).map (Prod.fst ∘ fun p => (p.1, (p.2 : F))) = bs[j].1 := List.map_fst_zip (by rw [g6 _ hb])
          rw [this]; exact hi
        rw [((q2.perm).map Prod.fst).mem_iff, List.map_map, List.mem_map] at hm
        obtain ⟨l, hl, rfl⟩ := hm
        exact List.idxOf_lt_length_iff.2 (hX.ok.closed k _ (List.getElem_mem hj') l (List.mem_range.1 hl))
      obtain ⟨S, s1, s2⟩ := submatrix_toCMat (F := F) g6 g7 g8 hrow hp hpl (cind := c) (by intro j hj; rw [hbl]; exact ((c3 j).1 hj).1)
      obtain ⟨prow, _⟩ : ∃ p : Nat, p = 0 := ⟨0, rfl⟩
      have hSok : ∃ N : CMat F, S.toCMat = .ok N := by
        rw [s2]
        -- well-defined by the partial permutation argument
        have hnd : prev.Nodup := hp.imp (fun h => Nat.ne_of_lt h)
        obtain ⟨pr, p1, p2, p3, p4⟩ := Perm.partialPermLoop_spec prev 0 (List.replicate (cX k).length none) (by simpa using hpl) hnd
        rw [List.length_replicate] at p2
        unfold CMat.submatrix Perm.partialPerm
        dsimp only
        rw [p1, bind_ok]
        have hloop : ∀ cs : List Nat, (∀ j ∈ cs, j < bs.length) → ∃ r, CMat.submatrixLoop pr (bs.map (blockCol (F := F))) cs = .ok r := by
          intro cs
          induction cs with
          | nil => intro _; exact ⟨[], rfl⟩
          | cons j cs ihc =>
            intro h
            obtain ⟨r, hr⟩ := ihc (fun i hi => h i (by simp [hi]))
            have hj := h j (by simp)
            have hps := pick_subvector (F := F) (prow := pr) (bs[j].1.zip bs[j].2) (by
              intro p hp'
              rw [p2]
              exact hrow _ (List.getElem_mem hj) p.1 (List.of_mem_zip (a := p.1) (b := p.2) hp').1)
            refine ⟨SVec.sort (blockCol (pick pr (bs[j].1.zip bs[j].2))) :: r, ?_⟩
            rw [CMat.submatrixLoop, rd_some (a := blockCol bs[j]) (by rw [List.getElem?_map, List.getElem?_eq_getElem hj]; rfl), bind_ok]
            unfold SVec.subvector
            show ((SVec.subvectorLoop pr (blockCol bs[j]) >>= fun r => pure (SVec.sort r)) >>= _) = _
            have e0 : (blockCol bs[j] : SVec F) = (bs[j].1.zip bs[j].2).map (fun p => (p.1, (p.2 : F))) := rfl
            rw [e0, hps, bind_ok]
            show (CMat.submatrixLoop pr _ cs >>= fun r => pure (_ :: r)) = _
            rw [hr]; rfl
        obtain ⟨r, hr⟩ := hloop c (by intro j hj; rw [hbl]; exact ((c3 j).1 hj).1)
        rw [hr]
        exact ⟨_, rfl⟩
      obtain ⟨N, hN⟩ := hSok
      rw [findIdx_map hX hA hs1, complementOf_some, c1, bind_ok, g1, bind_ok, g4, s1, bind_ok, hN, bind_ok]
      rw [ih (k + 1) c (by omega) c2 (fun i hi => ((c3 i).1 hi).1) (by
        obtain ⟨d, h1, h2, h3⟩ := hbad
        have : d ≠ k + 1 := by rintro rfl; exact hb h3
        exact ⟨d, by omega, by omega, h3⟩)]
      rfl

theorem relativeChainComplex_thrown {X A : SCpx} {cX cA : Cells} (hX : Inv X cX) (hA : Inv A cA)
    (hbad : ∃ d, d < X.ncells.length ∧ ∃ s ∈ cA d, s ∉ cX d) : (relativeChainComplex X A : Res (List (CMat F))) = .error .thrown := by
  have hne := hX.sizes.ne
  have hr : X.maxdim + 1 = X.ncells.length := by unfold maxdim; omega
  unfold relativeChainComplex
  rw [getIndices_eq hA, bind_ok, List.range_succ_eq_map, List.map_cons]
  dsimp only
  unfold numCells
  rw [rd_some (hX.dim 0 hne).nc, bind_ok]
  by_cases hb : ∃ s ∈ cA 0, s ∉ cX 0
  · rw [complementOf_none (none_mem_of_not hX hA.ok hb)]; rfl
  · have hs0 : ∀ s ∈ cA 0, s ∈ cX 0 := by
      intro s hs
      by_contra hn
      exact hb ⟨s, hs, hn⟩
    obtain ⟨c, c1, c2, c3⟩ := complement_of (cX := cX) hA.ok hs0
    rw [findIdx_map hX hA.ok hs0, complementOf_some, c1, bind_ok, rd_some (hA.dim 0 hA.sizes.ne).nc, bind_ok]
    have hr' : List.map Nat.succ (List.range X.maxdim) = List.range' (0 + 1) X.maxdim := by
      apply List.ext_getElem
      · simp
      · intro i h1 h2; simp; omega
    rw [hr', relativeLevels_thrown hX hA.ok X.maxdim 0 c (by omega) c2 (fun i hi => ((c3 i).1 hi).1) (by
      obtain ⟨d, h1, h2⟩ := hbad
      have : d ≠ 0 := by rintro rfl; exact hb h2
      exact ⟨d, by omega, by omega, h2⟩)]
    rfl

/-! ### sorted columns -/

theorem eraseIdx_lex : ∀ {s : List Nat}, s.Pairwise (· < ·) → ∀ {i j : Nat}, i < j → j < s.length → s.eraseIdx j < s.eraseIdx i
  | [], _, i, j, _, hj => by simp at hj
  | a :: s, h, i, j, hij, hj => by
    rw [List.pairwise_cons] at h
    cases j with
    | zero => omega
    | succ j =>
      rw [List.eraseIdx_cons_succ]
      cases i with
      | zero =>
        rw [List.eraseIdx_cons_zero]
        cases s with
        | nil => simp at hj
        | cons b s =>
          exact List.cons_lt_cons_iff.2 (Or.inl (h.1 b (by simp)))
      | succ i =>
        rw [List.eraseIdx_cons_succ]
        exact List.cons_lt_cons_iff.2 (Or.inr ⟨rfl, eraseIdx_lex h.2 (by omega) (by simpa using hj)⟩)

theorem mvFaces_mem {Y : SCpx} {s : List Nat} : ∀ {n : Nat} {c : Int} {p : Nat × Int}, p ∈ mvFaces Y s n c →
    (∃ l, l < n ∧ Y.findIdx (s.eraseIdx l) = some p.1) ∧ (p.2 = c ∨ p.2 = -c) := by
  intro n
  induction n with
  | zero => intro c p hp; simp [mvFaces] at hp
  | succ n ih =>
    intro c p hp
    have hrec : p ∈ mvFaces Y s n (-c) → (∃ l, l < n + 1 ∧ Y.findIdx (s.eraseIdx l) = some p.1) ∧ (p.2 = c ∨ p.2 = -c) := by
      intro h
      obtain ⟨⟨l, h1, h2⟩, h3⟩ := ih h
      refine ⟨⟨l, by omega, h2⟩, ?_⟩
      rw [neg_neg] at h3; exact h3.symm
    rw [mvFaces] at hp
    split at hp
    · rename_i m hm
      rcases List.mem_cons.1 hp with rfl | hp
      · exact ⟨⟨n, by omega, hm⟩, Or.inl rfl⟩
      · exact hrec hp
    · exact hrec hp

theorem mvFaces_sorted {Y : SCpx} {s : List Nat} (hs : s.Pairwise (· < ·)) (hm : ∀ i j a b, i < j → j < s.length → Y.findIdx (s.eraseIdx j) = some a →
    Y.findIdx (s.eraseIdx i) = some b → a < b) : ∀ (n : Nat) (c : Int), n ≤ s.length → (mvFaces Y s n c).Pairwise (fun p q => p.1 < q.1) := by
  intro n
  induction n with
  | zero => intro c _; exact List.Pairwise.nil
  | succ n ih =>
    intro c hn
    rw [mvFaces]
    split
    · rename_i m hm'
      refine List.pairwise_cons.2 ⟨?_, ih (-c) (by omega)⟩
      intro q hq
      obtain ⟨⟨l, h1, h2⟩, _⟩ := mvFaces_mem hq
      exact hm l n m q.1 h1 (by omega) hm' h2
    · exact ih (-c) (by omega)

end SCpx
end BATS
