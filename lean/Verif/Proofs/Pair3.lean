import Verif.Proofs.Pair2

set_option linter.unusedSectionVars false
set_option linter.unusedVariables false
set_option linter.unusedSimpArgs false

/-! # The chain complex of a pair is the relative complex of the chain complex -/

namespace BATS
open Reduction CSC Matrix
namespace SCpx
variable {F : Type} [Field F] [DecidableEq F]

/-- positions in `X` of the cells of `A` -/
def positions (cX cA : Cells) (k : Nat) : List Nat := (cA k).map (cX k).idxOf

theorem findIdx_map {X : SCpx} {cX cA : Cells} (hX : Inv X cX) (hA : CellsOK cA) {k : Nat} (hs : ∀ s ∈ cA k, s ∈ cX k) :
    (cA k).map X.findIdx = (positions cX cA k).map some := by
  unfold positions
  rw [List.map_map]
  apply List.map_congr_left
  intro s h
  have hl := hA.len k s h
  have hne : s ≠ [] := by intro e; rw [e] at hl; simp at hl
  have := hX.trie.get hX.ok hne (by rw [hl, Nat.add_sub_cancel]; exact hs s h)
  rw [hl, Nat.add_sub_cancel] at this
  exact this

theorem complementOf_some (l : List Nat) (n : Nat) : complementOf (l.map some) n = Srt.sortedComplement (l.insertionSort (· ≤ ·)) n := by
  unfold complementOf
  rw [if_neg (by simp)]
  congr 2
  rw [List.map_map]
  exact List.map_id _

theorem positions_lt {cX cA : Cells} {k : Nat} (hs : ∀ s ∈ cA k, s ∈ cX k) : ∀ i ∈ positions cX cA k, i < (cX k).length := by
  intro i hi
  obtain ⟨s, h1, rfl⟩ := List.mem_map.1 hi
  exact List.idxOf_lt_length_iff.2 (hs s h1)

theorem positions_nodup {cX cA : Cells} (hA : CellsOK cA) {k : Nat} (hs : ∀ s ∈ cA k, s ∈ cX k) : (positions cX cA k).Nodup := by
  unfold positions
  rw [List.nodup_map_iff_inj_on (hA.nodup k)]
  intro a ha b hb e
  exact (List.idxOf_inj (hs a ha)).1 e

theorem mem_positions {cX cA : Cells} (hX : CellsOK cX) {k i : Nat} (hs : ∀ s ∈ cA k, s ∈ cX k) (hi : i < (cX k).length) :
    i ∈ positions cX cA k ↔ (cX k)[i] ∈ cA k := by
  unfold positions
  rw [List.mem_map]
  constructor
  · rintro ⟨s, h1, rfl⟩
    rw [List.getElem_idxOf]; exact h1
  · intro h
    exact ⟨_, h, (hX.nodup k).idxOf_getElem _ _⟩

theorem complement_of {cX cA : Cells} (hA : CellsOK cA) {k : Nat} (hs : ∀ s ∈ cA k, s ∈ cX k) :
    ∃ c, Srt.sortedComplement ((positions cX cA k).insertionSort (· ≤ ·)) (cX k).length = .ok c ∧ c.Pairwise (· < ·) ∧ (∀ x, x ∈ c ↔ x < (cX k).length ∧ x ∉ positions cX cA k) := by
  have h1 := List.pairwise_insertionSort (· ≤ ·) (positions cX cA k)
  have h2 := sorted_nodup (positions_nodup (cX := cX) hA hs)
  obtain ⟨r, g1, g2, g3⟩ := C27_sorted_complement (ind := (positions cX cA k).insertionSort (· ≤ ·)) ((h1.and h2).imp (fun h => Nat.lt_of_le_of_ne h.1 h.2)) (n := (cX k).length)
    (fun x hx => positions_lt hs x ((List.mem_insertionSort _).1 hx))
  exact ⟨r, g1, g2, by intro x; rw [g3, List.mem_insertionSort]⟩

theorem relativeLevels_eq {X : SCpx} {cX cA : Cells} (hX : Inv X cX) (hA : CellsOK cA) (hs : ∀ k, k < X.ncells.length → ∀ s ∈ cA k, s ∈ cX k) :
    ∀ (n k : Nat) (prev : List Nat) (Ms : List (CMat F)), k + n + 1 ≤ X.ncells.length → prev.Pairwise (· < ·) → (∀ i ∈ prev, i < (cX k).length) →
      boundaries X n (k + 1) = .ok Ms →
      relativeLevels X prev (k + 1) ((List.range' (k + 1) n).map (fun d => (cA d).map X.findIdx)) =
        Cpx.relativeFrom prev Ms ((List.range' (k + 1) n).map (positions cX cA)) := by
  intro n
  induction n with
  | zero =>
    intro k prev Ms _ _ _ e
    have : Ms = [] := by simpa [boundaries] using e.symm
    subst this; rfl
  | succ n ih =>
    intro k prev Ms hk hp hpl e
    obtain ⟨A, M, g1, g2, g3, colptr, bs, g4, g5, g6, g7, g8⟩ := boundaryCsc_spec (F := F) hX (d := k) (by omega)
    obtain ⟨Ns, e1, e2, _⟩ := boundaries_spec (F := F) hX n (k + 1) (by omega)
    rw [boundaries, g1, bind_ok, g2, bind_ok, e1, bind_ok] at e
    have hMs : Ms = M :: Ns := by simpa [pure, Except.pure] using e.symm
    subst hMs
    have hs1 := hs (k + 1) (by omega)
    obtain ⟨c, c1, c2, c3⟩ := complement_of (cX := cX) hA hs1
    rw [List.range'_succ, List.map_cons, List.map_cons, relativeLevels, Cpx.relativeFrom, findIdx_map hX hA hs1]
    unfold numCells
    rw [rd_some (hX.dim (k + 1) (by omega)).nc, bind_ok, complementOf_some, c1, bind_ok, g3.ncol, c1, bind_ok, g1, bind_ok]
    have hbl : bs.length = (cX (k + 1)).length := by
      have := g3.ncol; rw [g5] at this; simpa using this
    have hrow : ∀ b ∈ bs, ∀ i ∈ b.1, i < (cX k).length := by
      intro b hb i hi
      obtain ⟨j, hj, rfl⟩ := List.getElem_of_mem hb
      have hj' : j < (cX (k + 1)).length := by omega
      obtain ⟨col, q1, q2⟩ := g3.col j _ (List.getElem?_eq_getElem hj')
      rw [g5] at q1
      simp only [List.getElem?_map, List.getElem?_eq_getElem hj, Option.map_some, Option.some.injEq] at q1
      have hm : i ∈ col.map Prod.fst := by
        rw [← q1]
        unfold blockCol
        rw [List.map_map]
        have : (bs[j].1.zip bs[j].2).map (Prod.fst ∘ fun p => (p.1, (p.2 : F))) = bs[j].1 := List.map_fst_zip (by rw [g6 _ hb])
        rw [this]; exact hi
      rw [((q2.perm).map Prod.fst).mem_iff, List.map_map, List.mem_map] at hm
      obtain ⟨l, hl, rfl⟩ := hm
      exact List.idxOf_lt_length_iff.2 (hX.ok.closed k _ (List.getElem_mem hj') l (List.mem_range.1 hl))
    obtain ⟨S, s1, s2⟩ := submatrix_toCMat (F := F) g6 g7 g8 hrow hp hpl (cind := c) (by intro j hj; rw [hbl]; exact ((c3 j).1 hj).1)
    rw [g4, s1, bind_ok, s2, ← g5]
    have := ih (k + 1) c Ns (by omega) c2 (fun i hi => ((c3 i).1 hi).1) e1
    rw [this]

/-- the chain complex of the pair is the relative complex of the chain complex of `X` -/
theorem relativeChainComplex_eq {X A : SCpx} {cX cA : Cells} (hX : Inv X cX) (hA : Inv A cA) (hs : ∀ k, k < X.ncells.length → ∀ s ∈ cA k, s ∈ cX k)
    {B : List (CMat F)} (hB : X.chainComplex = .ok B) :
    relativeChainComplex X A = Cpx.relativeComplex B ((List.range X.ncells.length).map (positions cX cA)) := by
  have hne := hX.sizes.ne
  obtain ⟨Ms, e1, e2, _⟩ := boundaries_spec (F := F) hX X.maxdim 0 (by unfold maxdim; omega)
  have h0 : B = CMat.zero 1 (cX 0).length :: Ms := by
    unfold chainComplex at hB
    rw [rd_some (hX.dim 0 hne).nc, bind_ok, e1, bind_ok] at hB
    simpa [pure, Except.pure] using hB.symm
  subst h0
  have hr : X.ncells.length = X.maxdim + 1 := by unfold maxdim; omega
  have hs0 := hs 0 hne
  obtain ⟨c, c1, c2, c3⟩ := complement_of (cX := cX) hA.ok hs0
  have hz : (CMat.zero 1 (cX 0).length : CMat F).cols.length = (cX 0).length := by simp [CMat.zero]
  unfold relativeChainComplex
  rw [getIndices_eq hA, bind_ok, hr, List.range_succ_eq_map, List.range_eq_range']
  rw [List.map_cons, List.map_cons, Cpx.relativeComplex]
  dsimp only
  unfold numCells
  rw [rd_some (hX.dim 0 hne).nc, bind_ok, findIdx_map hX hA.ok hs0, complementOf_some, c1, bind_ok, rd_some (hA.dim 0 hA.sizes.ne).nc, bind_ok, hz, c1, bind_ok]
  have hlev := relativeLevels_eq (F := F) hX hA.ok hs X.maxdim 0 c Ms (by unfold maxdim; omega) c2 (fun i hi => ((c3 i).1 hi).1) e1
  have hr' : List.map Nat.succ (List.range' 0 X.maxdim) = List.range' (0 + 1) X.maxdim := by
    apply List.ext_getElem
    · simp
    · intro i h1 h2; simp; omega
  rw [hr']
  rw [hlev]
  unfold positions
  rw [List.length_map]

end SCpx
end BATS
