import Verif.Proofs.ZZExt
import Verif.Props.SimplicialPersistence

set_option linter.unusedSectionVars false
set_option linter.unusedVariables false
set_option linter.unusedSimpArgs false

/-! # The present simplices of a zigzag filtration of a simplicial complex form a simplicial complex -/

namespace BATS
namespace Zigzag
open Reduction Matrix

variable {F : Type} [Field F] [DecidableEq F] {T : Type} [LinearOrder T]

theorem eraseIdx_inj_of_sorted {s : List Nat} (hs : s.Pairwise (· < ·)) {a b : Nat} (ha : a < s.length) (hb : b < s.length) (h : s.eraseIdx a = s.eraseIdx b) : a = b := by
  have hn : s.Nodup := hs.imp (fun h => ne_of_lt h)
  have h1 := toFinset_eraseIdx hn ha
  rw [h, toFinset_eraseIdx hn hb] at h1
  have h2 : s[a] ∉ s.toFinset.erase s[b] := by rw [h1]; simp
  rw [Finset.mem_erase] at h2
  by_contra hne
  apply h2
  refine ⟨fun e => hne ((List.Nodup.getElem_inj_iff hn).1 e), ?_⟩
  rw [List.mem_toFinset]; exact List.getElem_mem ha

theorem ent_facet {X : SCpx} {cells : SCpx.Cells} {B : List (CMat F)} (h : SCpx.Inv X cells) (hs : ∀ d s, s ∈ cells d → s.Pairwise (· < ·))
    (b4 : ∀ d, d + 1 < X.ncells.length → ∃ M, B[d + 1]? = some M ∧ SCpx.BdMat cells d M) {d i j m : Nat} {s : List Nat} (hj : (cells (d + 1))[j]? = some s) (hm : m < s.length)
    (hi : (cells d)[i]? = some (s.eraseIdx m)) : ent B (d + 1) i j ≠ 0 := by
  have hmem := List.mem_of_getElem? hj
  have hl := h.ok.len (d + 1) s hmem
  have hss := hs (d + 1) s hmem
  rw [SCpx.ent_eq h b4 hj]
  have hidx : ∀ k, k < d + 2 → ((cells d).idxOf (s.eraseIdx k) = i ↔ k = m) := by
    intro k hk
    have hcl := h.ok.closed d s hmem k hk
    obtain ⟨li, gi⟩ := List.getElem?_eq_some_iff.1 hi
    have hlt := List.idxOf_lt_length_iff.2 hcl
    constructor
    · intro e
      have : (cells d)[i]? = some (s.eraseIdx k) := by
        rw [← e, List.getElem?_eq_getElem hlt, List.getElem_idxOf]
      rw [hi] at this
      injection this with this
      exact (eraseIdx_inj_of_sorted hss hm (by omega) this).symm
    · rintro rfl
      rw [← gi]
      exact (h.ok.nodup d).idxOf_getElem i li
  rw [Finset.sum_eq_single m]
  · rw [if_pos ((hidx m (by omega)).2 rfl)]
    exact pow_ne_zero _ (neg_ne_zero.2 one_ne_zero)
  · intro k hk hkm
    rw [if_neg (fun e => hkm ((hidx k (Finset.mem_range.1 hk)).1 e))]
  · intro hc
    exact absurd (Finset.mem_range.2 (by omega)) hc

theorem isASC_of_erase {L : Finset (Finset Nat)} (hne : ∀ s ∈ L, s.Nonempty) (he : ∀ s ∈ L, ∀ v ∈ s, (s.erase v).Nonempty → s.erase v ∈ L) : IsASC L := by
  refine ⟨hne, ?_⟩
  have : ∀ n, ∀ s ∈ L, s.card = n → ∀ t, t ⊆ s → t.Nonempty → t ∈ L := by
    intro n
    induction n using Nat.strong_induction_on with
    | _ n ih =>
      intro s hs hn t hts htn
      by_cases hst : t = s
      · rw [hst]; exact hs
      · obtain ⟨v, hv, hvt⟩ := Finset.exists_of_ssubset (Finset.ssubset_iff_subset_ne.2 ⟨hts, hst⟩)
        have hsub : t ⊆ s.erase v := fun x hx => Finset.mem_erase.2 ⟨fun e => hvt (e ▸ hx), hts hx⟩
        have hcard := Finset.card_erase_lt_of_mem hv
        exact ih _ (by omega) _ (he s hs v hv (htn.mono hsub)) rfl t hsub htn
  intro s hs t
  exact this _ s hs rfl t

theorem betti_at {X : SCpx} {cells : SCpx.Cells} {B : List (CMat F)} (h : SCpx.Inv X cells) (hs : ∀ d s, s ∈ cells d → s.Pairwise (· < ·)) (hB : X.chainComplex = .ok B)
    {vals : List (List (List (T × T)))} (hv : IsZigzagFiltration B vals) {t : T} {L : Finset (Finset Nat)} (hL : IsComplexAt X vals t L) (k : Nat) :
    bettiIn B vals k t = simplicialBetti F L k := by
  obtain ⟨B', b1, b2, b3, b4⟩ := SCpx.chainComplex_spec (F := F) h
  rw [hB] at b1; cases b1
  obtain ⟨K, hK⟩ := exists_vertexSets h hs
  have hcell : ∀ {σ : Finset Nat} {i : Nat}, σ.Nonempty → (X.findIdx (σ.sort (· ≤ ·)) = some i ↔ (cells (σ.card - 1))[i]? = some (σ.sort (· ≤ ·))) := by
    intro σ i hne
    have := h.trie (σ.sort (· ≤ ·)) (by rw [← List.length_pos_iff, Finset.length_sort, Finset.card_pos]; exact hne) i
    rw [Finset.length_sort] at this
    exact this
  have hmem : ∀ (k j : Nat) (s : List Nat), (cells k)[j]? = some s → (s.toFinset ∈ L ↔ ∃ v ∈ intervals vals k j, v.1 ≤ t ∧ t ≤ v.2) := by
    intro k j s hj
    have hm := List.mem_of_getElem? hj
    have hss := hs k s hm
    have hl := h.ok.len k s hm
    have hcard : s.toFinset.card = k + 1 := by rw [List.card_toFinset, List.dedup_eq_self.2 (hss.imp (fun h => ne_of_lt h)), hl]
    have hne : s.toFinset.Nonempty := by rw [← Finset.card_pos]; omega
    rw [hL]
    constructor
    · rintro ⟨_, i, h1, h2⟩
      rw [hcell hne, SCpx.sort_toFinset_of_sorted hss, hcard, Nat.add_sub_cancel] at h1
      rw [hcard, Nat.add_sub_cancel] at h2
      obtain ⟨l1, g1⟩ := List.getElem?_eq_some_iff.1 h1
      obtain ⟨l2, g2⟩ := List.getElem?_eq_some_iff.1 hj
      have : i = j := (List.Nodup.getElem_inj_iff (h.ok.nodup k)).1 (g1.trans g2.symm)
      subst this; exact h2
    · intro h2
      refine ⟨hne, j, ?_, ?_⟩
      · rw [hcell hne, SCpx.sort_toFinset_of_sorted hss, hcard, Nat.add_sub_cancel]; exact hj
      · rw [hcard, Nat.add_sub_cancel]; exact h2
  have hsub : L ⊆ K := by
    intro σ hσ
    obtain ⟨hne, i, h1, _⟩ := (hL σ).1 hσ
    rw [hcell hne] at h1
    rw [hK.mem_card (d := σ.card - 1) (by have := Finset.card_pos.2 hne; omega)]
    exact List.mem_of_getElem? h1
  have hLasc : IsASC L := by
    apply isASC_of_erase
    · intro σ hσ; exact ((hL σ).1 hσ).1
    · intro σ hσ v hvσ hne'
      obtain ⟨hne, i, h1, w, hw, hwt⟩ := (hL σ).1 hσ
      rw [hcell hne] at h1
      have hc2 : 0 < (σ.erase v).card := Finset.card_pos.2 hne'
      rw [Finset.card_erase_of_mem hvσ] at hc2
      obtain ⟨d, hd⟩ : ∃ d, σ.card = d + 2 := ⟨σ.card - 2, by omega⟩
      have hvl : v ∈ σ.sort (· ≤ ·) := (Finset.mem_sort _).2 hvσ
      obtain ⟨m, hm, hmv⟩ := List.getElem_of_mem hvl
      have hsort : (σ.sort (· ≤ ·)).eraseIdx m = (σ.erase v).sort (· ≤ ·) := by
        apply toFinset_inj_of_sorted ((pairwise_sort_lt σ).sublist (List.eraseIdx_sublist _ _)) (pairwise_sort_lt _)
        rw [toFinset_eraseIdx (σ.sort_nodup _) hm, hmv, Finset.sort_toFinset, Finset.sort_toFinset]
      rw [show σ.card - 1 = d + 1 by omega] at h1 hw
      have hcl := h.ok.closed d _ (List.mem_of_getElem? h1) m (by rw [Finset.length_sort] at hm; omega)
      obtain ⟨i', hi', hg'⟩ := List.getElem_of_mem hcl
      have hg : (cells d)[i']? = some ((σ.sort (· ≤ ·)).eraseIdx m) := by rw [List.getElem?_eq_getElem hi', hg']
      obtain ⟨w', m1, m2⟩ := hv.closed d i' i (ent_facet h hs b4 h1 hm hg) w hw
      rw [hL]
      refine ⟨hne', i', ?_, w', ?_, m2.1.trans hwt.1, hwt.2.trans m2.2⟩
      · rw [hcell hne', Finset.card_erase_of_mem hvσ, ← hsort, show σ.card - 1 - 1 = d by omega]; exact hg
      · rw [Finset.card_erase_of_mem hvσ, show σ.card - 1 - 1 = d by omega]; exact m1
  have hKasc : IsASC K := by
    apply isASC_of_erase
    · intro σ hσ
      rw [hK.mem] at hσ
      have := hσ.1
      rw [← List.length_pos_iff, Finset.length_sort, Finset.card_pos] at this
      exact this
    · intro σ hσ v hvσ hne'
      have hc2 : 0 < (σ.erase v).card := Finset.card_pos.2 hne'
      rw [Finset.card_erase_of_mem hvσ] at hc2
      obtain ⟨d, hd⟩ : ∃ d, σ.card = d + 2 := ⟨σ.card - 2, by omega⟩
      rw [hK.mem_card (d := d + 1) (by omega)] at hσ
      rw [hK.mem_card (d := d) (by rw [Finset.card_erase_of_mem hvσ]; omega)]
      have hvl : v ∈ σ.sort (· ≤ ·) := (Finset.mem_sort _).2 hvσ
      obtain ⟨m, hm, hmv⟩ := List.getElem_of_mem hvl
      have hsort : (σ.sort (· ≤ ·)).eraseIdx m = (σ.erase v).sort (· ≤ ·) := by
        apply toFinset_inj_of_sorted ((pairwise_sort_lt σ).sublist (List.eraseIdx_sublist _ _)) (pairwise_sort_lt _)
        rw [toFinset_eraseIdx (σ.sort_nodup _) hm, hmv, Finset.sort_toFinset, Finset.sort_toFinset]
      rw [← hsort]
      exact h.ok.closed d _ hσ m (by rw [Finset.length_sort] at hm; omega)
  exact bettiIn_simplicial h hK hKasc b3 b2 b4 t hLasc hsub hmem k

end Zigzag
end BATS
