import Verif.Proofs.SortBlock
import Verif.Proofs.Trie
import Verif.Proofs.Reduction

set_option linter.unusedSectionVars false
set_option linter.unusedVariables false
set_option linter.unusedSimpArgs false

/-! # Invariant of the simplicial complex data structure -/

namespace BATS
namespace SCpx
open Reduction

/-- cells by dimension, in order of insertion -/
abbrev Cells := Nat → List (List Nat)

/-- what the stored cells satisfy -/
structure CellsOK (cells : Cells) : Prop where
  len : ∀ d s, s ∈ cells d → s.length = d + 1
  nodup : ∀ d, (cells d).Nodup
  closed : ∀ d s, s ∈ cells (d + 1) → ∀ k, k < d + 2 → s.eraseIdx k ∈ cells d

/-- the trie finds exactly the stored cells -/
def TrieOK (t : Trie Nat) (cells : Cells) : Prop :=
  ∀ s : List Nat, s ≠ [] → ∀ i : Nat, t.get? s = some i ↔ (cells (s.length - 1))[i]? = some s

/-- the signed faces of a `(d+1)`-simplex -/
def facePairs (cells : Cells) (d : Nat) (s : List Nat) : List (Nat × Int) :=
  (List.range (d + 2)).map (fun k => ((cells d).idxOf (s.eraseIdx k), (-1) ^ (d + k)))

/-- block of faces and coefficients stored for the `(d+1)`-simplex `s` -/
structure Block (cells : Cells) (d : Nat) (s : List Nat) (f : List Nat) (c : List Int) : Prop where
  lf : f.length = d + 2
  lc : c.length = d + 2
  sorted : f.Pairwise (· ≤ ·)
  perm : (f.zip c).Perm (facePairs cells d s)

/-- stored counts and vertices in dimension `d` -/
structure DimOK (X : SCpx) (cells : Cells) (d : Nat) : Prop where
  nc : X.ncells[d]? = some (cells d).length
  sp : X.spx[d]? = some (cells d).flatten

/-- stored faces of the `(d+1)`-simplices -/
def BdOK (X : SCpx) (cells : Cells) (d : Nat) : Prop :=
  ∃ (Fs : List (List Nat)) (Cs : List (List Int)), X.faces[d]? = some Fs.flatten ∧ X.coeff[d]? = some Cs.flatten ∧
    Fs.length = (cells (d + 1)).length ∧ Cs.length = (cells (d + 1)).length ∧
    ∀ (i : Nat) (s : List Nat), (cells (d + 1))[i]? = some s → ∃ f c, Fs[i]? = some f ∧ Cs[i]? = some c ∧ Block cells d s f c

/-- the vectors have matching sizes -/
structure SizesOK (X : SCpx) : Prop where
  ne : 0 < X.ncells.length
  sp : X.spx.length = X.ncells.length
  fc : X.faces.length + 1 = X.ncells.length
  co : X.coeff.length + 1 = X.ncells.length

/-- the invariant restricted to dimensions up to `d` -/
structure PInv (X : SCpx) (cells : Cells) (d : Nat) : Prop where
  ok : CellsOK cells
  trie : TrieOK X.trie cells
  sizes : SizesOK X
  lt : d < X.ncells.length
  dim : ∀ e, e ≤ d → DimOK X cells e
  bd : ∀ e, e < d → BdOK X cells e

/-- the invariant -/
structure Inv (X : SCpx) (cells : Cells) : Prop where
  ok : CellsOK cells
  trie : TrieOK X.trie cells
  sizes : SizesOK X
  top : ∀ d, X.ncells.length ≤ d → cells d = []
  dim : ∀ e, e < X.ncells.length → DimOK X cells e
  bd : ∀ e, e + 1 < X.ncells.length → BdOK X cells e

theorem CellsOK.sublist {cells : Cells} (h : CellsOK cells) : ∀ (n d : Nat) (s t : List Nat), s ∈ cells d → t.Sublist s → t ≠ [] →
    s.length - t.length = n → t ∈ cells (t.length - 1) := by
  intro n
  induction n with
  | zero =>
    intro d s t hs hst ht hn
    have hl := hst.length_le
    have := hst.eq_of_length (by omega)
    subst this
    rw [h.len d t hs]; exact hs
  | succ n ih =>
    intro d s t hs hst ht hn
    have hl := h.len d s hs
    have ht' : 0 < t.length := List.length_pos_iff.2 ht
    have hd : 0 < d := by omega
    obtain ⟨e, rfl⟩ : ∃ e, d = e + 1 := ⟨d - 1, by omega⟩
    -- t is a sublist of some s.eraseIdx k
    have key : ∀ (s t : List Nat), t.Sublist s → t.length < s.length → ∃ k, k < s.length ∧ t.Sublist (s.eraseIdx k) := by
      intro s t hst
      induction hst with
      | slnil => intro h; simp at h
      | @cons l₁ l₂ a h' ih => intro _; exact ⟨0, by simp, by simpa using h'⟩
      | @cons_cons l₁ l₂ a h' ih =>
        intro hlt
        obtain ⟨k, hk, hs⟩ := ih (by simpa using hlt)
        exact ⟨k + 1, by simp; omega, by simpa [List.eraseIdx_cons_succ] using hs⟩
    obtain ⟨k, hk, hsk⟩ := key s t hst (by omega)
    exact ih e (s.eraseIdx k) t (h.closed e s hs k (by omega)) hsk ht (by rw [List.length_eraseIdx_of_lt hk]; omega)

theorem sublist_eraseIdx {s t : List Nat} (hst : t.Sublist s) (hlt : t.length < s.length) :
    ∃ k, k < s.length ∧ t.Sublist (s.eraseIdx k) := by
  induction hst with
  | slnil => simp at hlt
  | @cons l₁ l₂ a h' ih => exact ⟨0, by simp, by simpa using h'⟩
  | @cons_cons l₁ l₂ a h' ih =>
    obtain ⟨k, hk, hs⟩ := ih (by simpa using hlt)
    exact ⟨k + 1, by simp; omega, by simpa [List.eraseIdx_cons_succ] using hs⟩

theorem TrieOK.isSome {t : Trie Nat} {cells : Cells} (h : TrieOK t cells) {s : List Nat} (hs : s ≠ []) :
    (t.get? s).isSome ↔ s ∈ cells (s.length - 1) := by
  rw [Option.isSome_iff_exists, List.mem_iff_getElem?]
  exact exists_congr (fun i => h s hs i)

theorem TrieOK.get {t : Trie Nat} {cells : Cells} (h : TrieOK t cells) (hn : CellsOK cells) {s : List Nat} (hs : s ≠ [])
    (hm : s ∈ cells (s.length - 1)) : t.get? s = some ((cells (s.length - 1)).idxOf s) := by
  rw [h s hs, List.getElem?_eq_getElem (List.idxOf_lt_length_iff.2 hm), List.getElem_idxOf]

theorem TrieOK.none {t : Trie Nat} {cells : Cells} (h : TrieOK t cells) {s : List Nat} (hs : s ≠ [])
    (hm : s ∉ cells (s.length - 1)) : t.get? s = none := by
  rw [← Option.not_isSome_iff_eq_none, h.isSome hs]; exact hm

/-- append `s` in dimension `d` -/
def push (cells : Cells) (d : Nat) (s : List Nat) : Cells := Function.update cells d (cells d ++ [s])

theorem push_same (cells : Cells) (d : Nat) (s : List Nat) : push cells d s d = cells d ++ [s] := by simp [push]
theorem push_ne (cells : Cells) {d e : Nat} (s : List Nat) (h : e ≠ d) : push cells d s e = cells e := by simp [push, h]

theorem mem_push {cells : Cells} {d e : Nat} {s t : List Nat} : t ∈ push cells d s e ↔ t ∈ cells e ∨ (e = d ∧ t = s) := by
  by_cases h : e = d
  · subst h; rw [push_same]; simp
  · rw [push_ne _ _ h]; simp [h]

theorem cellsOK_push {cells : Cells} (h : CellsOK cells) {d : Nat} {s : List Nat} (hl : s.length = d + 1) (hn : s ∉ cells d)
    (hf : ∀ e, d = e + 1 → ∀ k, k < e + 2 → s.eraseIdx k ∈ cells e) : CellsOK (push cells d s) := by
  refine ⟨?_, ?_, ?_⟩
  · intro e t ht
    rcases mem_push.1 ht with h1 | ⟨rfl, rfl⟩
    · exact h.len e t h1
    · exact hl
  · intro e
    by_cases he : e = d
    · subst he; rw [push_same]
      exact List.nodup_append.2 ⟨h.nodup e, by simp, by intro a ha b hb hab; simp at hb; subst hb; subst hab; exact hn ha⟩
    · rw [push_ne _ _ he]; exact h.nodup e
  · intro e t ht k hk
    rw [mem_push]
    rcases mem_push.1 ht with h1 | ⟨h1, rfl⟩
    · exact Or.inl (h.closed e t h1 k hk)
    · exact Or.inl (hf e h1.symm k hk)

theorem trieOK_push {t : Trie Nat} {cells : Cells} (h : TrieOK t cells) (hc : CellsOK cells) {d : Nat} {s : List Nat}
    (hl : s.length = d + 1) (hn : s ∉ cells d) (hf : ∀ e, d = e + 1 → ∀ k, k < e + 2 → s.eraseIdx k ∈ cells e) :
    TrieOK (t.insert s (cells d).length) (push cells d s) := by
  intro q hq i
  rw [Trie.get?_insert]
  by_cases h1 : q = s
  · subst h1
    rw [if_pos rfl, hl, Nat.add_sub_cancel, push_same]
    simp only [Option.some.injEq]
    constructor
    · rintro rfl; simp
    · intro h2
      by_contra hne
      rcases Nat.lt_or_ge i (cells d).length with h3 | h3
      · rw [List.getElem?_append_left h3] at h2
        exact hn (List.mem_of_getElem? h2)
      · rw [List.getElem?_append_right h3] at h2
        have : i - (cells d).length ≠ 0 := by omega
        obtain ⟨m, hm⟩ := Nat.exists_eq_succ_of_ne_zero this
        rw [hm] at h2; simp at h2
  · rw [if_neg h1]
    have hlen : (push cells d s (q.length - 1))[i]? = some q ↔ (cells (q.length - 1))[i]? = some q := by
      by_cases he : q.length - 1 = d
      · rw [he, push_same]
        rcases Nat.lt_or_ge i (cells d).length with h3 | h3
        · rw [List.getElem?_append_left h3]
        · rw [List.getElem?_append_right h3, List.getElem?_eq_none h3]
          constructor
          · intro h4
            have := List.mem_of_getElem? h4
            simp at this; exact absurd this h1
          · intro h4; cases h4
      · rw [push_ne _ _ he]
    rw [hlen, ← h q hq i]
    by_cases h2 : q <+: s
    · rw [if_pos h2]
      -- `q` is already stored
      have hql : q.length ≤ s.length := h2.length_le
      have hqlt : q.length < s.length := lt_of_le_of_ne hql (fun e => h1 (h2.eq_of_length e))
      have hq0 : 0 < q.length := List.length_pos_iff.2 hq
      obtain ⟨e, rfl⟩ : ∃ e, d = e + 1 := ⟨d - 1, by omega⟩
      have hm : q ∈ cells (q.length - 1) := by
        refine hc.sublist _ e (s.eraseIdx (e + 1)) q (hf e rfl (e + 1) (by omega)) ?_ hq rfl
        have : s.eraseIdx (e + 1) = s.take (e + 1) := by
          rw [List.eraseIdx_eq_take_drop_succ, List.drop_of_length_le (by omega), List.append_nil]
        rw [this]
        exact (List.prefix_take_iff.2 ⟨h2, by omega⟩).sublist
      rw [h.get hc hq hm]; simp
    · rw [if_neg h2]

theorem finish_spec {X : SCpx} {s : List Nat} {d ind : Nat} {v : List Nat} (h : X.spx[d]? = some v) :
    finish X s d ind = .ok { X with trie := X.trie.insert s ind, spx := X.spx.set d (v ++ s) } := by
  unfold finish
  rw [rd_some h, bind_ok, wr_lt _ (List.getElem?_eq_some_iff.1 h).1]; rfl

theorem idxOf_push_append {l l' : List (List Nat)} {a : List Nat} (h : l <+: l') (ha : a ∈ l) : l'.idxOf a = l.idxOf a := by
  obtain ⟨r, rfl⟩ := h
  exact List.idxOf_append_of_mem ha

theorem facePairs_ext {cells cells' : Cells} {d : Nat} {s : List Nat} (h : cells d <+: cells' d)
    (hf : ∀ k, k < d + 2 → s.eraseIdx k ∈ cells d) : facePairs cells' d s = facePairs cells d s := by
  unfold facePairs
  apply List.map_congr_left
  intro k hk
  rw [idxOf_push_append h (hf k (List.mem_range.1 hk))]

/-- blocks stay valid when cells are appended in the dimension below -/
theorem BdOK.ext {X X' : SCpx} {cells cells' : Cells} {d : Nat} (hc : CellsOK cells) (h : BdOK X cells d) (h1 : cells' (d + 1) = cells (d + 1))
    (h2 : cells d <+: cells' d) (h3 : X'.faces[d]? = X.faces[d]?) (h4 : X'.coeff[d]? = X.coeff[d]?) : BdOK X' cells' d := by
  obtain ⟨Fs, Cs, a1, a2, a3, a4, a5⟩ := h
  refine ⟨Fs, Cs, by rw [h3, a1], by rw [h4, a2], by rw [h1, a3], by rw [h1, a4], ?_⟩
  intro i s hs
  rw [h1] at hs
  obtain ⟨f, c, b1, b2, b3⟩ := a5 i s hs
  refine ⟨f, c, b1, b2, b3.lf, b3.lc, b3.sorted, ?_⟩
  rw [facePairs_ext h2 (fun k hk => hc.closed d s (List.mem_of_getElem? hs) k hk)]
  exact b3.perm

theorem BdOK.lengths {X : SCpx} {cells : Cells} {d : Nat} {Fs : List (List Nat)} {Cs : List (List Int)}
    (h1 : Fs.length = (cells (d + 1)).length) (h2 : Cs.length = (cells (d + 1)).length)
    (h : ∀ (i : Nat) (s : List Nat), (cells (d + 1))[i]? = some s → ∃ f c, Fs[i]? = some f ∧ Cs[i]? = some c ∧ Block cells d s f c) :
    (∀ f ∈ Fs, f.length = d + 2) ∧ (∀ c ∈ Cs, c.length = d + 2) := by
  constructor
  · intro f hf
    obtain ⟨i, hi⟩ := List.mem_iff_getElem?.1 hf
    have hlt := (List.getElem?_eq_some_iff.1 hi).1
    obtain ⟨f', c, b1, _, b3⟩ := h i _ (List.getElem?_eq_getElem (by omega))
    rw [hi] at b1; cases b1; exact b3.lf
  · intro f hf
    obtain ⟨i, hi⟩ := List.mem_iff_getElem?.1 hf
    have hlt := (List.getElem?_eq_some_iff.1 hi).1
    obtain ⟨f', c, _, b1, b3⟩ := h i _ (List.getElem?_eq_getElem (by omega))
    rw [hi] at b1; cases b1; exact b3.lc

/-- the sorted block appended for a new simplex -/
theorem sortBlock_push {X : SCpx} {cells : Cells} {d : Nat} {s : List Nat} {Fs : List (List Nat)} {Cs : List (List Int)} {f : List Nat} {c : List Int}
    (h1 : Fs.length = (cells (d + 1)).length) (h2 : Cs.length = (cells (d + 1)).length)
    (h : ∀ (i : Nat) (t : List Nat), (cells (d + 1))[i]? = some t → ∃ f c, Fs[i]? = some f ∧ Cs[i]? = some c ∧ Block cells d t f c)
    (hf : f.length = d + 2) (hc : c.length = d + 2) (hp : (f.zip c).Perm (facePairs cells d s)) :
    ∃ f' c', sortBlock ((d + 2) * (cells (d + 1)).length) (d + 2) (Fs.flatten ++ f) (Cs.flatten ++ c) =
        .ok ((Fs ++ [f']).flatten, (Cs ++ [c']).flatten) ∧ Block cells d s f' c' := by
  obtain ⟨hF, hC⟩ := BdOK.lengths (X := X) h1 h2 h
  have e1 := flatten_length_uniform hF
  have e2 := flatten_length_uniform hC
  obtain ⟨f', c', g1, g2, g3, g4, g5⟩ := sortBlock_spec Fs.flatten f [] Cs.flatten c [] (by rw [e1, e2, h1, h2]) (by omega)
  refine ⟨f', c', ?_, by omega, by omega, g4, g5.trans hp⟩
  rw [e1, h1, hf] at g1
  simpa using g1

end SCpx
end BATS
