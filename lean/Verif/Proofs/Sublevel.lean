import Verif.Proofs.Filtration

set_option linter.unusedSectionVars false
set_option linter.unusedVariables false
set_option linter.unusedSimpArgs false

/-! # Sublevel sets and lower-star filtrations -/

namespace BATS
namespace Filt
open Reduction SCpx

variable {T : Type} [Zero T] [LinearOrder T]

theorem good_iff {v : List Nat → Option T} {a : T} {s : List Nat} (hs : s ≠ []) :
    Good v a s ↔ (∃ x, v s = some x ∧ x ≤ a) ∧ (s.length = 1 ∨ ∀ k, k < s.length → Good v a (s.eraseIdx k)) := by
  constructor
  · rintro ⟨_, h⟩
    refine ⟨h s hs (List.Sublist.refl _), ?_⟩
    by_cases h1 : s.length = 1
    · exact Or.inl h1
    · right
      intro k hk
      refine ⟨?_, fun u hu hsub => h u hu (hsub.trans (List.eraseIdx_sublist _ _))⟩
      intro e
      have := List.length_eraseIdx_of_lt hk
      rw [e] at this; simp at this; omega
  · rintro ⟨h1, h2⟩
    refine ⟨hs, ?_⟩
    intro u hu hsub
    by_cases hlt : u.length < s.length
    · obtain ⟨k, hk, hks⟩ := sublist_eraseIdx hsub hlt
      rcases h2 with h2 | h2
      · have := List.length_pos_iff.2 hu; omega
      · exact (h2 k hk).2 u hu hks
    · have : u = s := hsub.eq_of_length_le (by omega)
      rw [this]; exact h1

theorem sortV_of_sorted {s : List Nat} (h : s.Pairwise (· ≤ ·)) : sortV s = s := by
  unfold sortV
  exact List.Pairwise.insertionSort_eq h

section sub
variable {Φ : Filt T} {cells : Cells} {v : List Nat → Option T}

theorem getSimplex_eq {X : SCpx} (h : Inv X cells) {k i : Nat} {s : List Nat} (hs : (cells k)[i]? = some s) : X.getSimplex k i = .ok s := by
  have hm := List.mem_of_getElem? hs
  have hl := h.ok.len k s hm
  have hsm := (mem_setOf (cells := cells) hl).2 hm
  have hf : X.findIdx s = some i := by
    unfold findIdx; rw [h.trie s hsm.1, hl, Nat.add_sub_cancel]; exact hs
  obtain ⟨n, _, _, h3⟩ := h.represents.range s hsm i hf
  rw [hl, Nat.add_sub_cancel] at h3
  exact h3

/-- state of the sublevel set while dimension `k` is processed up to position `i` -/
structure SubSt (Φ : Filt T) (cells : Cells) (v : List Nat → Option T) (a : T) (k i : Nat) (Y : SCpx) (c : Cells) : Prop where
  inv : Inv Y c
  len : Y.ncells.length = Φ.X.ncells.length
  mem : ∀ s, s ∈ SCpx.setOf c ↔ Good v a s ∧ (s.length ≤ k ∨ (s.length = k + 1 ∧ (cells k).idxOf s < i))

theorem subRow_spec (h : FInv Φ cells v) (hsort : ∀ d s, s ∈ cells d → s.Pairwise (· ≤ ·)) (a : T) (k : Nat) :
    ∀ n i Y c, i + n = (cells k).length → SubSt Φ cells v a k i Y c →
      ∃ Y' c', subRow Φ a k n i Y = .ok Y' ∧ SubSt Φ cells v a k (cells k).length Y' c' := by
  intro n
  induction n with
  | zero =>
    intro i Y c hi hst
    have : i = (cells k).length := by omega
    subst this
    exact ⟨Y, c, rfl, hst⟩
  | succ n ih =>
    intro i Y c hi hst
    have hlt : i < (cells k).length := by omega
    have hrl := h.rowLen k
    have hvl : k < Φ.val.length := by
      by_contra hc
      have : Φ.val.getD k [] = [] := by rw [List.getD_eq_getElem?_getD, List.getElem?_eq_none (by omega)]; rfl
      rw [this] at hrl; simp at hrl; omega
    have hs : (cells k)[i]? = some (cells k)[i] := List.getElem?_eq_getElem hlt
    generalize hsd : (cells k)[i] = s at hs
    have hm := List.mem_of_getElem? hs
    have hl := h.inv.ok.len k s hm
    have hne : s ≠ [] := by intro e; rw [e] at hl; simp at hl
    have hidx : (cells k).idxOf s = i := by rw [← hsd]; exact (h.inv.ok.nodup k).idxOf_getElem i hlt
    have hidx' : ∀ u, (cells k).idxOf u = i → u = s := by
      intro u hu
      have hul : (cells k).idxOf u < (cells k).length := by omega
      have := List.getElem_idxOf hul
      have h2 : (cells k)[(cells k).idxOf u]'hul = (cells k)[i] := by congr 1
      rw [← this, h2, hsd]
    have hxi : i < (Φ.val.getD k []).length := by omega
    have hx : (Φ.val.getD k [])[i]? = some ((Φ.val.getD k [])[i]) := List.getElem?_eq_getElem hxi
    generalize (Φ.val.getD k [])[i] = x at hx
    have hvx : v s = some x := by
      have := congrArg (fun l => l[i]?) (h.row k)
      simp only [List.getElem?_map, hs, hx, Option.map_some, Option.some.injEq] at this
      exact this.symm
    unfold subRow
    rw [rd_some (getElem?_of_getD [] hvl), bind_ok, rd_some hx, bind_ok]
    have hfaces : (s.length = 1 ∨ ∀ j, j < s.length → s.eraseIdx j ∈ SCpx.setOf c) ↔ (s.length = 1 ∨ ∀ j, j < s.length → Good v a (s.eraseIdx j)) := by
      apply or_congr_right
      apply forall_congr'
      intro j
      apply imp_congr_right
      intro hj
      rw [hst.mem]
      have := List.length_eraseIdx_of_lt hj
      constructor
      · exact fun h => h.1
      · exact fun h => ⟨h, Or.inl (by omega)⟩
    by_cases hxa : x ≤ a
    · rw [if_pos hxa, getSimplex_eq h.inv hs, bind_ok]
      obtain ⟨Y', c', r, e1, e2, e3, _, e5, _⟩ := addDirected_set hst.inv hne
      have : Y.add s = .ok (Y', r) := by unfold SCpx.add; rw [sortV_of_sorted (hsort k s hm)]; exact e1
      rw [this, bind_ok]
      apply ih (i + 1) Y' c' (by omega)
      refine ⟨e2, ?_, ?_⟩
      · rw [e3, hst.len]
        have : k < Φ.X.ncells.length := by
          by_contra hc
          rw [h.inv.top k (by omega)] at hm; simp at hm
        omega
      · intro u
        rw [e5]
        show (u ∈ SCpx.setOf c ∨ (u = s ∧ _)) ↔ _
        rw [hfaces, hst.mem]
        constructor
        · rintro (⟨h1, h2⟩ | ⟨rfl, h2⟩)
          · refine ⟨h1, ?_⟩
            rcases h2 with h2 | ⟨h2, h3⟩
            · exact Or.inl h2
            · exact Or.inr ⟨h2, by omega⟩
          · exact ⟨(good_iff hne).2 ⟨⟨x, hvx, hxa⟩, h2⟩, Or.inr ⟨hl, by omega⟩⟩
        · rintro ⟨h1, h2⟩
          rcases h2 with h2 | ⟨h2, h3⟩
          · exact Or.inl ⟨h1, Or.inl h2⟩
          · by_cases hii : (cells k).idxOf u = i
            · have := hidx' u hii
              subst this
              exact Or.inr ⟨rfl, ((good_iff hne).1 h1).2⟩
            · exact Or.inl ⟨h1, Or.inr ⟨h2, by omega⟩⟩
    · rw [if_neg hxa]
      apply ih (i + 1) Y c (by omega)
      refine ⟨hst.inv, hst.len, ?_⟩
      intro u
      rw [hst.mem]
      constructor
      · rintro ⟨h1, h2 | ⟨h2, h3⟩⟩
        · exact ⟨h1, Or.inl h2⟩
        · exact ⟨h1, Or.inr ⟨h2, by omega⟩⟩
      · rintro ⟨h1, h2 | ⟨h2, h3⟩⟩
        · exact ⟨h1, Or.inl h2⟩
        · by_cases hii : (cells k).idxOf u = i
          · have := hidx' u hii
            subst this
            obtain ⟨y, hy, hya⟩ := ((good_iff hne).1 h1).1
            rw [hvx] at hy
            cases hy
            exact absurd hya hxa
          · exact ⟨h1, Or.inr ⟨h2, by omega⟩⟩

theorem subLoop_spec (h : FInv Φ cells v) (hsort : ∀ d s, s ∈ cells d → s.Pairwise (· ≤ ·)) (a : T) :
    ∀ n k Y c, k + n = Φ.val.length → SubSt Φ cells v a k 0 Y c →
      ∃ Y' c', subLoop Φ a n k Y = .ok Y' ∧ SubSt Φ cells v a Φ.val.length 0 Y' c' := by
  intro n
  induction n with
  | zero =>
    intro k Y c hk hst
    have : k = Φ.val.length := by omega
    subst this
    exact ⟨Y, c, rfl, hst⟩
  | succ n ih =>
    intro k Y c hk hst
    have hrl := h.rowLen k
    obtain ⟨Y', c', e1, e2⟩ := subRow_spec h hsort a k (cells k).length 0 Y c (by omega) hst
    unfold subLoop numCells
    rw [rd_some (getElem?_of_getD [] (by omega)), bind_ok, pure_ok, bind_ok, hrl, e1, bind_ok]
    apply ih (k + 1) Y' c' (by omega)
    refine ⟨e2.inv, e2.len, ?_⟩
    intro u
    rw [e2.mem]
    apply and_congr_right
    intro hg
    obtain ⟨y, hy, _⟩ := hg.2 u hg.1 (List.Sublist.refl _)
    have hu := (h.dom u).1 (by rw [hy]; simp)
    have hpos := List.length_pos_iff.2 hg.1
    constructor
    · rintro (h1 | ⟨h1, _⟩)
      · left; omega
      · left; omega
    · rintro (h1 | ⟨h1, h2⟩)
      · by_cases hlk : u.length ≤ k
        · exact Or.inl hlk
        · have hl : u.length = k + 1 := by omega
          exact Or.inr ⟨hl, List.idxOf_lt_length_iff.2 ((mem_setOf hl).1 hu)⟩
      · omega

theorem sublevelset_spec (h : FInv Φ cells v) (hsort : ∀ d s, s ∈ cells d → s.Pairwise (· ≤ ·)) (a : T) :
    ∃ Y c, sublevelset Φ a = .ok Y ∧ Inv Y c ∧ Y.maxdim = Φ.X.maxdim ∧ SCpx.setOf c = {s | Good v a s} := by
  obtain ⟨hI, hl⟩ := init_inv Φ.X.maxdim
  have hXne := h.inv.sizes.ne
  have hlen0 : (SCpx.init Φ.X.maxdim).ncells.length = Φ.X.ncells.length := by rw [hl]; unfold SCpx.maxdim; omega
  obtain ⟨Y, c, e1, e2⟩ := subLoop_spec h hsort a Φ.val.length 0 (SCpx.init Φ.X.maxdim) (fun _ => []) (by omega) (by
    refine ⟨hI, hlen0, ?_⟩
    intro s
    constructor
    · intro hs; simp [SCpx.setOf] at hs
    · rintro ⟨h1, h2 | h2⟩
      · have := List.length_pos_iff.2 h1.1; omega
      · omega)
  refine ⟨Y, c, e1, e2.inv, by unfold SCpx.maxdim; rw [e2.len], ?_⟩
  ext s
  rw [e2.mem]
  constructor
  · exact fun h => h.1
  · intro hg
    refine ⟨hg, Or.inl ?_⟩
    obtain ⟨y, hy, _⟩ := hg.2 s hg.1 (List.Sublist.refl _)
    have hu := (h.dom s).1 (by rw [hy]; simp)
    have h3 := (h.inv.represents.dim s hu).2
    rcases h.len with g | ⟨_, _, g⟩
    · unfold SCpx.maxdim at h3; omega
    · have := hu.2; rw [g] at this; simp at this

end sub

theorem good_of_monotone {v : List Nat → Option T} (hm : Monotone v) (hne : v [] = none) (a : T) (s : List Nat) :
    Good v a s ↔ ∃ x, v s = some x ∧ x ≤ a := by
  constructor
  · rintro ⟨h1, h2⟩; exact h2 s h1 (List.Sublist.refl _)
  · rintro ⟨x, hx, hxa⟩
    refine ⟨?_, ?_⟩
    · intro e; rw [e, hne] at hx; cases hx
    · intro u hu hsub
      obtain ⟨y, hy, hyx⟩ := hm s u hu hsub x hx
      exact ⟨y, hy, le_trans hyx hxa⟩

end Filt

/-! ## lower star -/

namespace SCpx
open Reduction

theorem chunkLoop_block (n : Nat) : ∀ (l s rest : List Nat), l ≠ [] → s.length + l.length = n →
    chunkLoop n (l ++ rest) s = (s ++ l) :: chunkLoop n rest [] := by
  intro l
  induction l with
  | nil => intro s rest h; exact absurd rfl h
  | cons a l ih =>
    intro s rest _ hl
    rw [List.cons_append, chunkLoop]
    cases l with
    | nil =>
      simp only [List.length_cons, List.length_nil] at hl
      rw [if_pos (by simp; omega)]; simp
    | cons b l =>
      simp only [List.length_cons] at hl
      rw [if_neg (by simp; omega), ih _ _ (by simp) (by simp; omega)]; simp

theorem chunkLoop_flatten (n : Nat) : ∀ (L : List (List Nat)), (∀ l ∈ L, l.length = n + 1) → chunkLoop (n + 1) L.flatten [] = L := by
  intro L
  induction L with
  | nil => intro _; rfl
  | cons l L ih =>
    intro h
    rw [List.flatten_cons, chunkLoop_block (n + 1) l [] _ (by intro e; have := h l (by simp); rw [e] at this; simp at this) (by simp [h l (by simp)]),
      List.nil_append, ih (fun l' h' => h l' (by simp [h']))]

theorem getSimplices_spec {X : SCpx} {cells : Cells} (h : Inv X cells) {d : Nat} (hd : d < X.ncells.length) : X.getSimplices d = .ok (cells d) := by
  unfold getSimplices
  rw [rd_some (h.dim d hd).sp, bind_ok, chunkLoop_flatten d _ (fun l hl => h.ok.len d l hl)]; rfl

end SCpx

section
open Reduction SCpx
variable {T : Type}

theorem extendRow_spec (f : List Nat → Res (T × Nat)) (g : List Nat → T × Nat) : ∀ ss : List (List Nat), (∀ s ∈ ss, f s = .ok (g s)) →
    extendRow f ss = .ok (ss.map (fun s => (g s).1), ss.map (fun s => (g s).2)) := by
  intro ss
  induction ss with
  | nil => intro _; rfl
  | cons s ss ih =>
    intro h
    unfold extendRow
    rw [h s (by simp), bind_ok, ih (fun s' h' => h s' (by simp [h'])), bind_ok]; rfl

theorem extendLoop_spec {X : SCpx} {cells : Cells} (h : Inv X cells) (f : List Nat → Res (T × Nat)) (g : List Nat → T × Nat)
    (hf : ∀ d, ∀ s ∈ cells d, f s = .ok (g s)) : ∀ n k, k + n = X.ncells.length →
    extendLoop X f n k = .ok ((List.range' k n).map (fun d => (cells d).map (fun s => (g s).1)), (List.range' k n).map (fun d => (cells d).map (fun s => (g s).2))) := by
  intro n
  induction n with
  | zero => intro k _; rfl
  | succ n ih =>
    intro k hk
    unfold extendLoop
    rw [getSimplices_spec h (by omega), bind_ok, extendRow_spec f g _ (hf k), bind_ok, ih (k + 1) (by omega), bind_ok]
    rfl

variable [LinearOrder T]

theorem maxVertex_spec (f0 : List T) : ∀ (l : List Nat) (m : Nat) (x : T), f0[m]? = some x → (∀ j ∈ l, j < f0.length) →
    ∃ m' y, maxVertex f0 m l = .ok m' ∧ f0[m']? = some y ∧ (m' = m ∨ m' ∈ l) ∧ x ≤ y ∧ ∀ (j : Nat), j ∈ l → ∀ z, f0[j]? = some z → z ≤ y := by
  intro l
  induction l with
  | nil => intro m x hx _; exact ⟨m, x, rfl, hx, Or.inl rfl, le_refl _, by intro j hj; simp at hj⟩
  | cons j l ih =>
    intro m x hx hl
    have hj : f0[j]? = some (f0[j]'(hl j (by simp))) := List.getElem?_eq_getElem _
    generalize f0[j]'(hl j (by simp)) = b at hj
    unfold maxVertex
    rw [rd_some hx, bind_ok, rd_some hj, bind_ok]
    by_cases hlt : x < b
    · rw [if_pos hlt]
      obtain ⟨m', y, e1, e2, e3, e4, e5⟩ := ih j b hj (fun i hi => hl i (by simp [hi]))
      refine ⟨m', y, e1, e2, ?_, le_trans (le_of_lt hlt) e4, ?_⟩
      · right
        rcases e3 with rfl | e3
        · simp
        · simp [e3]
      · intro i hi z hz
        rw [List.mem_cons] at hi
        rcases hi with rfl | hi
        · rw [hj] at hz; cases hz; exact e4
        · exact e5 i hi z hz
    · rw [if_neg hlt]
      obtain ⟨m', y, e1, e2, e3, e4, e5⟩ := ih m x hx (fun i hi => hl i (by simp [hi]))
      refine ⟨m', y, e1, e2, ?_, e4, ?_⟩
      · rcases e3 with rfl | e3
        · exact Or.inl rfl
        · right; simp [e3]
      · intro i hi z hz
        rw [List.mem_cons] at hi
        rcases hi with rfl | hi
        · rw [hj] at hz; cases hz; exact le_trans (not_lt.1 hlt) e4
        · exact e5 i hi z hz

theorem starFn_spec (f0 : List T) (s : List Nat) (hs : s ≠ []) (hl : ∀ j ∈ s, j < f0.length) :
    ∃ r, starFn f0 s = .ok r ∧ IsMaxVertex f0 s r := by
  cases s with
  | nil => exact absurd rfl hs
  | cons i l =>
    have hi : f0[i]? = some (f0[i]'(hl i (by simp))) := List.getElem?_eq_getElem _
    obtain ⟨m, y, e1, e2, e3, e4, e5⟩ := maxVertex_spec f0 l i _ hi (fun j hj => hl j (by simp [hj]))
    refine ⟨(y, m), ?_, ?_, e2, ?_⟩
    · unfold starFn
      simp only [e1, bind_ok, rd_some e2]; rfl
    · rcases e3 with rfl | e3
      · simp
      · simp [e3]
    · intro j hj
      have hjl := hl j hj
      refine ⟨_, List.getElem?_eq_getElem hjl, ?_⟩
      rw [List.mem_cons] at hj
      rcases hj with rfl | hj
      · exact e4
      · exact e5 j hj _ (List.getElem?_eq_getElem hjl)

theorem lowerStar_spec [Nonempty T] {X : SCpx} {cells : Cells} (h : Inv X cells) (f0 : List T) (hl : ∀ d, ∀ s ∈ cells d, ∀ j ∈ s, j < f0.length) :
    ∃ (g : List Nat → T × Nat), (∀ d, ∀ s ∈ cells d, IsMaxVertex f0 s (g s)) ∧
      lowerStar X f0 = .ok ((List.range X.ncells.length).map (fun d => (cells d).map (fun s => (g s).1)),
        (List.range X.ncells.length).map (fun d => (cells d).map (fun s => (g s).2))) := by
  have key : ∀ s, ∃ r, (∃ d, s ∈ cells d) → starFn f0 s = .ok r ∧ IsMaxVertex f0 s r := by
    intro s
    by_cases hs : ∃ d, s ∈ cells d
    · obtain ⟨d, hd⟩ := hs
      obtain ⟨r, e⟩ := starFn_spec f0 s (by intro e; have := h.ok.len d s hd; rw [e] at this; simp at this) (hl d s hd)
      exact ⟨r, fun _ => e⟩
    · exact ⟨(Classical.arbitrary T, 0), fun h => absurd h hs⟩
  choose g hg using key
  refine ⟨g, fun d s hs => (hg s ⟨d, hs⟩).2, ?_⟩
  unfold lowerStar extendFiltration
  have hne := h.sizes.ne
  rw [extendLoop_spec h _ g (fun d s hs => (hg s ⟨d, hs⟩).1) (X.maxdim + 1) 0 (by unfold SCpx.maxdim; omega)]
  have : X.maxdim + 1 = X.ncells.length := by unfold SCpx.maxdim; omega
  rw [this, List.range_eq_range']
end

end BATS
