import Verif.Proofs.Light
import Verif.Proofs.SimplicialHist

set_option linter.unusedSectionVars false
set_option linter.unusedVariables false
set_option linter.unusedSimpArgs false

/-! # Adding simplices to the light complex -/

namespace BATS
namespace Light
open Reduction SCpx

theorem lookup_zipIdx (l : List Nat) (a : Nat) (n : Nat) : (l.zipIdx n).lookup a = if a ∈ l then some (n + l.idxOf a) else none := by
  induction l generalizing n with
  | nil => simp
  | cons b l ih =>
    rw [List.zipIdx_cons, List.lookup_cons]
    by_cases h : a = b
    · subst h; simp
    · have h' : (a == b) = false := by simpa using h
      rw [h', ih]
      simp only [List.mem_cons, h, false_or]
      split
      · rw [List.idxOf_cons_ne _ (Ne.symm h)]; congr 1; omega
      · rfl

/-- the invariant of the light complex: the cells by dimension, in order of insertion -/
structure LInv (L : Light) (cells : Cells) : Prop where
  fits : Fits L
  lk : L.keys.length = L.k + 1
  li : L.idx.length = L.k + 1
  len : ∀ d s, s ∈ cells d → s.length = d + 1
  nodup : ∀ d, (cells d).Nodup
  range : ∀ d s, s ∈ cells d → ∀ x ∈ s, x < L.n
  top : ∀ d, L.k < d → cells d = []
  keys : ∀ d, d ≤ L.k → L.keys[d]? = some ((cells d).map (Nat.ofDigits L.n))
  idx : ∀ d, d ≤ L.k → L.idx[d]? = some (((cells d).map (Nat.ofDigits L.n)).zipIdx)

variable {L : Light} {cells : Cells}

theorem LInv.key_mem (h : LInv L cells) {d : Nat} {s : List Nat} (hl : s.length = d + 1) (hr : ∀ x ∈ s, x < L.n) :
    Nat.ofDigits L.n s ∈ (cells d).map (Nat.ofDigits L.n) ↔ s ∈ cells d := by
  rw [List.mem_map]
  constructor
  · rintro ⟨t, ht, e⟩
    have := ofDigits_inj (by rw [hl, h.len d t ht]) (h.range d t ht) hr e
    rwa [← this]
  · intro hm; exact ⟨s, hm, rfl⟩

theorem LInv.idxOf_key (h : LInv L cells) {d : Nat} {s : List Nat} (hl : s.length = d + 1) (hr : ∀ x ∈ s, x < L.n) :
    ((cells d).map (Nat.ofDigits L.n)).idxOf (Nat.ofDigits L.n s) = (cells d).idxOf s := by
  have key : ∀ l : List (List Nat), (∀ t ∈ l, t.length = d + 1 ∧ ∀ x ∈ t, x < L.n) →
      (l.map (Nat.ofDigits L.n)).idxOf (Nat.ofDigits L.n s) = l.idxOf s := by
    intro l
    induction l with
    | nil => intro _; rfl
    | cons t l ih =>
      intro hl'
      have ht := hl' t (by simp)
      rw [List.map_cons]
      by_cases e : t = s
      · subst e; rw [List.idxOf_cons_self, List.idxOf_cons_self]
      · rw [List.idxOf_cons_ne _ (fun e' => e (ofDigits_inj (by rw [ht.1, hl]) ht.2 hr e')), List.idxOf_cons_ne _ e,
          ih (fun u hu => hl' u (by simp [hu]))]
  exact key _ (fun t ht => ⟨h.len d t ht, h.range d t ht⟩)

/-- what the hash table of dimension `d` answers -/
theorem LInv.lookup (h : LInv L cells) {d : Nat} {s : List Nat} (hl : s.length = d + 1) (hr : ∀ x ∈ s, x < L.n) :
    (((cells d).map (Nat.ofDigits L.n)).zipIdx).lookup (Nat.ofDigits L.n s) = if s ∈ cells d then some ((cells d).idxOf s) else none := by
  rw [lookup_zipIdx]
  by_cases hm : s ∈ cells d
  · rw [if_pos ((h.key_mem hl hr).2 hm), if_pos hm, h.idxOf_key hl hr, Nat.zero_add]
  · rw [if_neg (fun e => hm ((h.key_mem hl hr).1 e)), if_neg hm]

/-- the state after storing a new simplex -/
def pushed (L : Light) (cells : Cells) (d : Nat) (s : List Nat) : Light :=
  { L with idx := L.idx.set d (((cells d).map (Nat.ofDigits L.n)).zipIdx ++ [(Nat.ofDigits L.n s, ((cells d).map (Nat.ofDigits L.n)).length)]),
           keys := L.keys.set d ((cells d).map (Nat.ofDigits L.n) ++ [Nat.ofDigits L.n s]) }

theorem LInv.push (h : LInv L cells) {d : Nat} (hd : d ≤ L.k) {s : List Nat} (hl : s.length = d + 1) (hr : ∀ x ∈ s, x < L.n) (hs : s ∉ cells d) :
    LInv (pushed L cells d s) (SCpx.push cells d s) := by
  refine ⟨⟨h.fits.one, h.fits.fits, h.fits.off⟩, by simp [pushed, h.lk], by simp [pushed, h.li], ?_, ?_, ?_, ?_, ?_, ?_⟩
  · intro e t ht
    rcases mem_push.1 ht with ht | ⟨rfl, rfl⟩
    · exact h.len e t ht
    · exact hl
  · intro e
    by_cases he : e = d
    · subst he
      rw [push_same, List.nodup_append]
      exact ⟨h.nodup e, by simp, by intro a ha b hb; rw [List.mem_singleton] at hb; subst hb; exact fun e => hs (e ▸ ha)⟩
    · rw [push_ne _ _ he]; exact h.nodup e
  · intro e t ht
    rcases mem_push.1 ht with ht | ⟨rfl, rfl⟩
    · exact h.range e t ht
    · exact hr
  · intro e he
    rw [push_ne _ _ (by simp only [pushed] at he; omega)]
    exact h.top e he
  · intro e he
    show (L.keys.set d _)[e]? = _
    by_cases hed : e = d
    · subst hed
      rw [List.getElem?_set_self (by rw [h.lk]; simp only [pushed] at he; omega), push_same, List.map_append]; rfl
    · rw [List.getElem?_set_ne (Ne.symm hed), push_ne _ _ hed]; exact h.keys e he
  · intro e he
    show (L.idx.set d _)[e]? = _
    by_cases hed : e = d
    · subst hed
      rw [List.getElem?_set_self (by rw [h.li]; simp only [pushed] at he; omega), push_same, List.map_append, List.zipIdx_append]
      simp [pushed]
    · rw [List.getElem?_set_ne (Ne.symm hed), push_ne _ _ hed]; exact h.idx e he

theorem init_linv {W n k : Nat} (h1 : 1 < W) (h : n ^ (k + 1) ≤ W) : LInv (init W n k) (fun _ => []) := by
  refine ⟨fits_init h1 h, by simp [init], by simp [init], by simp, by simp, by simp, by simp, ?_, ?_⟩
  · intro d hd; simp only [init] at hd ⊢; rw [List.getElem?_replicate, if_pos (by omega)]; rfl
  · intro d hd; simp only [init] at hd ⊢; rw [List.getElem?_replicate, if_pos (by omega)]; rfl

/-- faces of the stored cells of dimension `≤ d` are stored -/
def ClosedBelow (cells : Cells) (d : Nat) : Prop := ∀ e, e < d → ∀ s, s ∈ cells (e + 1) → ∀ k, k < e + 2 → s.eraseIdx k ∈ cells e

theorem ClosedBelow.sublist {cells : Cells} {D : Nat} (h : ClosedBelow cells D) (hlen : ∀ d s, s ∈ cells d → s.length = d + 1) :
    ∀ (n d : Nat) (s t : List Nat), d ≤ D → s ∈ cells d → t.Sublist s → t ≠ [] → s.length - t.length = n → t ∈ cells (t.length - 1) := by
  intro n
  induction n with
  | zero =>
    intro d s t _ hs hst ht hn
    have hl := hst.length_le
    have := hst.eq_of_length (by omega)
    subst this
    rw [hlen d t hs]; exact hs
  | succ n ih =>
    intro d s t hd hs hst ht hn
    have hl := hlen d s hs
    have ht' : 0 < t.length := List.length_pos_iff.2 ht
    obtain ⟨e, rfl⟩ : ∃ e, d = e + 1 := ⟨d - 1, by omega⟩
    obtain ⟨k, hk, hsk⟩ := sublist_eraseIdx hst (by omega)
    exact ih e (s.eraseIdx k) t (by omega) (h e (by omega) s hs k (by omega)) hsk ht (by rw [List.length_eraseIdx_of_lt hk]; omega)

/-- the result of `add(dim, key)` -/
theorem addKey_spec (h : LInv L cells) {d : Nat} (hd : d ≤ L.k) {s : List Nat} (hl : s.length = d + 1) (hr : ∀ x ∈ s, x < L.n) :
    (s ∈ cells d ∧ L.addKey d (Nat.ofDigits L.n s) = .ok (L, (cells d).idxOf s)) ∨
    (s ∉ cells d ∧ L.addKey d (Nat.ofDigits L.n s) = .ok (pushed L cells d s, (cells d).length)) := by
  unfold addKey
  rw [rd_some (h.keys d hd), bind_ok, rd_some (h.idx d hd), bind_ok, h.lookup hl hr]
  by_cases hm : s ∈ cells d
  · left; refine ⟨hm, ?_⟩; rw [if_pos hm]; rfl
  · right; refine ⟨hm, ?_⟩; rw [if_neg hm]
    simp only [pushed, List.length_map, pure_ok]

/-- effect of adding a simplex with its missing faces -/
structure LAdded (cells cells' : Cells) (d : Nat) (s : List Nat) (new : List (Nat × Nat)) : Prop where
  above : ∀ e, d < e → cells' e = cells e
  ext : ∀ e, cells e <+: cells' e
  mem : ∀ e t, t ∈ cells' e ↔ t ∈ cells e ∨ (t.length = e + 1 ∧ t.Sublist s)
  new : NewOK new cells cells'

/-- parameters are not changed -/
structure SameParams (L L' : Light) : Prop where
  W : L'.W = L.W
  n : L'.n = L.n
  k : L'.k = L.k

theorem SameParams.refl (L : Light) : SameParams L L := ⟨rfl, rfl, rfl⟩
theorem SameParams.trans {A B C : Light} (h : SameParams A B) (g : SameParams B C) : SameParams A C :=
  ⟨g.W.trans h.W, g.n.trans h.n, g.k.trans h.k⟩

/-- what a recursive call guarantees in dimension `d` -/
def RecOK (stray d : Nat) : Prop := ∀ L cells s, LInv L cells → ClosedBelow cells d → d ≤ L.k → s.length = d + 1 → (∀ x ∈ s, x < L.n) →
  ∃ L' cells' new, addRecKey stray d L (Nat.ofDigits L.n s) = .ok (L', new) ∧ LInv L' cells' ∧ SameParams L L' ∧ ClosedBelow cells' d ∧
    LAdded cells cells' d s new

theorem ladded_refl (h : LInv L cells) {d : Nat} (hc : ClosedBelow cells d) {s : List Nat} (hm : s ∈ cells d) : LAdded cells cells d s [] := by
  refine ⟨fun _ _ => rfl, fun _ => List.prefix_rfl, ?_, NewOK.refl _⟩
  intro e t
  constructor
  · exact Or.inl
  · rintro (h1 | ⟨h1, h2⟩)
    · exact h1
    · have := hc.sublist h.len _ d s t le_rfl hm h2 (by intro h; rw [h] at h1; simp at h1) rfl
      rw [h1] at this; exact this

theorem push_ext (cells : Cells) (d : Nat) (s : List Nat) (e : Nat) : cells e <+: SCpx.push cells d s e := by
  by_cases he : e = d
  · subst he; rw [push_same]; exact List.prefix_append _ _
  · rw [push_ne _ _ he]

theorem recOK_zero (stray : Nat) : RecOK stray 0 := by
  intro L cells s h hc hd hl hr
  unfold addRecKey
  rw [rd_some (h.keys 0 hd), bind_ok, rd_some (h.idx 0 hd), bind_ok, h.lookup hl hr]
  by_cases hm : s ∈ cells 0
  · rw [if_pos hm]
    exact ⟨L, cells, [], rfl, h, SameParams.refl L, hc, ladded_refl h hc hm⟩
  · rw [if_neg hm]
    refine ⟨pushed L cells 0 s, SCpx.push cells 0 s, [(0, (cells 0).length)], by simp [pushed, pure_ok], h.push hd hl hr hm, ⟨rfl, rfl, rfl⟩,
      fun e he => by omega, ?_⟩
    refine ⟨fun e he => push_ne _ _ (by omega), push_ext _ _ _, ?_, NewOK.push _ _ _⟩
    intro e t
    rw [mem_push]
    constructor
    · rintro (h | ⟨rfl, rfl⟩)
      · exact Or.inl h
      · exact Or.inr ⟨hl, List.Sublist.refl _⟩
    · rintro (h | ⟨h1, h2⟩)
      · exact Or.inl h
      · have := h2.length_le
        have he : e = 0 := by omega
        subst he
        exact Or.inr ⟨rfl, h2.eq_of_length (by omega)⟩

/-- effect of the face loop on the faces `k < m` -/
structure LFaces (cells cells' : Cells) (d m : Nat) (s : List Nat) (new : List (Nat × Nat)) : Prop where
  above : ∀ e, d < e → cells' e = cells e
  ext : ∀ e, cells e <+: cells' e
  mem : ∀ e t, t ∈ cells' e ↔ t ∈ cells e ∨ (t.length = e + 1 ∧ ∃ k, k < m ∧ t.Sublist (s.eraseIdx k))
  new : NewOK new cells cells'

theorem recLoop_spec {stray d : Nat} (hrec : RecOK stray d) : ∀ (m : Nat) (L : Light) (cells : Cells) (a b : List Nat) (after : Nat) (new : List (Nat × Nat)),
    a.length = m → a.length + b.length = d + 2 → LInv L cells → ClosedBelow cells d → d + 1 ≤ L.k → (∀ x ∈ a ++ b, x < L.n) →
    (0 < m → after = L.n ^ (m - 1) * Nat.ofDigits L.n b) →
    ∃ L' cells' new', recLoop (addRecKey stray d) stray m (Nat.ofDigits L.n a) after L new = .ok (L', new ++ new') ∧ LInv L' cells' ∧ SameParams L L' ∧
      ClosedBelow cells' d ∧ LFaces cells cells' d m (a ++ b) new' := by
  intro m
  induction m with
  | zero =>
    intro L cells a b after new hl hlb h hc hd hr haft
    exact ⟨L, cells, [], by simp [recLoop], h, SameParams.refl L, hc, fun _ _ => rfl, fun _ => List.prefix_rfl, fun e t => by simp, NewOK.refl _⟩
  | succ m ih =>
    intro L cells a b after new hl hlb h hc hd hr haft
    obtain ⟨a', v, rfl, hl'⟩ := snoc_decomp hl
    have hrr : InRange L (a' ++ v :: b) := ⟨by simpa using hr, by simp at hlb ⊢; omega⟩
    obtain ⟨after', g1, g2⟩ := iterNext_spec h.fits stray hrr
    rw [hl'] at g1 g2
    have hface : (a' ++ b).length = d + 1 := by simp at hlb ⊢; omega
    have hfr : ∀ x ∈ a' ++ b, x < L.n := fun x hx => hr x (by simp at hx ⊢; tauto)
    obtain ⟨L1, cells1, new1, q1, q2, q3, q4, q5⟩ := hrec L cells (a' ++ b) h hc (by omega) hface hfr
    obtain ⟨L', cells', new2, r1, r2, r3, r4, r5⟩ := ih L1 cells1 a' (v :: b) after' (new ++ new1) hl' (by simp at hlb ⊢; omega) q2 q4
      (by rw [q3.k]; exact hd) (by rw [q3.n]; simpa using hr) (by rw [q3.n]; exact g2)
    rw [q3.n] at r1
    have hE : (a' ++ v :: b).eraseIdx m = a' ++ b := by rw [← hl', eraseIdx_mid]
    refine ⟨L', cells', new1 ++ new2, ?_, r2, q3.trans r3, r4, ?_⟩
    · unfold recLoop
      rw [haft (by omega), Nat.add_sub_cancel, g1, bind_ok]
      simp only
      rw [q1, bind_ok]
      simp only
      rw [r1, List.append_assoc]
    · rw [List.append_assoc, List.singleton_append]
      refine ⟨fun e he => (r5.above e he).trans (q5.above e he), fun e => (q5.ext e).trans (r5.ext e), ?_, q5.new.trans r5.new q5.ext r5.ext⟩
      intro e t
      rw [r5.mem, q5.mem]
      constructor
      · rintro ((h1 | ⟨h1, h2⟩) | ⟨h1, k, hk, h2⟩)
        · exact Or.inl h1
        · exact Or.inr ⟨h1, m, by omega, by rw [hE]; exact h2⟩
        · exact Or.inr ⟨h1, k, by omega, h2⟩
      · rintro (h1 | ⟨h1, k, hk, h2⟩)
        · exact Or.inl (Or.inl h1)
        · by_cases hkn : k = m
          · subst hkn; rw [hE] at h2; exact Or.inl (Or.inr ⟨h1, h2⟩)
          · exact Or.inr ⟨h1, k, by omega, h2⟩

theorem recOK_succ {stray d : Nat} (hrec : RecOK stray d) : RecOK stray (d + 1) := by
  intro L cells s h hc hd hl hr
  unfold addRecKey
  rw [rd_some (h.keys _ hd), bind_ok, rd_some (h.idx _ hd), bind_ok, h.lookup hl hr]
  by_cases hm : s ∈ cells (d + 1)
  · rw [if_pos hm]
    exact ⟨L, cells, [], rfl, h, SameParams.refl L, hc, ladded_refl h hc hm⟩
  · rw [if_neg hm]
    have hp := h.push hd hl hr hm
    have hcp : ClosedBelow (SCpx.push cells (d + 1) s) d := by
      intro e he t ht k hk
      rw [push_ne _ _ (by omega)] at ht ⊢
      exact hc e (by omega) t ht k hk
    obtain ⟨L', cells', new, q1, q2, q3, q4, q5⟩ := recLoop_spec hrec (d + 2) (pushed L cells (d + 1) s) (SCpx.push cells (d + 1) s) s [] 0 [] hl
      (by simp [hl]) hp hcp hd (by rw [List.append_nil]; exact hr) (by intro _; simp [Nat.ofDigits])
    rw [List.append_nil] at q5
    refine ⟨L', cells', new ++ [(d + 1, (cells (d + 1)).length)], ?_, q2, SameParams.trans (B := pushed L cells (d + 1) s) ⟨rfl, rfl, rfl⟩ q3, ?_, ?_⟩
    · show (do
        let q ← recLoop (addRecKey stray d) stray (d + 2) (Nat.ofDigits L.n s) 0 (pushed L cells (d + 1) s) []
        pure (q.1, q.2 ++ [(d + 1, ((cells (d + 1)).map (Nat.ofDigits L.n)).length)]) : Res _) = _
      have q1' : recLoop (addRecKey stray d) stray (d + 2) (Nat.ofDigits L.n s) 0 (pushed L cells (d + 1) s) [] = .ok (L', [] ++ new) := q1
      rw [q1', bind_ok, List.length_map]; simp [pure_ok]
    · intro e he t ht k hk
      by_cases hed : e = d
      · subst hed
        rw [q5.above (e + 1) (by omega)] at ht
        rw [q5.mem]
        rcases mem_push.1 ht with ht | ⟨_, rfl⟩
        · left
          rw [push_ne _ _ (by omega)]
          exact hc e (by omega) t ht k hk
        · right
          exact ⟨by rw [List.length_eraseIdx_of_lt (by omega), hl]; omega, k, hk, List.Sublist.refl _⟩
      · exact q4 e (by omega) t ht k hk
    · refine ⟨fun e he => by rw [q5.above e (by omega), push_ne _ _ (by omega)], fun e => (push_ext cells (d + 1) s e).trans (q5.ext e), ?_, ?_⟩
      · intro e t
        rw [q5.mem, mem_push]
        constructor
        · rintro ((h1 | ⟨rfl, rfl⟩) | ⟨h1, k, hk, h2⟩)
          · exact Or.inl h1
          · exact Or.inr ⟨hl, List.Sublist.refl _⟩
          · exact Or.inr ⟨h1, h2.trans (List.eraseIdx_sublist _ _)⟩
        · rintro (h1 | ⟨h1, h2⟩)
          · exact Or.inl (Or.inl h1)
          · rcases Nat.lt_or_ge t.length s.length with h3 | h3
            · obtain ⟨k, hk, h4⟩ := sublist_eraseIdx h2 h3
              exact Or.inr ⟨h1, k, by omega, h4⟩
            · have := h2.eq_of_length_le h3
              subst this
              exact Or.inl (Or.inr ⟨by omega, rfl⟩)
      · intro e
        have h1 := q5.new e
        by_cases he : e = d + 1
        · subst he
          rw [q5.above _ (by omega), push_same] at h1
          rw [q5.above _ (by omega), push_same]
          rw [List.filter_append, List.map_append, h1]; simp
        · rw [push_ne _ _ he] at h1
          rw [List.filter_append, List.map_append, h1]
          simp [Ne.symm he]

theorem recOK (stray d : Nat) : RecOK stray d := by
  induction d with
  | zero => exact recOK_zero stray
  | succ d ih => exact recOK_succ ih

end Light
end BATS
