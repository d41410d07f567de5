import Verif.Spec.Filtration
import Verif.Proofs.SimplicialHist

set_option linter.unusedSectionVars false
set_option linter.unusedVariables false
set_option linter.unusedSimpArgs false

/-! # Invariant of filtrations -/

namespace BATS
namespace Filt
open Reduction SCpx

variable {T : Type} [Zero T]

theorem growTo_getD {α : Type} (l : List α) (n : Nat) (a : α) (i : Nat) : (growTo l n a).getD i a = l.getD i a := by
  rw [List.getD_eq_getElem?_getD, List.getD_eq_getElem?_getD, growTo_getElem?]
  by_cases h : i < l.length
  · simp [h]
  · rw [List.getElem?_eq_none (by omega)]
    simp only [h, if_false]
    split <;> rfl

theorem getElem?_of_getD {α : Type} {l : List α} {i : Nat} (a : α) (h : i < l.length) : l[i]? = some (l.getD i a) := by
  rw [List.getD_eq_getElem?_getD, List.getElem?_eq_getElem h]; rfl

theorem set_getD {α : Type} (l : List α) (i : Nat) (a : α) (h : i < l.length) (j : Nat) (d : α) :
    (l.set i a).getD j d = if j = i then a else l.getD j d := by
  rw [List.getD_eq_getElem?_getD, List.getElem?_set]
  by_cases hj : j = i
  · subst hj; simp [h]
  · rw [if_neg (Ne.symm hj), if_neg hj, List.getD_eq_getElem?_getD]

/-- effect of writing a value in place or just behind the last one -/
theorem setVal_spec (val : List (List T)) (d i : Nat) (t : T) (hi : i ≤ (val.getD d []).length) :
    ∃ v, setVal val d i t = .ok v ∧ v.length = max val.length (d + 1) ∧ (∀ e, e ≠ d → v.getD e [] = val.getD e []) ∧
      v.getD d [] = if i < (val.getD d []).length then (val.getD d []).set i t else val.getD d [] ++ [t] := by
  have hl : d < (growTo val (d + 1) []).length := by rw [growTo_length]; omega
  have hrow : (growTo val (d + 1) [])[d]? = some (val.getD d []) := by
    rw [getElem?_of_getD [] hl, growTo_getD]
  unfold setVal reserve
  rw [rd_some hrow, bind_ok, wr_lt _ hl, bind_ok]
  have hrow2 : ((growTo val (d + 1) []).set d (growTo (val.getD d []) (i + 1) 0))[d]? = some (growTo (val.getD d []) (i + 1) 0) := by
    simp [hl]
  have hlen2 : i < (growTo (val.getD d []) (i + 1) 0).length := by rw [growTo_length]; omega
  rw [rd_some hrow2, bind_ok, wr_lt _ hlen2, bind_ok, wr_lt _ (by simpa using hl)]
  refine ⟨_, rfl, ?_, ?_, ?_⟩
  · simp [growTo_length]
  · intro e he
    rw [set_getD _ _ _ (by simpa using hl), if_neg he, set_getD _ _ _ hl, if_neg he, growTo_getD]
  · rw [set_getD _ _ _ (by simpa using hl), if_pos rfl]
    split
    · rename_i h
      congr 1
      unfold growTo
      rw [if_neg (by omega)]
    · rename_i h
      have : i = (val.getD d []).length := by omega
      subst this
      unfold growTo
      rw [if_pos (by omega)]
      simp

/-- effect of storing the values of newly created cells -/
theorem storeAll_spec (t : T) : ∀ (ps : List (Nat × Nat)) (val : List (List T)) (m : Nat → Nat),
    (∀ e, (ps.filter (fun p => p.1 = e)).map Prod.snd = List.range' (val.getD e []).length (m e)) →
    ∃ v, storeAll t ps val = .ok v ∧ (∀ e, v.getD e [] = val.getD e [] ++ List.replicate (m e) t) ∧
      (∀ N, (∀ p ∈ ps, p.1 < N) → v.length ≤ max val.length N) ∧ val.length ≤ v.length ∧ ∀ p ∈ ps, p.1 < v.length := by
  intro ps
  induction ps with
  | nil =>
    intro val m h
    refine ⟨val, rfl, ?_, ?_, Nat.le_refl _, by intro p hp; simp at hp⟩
    · intro e
      have := congrArg List.length (h e)
      simp at this
      rw [← this]; simp
    · intro N _; omega
  | cons p ps ih =>
    obtain ⟨d, i⟩ := p
    intro val m h
    have hd := h d
    simp only [List.filter_cons, decide_true, if_true, List.map_cons] at hd
    obtain ⟨m', hm⟩ : ∃ m', m d = m' + 1 := by
      cases hmd : m d with
      | zero => rw [hmd] at hd; simp at hd
      | succ m' => exact ⟨m', rfl⟩
    rw [hm, List.range'_succ] at hd
    simp only [List.cons.injEq] at hd
    obtain ⟨hi, hrest⟩ := hd
    obtain ⟨v1, h1, h2, h3, h4⟩ := setVal_spec val d i t (by omega)
    rw [if_neg (by omega)] at h4
    obtain ⟨v2, g1, g2, g3, g4, g5⟩ := ih v1 (fun e => if e = d then m' else m e) (by
      intro e
      by_cases he : e = d
      · subst he
        simp only [if_true]
        rw [hrest, h4]; simp
      · have := h e
        simp only [List.filter_cons, Ne.symm he, decide_false, if_false, Bool.false_eq_true] at this
        rw [if_neg he, h3 e he]; exact this)
    refine ⟨v2, ?_, ?_, ?_, by omega, ?_⟩
    · unfold storeAll
      simp only [h1, bind_ok]
      exact g1
    · intro e
      rw [g2 e]
      by_cases he : e = d
      · subst he
        simp only [if_true]
        rw [h4, hm, List.replicate_succ]; simp
      · rw [if_neg he, h3 e he]
    · intro N hN
      have := g3 N (fun p hp => hN p (by simp [hp]))
      have := hN (d, i) (by simp)
      simp only at this
      omega
    · intro p hp
      rw [List.mem_cons] at hp
      rcases hp with rfl | hp
      · show d < v2.length; omega
      · exact g5 p hp

/-- the invariant -/
structure FInv (Φ : Filt T) (cells : Cells) (v : List Nat → Option T) : Prop where
  inv : Inv Φ.X cells
  len : Φ.val.length = Φ.X.ncells.length ∨ (Φ.val = [] ∧ Φ.X.ncells.length = 1 ∧ ∀ d, cells d = [])
  row : ∀ d, (Φ.val.getD d []).map some = (cells d).map v
  dom : ∀ s, v s ≠ none ↔ s ∈ SCpx.setOf cells

theorem FInv.rowLen {Φ : Filt T} {cells : Cells} {v : List Nat → Option T} (h : FInv Φ cells v) (d : Nat) : (Φ.val.getD d []).length = (cells d).length := by
  have := congrArg List.length (h.row d)
  simpa using this

theorem empty_inv : FInv (empty : Filt T) (fun _ => []) (fun _ => none) := by
  refine ⟨(init_inv 0).1, Or.inr ⟨rfl, (init_inv 0).2, fun _ => rfl⟩, ?_, ?_⟩
  · intro d; simp [empty]
  · intro s; simp [SCpx.setOf]

theorem ofCpx_init_inv (m : Nat) : ∃ Φ : Filt T, ofCpx (SCpx.init m) = .ok Φ ∧ FInv Φ (fun _ => []) (fun _ => none) := by
  obtain ⟨hI, hl⟩ := init_inv m
  have key : ∀ n k (v : List (List T)), k + n = m + 1 → v.length = k → (∀ d, v.getD d [] = []) →
      ∃ v', reserveAll (SCpx.init m) n k v = .ok v' ∧ v'.length = m + 1 ∧ ∀ d, v'.getD d [] = [] := by
    intro n
    induction n with
    | zero => intro k v h1 h2 h3; exact ⟨v, rfl, by omega, h3⟩
    | succ n ih =>
      intro k v h1 h2 h3
      have hnc := (hI.dim k (by omega)).nc
      have hlk : k < (growTo v (k + 1) []).length := by rw [growTo_length]; omega
      have hrow : (growTo v (k + 1) [])[k]? = some [] := by
        rw [getElem?_of_getD [] hlk, growTo_getD, h3]
      unfold reserveAll SCpx.numCells reserve
      rw [rd_some hnc, bind_ok, rd_some hrow, bind_ok, wr_lt _ hlk, bind_ok]
      apply ih (k + 1) _ (by omega)
      · rw [List.length_set, growTo_length]; omega
      · intro d
        rw [set_getD _ _ _ hlk]
        split
        · rfl
        · rw [growTo_getD, h3]
  obtain ⟨v', e1, e2, e3⟩ := key (m + 1) 0 [] (by omega) rfl (by intro d; rfl)
  refine ⟨⟨SCpx.init m, v'⟩, ?_, hI, Or.inl (by rw [e2, hl]), ?_, ?_⟩
  · unfold ofCpx
    have : (SCpx.init m).maxdim + 1 = m + 1 := by unfold SCpx.maxdim; omega
    rw [this, e1]; rfl
  · intro d; rw [e3]; rfl
  · intro s; simp [SCpx.setOf]

theorem FInv.represents {Φ : Filt T} {cells : Cells} {v : List Nat → Option T} (h : FInv Φ cells v) : Represents Φ v := by
  have hset : {s | v s ≠ none} = SCpx.setOf cells := by ext s; exact h.dom s
  have hr := h.inv.represents
  refine ⟨by rw [hset]; exact hr, ?_, ?_⟩
  · intro d hd
    have hlt : d < Φ.X.ncells.length := by
      rcases h.len with h1 | ⟨h1, _⟩
      · omega
      · rw [h1] at hd; simp at hd
    unfold numCells SCpx.numCells
    rw [rd_some (getElem?_of_getD [] hd), bind_ok, rd_some (h.inv.dim d hlt).nc, h.rowLen]; rfl
  · intro s i hs hi
    have hg := (h.inv.trie s hs i).1 hi
    have hil := (List.getElem?_eq_some_iff.1 hg).1
    have hlt : s.length - 1 < Φ.X.ncells.length := by
      by_contra hc
      rw [h.inv.top _ (by omega)] at hil; simp at hil
    have hvl : s.length - 1 < Φ.val.length := by
      rcases h.len with h1 | ⟨h1, _, h2⟩
      · omega
      · rw [h2] at hil; simp at hil
    refine ⟨_, rd_some (getElem?_of_getD [] hvl), ?_⟩
    have := congrArg (fun l => l[i]?) (h.row (s.length - 1))
    simp only [List.getElem?_map, hg, Option.map_some] at this
    cases hx : (Φ.val.getD (s.length - 1) [])[i]? with
    | none => rw [hx] at this; simp at this
    | some x => rw [hx] at this; simpa using this

open Classical in
/-- adding one simplex -/
theorem addDirected_inv {Φ : Filt T} {cells : Cells} {v : List Nat → Option T} (h : FInv Φ cells v) (t : T) {s : List Nat} (hs : s ≠ []) :
    (∀ v', specAdd v t s = some v' → ∃ Ψ cells' i, (do let r ← Φ.X.addDirected s; store Φ.val (s.length - 1) t r.1 r.2 : Res (Filt T × Nat)) = .ok (Ψ, i) ∧
      FInv Ψ cells' v' ∧ Ψ.X.findIdx s = some i ∧ Ψ.X.maxdim = max Φ.X.maxdim (s.length - 1)) ∧
    (specAdd v t s = none → (do let r ← Φ.X.addDirected s; store Φ.val (s.length - 1) t r.1 r.2 : Res (Filt T × Nat)) = .error .ub) := by
  obtain ⟨d, hl⟩ := setOf_congr_len hs
  obtain ⟨Y, cells', r, h1, h2, h3, h4⟩ := addDirected_spec h.inv hl
  have hXne := h.inv.sizes.ne
  have hlegal : (s.length = 1 ∨ ∀ k, k < s.length → v (s.eraseIdx k) ≠ none) ↔ FacesIn cells d s := by
    rw [facesIn_iff hl]
    simp only [h.dom]
  have hmd : Y.maxdim = max Φ.X.maxdim (s.length - 1) := by unfold SCpx.maxdim; omega
  rcases h4 with ⟨a, b, c⟩ | ⟨a, b, c, e⟩ | ⟨a, b, c, e⟩
  · -- already present
    have hleg : FacesIn cells d s := by
      intro e he k hk
      subst he
      exact h.inv.ok.closed e s a k hk
    have hspec : specAdd v t s = some (fun u => if u = s then some t else v u) := by
      unfold specAdd; rw [if_pos (hlegal.2 hleg)]
    constructor
    · intro v' hv'
      rw [hspec] at hv'
      cases hv'
      subst b c
      have hidx := List.idxOf_lt_length_iff.2 a
      have hrl := h.rowLen d
      obtain ⟨w, w1, w2, w3, w4⟩ := setVal_spec Φ.val d ((cells' d).idxOf s) t (by omega)
      rw [if_pos (by omega)] at w4
      have hlen : Φ.val.length = Φ.X.ncells.length := by
        rcases h.len with h1 | ⟨_, _, h1⟩
        · exact h1
        · rw [h1] at a; simp at a
      have hdl : d < Φ.X.ncells.length := by
        by_contra hc
        rw [h.inv.top d (by omega)] at a; simp at a
      refine ⟨⟨Y, w⟩, cells', (cells' d).idxOf s, ?_, ⟨h2, Or.inl (by show w.length = Y.ncells.length; omega), ?_, ?_⟩, ?_, hmd⟩
      · rw [h1, bind_ok]
        show store Φ.val (s.length - 1) t Y (some _) = _
        unfold store
        simp only [hl, Nat.add_sub_cancel, w1, bind_ok]; rfl
      · intro e
        show (w.getD e []).map some = _
        by_cases he : e = d
        · subst he
          rw [w4]
          apply List.ext_getElem?
          intro i
          rw [List.getElem?_map, List.getElem?_map, List.getElem?_set]
          have hrow := congrArg (fun l => l[i]?) (h.row e)
          simp only [List.getElem?_map] at hrow
          by_cases hi : (cells' e).idxOf s = i
          · subst hi
            rw [if_pos rfl, if_pos (by omega), List.getElem?_eq_getElem hidx, List.getElem_idxOf]; simp
          · rw [if_neg hi, hrow]
            cases hx : (cells' e)[i]? with
            | none => rfl
            | some u =>
              have : u ≠ s := by
                intro e'; subst e'
                obtain ⟨hlt, hu⟩ := List.getElem?_eq_some_iff.1 hx
                apply hi
                rw [← hu]
                exact (h.inv.ok.nodup e).idxOf_getElem i hlt
              simp [this]
        · rw [w3 e he, h.row e]
          apply List.map_congr_left
          intro u hu
          have : u ≠ s := by
            intro e'; subst e'
            have := h.inv.ok.len e u hu; omega
          simp [this]
      · intro u
        rw [← h.dom u]
        by_cases hu : u = s
        · subst hu; simp [(h.dom u).2 ((mem_setOf hl).2 a)]
        · simp [hu]
      · show Y.findIdx s = _
        unfold findIdx
        rw [h2.trie s hs, hl, Nat.add_sub_cancel, List.getElem?_eq_getElem hidx, List.getElem_idxOf]
    · intro hn; rw [hspec] at hn; cases hn
  · -- new
    have hspec : specAdd v t s = some (fun u => if u = s then some t else v u) := by
      unfold specAdd; rw [if_pos (hlegal.2 b)]
    constructor
    · intro v' hv'
      rw [hspec] at hv'
      cases hv'
      subst c e
      have hrl := h.rowLen d
      obtain ⟨w, w1, w2, w3, w4⟩ := setVal_spec Φ.val d (cells d).length t (by omega)
      rw [if_neg (by omega)] at w4
      have hlen : w.length = Y.ncells.length := by
        rcases h.len with h1 | ⟨h1, h2, h5⟩
        · omega
        · have : d = 0 := by
            cases d with
            | zero => rfl
            | succ e =>
              have := b e rfl 0 (by omega)
              rw [h5] at this; simp at this
          rw [h1] at w2; simp at w2; omega
      refine ⟨⟨Y, w⟩, push cells d s, (cells d).length, ?_, ⟨h2, Or.inl hlen, ?_, ?_⟩, ?_, hmd⟩
      · rw [h1, bind_ok]
        show store Φ.val (s.length - 1) t Y (some _) = _
        unfold store
        simp only [hl, Nat.add_sub_cancel, w1, bind_ok]; rfl
      · intro e
        show (w.getD e []).map some = _
        have hcong : ∀ e, (cells e).map v = (cells e).map (fun u => if u = s then some t else v u) := by
          intro e
          apply List.map_congr_left
          intro u hu
          have : u ≠ s := by
            intro e'; subst e'
            have := h.inv.ok.len e u hu
            have : e = d := by omega
            subst this; exact a hu
          simp [this]
        by_cases he : e = d
        · subst he
          rw [w4, push_same, List.map_append, List.map_append, h.row e, hcong e]; simp
        · rw [w3 e he, push_ne _ _ he, h.row e, hcong e]
      · intro u
        rw [setOf_push hl]
        show _ ↔ (u ∈ SCpx.setOf cells ∨ u = s)
        rw [← h.dom u]
        by_cases hu : u = s <;> simp [hu]
      · show Y.findIdx s = _
        unfold findIdx
        rw [h2.trie s hs, hl, Nat.add_sub_cancel, push_same]; simp
    · intro hn; rw [hspec] at hn; cases hn
  · -- refused
    have hspec : specAdd v t s = none := by
      unfold specAdd; rw [if_neg (fun hc => b (hlegal.1 hc))]
    constructor
    · intro v' hv'; rw [hspec] at hv'; cases hv'
    · intro _
      subst e
      rw [h1, bind_ok]; rfl

open Classical in
/-- adding a simplex with its faces -/
theorem addDirectedRecursive_inv {Φ : Filt T} {cells : Cells} {v : List Nat → Option T} (h : FInv Φ cells v) (t : T) {s : List Nat} (hs : s ≠ []) :
    ∃ Y ps w cells', Φ.X.addDirectedRecursive s = .ok (Y, ps) ∧ storeAll t ps Φ.val = .ok w ∧ FInv ⟨Y, w⟩ cells' (specAddRec v t s) ∧
      Y.maxdim = max Φ.X.maxdim (s.length - 1) := by
  obtain ⟨d, hl⟩ := setOf_congr_len hs
  obtain ⟨Y, cells', r, h1, h2, h3, h4⟩ := addDirectedRecursive_spec h.inv hl
  have hXne := h.inv.sizes.ne
  have hmd : Y.maxdim = max Φ.X.maxdim (s.length - 1) := by unfold SCpx.maxdim; omega
  rcases h4 with ⟨a, b, c⟩ | ⟨a, hA⟩
  · -- present: as for `add`
    subst b c
    have hvs : v s ≠ none := (h.dom s).2 ((mem_setOf hl).2 a)
    have hspec : specAddRec v t s = fun u => if u = s then some t else v u := by
      unfold specAddRec; rw [if_pos hvs]
    have hleg : s.length = 1 ∨ ∀ k, k < s.length → v (s.eraseIdx k) ≠ none := by
      have : FacesIn cells' d s := by
        intro e he k hk
        subst he
        exact h.inv.ok.closed e s a k hk
      rw [facesIn_iff hl] at this
      simpa only [h.dom] using this
    have hadd : specAdd v t s = some (fun u => if u = s then some t else v u) := by unfold specAdd; rw [if_pos hleg]
    obtain ⟨Ψ, cells'', i, g1, g2, g3, _⟩ := (addDirected_inv h t hs).1 _ hadd
    -- the value row is written at the same place
    have hidx := List.idxOf_lt_length_iff.2 a
    have hrl := h.rowLen d
    obtain ⟨w, w1, w2, w3, w4⟩ := setVal_spec Φ.val d ((cells' d).idxOf s) t (by omega)
    rw [if_pos (by omega)] at w4
    refine ⟨Y, _, w, cells', h1, ?_, ?_, hmd⟩
    · unfold storeAll
      simp only [w1, bind_ok]; rfl
    · rw [hspec]
      have hlen : Φ.val.length = Φ.X.ncells.length := by
        rcases h.len with h1 | ⟨_, _, h1⟩
        · exact h1
        · rw [h1] at a; simp at a
      have hdl : d < Φ.X.ncells.length := by
        by_contra hc
        rw [h.inv.top d (by omega)] at a; simp at a
      refine ⟨h2, Or.inl (by show w.length = Y.ncells.length; omega), ?_, ?_⟩
      · intro e
        show (w.getD e []).map some = _
        by_cases he : e = d
        · subst he
          rw [w4]
          apply List.ext_getElem?
          intro i
          rw [List.getElem?_map, List.getElem?_map, List.getElem?_set]
          have hrow := congrArg (fun l => l[i]?) (h.row e)
          simp only [List.getElem?_map] at hrow
          by_cases hi : (cells' e).idxOf s = i
          · subst hi
            rw [if_pos rfl, if_pos (by omega), List.getElem?_eq_getElem hidx, List.getElem_idxOf]; simp
          · rw [if_neg hi, hrow]
            cases hx : (cells' e)[i]? with
            | none => rfl
            | some u =>
              have : u ≠ s := by
                intro e'; subst e'
                obtain ⟨hlt, hu⟩ := List.getElem?_eq_some_iff.1 hx
                apply hi
                rw [← hu]
                exact (h.inv.ok.nodup e).idxOf_getElem i hlt
              simp [this]
        · rw [w3 e he, h.row e]
          apply List.map_congr_left
          intro u hu
          have : u ≠ s := by
            intro e'; subst e'
            have := h.inv.ok.len e u hu; omega
          simp [this]
      · intro u
        rw [← h.dom u]
        by_cases hu : u = s
        · subst hu; simp [(h.dom u).2 ((mem_setOf hl).2 a)]
        · simp [hu]
  · have hvs : ¬ v s ≠ none := by rw [h.dom]; exact fun hc => a ((mem_setOf hl).1 hc)
    have hspec : specAddRec v t s = fun u => if u ≠ [] ∧ u.Sublist s ∧ v u = none then some t else v u := by
      unfold specAddRec; rw [if_neg hvs]
    obtain ⟨w, w1, w2, w3, w4, w5⟩ := storeAll_spec t r Φ.val (fun e => (cells' e).length - (cells e).length) (by
      intro e; rw [h.rowLen]; exact hA.new e)
    refine ⟨Y, r, w, cells', h1, w1, ?_, hmd⟩
    have hmem : ∀ p ∈ r, p.1 < Y.ncells.length := by
      intro p hp
      by_contra hc
      have h5 : cells' p.1 = [] := h2.top _ (by omega)
      have := hA.new p.1
      rw [h5] at this
      simp at this
      exact this p.1 p.2 hp rfl
    have hlast : (d, (cells d).length) ∈ r := List.mem_of_getLast? hA.last
    have hlen : w.length = Y.ncells.length := by
      have := w3 _ hmem
      have := w5 _ hlast
      simp only at this
      rcases h.len with g1 | ⟨g1, g2, g3⟩
      · omega
      · have : Φ.val.length = 0 := by rw [g1]; rfl
        omega
    have hdom : ∀ u, u ∈ SCpx.setOf cells' ↔ (u ∈ SCpx.setOf cells ∨ (u ≠ [] ∧ u.Sublist s)) := by
      intro u
      show (u ≠ [] ∧ u ∈ cells' (u.length - 1)) ↔ ((u ≠ [] ∧ u ∈ cells (u.length - 1)) ∨ (u ≠ [] ∧ u.Sublist s))
      rw [hA.mem]
      constructor
      · rintro ⟨h1, h2 | h2⟩
        · exact Or.inl ⟨h1, h2⟩
        · exact Or.inr ⟨h1, h2.2⟩
      · rintro (⟨h1, h2⟩ | ⟨h1, h2⟩)
        · exact ⟨h1, Or.inl h2⟩
        · exact ⟨h1, Or.inr ⟨by have := List.length_pos_iff.2 h1; omega, h2⟩⟩
    rw [hspec]
    refine ⟨h2, Or.inl hlen, ?_, ?_⟩
    · intro e
      show (w.getD e []).map some = _
      obtain ⟨new, hnew⟩ := hA.ext e
      rw [w2 e, ← hnew, List.map_append, List.map_append, h.row e]
      congr 1
      · apply List.map_congr_left
        intro u hu
        have hul := h.inv.ok.len e u hu
        have : v u ≠ none := (h.dom u).2 ((mem_setOf hul).2 hu)
        simp [this]
      · simp only [List.length_append, Nat.add_sub_cancel_left, List.map_replicate]
        symm
        rw [List.eq_replicate_iff]
        refine ⟨by simp, ?_⟩
        intro x hx
        rw [List.mem_map] at hx
        obtain ⟨u, hu, rfl⟩ := hx
        have hum : u ∈ cells' e := by rw [← hnew]; exact List.mem_append_right _ hu
        have hul := h2.ok.len e u hum
        have hnd := h2.ok.nodup e
        rw [← hnew] at hnd
        have hnc : u ∉ cells e := fun hc => List.disjoint_of_nodup_append hnd hc hu
        have hune : u ≠ [] := by intro e'; rw [e'] at hul; simp at hul
        have hsub : u.Sublist s := by
          rcases (hA.mem e u).1 hum with hh | hh
          · exact absurd hh hnc
          · exact hh.2
        have hvn : v u = none := by
          by_contra hc
          exact hnc ((mem_setOf hul).1 ((h.dom u).1 hc))
        simp [hune, hsub, hvn]
    · intro u
      rw [hdom u, ← h.dom u]
      by_cases hc : u ≠ [] ∧ u.Sublist s
      · by_cases hv : v u = none
        · simp [hc.1, hc.2, hv]
        · simp [hv]
      · have hc' : ¬ (u ≠ [] ∧ u.Sublist s ∧ v u = none) := fun h => hc ⟨h.1, h.2.1⟩
        rw [if_neg hc']
        tauto

theorem step_inv {Φ : Filt T} {cells : Cells} {v : List Nat → Option T} (h : FInv Φ cells v) (o : Op T) (ho : o.simplex ≠ []) :
    (∀ v', specStep v o = some v' → ∃ Ψ cells', step Φ o = .ok Ψ ∧ FInv Ψ cells' v' ∧ Ψ.X.maxdim = max Φ.X.maxdim (o.simplex.length - 1)) ∧
    (specStep v o = none → step Φ o = .error .ub) := by
  cases o with
  | add t s =>
    have hlen : (sortV s).length = s.length := List.length_insertionSort _ _
    have := addDirected_inv h t (sortV_ne (s := s) ho)
    rw [hlen] at this
    constructor
    · intro v' hv'
      have hv2 : specAdd v t (s.mergeSort (· ≤ ·)) = some v' := hv'
      rw [mergeSort_eq] at hv2
      obtain ⟨Ψ, c, i, e1, e2, _, e4⟩ := this.1 v' hv2
      refine ⟨Ψ, c, ?_, e2, e4⟩
      show (do let r ← (do let r ← Φ.X.addDirected (sortV s); store Φ.val (s.length - 1) t r.1 r.2 : Res (Filt T × Nat)); pure r.1 : Res (Filt T)) = _
      rw [e1]; rfl
    · intro hv'
      have hv2 : specAdd v t (s.mergeSort (· ≤ ·)) = none := hv'
      rw [mergeSort_eq] at hv2
      show (do let r ← (do let r ← Φ.X.addDirected (sortV s); store Φ.val (s.length - 1) t r.1 r.2 : Res (Filt T × Nat)); pure r.1 : Res (Filt T)) = _
      rw [this.2 hv2]; rfl
  | addDirected t s =>
    have := addDirected_inv h t (s := s) ho
    constructor
    · intro v' hv'
      obtain ⟨Ψ, c, i, e1, e2, _, e4⟩ := this.1 v' hv'
      refine ⟨Ψ, c, ?_, e2, e4⟩
      show (do let r ← (do let r ← Φ.X.addDirected s; store Φ.val (s.length - 1) t r.1 r.2 : Res (Filt T × Nat)); pure r.1 : Res (Filt T)) = _
      rw [e1]; rfl
    · intro hv'
      show (do let r ← (do let r ← Φ.X.addDirected s; store Φ.val (s.length - 1) t r.1 r.2 : Res (Filt T × Nat)); pure r.1 : Res (Filt T)) = _
      rw [this.2 hv']; rfl
  | addRecursive t s =>
    have hlen : (sortV s).length = s.length := List.length_insertionSort _ _
    constructor
    · intro v' hv'
      cases hv'
      obtain ⟨Y, ps, w, c, e1, e2, e3, e4⟩ := addDirectedRecursive_inv h t (sortV_ne (s := s) ho)
      rw [hlen] at e4
      rw [← mergeSort_eq] at e3
      refine ⟨⟨Y, w⟩, c, ?_, e3, e4⟩
      unfold step addRecursive SCpx.addRecursive
      simp only [e1, bind_ok, e2]; rfl
    · intro hv'; cases hv'

theorem run_inv : ∀ (ops : List (Op T)) {Φ : Filt T} {cells : Cells} {v : List Nat → Option T}, FInv Φ cells v → (∀ o ∈ ops, o.simplex ≠ []) →
    (∀ v', specRun v ops = some v' → ∃ Ψ cells', run Φ ops = .ok Ψ ∧ FInv Ψ cells' v' ∧ Φ.X.maxdim ≤ Ψ.X.maxdim) ∧
    (specRun v ops = none → run Φ ops = .error .ub) := by
  intro ops
  induction ops with
  | nil =>
    intro Φ cells v h _
    refine ⟨?_, by intro h; cases h⟩
    intro v' hv'; cases hv'
    exact ⟨Φ, cells, rfl, h, Nat.le_refl _⟩
  | cons o os ih =>
    intro Φ cells v h ho
    obtain ⟨s1, s2⟩ := step_inv h o (ho o (by simp))
    unfold specRun run
    cases hs : specStep v o with
    | none =>
      rw [s2 hs]
      exact ⟨(by intro v' h; cases h), fun _ => rfl⟩
    | some v1 =>
      obtain ⟨Ψ, c, e1, e2, e3⟩ := s1 v1 hs
      obtain ⟨i1, i2⟩ := ih e2 (fun o' h' => ho o' (by simp [h']))
      rw [e1]
      simp only [Option.bind_some, bind_ok]
      refine ⟨?_, i2⟩
      intro v' hv'
      obtain ⟨Θ, c', f1, f2, f3⟩ := i1 v' hv'
      exact ⟨Θ, c', f1, f2, by omega⟩

end Filt
end BATS
