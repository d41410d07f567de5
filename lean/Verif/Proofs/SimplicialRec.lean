import Verif.Proofs.SimplicialAdd

set_option linter.unusedSectionVars false
set_option linter.unusedVariables false
set_option linter.unusedSimpArgs false

/-! # `add_recursive` keeps the invariant and adds exactly the missing faces -/

namespace BATS
namespace SCpx
open Reduction

/-- the returned indices list, in every dimension, exactly the new cells in order -/
def NewOK (new : List (Nat × Nat)) (cells cells' : Cells) : Prop :=
  ∀ e, (new.filter (fun p => p.1 = e)).map Prod.snd = List.range' (cells e).length ((cells' e).length - (cells e).length)

theorem NewOK.trans {n1 n2 : List (Nat × Nat)} {c0 c1 c2 : Cells} (h1 : NewOK n1 c0 c1) (h2 : NewOK n2 c1 c2)
    (e1 : ∀ e, c0 e <+: c1 e) (e2 : ∀ e, c1 e <+: c2 e) : NewOK (n1 ++ n2) c0 c2 := by
  intro e
  rw [List.filter_append, List.map_append, h1 e, h2 e]
  have l1 := (e1 e).length_le
  have l2 := (e2 e).length_le
  have := List.range'_append (s := (c0 e).length) (m := (c1 e).length - (c0 e).length) (n := (c2 e).length - (c1 e).length) (step := 1)
  rw [show (c0 e).length + 1 * ((c1 e).length - (c0 e).length) = (c1 e).length by omega] at this
  rw [this]
  congr 1
  omega

theorem NewOK.refl (c : Cells) : NewOK [] c c := by intro e; simp

theorem NewOK.push (c : Cells) (d : Nat) (s : List Nat) : NewOK [(d, (c d).length)] c (SCpx.push c d s) := by
  intro e
  by_cases h : e = d
  · subst h; simp [push_same]
  · simp [push_ne _ _ h, Ne.symm h]

/-- effect of adding a new simplex with its missing faces -/
structure Added (cells cells' : Cells) (d : Nat) (s : List Nat) (new : List (Nat × Nat)) : Prop where
  above : ∀ e, d < e → cells' e = cells e
  top : cells' d = cells d ++ [s]
  ext : ∀ e, cells e <+: cells' e
  mem : ∀ e t, t ∈ cells' e ↔ t ∈ cells e ∨ (t.length = e + 1 ∧ t.Sublist s)
  last : new.getLast? = some (d, (cells d).length)
  new : NewOK new cells cells'

/-- what a recursive call guarantees in dimension `d` -/
def RecOK (d : Nat) : Prop := ∀ X cells s ci, PInv X cells d → s.length = d + 1 → s ∉ cells d →
  ∃ X' cells' new, addRec d X s ci = .ok (X', (cells d).length, ci ++ new) ∧ PInv X' cells' d ∧ Frame X X' d ∧
    Added cells cells' d s new

theorem recOK_zero : RecOK 0 := by
  intro X cells s ci h hl hs
  obtain ⟨Y, h1, h2, h3⟩ := finish_zero h hl hs rfl
  refine ⟨Y, push cells 0 s, [(0, (cells 0).length)], ?_, h2, h3, ?_⟩
  · unfold addRec
    rw [rd_some (h.dim 0 le_rfl).nc, bind_ok, wr_lt _ h.lt, bind_ok, h1]; rfl
  · refine ⟨fun e he => push_ne _ _ (by omega), push_same _ _ _, ?_, ?_, rfl, NewOK.push _ _ _⟩
    · intro e
      by_cases he : e = 0
      · subst he; rw [push_same]; exact List.prefix_append _ _
      · rw [push_ne _ _ he]
    · intro e t
      rw [mem_push]
      constructor
      · rintro (h | ⟨rfl, rfl⟩)
        · exact Or.inl h
        · exact Or.inr ⟨hl, List.Sublist.refl _⟩
      · rintro (h | ⟨h1, h2⟩)
        · exact Or.inl h
        · have := h2.length_le
          have he : e = 0 := by omega
          subst he
          exact Or.inr ⟨rfl, h2.eq_of_length (by omega)⟩

/-- effect of the face loop on the faces `k < n` -/
structure FacesAdded (cells cells' : Cells) (d n : Nat) (s : List Nat) (new : List (Nat × Nat)) : Prop where
  above : ∀ e, d < e → cells' e = cells e
  ext : ∀ e, cells e <+: cells' e
  mem : ∀ e t, t ∈ cells' e ↔ t ∈ cells e ∨ (t.length = e + 1 ∧ ∃ k, k < n ∧ t.Sublist (s.eraseIdx k))
  faces : ∀ k, k < n → s.eraseIdx k ∈ cells' d
  new : NewOK new cells cells'

theorem recFaces_spec {d : Nat} (hrec : RecOK d) {s : List Nat} (hl : s.length = d + 2) : ∀ n, n ≤ d + 2 →
    ∀ X cells ci fs cs, PInv X cells d → X.faces[d]? = some fs → X.coeff[d]? = some cs →
    ∃ X' cells' new, recFaces (addRec d) s (d + 1) n ((-1) ^ (d + n + 1)) X ci = .ok (X', ci ++ new) ∧ PInv X' cells' d ∧
      X'.faces[d]? = some (fs ++ (loopPairs cells' d s n).map Prod.fst) ∧
      X'.coeff[d]? = some (cs ++ (loopPairs cells' d s n).map Prod.snd) ∧
      X'.ncells.length = X.ncells.length ∧ (∀ e, d < e → X'.ncells[e]? = X.ncells[e]? ∧ X'.spx[e]? = X.spx[e]? ∧
        X'.faces[e]? = X.faces[e]? ∧ X'.coeff[e]? = X.coeff[e]?) ∧ FacesAdded cells cells' d n s new := by
  intro n
  induction n with
  | zero =>
    intro _ X cells ci fs cs h hf hc
    refine ⟨X, cells, [], by simp [recFaces], h, by simp [hf, loopPairs], by simp [hc, loopPairs], rfl, fun e _ => ⟨rfl, rfl, rfl, rfl⟩, ?_⟩
    exact ⟨fun _ _ => rfl, fun e => List.prefix_rfl, fun e t => by simp, fun k hk => by omega, NewOK.refl _⟩
  | succ n ih =>
    intro hn X cells ci fs cs h hf hc
    have hlen : (s.eraseIdx n).length = d + 1 := by rw [List.length_eraseIdx_of_lt (by omega), hl]; omega
    have hne : s.eraseIdx n ≠ [] := by intro h; rw [h] at hlen; simp at hlen
    -- find or add the face
    have step : ∃ X1 cells1 ind new1, findOrAdd (addRec d) X (s.eraseIdx n) ci = .ok (X1, ind, ci ++ new1) ∧ PInv X1 cells1 d ∧ Frame X X1 d ∧
        (∀ e, d < e → cells1 e = cells e) ∧ (∀ e, cells e <+: cells1 e) ∧
        (∀ e t, t ∈ cells1 e ↔ t ∈ cells e ∨ (t.length = e + 1 ∧ t.Sublist (s.eraseIdx n))) ∧ NewOK new1 cells cells1 ∧
        ind = (cells1 d).idxOf (s.eraseIdx n) := by
      by_cases hm : s.eraseIdx n ∈ cells d
      · have hg := h.trie.get h.ok hne (by rw [hlen]; exact hm)
        rw [hlen, Nat.add_sub_cancel] at hg
        refine ⟨X, cells, _, [], by unfold findOrAdd; rw [hg]; simp, h, ⟨rfl, fun _ _ => rfl, fun _ _ => rfl, fun _ _ => rfl, fun _ _ => rfl⟩,
          fun _ _ => rfl, fun _ => List.prefix_rfl, ?_, NewOK.refl _, rfl⟩
        intro e t
        constructor
        · exact Or.inl
        · rintro (h1 | ⟨h1, h2⟩)
          · exact h1
          · have := h.ok.sublist _ d _ t hm h2 (by intro h; rw [h] at h1; simp at h1) rfl
            rw [h1] at this; exact this
      · have hg := h.trie.none hne (by rw [hlen]; exact hm)
        obtain ⟨X1, cells1, new1, g1, g2, g3, g4⟩ := hrec X cells (s.eraseIdx n) ci h hlen hm
        refine ⟨X1, cells1, _, new1, by unfold findOrAdd; rw [hg]; exact g1, g2, g3, g4.above, g4.ext, g4.mem, g4.new, ?_⟩
        rw [g4.top, List.idxOf_append_of_notMem hm]; simp
    obtain ⟨X1, cells1, ind, new1, e1, p1, fr, ab, ex, me, nw, hind⟩ := step
    have hmem1 : s.eraseIdx n ∈ cells1 d := (me d _).2 (Or.inr ⟨hlen, List.Sublist.refl _⟩)
    have hf1 : X1.faces[d]? = some fs := by rw [fr.fc d le_rfl, hf]
    have hc1 : X1.coeff[d]? = some cs := by rw [fr.co d le_rfl, hc]
    have hfl := (List.getElem?_eq_some_iff.1 hf1).1
    have hcl := (List.getElem?_eq_some_iff.1 hc1).1
    -- push the face index and the sign
    have p2 : PInv { X1 with faces := X1.faces.set d (fs ++ [ind]), coeff := X1.coeff.set d (cs ++ [(-1) ^ (d + (n + 1) + 1)]) } cells1 d := by
      refine p1.congr rfl ?_ rfl (fun _ _ => rfl) (fun _ _ => rfl) (fun e he => ?_) (fun e he => ?_)
      · exact ⟨p1.sizes.ne, p1.sizes.sp, by simpa using p1.sizes.fc, by simpa using p1.sizes.co⟩
      · exact List.getElem?_set_ne (by omega)
      · exact List.getElem?_set_ne (by omega)
    obtain ⟨X', cells', new2, q1, q2, q3, q4, q5, q6, q7⟩ := ih (by omega) _ cells1 (ci ++ new1) (fs ++ [ind]) (cs ++ [(-1) ^ (d + (n + 1) + 1)]) p2
      (by simp [hfl]) (by simp [hcl])
    refine ⟨X', cells', new1 ++ new2, ?_, q2, ?_, ?_, by rw [q5]; exact fr.len, ?_, ?_⟩
    · unfold recFaces
      rw [e1, bind_ok]
      simp only [Nat.add_sub_cancel]
      rw [rd_some hf1, bind_ok, rd_some hc1, bind_ok, sign_step]
      rw [q1, List.append_assoc]
    · rw [q3, loopPairs_succ, hind, idxOf_push_append (q7.ext d) hmem1]; simp
    · rw [q4, loopPairs_succ, sign_now]; simp
    · intro e he
      obtain ⟨a, b, c, f⟩ := q6 e he
      refine ⟨by rw [a]; exact fr.nc e he, by rw [b]; exact fr.sp e he, ?_, ?_⟩
      · rw [c]; simp only; rw [List.getElem?_set_ne (by omega)]; exact fr.fc e (by omega)
      · rw [f]; simp only; rw [List.getElem?_set_ne (by omega)]; exact fr.co e (by omega)
    · refine ⟨fun e he => by rw [q7.above e he, ab e he], fun e => (ex e).trans (q7.ext e), ?_, ?_, nw.trans q7.new ex q7.ext⟩
      · intro e t
        rw [q7.mem, me]
        constructor
        · rintro ((h1 | ⟨h1, h2⟩) | ⟨h1, k, hk, h2⟩)
          · exact Or.inl h1
          · exact Or.inr ⟨h1, n, by omega, h2⟩
          · exact Or.inr ⟨h1, k, by omega, h2⟩
        · rintro (h1 | ⟨h1, k, hk, h2⟩)
          · exact Or.inl (Or.inl h1)
          · by_cases hkn : k = n
            · subst hkn; exact Or.inl (Or.inr ⟨h1, h2⟩)
            · exact Or.inr ⟨h1, k, by omega, h2⟩
      · intro k hk
        by_cases hkn : k = n
        · subst hkn; exact (q7.ext d).subset hmem1
        · exact q7.faces k (by omega)

theorem recOK_succ {d : Nat} (hrec : RecOK d) : RecOK (d + 1) := by
  intro X cells s ci h hl hs
  have hlt := h.lt
  obtain ⟨Fs, Cs, a1, a2, a3, a4, a5⟩ := h.bd d (by omega)
  -- counter incremented
  have p0 : PInv { X with ncells := X.ncells.set (d + 1) ((cells (d + 1)).length + 1) } cells d := by
    have hd : PInv X cells d := ⟨h.ok, h.trie, h.sizes, by omega, fun e he => h.dim e (by omega), fun e he => h.bd e (by omega)⟩
    refine hd.congr rfl ?_ (by simp) (fun e he => ?_) (fun _ _ => rfl) (fun _ _ => rfl) (fun _ _ => rfl)
    · exact ⟨by simpa using h.sizes.ne, by simpa using h.sizes.sp, by simpa using h.sizes.fc, by simpa using h.sizes.co⟩
    · exact List.getElem?_set_ne (by omega)
  obtain ⟨Y, cells1, new, q1, q2, q3, q4, q5, q6, q7⟩ := recFaces_spec hrec hl (d + 2) le_rfl _ cells ci Fs.flatten Cs.flatten p0 a1 a2
  have hsign : ((-1 : Int)) ^ (d + (d + 2) + 1) = -1 := by
    rw [show d + (d + 2) + 1 = 2 * (d + 1) + 1 by ring, pow_succ, pow_mul]; norm_num
  rw [hsign] at q1
  have hab : cells1 (d + 1) = cells (d + 1) := q7.above _ (by omega)
  have a5' : ∀ (i : Nat) (t : List Nat), (cells1 (d + 1))[i]? = some t → ∃ f c, Fs[i]? = some f ∧ Cs[i]? = some c ∧ Block cells1 d t f c := by
    intro i t ht
    rw [hab] at ht
    obtain ⟨f, c, b1, b2, b3⟩ := a5 i t ht
    refine ⟨f, c, b1, b2, b3.lf, b3.lc, b3.sorted, ?_⟩
    rw [facePairs_ext (q7.ext d) (fun k hk => h.ok.closed d t (List.mem_of_getElem? ht) k hk)]
    exact b3.perm
  have hll : (loopPairs cells1 d s (d + 2)).length = d + 2 := by simp [loopPairs]
  obtain ⟨f', c', g1, g2⟩ := sortBlock_push (X := X) (s := s) (cells := cells1) (by rw [hab, a3]) (by rw [hab, a4]) a5'
    (f := (loopPairs cells1 d s (d + 2)).map Prod.fst) (c := (loopPairs cells1 d s (d + 2)).map Prod.snd) (by simp [hll]) (by simp [hll])
    (by rw [zip_map_fst_snd]; exact loopPairs_perm cells1 d s)
  have hfl := (List.getElem?_eq_some_iff.1 q3).1
  have hcl := (List.getElem?_eq_some_iff.1 q4).1
  have q5' : Y.ncells.length = X.ncells.length := by rw [q5]; simp
  have p3 : PInv { Y with faces := Y.faces.set d (Fs ++ [f']).flatten, coeff := Y.coeff.set d (Cs ++ [c']).flatten } cells1 d := by
    refine q2.congr rfl ?_ rfl (fun _ _ => rfl) (fun _ _ => rfl) (fun e he => ?_) (fun e he => ?_)
    · exact ⟨q2.sizes.ne, q2.sizes.sp, by simpa using q2.sizes.fc, by simpa using q2.sizes.co⟩
    · exact List.getElem?_set_ne (by omega)
    · exact List.getElem?_set_ne (by omega)
  have hs1 : s ∉ cells1 (d + 1) := by rw [hab]; exact hs
  obtain ⟨Z, z1, z2, z3, z4, z5⟩ := finish_succ p3 (by show d + 1 < Y.ncells.length; omega) hl hs1 q7.faces
    (by show Y.ncells[d + 1]? = _; rw [(q6 (d + 1) (by omega)).1, hab]; simp [hlt])
    (by show Y.spx[d + 1]? = _; rw [(q6 (d + 1) (by omega)).2.1, hab]; exact (h.dim (d + 1) le_rfl).sp)
    (by rw [hab, a3]) (by rw [hab, a4]) a5' (by simp [hfl]) (by simp [hcl]) g2
  refine ⟨Z, push cells1 (d + 1) s, new ++ [(d + 1, (cells (d + 1)).length)], ?_, z2, ?_, ?_⟩
  · unfold addRec
    rw [rd_some (h.dim (d + 1) le_rfl).nc, bind_ok, wr_lt _ hlt, bind_ok, q1, bind_ok]
    simp only
    rw [rd_some q3, bind_ok, rd_some q4, bind_ok, ← hab, g1, bind_ok]
    simp only
    rw [z1, bind_ok, hab, List.append_assoc]; rfl
  · refine ⟨by rw [z3.len]; exact q5', fun e he => ?_, fun e he => ?_, fun e he => ?_, fun e he => ?_⟩
    · rw [z3.nc e he]; show Y.ncells[e]? = _
      rw [(q6 e (by omega)).1]; exact List.getElem?_set_ne (by omega)
    · rw [z3.sp e he]; show Y.spx[e]? = _
      rw [(q6 e (by omega)).2.1]
    · rw [z4]; simp only; rw [List.getElem?_set_ne (by omega)]; exact (q6 e (by omega)).2.2.1
    · rw [z5]; simp only; rw [List.getElem?_set_ne (by omega)]; exact (q6 e (by omega)).2.2.2
  · have hext : ∀ e, cells1 e <+: push cells1 (d + 1) s e := by
      intro e
      by_cases he : e = d + 1
      · subst he; rw [push_same]; exact List.prefix_append _ _
      · rw [push_ne _ _ he]
    refine ⟨fun e he => by rw [push_ne _ _ (by omega), q7.above e (by omega)], by rw [push_same, hab], fun e => (q7.ext e).trans (hext e), ?_, by simp, ?_⟩
    · intro e t
      rw [mem_push, q7.mem]
      constructor
      · rintro ((h1 | ⟨h1, k, hk, h2⟩) | ⟨rfl, rfl⟩)
        · exact Or.inl h1
        · exact Or.inr ⟨h1, h2.trans (List.eraseIdx_sublist _ _)⟩
        · exact Or.inr ⟨hl, List.Sublist.refl _⟩
      · rintro (h1 | ⟨h1, h2⟩)
        · exact Or.inl (Or.inl h1)
        · rcases Nat.lt_or_ge t.length s.length with h3 | h3
          · obtain ⟨k, hk, h4⟩ := sublist_eraseIdx h2 h3
            exact Or.inl (Or.inr ⟨h1, k, by omega, h4⟩)
          · have := h2.eq_of_length_le h3
            subst this
            exact Or.inr ⟨by omega, rfl⟩
    · have := q7.new.trans (NewOK.push cells1 (d + 1) s) q7.ext hext
      rw [hab] at this; exact this

theorem recOK (d : Nat) : RecOK d := by
  induction d with
  | zero => exact recOK_zero
  | succ d ih => exact recOK_succ ih

/-! ### public calls -/

theorem growTo_length {α : Type} (l : List α) (n : Nat) (a : α) : (growTo l n a).length = max l.length n := by
  unfold growTo
  split
  · rw [List.length_append, List.length_replicate]; omega
  · omega

theorem growTo_getElem? {α : Type} (l : List α) (n : Nat) (a : α) (i : Nat) :
    (growTo l n a)[i]? = if i < l.length then l[i]? else if i < n then some a else none := by
  unfold growTo
  split
  · rename_i h
    by_cases h1 : i < l.length
    · rw [if_pos h1, List.getElem?_append_left h1]
    · rw [if_neg h1, List.getElem?_append_right (by omega), List.getElem?_replicate]
      by_cases h2 : i < n
      · rw [if_pos h2, if_pos (by omega)]
      · rw [if_neg h2, if_neg (by omega)]
  · by_cases h1 : i < l.length
    · rw [if_pos h1]
    · rw [if_neg h1, List.getElem?_eq_none (by omega), if_neg (by omega)]

theorem reserve_spec {X : SCpx} {cells : Cells} (h : Inv X cells) (m : Nat) :
    Inv (X.reserve m) cells ∧ (X.reserve m).ncells.length = max X.ncells.length (m + 1) := by
  have hl : (X.reserve m).ncells.length = max X.ncells.length (m + 1) := growTo_length _ _ _
  have s1 := h.sizes.sp
  have s2 := h.sizes.fc
  have s3 := h.sizes.co
  refine ⟨⟨h.ok, h.trie, ?_, ?_, ?_, ?_⟩, hl⟩
  · refine ⟨by rw [hl]; omega, ?_, ?_, ?_⟩
    · rw [hl]; show (growTo X.spx (m + 1) []).length = _; rw [growTo_length, s1]
    · rw [hl]; show (growTo X.faces m []).length + 1 = _; rw [growTo_length]; omega
    · rw [hl]; show (growTo X.coeff m []).length + 1 = _; rw [growTo_length]; omega
  · intro d hd
    exact h.top d (by rw [hl] at hd; omega)
  · intro e he
    rw [hl] at he
    by_cases h1 : e < X.ncells.length
    · have := h.dim e h1
      refine ⟨?_, ?_⟩
      · show (growTo X.ncells (m + 1) 0)[e]? = _; rw [growTo_getElem?, if_pos h1]; exact this.nc
      · show (growTo X.spx (m + 1) [])[e]? = _; rw [growTo_getElem?, if_pos (by omega)]; exact this.sp
    · have ht := h.top e (by omega)
      refine ⟨?_, ?_⟩
      · show (growTo X.ncells (m + 1) 0)[e]? = _; rw [growTo_getElem?, if_neg h1, if_pos (by omega), ht]; rfl
      · show (growTo X.spx (m + 1) [])[e]? = _; rw [growTo_getElem?, if_neg (by omega), if_pos (by omega), ht]; rfl
  · intro e he
    rw [hl] at he
    by_cases h1 : e + 1 < X.ncells.length
    · refine (h.bd e h1).ext h.ok rfl List.prefix_rfl ?_ ?_
      · show (growTo X.faces m [])[e]? = _; rw [growTo_getElem?, if_pos (by omega)]
      · show (growTo X.coeff m [])[e]? = _; rw [growTo_getElem?, if_pos (by omega)]
    · have ht := h.top (e + 1) (by omega)
      refine ⟨[], [], ?_, ?_, by simp [ht], by simp [ht], ?_⟩
      · show (growTo X.faces m [])[e]? = _; rw [growTo_getElem?, if_neg (by omega), if_pos (by omega)]; rfl
      · show (growTo X.coeff m [])[e]? = _; rw [growTo_getElem?, if_neg (by omega), if_pos (by omega)]; rfl
      · intro i s hs; rw [ht] at hs; simp at hs

theorem init_inv (m : Nat) : Inv (init m) (fun _ => []) ∧ (init m).ncells.length = m + 1 := by
  have g : ∀ {α : Type} (n : Nat) (a : α) (i : Nat), (growTo ([] : List α) n a)[i]? = if i < n then some a else none := by
    intro α n a i; rw [growTo_getElem?]; simp
  have hl : (init m).ncells.length = m + 1 := by show (growTo [] (m + 1) 0).length = _; rw [growTo_length]; simp
  refine ⟨⟨⟨by simp, by simp, by simp⟩, ?_, ?_, fun _ _ => rfl, ?_, ?_⟩, hl⟩
  · intro s hs i
    show (Trie.empty.get? s) = some i ↔ _
    rw [Trie.get?_empty, if_neg hs]; simp
  · refine ⟨by rw [hl]; omega, ?_, ?_, ?_⟩
    · rw [hl]; show (growTo [] (m + 1) []).length = _; rw [growTo_length]; simp
    · rw [hl]; show (growTo [] m []).length + 1 = _; rw [growTo_length]; simp
    · rw [hl]; show (growTo [] m []).length + 1 = _; rw [growTo_length]; simp
  · intro e he
    rw [hl] at he
    refine ⟨?_, ?_⟩
    · show (growTo [] (m + 1) 0)[e]? = _; rw [g, if_pos he]; rfl
    · show (growTo [] (m + 1) [])[e]? = _; rw [g, if_pos he]; rfl
  · intro e he
    rw [hl] at he
    refine ⟨[], [], ?_, ?_, rfl, rfl, by intro i s hs; simp at hs⟩
    · show (growTo [] m [])[e]? = _; rw [g, if_pos (by omega)]; rfl
    · show (growTo [] m [])[e]? = _; rw [g, if_pos (by omega)]; rfl

/-- the result of `add_directed` on a nonempty simplex -/
theorem addDirected_spec {X : SCpx} {cells : Cells} (h : Inv X cells) {s : List Nat} {d : Nat} (hl : s.length = d + 1) :
    ∃ Y cells' r, addDirected X s = .ok (Y, r) ∧ Inv Y cells' ∧ Y.ncells.length = max X.ncells.length (d + 1) ∧
      ((s ∈ cells d ∧ cells' = cells ∧ r = some ((cells d).idxOf s)) ∨
       (s ∉ cells d ∧ FacesIn cells d s ∧ cells' = push cells d s ∧ r = some (cells d).length) ∨
       (s ∉ cells d ∧ ¬ FacesIn cells d s ∧ cells' = cells ∧ r = none)) := by
  obtain ⟨h1, h2⟩ := reserve_spec h d
  have hne : s ≠ [] := by intro e; rw [e] at hl; simp at hl
  unfold addDirected
  rw [if_neg hne]
  simp only [hl, Nat.add_sub_cancel]
  by_cases hm : s ∈ cells d
  · have hg := h1.trie.get h1.ok hne (by rw [hl]; exact hm)
    rw [hl, Nat.add_sub_cancel] at hg
    rw [if_pos (by rw [Trie.count_eq, hg]; simp), Trie.getRef_of_get? hg]
    exact ⟨_, cells, _, rfl, h1, h2, Or.inl ⟨hm, rfl, rfl⟩⟩
  · have hg := h1.trie.none hne (by rw [hl]; exact hm)
    rw [if_neg (by rw [Trie.count_eq, hg]; simp)]
    by_cases hf : FacesIn cells d s
    · obtain ⟨Y, e1, e2, e3⟩ := addUnsafe_ok h1 (by rw [h2]; omega) hl hm hf
      exact ⟨Y, _, _, e1, e2, by rw [e3, h2], Or.inr (Or.inl ⟨hm, hf, rfl, rfl⟩)⟩
    · exact ⟨_, cells, _, addUnsafe_fail h1 (by rw [h2]; omega) hl hf, h1, h2, Or.inr (Or.inr ⟨hm, hf, rfl, rfl⟩)⟩

/-- the result of `add_directed_recursive` on a nonempty simplex -/
theorem addDirectedRecursive_spec {X : SCpx} {cells : Cells} (h : Inv X cells) {s : List Nat} {d : Nat} (hl : s.length = d + 1) :
    ∃ Y cells' r, addDirectedRecursive X s = .ok (Y, r) ∧ Inv Y cells' ∧ Y.ncells.length = max X.ncells.length (d + 1) ∧
      ((s ∈ cells d ∧ cells' = cells ∧ r = [(d, (cells d).idxOf s)]) ∨ (s ∉ cells d ∧ Added cells cells' d s r)) := by
  obtain ⟨h1, h2⟩ := reserve_spec h d
  have hne : s ≠ [] := by intro e; rw [e] at hl; simp at hl
  unfold addDirectedRecursive
  rw [if_neg hne]
  simp only [hl, Nat.add_sub_cancel]
  by_cases hm : s ∈ cells d
  · have hg := h1.trie.get h1.ok hne (by rw [hl]; exact hm)
    rw [hl, Nat.add_sub_cancel] at hg
    rw [if_pos (by rw [Trie.count_eq, hg]; simp), Trie.getRef_of_get? hg]
    exact ⟨_, cells, _, rfl, h1, h2, Or.inl ⟨hm, rfl, rfl⟩⟩
  · have hg := h1.trie.none hne (by rw [hl]; exact hm)
    rw [if_neg (by rw [Trie.count_eq, hg]; simp)]
    have hlt : d < (X.reserve d).ncells.length := by rw [h2]; omega
    obtain ⟨Y, cells', new, e1, e2, e3, e4⟩ := recOK d (X.reserve d) cells s [] (h1.pinv hlt) hl hm
    refine ⟨Y, cells', new, by rw [e1]; rfl, h1.of_pinv e2 e3 e4.above (e4.ext d), by rw [e3.len, h2], Or.inr ⟨hm, e4⟩⟩

end SCpx
end BATS
