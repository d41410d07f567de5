import Verif.Spec.Light
import Verif.Proofs.LightChain
import Verif.Props.Simplicial

set_option linter.unusedSectionVars false
set_option linter.unusedVariables false
set_option linter.unusedSimpArgs false

/-! # C21, C22, C54: the light simplicial complex (include/complex/light_simplicial_complex.hpp)

`Light.init W n k` is a new complex on `n` vertices of dimension at most `k`; `W` is the number of values of `index_type`. The
parameter `stray` is the value read out of bounds in the last step of the boundary iterator; all theorems hold for every value. -/

namespace BATS
open Light Reduction

/-- C21: if `n^(k+1)` fits in `index_type`, the key of a simplex is its base-`n` number and decoding the key returns the simplex. -/
theorem C21_key_roundtrip {W n k : Nat} (h1 : 1 < W) (h : n ^ (k + 1) ≤ W) {s : List Nat} (hs : Valid n k s) :
    (init W n k).simplexKey s = .ok (Nat.ofDigits n s) ∧ (init W n k).keyToSimplex (s.length - 1) (Nat.ofDigits n s) = .ok s := by
  have hr : InRange (init W n k) s := ⟨hs.2.2, hs.2.1⟩
  have hpos := List.length_pos_iff.2 hs.1
  exact ⟨simplexKey_spec (fits_init h1 h) hr, keyToSimplex_spec (fits_init h1 h) _ s (by omega) hr⟩

/-- C21: distinct simplices of one dimension have distinct keys. -/
theorem C21_key_injective {W n k : Nat} (h1 : 1 < W) (h : n ^ (k + 1) ≤ W) {s t : List Nat} (hs : Valid n k s) (ht : Valid n k t)
    (hl : s.length = t.length) (e : (init W n k).simplexKey s = (init W n k).simplexKey t) : s = t := by
  rw [(C21_key_roundtrip h1 h hs).1, (C21_key_roundtrip h1 h ht).1] at e
  cases hk : Nat.ofDigits n s
  all_goals exact ofDigits_inj hl hs.2.2 ht.2.2 (Except.ok.inj e)

/-- C21, limit: without the size condition keys collide: with 64-bit keys and `2^33` vertices the edge `{5, 2^31 + 7}` has the key
of the edge `{5, 7}`, so after adding the second the first is reported as present. -/
theorem C21_overflow_collision :
    (do let r ← (init (2 ^ 64) (2 ^ 33) 1).add [5, 7]; r.1.findIdx [5, 2 ^ 31 + 7] : Res (Option Nat)) = .ok (some 0) ∧
    (do let r ← (init (2 ^ 64) (2 ^ 33) 1).add [5, 2 ^ 31 + 7]; r.1.getSimplex 1 0 : Res (List Nat)) = .ok [5, 7] := by
  constructor <;> decide +kernel

/-- C21, limit: with a vertex `≥ n` keys collide as well: for `n = 10` the edges `{3, 12}` and `{13, 11}` share a key. -/
theorem C21_vertex_out_of_range :
    (init (2 ^ 64) 10 1).simplexKey [3, 12] = (init (2 ^ 64) 10 1).simplexKey [13, 11] := by decide +kernel

example : Valid 10 2 [3, 7, 9] ∧ 10 ^ (2 + 1) ≤ 2 ^ 64 ∧ (init (2 ^ 64) 10 2).simplexKey [3, 7, 9] = .ok 973 ∧
    (init (2 ^ 64) 10 2).keyToSimplex 2 973 = .ok [3, 7, 9] := by
  refine ⟨⟨by decide, by decide, by decide⟩, by norm_num, by decide +kernel, by decide +kernel⟩

/-! ## C22: faces -/

/-- C22: the face iterator on the key of a valid simplex with `d+1` vertices yields the keys of the faces, dropping vertex number
`d`, `d-1`, .., `0`, with the signs `(-1)^i`. -/
theorem C22_faces {W n k : Nat} (h1 : 1 < W) (h : n ^ (k + 1) ≤ W) (stray : Nat) {s : List Nat} {d : Nat} (hs : Valid n k s) (hl : s.length = d + 1) :
    ∃ fs, (init W n k).iterFaces stray d (Nat.ofDigits n s) = .ok fs ∧ fs.length = d + 1 ∧
      ∀ i, i ≤ d → fs[d - i]? = some (Nat.ofDigits n (s.eraseIdx i), (-1) ^ i) := by
  refine ⟨_, iterFaces_spec (fits_init h1 h) stray hl ⟨hs.2.2, hs.2.1⟩, by simp, ?_⟩
  intro i hi
  rw [List.getElem?_map, List.getElem?_reverse (by simp), List.length_range, List.getElem?_range (by omega)]
  simp only [Option.map_some]
  rw [show d + 1 - 1 - (d - i) = i by omega]; rfl

/-- the state of the iterator of `s` at index `i` -/
def itAt (n : Nat) (s : List Nat) (i : Nat) : It :=
  ⟨i, Nat.ofDigits n (s.take (i + 1)), n ^ i * Nat.ofDigits n (s.drop (i + 1))⟩

/-- C22: the iterator interface: `simplex_begin` is at the last index, `++` moves to the next lower one and `*` is the key of the
face without the vertex at the index. -/
theorem C22_iterator {W n k : Nat} (h1 : 1 < W) (h : n ^ (k + 1) ≤ W) {s : List Nat} (hs : Valid n k s) :
    iterBegin (s.length - 1) (Nat.ofDigits n s) = itAt n s (s.length - 1) ∧
    (∀ i, i < s.length → (init W n k).iterDeref (itAt n s i) = .ok (Nat.ofDigits n (s.eraseIdx i))) ∧
    (∀ i, i + 1 < s.length → (init W n k).iterIncr (itAt n s (i + 1)) = .ok (itAt n s i)) := by
  have hL := fits_init h1 h
  have hpos := List.length_pos_iff.2 hs.1
  have hr : InRange (init W n k) s := ⟨hs.2.2, hs.2.1⟩
  have hdec : ∀ i (hi : i < s.length), s = s.take i ++ s[i] :: s.drop (i + 1) := by
    intro i hi; rw [List.cons_getElem_drop_succ, List.take_append_drop]
  have htk : ∀ i (hi : i < s.length), s.take (i + 1) = s.take i ++ [s[i]] := by
    intro i hi; rw [List.take_add_one, List.getElem?_eq_getElem hi]; rfl
  have hlen : ∀ i, i < s.length → (s.take i).length = i := by intro i hi; rw [List.length_take]; omega
  refine ⟨?_, ?_, ?_⟩
  · unfold iterBegin itAt
    rw [show s.length - 1 + 1 = s.length by omega, List.take_length, List.drop_length]; simp [Nat.ofDigits]
  · intro i hi
    have he : s.eraseIdx i = s.take i ++ s.drop (i + 1) := List.eraseIdx_eq_take_drop_succ ..
    have hn : 0 < n := by have := hs.2.2 _ (List.getElem_mem hi); omega
    have hoff := hL.off i (by simp only [init]; have := hs.2.1; omega)
    have hta : InRange (init W n k) (s.take i) := hr.sublist (List.take_sublist _ _)
    have hlt := ofDigits_lt hta.1
    have hw := digits_lt_word hL (hr.eraseIdx i)
    rw [he, Nat.ofDigits_append] at hw
    rw [hlen i hi] at hlt hw
    have hoff : (init W n k).offset[i]? = some (n ^ i) := hoff
    have hlt : Nat.ofDigits n (s.take i) < n ^ i := hlt
    have hw : Nat.ofDigits n (s.take i) + n ^ i * Nat.ofDigits n (s.drop (i + 1)) < (init W n k).W := hw
    have hpos' : 0 < n ^ i := Nat.pow_pos hn
    unfold iterDeref itAt
    simp only
    rw [rd_some hoff, bind_ok, if_neg (by omega), htk i hi, ofDigits_snoc, hlen i hi, Nat.add_mul_mod_self_right, Nat.mod_eq_of_lt hlt,
      Nat.mod_eq_of_lt (by omega), he, Nat.ofDigits_append, hlen i hi, Nat.add_comm]
    rfl
  · intro i hi
    have hin : InRange (init W n k) (s.take (i + 1) ++ s[i + 1] :: s.drop (i + 2)) := by rw [← hdec (i + 1) hi]; exact hr
    obtain ⟨after', g1, g2⟩ := iterNext_spec hL 0 hin
    rw [hlen (i + 1) hi] at g1 g2
    have g2 := g2 (by omega)
    have hoff := hL.off (i + 1) (by simp only [init]; have := hs.2.1; omega)
    have hoff' := hL.off i (by simp only [init]; have := hs.2.1; omega)
    unfold iterNext at g1
    unfold iterIncr itAt
    simp only
    rw [rd_some hoff, bind_ok] at g1 ⊢
    by_cases h0 : (init W n k).n ^ (i + 1) = 0
    · rw [if_pos h0] at g1; exact absurd g1 (by simp)
    · rw [if_neg h0] at g1 ⊢
      rw [if_neg (by omega), Nat.add_sub_cancel, rd_some hoff', bind_ok] at g1
      simp only [pure_ok] at g1
      rw [Nat.add_sub_cancel, rd_some hoff', bind_ok, pure_ok, htk (i + 1) hi]
      have g1' := Except.ok.inj g1
      simp only [Prod.mk.injEq] at g1'
      obtain ⟨_, e2, e3⟩ := g1'
      congr 1
      rw [show (init W n k).n = n from rfl] at *
      rw [It.mk.injEq]
      refine ⟨rfl, e2, ?_⟩
      rw [e3, g2, Nat.add_sub_cancel, List.cons_getElem_drop_succ]

/-- C22, limit: `--` does not undo `++` except right after `simplex_begin`: from index `i` it goes to index `i+1` with `before` the
whole key and `after` zero, whatever the simplex. -/
theorem C22_decrement {W n k : Nat} (h1 : 1 < W) (h : n ^ (k + 1) ≤ W) {s : List Nat} (hs : Valid n k s) {i : Nat} (hi : i + 1 < s.length) :
    (init W n k).iterDecr (itAt n s i) = .ok ⟨i + 1, Nat.ofDigits n s, 0⟩ := by
  have hL := fits_init h1 h
  have hr : InRange (init W n k) s := ⟨hs.2.2, hs.2.1⟩
  have hn : 0 < n := by have := hs.2.2 _ (List.getElem_mem hi); omega
  have hoff := hL.off (i + 1) (by simp only [init]; have := hs.2.1; omega)
  have hoff' := hL.off i (by simp only [init]; have := hs.2.1; omega)
  have hlt := digits_lt_word hL hr
  rw [show (init W n k).n = n from rfl] at *
  have hpos : 0 < n ^ i := Nat.pow_pos hn
  have e : Nat.ofDigits n s = Nat.ofDigits n (s.take (i + 1)) + n ^ (i + 1) * Nat.ofDigits n (s.drop (i + 1)) := by
    conv_lhs => rw [← List.take_append_drop (i + 1) s, Nat.ofDigits_append, List.length_take, Nat.min_eq_left (by omega)]
  unfold iterDecr itAt
  simp only
  rw [rd_some hoff', bind_ok, if_neg (by omega), rd_some hoff, bind_ok, pure_ok, Nat.mul_div_cancel_left _ hpos, Nat.mul_mod_right]
  rw [Nat.mul_comm (n ^ (i + 1))] at e
  rw [Nat.mod_eq_of_lt (a := Nat.ofDigits n (s.drop (i + 1)) * n ^ (i + 1)) (by omega), ← e, Nat.mod_eq_of_lt hlt]

/-- C22, limit: on the tetrahedron `{1,2,3,4}` the position reached by `++`, `++`, `--` reports the face key of `{1,2}` instead of
`{1,2,4}`. -/
theorem C22_decrement_wrong :
    (do let a ← (init (2 ^ 64) 10 3).iterIncr (iterBegin 3 4321)
        let b ← (init (2 ^ 64) 10 3).iterIncr a
        let c ← (init (2 ^ 64) 10 3).iterDecr b
        let x ← (init (2 ^ 64) 10 3).iterDeref a
        let y ← (init (2 ^ 64) 10 3).iterDeref c
        pure (x, y) : Res (Nat × Nat)) = .ok (421, 21) := by decide +kernel

/-! ## C54: histories and homology -/

theorem run_linv (stray : Nat) : ∀ (ops : List Light.Op) {L : Light} {cells : SCpx.Cells}, LInv L cells →
    (∀ d, ∀ s ∈ cells (d + 1), ∀ k, k < d + 2 → s.eraseIdx k ∈ cells d) → AllowedRun L.n L.k (SCpx.setOf cells) ops →
    ∃ L' cells', L.run stray ops = .ok L' ∧ LInv L' cells' ∧ SameParams L L' ∧
      (∀ d, ∀ s ∈ cells' (d + 1), ∀ k, k < d + 2 → s.eraseIdx k ∈ cells' d) ∧ (∀ d, cells d <+: cells' d) ∧
      SCpx.setOf cells' = ops.foldl Light.specStep (SCpx.setOf cells) := by
  intro ops
  induction ops with
  | nil => intro L cells h hc _; exact ⟨L, cells, rfl, h, SameParams.refl L, hc, fun _ => List.prefix_rfl, rfl⟩
  | cons o os ih =>
    intro L cells h hc hA
    obtain ⟨hA1, hA2⟩ := hA
    have step : ∃ L1 cells1, L.step stray o = .ok L1 ∧ LInv L1 cells1 ∧ SameParams L L1 ∧
        (∀ d, ∀ s ∈ cells1 (d + 1), ∀ k, k < d + 2 → s.eraseIdx k ∈ cells1 d) ∧ (∀ d, cells d <+: cells1 d) ∧
        SCpx.setOf cells1 = Light.specStep (SCpx.setOf cells) o := by
      cases o with
      | add s =>
        obtain ⟨⟨v1, v2, v3⟩, hf⟩ := hA1
        obtain ⟨d, hl⟩ := SCpx.setOf_congr_len v1
        have hk := simplexKey_spec h.fits (s := s) ⟨v3, v2⟩
        have hstep : ∀ L1 i, L.addKey d (Nat.ofDigits L.n s) = .ok (L1, i) → L.step stray (.add s) = .ok L1 := by
          intro L1 i e
          show (do let r ← L.add s; pure r.1 : Res Light) = _
          unfold Light.add
          rw [hk, bind_ok, if_neg v1, hl, Nat.add_sub_cancel, e]; rfl
        rcases addKey_spec h (d := d) (by omega) hl v3 with ⟨hm, e⟩ | ⟨hm, e⟩
        · refine ⟨L, cells, hstep _ _ e, h, SameParams.refl L, hc, fun _ => List.prefix_rfl, ?_⟩
          ext t
          show _ ↔ t ∈ SCpx.setOf cells ∨ t = s
          constructor
          · exact Or.inl
          · rintro (h | rfl)
            · exact h
            · exact (SCpx.mem_setOf hl).2 hm
        · refine ⟨_, SCpx.push cells d s, hstep _ _ e, h.push (by omega) hl v3 hm, ⟨rfl, rfl, rfl⟩, ?_, push_ext _ _ _, ?_⟩
          · intro e t ht k hk
            rcases SCpx.mem_push.1 ht with ht | ⟨rfl, rfl⟩
            · exact SCpx.mem_push.2 (Or.inl (hc e t ht k hk))
            · refine SCpx.mem_push.2 (Or.inl ?_)
              rcases hf with hf | hf
              · omega
              · have := hf k (by omega)
                exact (SCpx.mem_setOf (by rw [List.length_eraseIdx_of_lt (by omega)]; omega)).1 this
          · rw [SCpx.setOf_push hl]; rfl
      | addRecursive s =>
        obtain ⟨v1, v2, v3⟩ := hA1
        obtain ⟨d, hl⟩ := SCpx.setOf_congr_len v1
        have hk := simplexKey_spec h.fits (s := s) ⟨v3, v2⟩
        obtain ⟨L1, cells1, new, e1, e2, e3, e4, e5⟩ := recOK stray d L cells s h (fun e _ => hc e) (by omega) hl v3
        refine ⟨L1, cells1, ?_, e2, e3, ?_, e5.ext, ?_⟩
        · show (do let r ← L.addRecursive stray s; pure r.1 : Res Light) = _
          unfold Light.addRecursive
          rw [hk, bind_ok, if_neg v1, hl, Nat.add_sub_cancel, e1]; rfl
        · intro e t ht k hk
          by_cases hed : e < d
          · exact e4 e hed t ht k hk
          · rw [e5.above (e + 1) (by omega)] at ht
            exact (e5.ext e).subset (hc e t ht k hk)
        · ext t
          show _ ↔ t ∈ SCpx.setOf cells ∨ (t ≠ [] ∧ t.Sublist s)
          unfold SCpx.setOf
          rw [Set.mem_ofPred_eq, Set.mem_ofPred_eq, e5.mem]
          constructor
          · rintro ⟨a, b | ⟨_, b⟩⟩
            · exact Or.inl ⟨a, b⟩
            · exact Or.inr ⟨a, b⟩
          · rintro (⟨a, b⟩ | ⟨a, b⟩)
            · exact ⟨a, Or.inl b⟩
            · have := List.length_pos_iff.2 a
              exact ⟨a, Or.inr ⟨by omega, b⟩⟩
    obtain ⟨L1, cells1, s1, s2, s3, s4, s5, s6⟩ := step
    rw [← s6, ← s3.n, ← s3.k] at hA2
    obtain ⟨L', cells', r1, r2, r3, r4, r5, r6⟩ := ih s2 s4 hA2
    refine ⟨L', cells', ?_, r2, s3.trans r3, r4, fun d => (s5 d).trans (r5 d), by rw [r6, s6]; rfl⟩
    show (do let M ← L.step stray o; M.run stray os : Res Light) = _
    rw [s1, bind_ok, r1]

theorem setOf_empty : SCpx.setOf (fun _ => []) = ∅ := by ext s; simp [SCpx.setOf]

theorem Light.LInv.findIdx_eq {L : Light} {cells : SCpx.Cells} (h : LInv L cells) {s : List Nat} (hs : Valid L.n L.k s) :
    L.findIdx s = .ok (if s ∈ cells (s.length - 1) then some ((cells (s.length - 1)).idxOf s) else none) := by
  obtain ⟨d, hl⟩ := SCpx.setOf_congr_len hs.1
  have hd : d ≤ L.k := by have := hs.2.1; omega
  unfold Light.findIdx findKey
  rw [simplexKey_spec h.fits ⟨hs.2.2, hs.2.1⟩, bind_ok, if_neg hs.1, hl, Nat.add_sub_cancel, rd_some (h.idx d hd), bind_ok, h.lookup hl hs.2.2]
  rfl

theorem Light.LInv.represents {L : Light} {cells : SCpx.Cells} (h : LInv L cells) : Light.Represents L L.n L.k (SCpx.setOf cells) := by
  have hvalid : ∀ s ∈ SCpx.setOf cells, Valid L.n L.k s := by
    rintro s ⟨h1, h2⟩
    refine ⟨h1, ?_, h.range _ s h2⟩
    by_contra hc
    rw [h.top _ (by omega)] at h2; simp at h2
  refine ⟨rfl, hvalid, ?_, ?_, ?_⟩
  · intro s hs
    refine ⟨_, h.findIdx_eq hs, ?_⟩
    show (s ≠ [] ∧ s ∈ cells (s.length - 1)) ↔ _
    by_cases hm : s ∈ cells (s.length - 1)
    · rw [if_pos hm]; simp [hs.1, hm]
    · rw [if_neg hm]; simp [hm]
  · intro s hs i hi
    have hv := hvalid s hs
    obtain ⟨d, hl⟩ := SCpx.setOf_congr_len hv.1
    have hd : d ≤ L.k := by have := hv.2.1; omega
    rw [h.findIdx_eq hv, if_pos hs.2] at hi
    have hi' := Option.some.inj (Except.ok.inj hi)
    have hlt := List.idxOf_lt_length_iff.2 hs.2
    rw [hl, Nat.add_sub_cancel] at hi' hlt ⊢
    refine ⟨(cells d).length, ?_, by omega, ?_⟩
    · unfold Light.numCells; rw [rd_some (h.keys d hd), bind_ok, List.length_map]; rfl
    · unfold Light.getSimplex
      rw [rd_some (h.keys d hd), bind_ok, rd_some (a := Nat.ofDigits L.n s), bind_ok]
      · exact keyToSimplex_spec h.fits d s hl ⟨hv.2.2, hv.2.1⟩
      · rw [List.getElem?_map, ← hi', List.getElem?_eq_getElem hlt, List.getElem_idxOf]; rfl
  · intro d hd
    refine ⟨(cells d).length, ?_, ?_⟩
    · unfold Light.numCells; rw [rd_some (h.keys d hd), bind_ok, List.length_map]; rfl
    · intro i hi
      have hm : (cells d)[i] ∈ cells d := List.getElem_mem hi
      have hl := h.len d _ hm
      have hset := (SCpx.mem_setOf hl).2 hm
      refine ⟨_, hset, hl, ?_⟩
      rw [h.findIdx_eq (hvalid _ hset), if_pos hset.2, hl, Nat.add_sub_cancel, (h.nodup d).idxOf_getElem _ _]

/-- C54: any history of `add` and `add_recursive` calls that meets the caller's obligations succeeds, and the queries describe
exactly the set of simplices computed by the specification. -/
theorem C54_history {W n k : Nat} (h1 : 1 < W) (h : n ^ (k + 1) ≤ W) (stray : Nat) (ops : List Light.Op) (ho : AllowedRun n k ∅ ops) :
    ∃ L, (Light.init W n k).run stray ops = .ok L ∧ Light.Represents L n k (Light.specRun ops) := by
  obtain ⟨L, cells, r1, r2, r3, _, _, r6⟩ := run_linv stray ops (init_linv h1 h) (by simp) (by rw [setOf_empty]; exact ho)
  refine ⟨L, r1, ?_⟩
  have := r2.represents
  rw [r6, setOf_empty, r3.n, r3.k] at this
  exact this

/-- C54: the result of `add_recursive`: the returned pairs list, in each dimension, exactly the indices of the newly stored
simplices, in order. -/
theorem C54_recursive_result {W n k : Nat} (h1 : 1 < W) (h : n ^ (k + 1) ≤ W) (stray : Nat) (ops : List Light.Op) (ho : AllowedRun n k ∅ ops)
    {s : List Nat} (hs : Valid n k s) :
    ∃ L L' new, (Light.init W n k).run stray ops = .ok L ∧ L.addRecursive stray s = .ok (L', new) ∧
      Light.Represents L' n k {t | t ∈ Light.specRun ops ∨ (t ≠ [] ∧ t.Sublist s)} ∧
      ∀ d, d ≤ k → ∃ c c', L.numCells d = .ok c ∧ L'.numCells d = .ok c' ∧ c ≤ c' ∧
        (new.filter (fun p => p.1 = d)).map Prod.snd = List.range' c (c' - c) := by
  obtain ⟨L, cells, r1, r2, r3, r4, _, r6⟩ := run_linv stray ops (init_linv h1 h) (by simp) (by rw [setOf_empty]; exact ho)
  have hn : L.n = n := r3.n
  have hkk : L.k = k := r3.k
  obtain ⟨d, hl⟩ := SCpx.setOf_congr_len hs.1
  have hd : d ≤ L.k := by have := hs.2.1; omega
  obtain ⟨L1, cells1, new, e1, e2, e3, e4, e5⟩ := recOK stray d L cells s r2 (fun e _ => r4 e) hd hl (by rw [hn]; exact hs.2.2)
  refine ⟨L, L1, new, r1, ?_, ?_, ?_⟩
  · unfold Light.addRecursive
    rw [simplexKey_spec r2.fits ⟨by rw [hn]; exact hs.2.2, by rw [hkk]; exact hs.2.1⟩, bind_ok, if_neg hs.1, hl, Nat.add_sub_cancel, e1]
  · have := e2.represents
    rw [e3.n, e3.k, hn, hkk] at this
    convert this using 1
    rw [setOf_empty] at r6
    ext t
    show (t ∈ Light.specRun ops ∨ _) ↔ _
    unfold Light.specRun
    rw [← r6]
    unfold SCpx.setOf
    rw [Set.mem_ofPred_eq, Set.mem_ofPred_eq, e5.mem]
    constructor
    · rintro (⟨a, b⟩ | ⟨a, b⟩)
      · exact ⟨a, Or.inl b⟩
      · have := List.length_pos_iff.2 a
        exact ⟨a, Or.inr ⟨by omega, b⟩⟩
    · rintro ⟨a, b | ⟨_, b⟩⟩
      · exact Or.inl ⟨a, b⟩
      · exact Or.inr ⟨a, b⟩
  · intro e he
    refine ⟨(cells e).length, (cells1 e).length, ?_, ?_, (e5.ext e).length_le, e5.new e⟩
    · unfold Light.numCells; rw [rd_some (r2.keys e (by omega)), bind_ok, List.length_map]; rfl
    · unfold Light.numCells; rw [rd_some (e2.keys e (by rw [e3.k]; omega)), bind_ok, List.length_map]; rfl

section
variable {F : Type} [Field F] [DecidableEq F]

/-- C54: the chain complex of a light complex: sizes are the cell counts, and the column of a simplex `s` with `d+2` vertices is the
signed sum of its faces: dropping vertex number `i` contributes `(-1)^i`; consecutive boundary maps compose to zero. -/
theorem C54_columns {W n k : Nat} (h1 : 1 < W) (h : n ^ (k + 1) ≤ W) (stray : Nat) (ops : List Light.Op) (ho : AllowedRun n k ∅ ops) :
    ∃ (L : Light) (B : List (CMat F)), (Light.init W n k).run stray ops = .ok L ∧ L.chainComplex stray = .ok B ∧ B.length = k + 1 ∧ ZeroBdry0 B ∧
      (∀ d, d ≤ k → L.numCells d = .ok (cdim B d)) ∧ (∀ d, bdry B d * bdryUp B d = 0) ∧
      ∀ (s : List Nat) (d j : Nat), s.length = d + 2 → L.findIdx s = .ok (some j) → Valid n k s →
        ∀ r, ent B (d + 1) r j = ∑ i ∈ Finset.range (d + 2), if L.findIdx (s.eraseIdx i) = .ok (some r) then (-1 : F) ^ i else 0 := by
  obtain ⟨L, cells, r1, r2, r3, r4, _, r6⟩ := run_linv stray ops (init_linv h1 h) (by simp) (by rw [setOf_empty]; exact ho)
  have hn : L.n = n := r3.n
  have hkk : L.k = k := r3.k
  obtain ⟨B, b1, b2, b3, b4, b5, b6⟩ := chainComplex_spec (F := F) r2 stray r4
  have hcok : SCpx.CellsOK cells := ⟨r2.len, r2.nodup, r4⟩
  obtain ⟨X, hX, hXl⟩ := mirror hcok r2.top
  have hsl : (signCpx B).length = X.ncells.length := by rw [signCpx_length, b2, hXl]
  have hbX : ∀ d, d + 1 < X.ncells.length → ∃ M, (signCpx B)[d + 1]? = some M ∧ SCpx.BdMat cells d M := by rw [hXl]; exact b6
  have hcd : ∀ d, cdim B d = (cells d).length := by
    intro d; rw [← signCpx_cdim]; exact SCpx.cdim_eq hX b5 hsl hbX d
  refine ⟨L, B, r1, b1, by rw [b2, hkk], ?_, ?_, ?_, ?_⟩
  · intro c hc
    rw [List.getD_eq_getElem?_getD, b3, Option.getD_some] at hc
    simp [CMat.zero] at hc; exact hc.2
  · intro d hd
    rw [hcd]
    unfold Light.numCells; rw [rd_some (r2.keys d (by omega)), bind_ok, List.length_map]; rfl
  · intro d
    have := signCpx_square (SCpx.square_zero hX b5 hsl hbX d)
    rwa [signCpx_signCpx] at this
  · intro s d j hl hj hv r
    have hv' : Valid L.n L.k s := by rw [hn, hkk]; exact hv
    rw [r2.findIdx_eq hv', hl, show d + 2 - 1 = d + 1 by omega] at hj
    have hm : s ∈ cells (d + 1) := by
      by_contra hc; rw [if_neg hc] at hj; cases hj
    rw [if_pos hm] at hj
    have hj' := Option.some.inj (Except.ok.inj hj)
    have hlt := List.idxOf_lt_length_iff.2 hm
    have hdk : d + 1 ≤ L.k := by have := hv'.2.1; omega
    obtain ⟨M, m1, m2⟩ := b4 d (by omega)
    obtain ⟨c, c1, c2⟩ := m2.col j s (by rw [← hj', List.getElem?_eq_getElem hlt, List.getElem_idxOf])
    unfold ent
    rw [List.getD_eq_getElem?_getD (l := B), m1, Option.getD_some, List.getD_eq_getElem?_getD, c1, Option.getD_some, coef_perm c2.perm, coef_map_range]
    apply Finset.sum_congr rfl
    intro i hi
    rw [Finset.mem_range] at hi
    have hmem := r4 d s hm i hi
    have hll : (s.eraseIdx i).length = d + 1 := by rw [List.length_eraseIdx_of_lt (by omega)]; omega
    have hvi : Valid L.n L.k (s.eraseIdx i) := by
      refine ⟨by intro e; rw [e] at hll; simp at hll, by omega, fun x hx => hv'.2.2 x (List.mem_of_mem_eraseIdx hx)⟩
    rw [r2.findIdx_eq hvi, hll, Nat.add_sub_cancel, if_pos hmem]
    simp only [Except.ok.injEq, Option.some.injEq]

/-- simplices with strictly increasing vertices -/
def SortedOps (ops : List Light.Op) : Prop := ∀ o ∈ ops, (Light.Op.simplex o).Pairwise (· < ·)

theorem specRun_light_sorted : ∀ (ops : List Light.Op) (K : Set (List Nat)), SortedOps ops → (∀ s ∈ K, s.Pairwise (· < ·)) →
    ∀ s ∈ ops.foldl Light.specStep K, s.Pairwise (· < ·) := by
  intro ops
  induction ops with
  | nil => intro K _ hK; exact hK
  | cons o os ih =>
    intro K ho hK
    apply ih _ (fun p hp => ho p (by simp [hp]))
    intro t ht
    have hs := ho o (by simp)
    cases o with
    | add s =>
      rcases ht with ht | rfl
      · exact hK t ht
      · exact hs
    | addRecursive s =>
      rcases ht with ht | ⟨_, ht⟩
      · exact hK t ht
      · exact hs.sublist ht

/-- C54: build a light complex by any allowed history with sorted simplices, form its chain complex over any field and reduce it
with any of the algorithms: `hdim(d)` is the `d`-th simplicial Betti number of the complex `K` of the stored vertex sets. -/
theorem C54_betti (v : Variant) {W n k : Nat} (h1 : 1 < W) (h : n ^ (k + 1) ≤ W) (stray : Nat) (ops : List Light.Op) (ho : AllowedRun n k ∅ ops)
    (hso : SortedOps ops) (K : Finset (Finset Nat)) (hK : ∀ σ : Finset Nat, σ ∈ K ↔ σ.sort (· ≤ ·) ∈ Light.specRun ops) :
    ∃ (L : Light) (B : List (CMat F)) (C : RedCpx F), (Light.init W n k).run stray ops = .ok L ∧ L.chainComplex stray = .ok B ∧ v.reduce B = .ok C ∧
      ∀ d, d ≤ k → C.hdim d = .ok (simplicialBetti F K d) := by
  obtain ⟨L, cells, r1, r2, r3, r4, _, r6⟩ := run_linv stray ops (init_linv h1 h) (by simp) (by rw [setOf_empty]; exact ho)
  have hkk : L.k = k := r3.k
  obtain ⟨B, b1, b2, b3, b4, b5, b6⟩ := chainComplex_spec (F := F) r2 stray r4
  have hcok : SCpx.CellsOK cells := ⟨r2.len, r2.nodup, r4⟩
  obtain ⟨X, hX, hXl⟩ := mirror hcok r2.top
  have hsl : (signCpx B).length = X.ncells.length := by rw [signCpx_length, b2, hXl]
  have hbX : ∀ d, d + 1 < X.ncells.length → ∃ M, (signCpx B)[d + 1]? = some M ∧ SCpx.BdMat cells d M := by rw [hXl]; exact b6
  rw [setOf_empty] at r6
  have hsort : ∀ d s, s ∈ cells d → s.Pairwise (· < ·) := by
    intro d s hs
    have hm := (SCpx.mem_setOf (r2.len d s hs)).2 hs
    rw [r6] at hm
    exact specRun_light_sorted ops ∅ hso (by intro s hs; exact hs.elim) s hm
  have hv : SCpx.VertexSets cells K := ⟨hsort, by intro σ; rw [hK, r6]; rfl⟩
  have hC := SCpx.isChainComplex_of hX (fun d s hs => (hsort d s hs).imp (fun h => ne_of_lt h)) b5 hsl hbX
  have hC' := signCpx_chain hC
  rw [signCpx_signCpx] at hC'
  obtain ⟨C, c1, c2⟩ := C13_betti_is_dim_homology v hC'
  refine ⟨L, B, C, r1, b1, c1, ?_⟩
  intro d hd
  rw [c2 d (by omega)]
  congr 1
  have := signCpx_betti (fun d => SCpx.square_zero hX b5 hsl hbX d) d
  rw [signCpx_signCpx, SCpx.betti_simplicial hX hv b5 hsl hbX d] at this
  exact this

/-- C54, limit: `add` does not check the faces, and the boundary matrix of a complex with a missing face throws. -/
theorem C54_missing_face (stray : Nat) :
    (do let r ← (Light.init (2 ^ 64) 10 1).add [3, 7]; r.1.boundaryCsc stray 1 : Res CSC) = .error .thrown := by
  have e : (Light.init (2 ^ 64) 10 1).add [3, 7] = .ok ((Light.pushed (Light.init (2 ^ 64) 10 1) (fun _ => []) 1 [3, 7]), 0) := by
    have h := init_linv (W := 2 ^ 64) (n := 10) (k := 1) (by norm_num) (by norm_num)
    rcases addKey_spec h (d := 1) (s := [3, 7]) (by decide) rfl (by decide) with ⟨hm, _⟩ | ⟨_, e⟩
    · simp at hm
    · unfold Light.add
      rw [simplexKey_spec h.fits (s := [3, 7]) ⟨by decide, by decide⟩, bind_ok]
      exact e
  have h := (init_linv (W := 2 ^ 64) (n := 10) (k := 1) (by norm_num) (by norm_num)).push (d := 1) (s := [3, 7]) (by decide) rfl (by decide) (by simp)
  rw [e, bind_ok]
  simp only
  unfold Light.boundaryCsc Light.numCells
  rw [rd_some (h.keys 0 (by decide)), rd_some (h.keys 1 (by decide)), rd_some (h.idx 0 (by decide))]
  simp only [bind_ok, pure_ok, SCpx.push_same, List.nil_append, List.map_cons, List.map_nil]
  rw [cscLoop, iterFaces_spec h.fits stray (d := 1) rfl ⟨by decide, by decide⟩]
  rfl

end

/-- the boundary of a triangle on the vertices 3, 5, 9 of ten: one component, one loop -/
example : AllowedRun 10 1 ∅ [.addRecursive [3, 5], .add [9], .addRecursive [3, 9], .add [5, 9]] := by
  refine ⟨⟨by decide, by decide, by decide⟩, ⟨⟨by decide, by decide, by decide⟩, Or.inl rfl⟩, ⟨by decide, by decide, by decide⟩, ⟨⟨by decide, by decide, by decide⟩, Or.inr ?_⟩, trivial⟩
  intro i hi
  have : i = 0 ∨ i = 1 := by simp at hi; omega
  rcases this with rfl | rfl
  · exact Or.inr ⟨by decide, by decide⟩
  · exact Or.inl (Or.inl (Or.inr ⟨by decide, by decide⟩))

example : (((Light.init (2 ^ 64) 10 1).run 77 [.addRecursive [3, 5], .add [9], .addRecursive [3, 9], .add [5, 9]]).bind
      (fun L => (L.chainComplex 77 : Res (List (CMat ℚ))))).bind
    (fun B => (Variant.standard.reduce B).bind (fun C => (C.hdim 0).bind (fun a => (C.hdim 1).map (fun b => (a, b))))) = .ok (1, 1) := by
  decide +kernel

end BATS
