import Verif.Proofs.ZZBuild

set_option linter.unusedSectionVars false
set_option linter.unusedSimpArgs false
set_option linter.unusedVariables false

/-! # `_correct_indices`; the complex of copies -/

namespace BATS
namespace Zigzag
open Matrix Reduction

variable {F : Type} [Field F] [DecidableEq F] {T : Type} [LinearOrder T]

theorem findCopy_spec (t : T) (val : List (Copy T)) : ∀ (n i2 : Nat), i2 + n ≤ val.length →
    (∃ r x, findCopy t val n i2 = .ok (some r) ∧ i2 ≤ r ∧ r < i2 + n ∧ val[r]? = some x ∧ t < x.hi ∧ ∀ s y, i2 ≤ s → s < r → val[s]? = some y → ¬ t < y.hi) ∨
    (findCopy t val n i2 = .ok none ∧ ∀ s y, i2 ≤ s → s < i2 + n → val[s]? = some y → ¬ t < y.hi)
  | 0, i2, _ => Or.inr ⟨rfl, fun s y h1 h2 => absurd h2 (by omega)⟩
  | n + 1, i2, h => by
    have hi : i2 < val.length := by omega
    have hrd : rd val i2 = Except.ok val[i2] := rd_ok hi
    by_cases hlt : t < val[i2].hi
    · left
      refine ⟨i2, val[i2], ?_, Nat.le_refl _, by omega, List.getElem?_eq_getElem hi, hlt, fun s y h1 h2 => absurd h2 (by omega)⟩
      rw [findCopy, hrd, bind_ok, if_pos hlt]
    · have e : findCopy t val (n + 1) i2 = findCopy t val n (i2 + 1) := by rw [findCopy, hrd, bind_ok, if_neg hlt]
      rw [e]
      rcases findCopy_spec t val n (i2 + 1) (by omega) with ⟨r, x, h1, h2, h3, h4, h5, h6⟩ | ⟨h1, h2⟩
      · left
        refine ⟨r, x, h1, by omega, by omega, h4, h5, fun s y hs1 hs2 hy => ?_⟩
        rcases Nat.eq_or_lt_of_le hs1 with rfl | hs
        · rw [List.getElem?_eq_getElem hi] at hy; cases hy; exact hlt
        · exact h6 s y hs hs2 hy
      · right
        refine ⟨h1, fun s y hs1 hs2 hy => ?_⟩
        rcases Nat.eq_or_lt_of_le hs1 with rfl | hs
        · rw [List.getElem?_eq_getElem hi] at hy; cases hy; exact hlt
        · exact h2 s y hs (by omega) hy

theorem cpOf_length {vk : List (List (T × T))} (hne : ∀ l ∈ vk, l ≠ []) : (cpOf vk).length = vk.length + (exts 0 vk).length := by
  unfold cpOf; rw [List.length_append, firsts_length vk 0 hne]

theorem cpOf_first {vk : List (List (T × T))} (hne : ∀ l ∈ vk, l ≠ []) {j : Nat} {v : T × T} (hv : (vk.getD j []).head? = some v) : (cpOf vk)[j]? = some ⟨j, v.1, v.2⟩ := by
  have h := getElem?_firsts vk 0 hne j v hv
  rw [Nat.zero_add] at h
  have hlt : j < (firsts 0 vk).length := by
    by_contra hc
    rw [List.getElem?_eq_none (by omega)] at h; cases h
  unfold cpOf
  rw [List.getElem?_append_left hlt]; exact h

/-- where an entry in row `i` goes in a column which enters at time `t` -/
theorem correctEntry_spec {vk : List (List (T × T))} (hne : ∀ l ∈ vk, l ≠ []) (hd : ∀ l ∈ vk, l.Pairwise (fun v w => v.2 < w.1)) (t : T) {i : Nat} (hi : i < vk.length) :
    ∃ i', (∀ a : F, correctEntry t (cpOf vk) (exOf vk) (i, a) = .ok (i', a)) ∧ (∃ w : T × T, (cpOf vk)[i']? = some ⟨i, w.1, w.2⟩) ∧
      ∀ w ∈ vk.getD i [], w.1 ≤ t → t < w.2 → (cpOf vk)[i']? = some ⟨i, w.1, w.2⟩ := by
  have hl : vk.getD i [] ∈ vk := by
    rw [List.getD_eq_getElem?_getD, List.getElem?_eq_getElem hi]; exact List.getElem_mem hi
  obtain ⟨v, vs, hvs⟩ : ∃ v vs, vk.getD i [] = v :: vs := List.exists_cons_of_ne_nil (hne _ hl)
  have hfirst := cpOf_first hne (j := i) (v := v) (by rw [hvs]; rfl)
  have hpw := hd _ hl
  rw [hvs, List.pairwise_cons] at hpw
  have hrd : rd (cpOf vk) i = Except.ok ⟨i, v.1, v.2⟩ := by unfold rd; rw [hfirst]
  obtain ⟨a, b, h1, h2, h3, h3', h4⟩ := extraIdx_spec vk 0 vk.length (firsts 0 vk) (firsts_length vk 0 hne) i hi
  rw [← cpOf_length hne] at h1 h2 h3'
  rw [hvs, List.tail_cons] at h3 h4
  have hlen := cpOf_length hne
  by_cases hlt : v.2 < t
  · have ea : rd (exOf vk) i = Except.ok a := by unfold rd exOf; rw [h1]
    have eb : rd (exOf vk) (i + 1) = Except.ok b := by unfold rd exOf; rw [h2]
    have hba : b - a = vs.length := by omega
    have htail : ∀ r w, vs[r]? = some w → (cpOf vk)[a + r]? = some ⟨i, w.1, w.2⟩ := by
      intro r w hw
      have := h4 r w hw
      rw [Nat.zero_add] at this; exact this
    rcases findCopy_spec t (cpOf vk) vs.length a (by omega) with ⟨r, x, f1, f2, f3, f4, f5, f6⟩ | ⟨f1, f2⟩
    · refine ⟨r, fun c => ?_, ?_, ?_⟩
      · unfold correctEntry
        simp only [hrd, bind_ok, if_pos hlt, ea, eb, hba, f1]; rfl
      · have hr : r - a < vs.length := by omega
        refine ⟨vs[r - a], ?_⟩
        have := htail (r - a) _ (List.getElem?_eq_getElem hr)
        rw [show a + (r - a) = r by omega] at this; exact this
      · intro w hw hw1 hw2
        rw [hvs] at hw
        rcases List.mem_cons.1 hw with rfl | hw'
        · exact absurd (lt_trans hlt hw2) (lt_irrefl _)
        · obtain ⟨s, hs, hsw⟩ := List.mem_iff_getElem.1 hw'
          have hr : r - a < vs.length := by omega
          have hsw' : vs[s]? = some w := by rw [List.getElem?_eq_getElem hs, hsw]
          have ew := htail s w hsw'
          -- r = a + s
          have hr1 : r ≤ a + s := by
            by_contra hc
            exact f6 (a + s) _ (by omega) (by omega) ew hw2
          have er := htail (r - a) _ (List.getElem?_eq_getElem hr)
          rw [show a + (r - a) = r by omega] at er
          by_cases e : r = a + s
          · rw [e]; exact ew
          · exfalso
            rw [er] at f4
            have hx : x = ⟨i, vs[r - a].1, vs[r - a].2⟩ := by injection f4 with f4; exact f4.symm
            rw [hx] at f5
            have := (List.pairwise_iff_getElem.1 hpw.2) (r - a) s hr hs (by omega)
            rw [hsw] at this
            exact absurd (lt_of_lt_of_le this hw1) (not_lt.2 (le_of_lt f5))
    · refine ⟨i, fun c => ?_, ⟨v, hfirst⟩, ?_⟩
      · unfold correctEntry
        simp only [hrd, bind_ok, if_pos hlt, ea, eb, hba, f1]; rfl
      · intro w hw hw1 hw2
        rw [hvs] at hw
        rcases List.mem_cons.1 hw with rfl | hw'
        · exact hfirst
        · exfalso
          obtain ⟨s, hs, hsw⟩ := List.mem_iff_getElem.1 hw'
          have hsw' : vs[s]? = some w := by rw [List.getElem?_eq_getElem hs, hsw]
          exact f2 (a + s) _ (by omega) (by omega) (htail s w hsw') hw2
  · refine ⟨i, fun c => ?_, ⟨v, hfirst⟩, ?_⟩
    · unfold correctEntry
      simp only [hrd, bind_ok, if_neg hlt]; rfl
    · intro w hw hw1 hw2
      rw [hvs] at hw
      rcases List.mem_cons.1 hw with rfl | hw'
      · exact hfirst
      · exact absurd (lt_of_lt_of_le (hpw.1 w hw') hw1) hlt

theorem correctLoop_spec (t : T) (val : List (Copy T)) (extra : List Nat) (g : Nat → Nat) : ∀ c : List (Nat × F), (∀ q ∈ c, correctEntry t val extra q = .ok (g q.1, q.2)) →
    correctLoop t val extra c = .ok (c.map (fun q => (g q.1, q.2)))
  | [], _ => rfl
  | q :: c, h => by
    rw [correctLoop, h q (by simp), bind_ok, correctLoop_spec t val extra g c (fun q hq => h q (by simp [hq])), bind_ok]; rfl

/-- the corrected column -/
theorem correctIndices_spec {vk : List (List (T × T))} (hne : ∀ l ∈ vk, l ≠ []) (hd : ∀ l ∈ vk, l.Pairwise (fun v w => v.2 < w.1)) (t : T) {c : SVec F} (hc : VecOK c)
    (hb : Below vk.length c) :
    ∃ c', correctIndices t (cpOf vk) (exOf vk) c = .ok c' ∧ VecOK c' ∧ Below (cpOf vk).length c' ∧
      ∃ g : Nat → Nat, (∀ i, i < vk.length → coef c' (g i) = coef c i ∧ (∃ w : T × T, (cpOf vk)[g i]? = some ⟨i, w.1, w.2⟩) ∧
        ∀ w ∈ vk.getD i [], w.1 ≤ t → t < w.2 → (cpOf vk)[g i]? = some ⟨i, w.1, w.2⟩) ∧ ∀ r, coef c' r ≠ 0 → ∃ i, i < vk.length ∧ g i = r := by
  classical
  have hex : ∀ i, ∃ i', i < vk.length → (∀ a : F, correctEntry t (cpOf vk) (exOf vk) (i, a) = .ok (i', a)) ∧ (∃ w : T × T, (cpOf vk)[i']? = some ⟨i, w.1, w.2⟩) ∧
      ∀ w ∈ vk.getD i [], w.1 ≤ t → t < w.2 → (cpOf vk)[i']? = some ⟨i, w.1, w.2⟩ := by
    intro i
    by_cases hi : i < vk.length
    · obtain ⟨i', h⟩ := correctEntry_spec (F := F) hne hd t hi
      exact ⟨i', fun _ => h⟩
    · exact ⟨0, fun h => absurd h hi⟩
  choose g hg using hex
  have ginj : ∀ i j, i < vk.length → j < vk.length → g i = g j → i = j := by
    intro i j hi hj e
    obtain ⟨w, hw⟩ := (hg i hi).2.1
    obtain ⟨w', hw'⟩ := (hg j hj).2.1
    rw [e, hw'] at hw
    injection hw with hw
    injection hw with hw
    exact hw.symm
  have hmem : ∀ q ∈ c, q.1 < vk.length := fun q hq => hb q hq
  have hloop := correctLoop_spec t (cpOf vk) (exOf vk) g c (fun q hq => (hg q.1 (hmem q hq)).1 q.2)
  refine ⟨SVec.sort (c.map (fun q => (g q.1, q.2))), ?_, vecOK_sort_map hc g (fun p hp q hq e => ginj _ _ (hmem p hp) (hmem q hq) e), ?_, g, ?_, ?_⟩
  · unfold correctIndices; rw [hloop]; rfl
  · intro p hp
    rw [(sort_perm _).mem_iff, List.mem_map] at hp
    obtain ⟨q, hq, rfl⟩ := hp
    obtain ⟨w, hw⟩ := (hg q.1 (hmem q hq)).2.1
    show g q.1 < _
    by_contra hcon
    rw [List.getElem?_eq_none (by omega)] at hw; cases hw
  · intro i hi
    refine ⟨?_, (hg i hi).2⟩
    rw [coef_sort]
    exact coef_map_inj g c i (fun p hp e => ginj _ _ (hmem p hp) hi e)
  · intro r hr
    rw [coef_sort] at hr
    by_contra hcon
    push Not at hcon
    apply hr
    have : ∀ c : List (Nat × F), (∀ q ∈ c, q.1 < vk.length) → coef (c.map (fun q => (g q.1, q.2))) r = 0 := by
      intro c
      induction c with
      | nil => intro _; rfl
      | cons q c ih =>
        intro h
        rw [List.map_cons, coef_cons', ih (fun q hq => h q (by simp [hq]))]
        have : g q.1 ≠ r := hcon q.1 (h q (by simp))
        simp [this]
    exact this c hmem

/-! ### the copies -/

theorem mem_cpOf {vk : List (List (T × T))} {x : Copy T} : x ∈ cpOf vk ↔ x.orig < vk.length ∧ (x.lo, x.hi) ∈ vk.getD x.orig [] := by
  unfold cpOf
  rw [List.mem_append, mem_exts]
  simp only [Nat.zero_le, Nat.zero_add, Nat.sub_zero, true_and]
  constructor
  · rintro (h | ⟨h1, h2⟩)
    · obtain ⟨_, h2, h3⟩ := mem_firsts vk 0 x h
      rw [Nat.zero_add] at h2; rw [Nat.sub_zero] at h3
      exact ⟨h2, List.mem_of_mem_head? h3⟩
    · exact ⟨h1, List.mem_of_mem_tail h2⟩
  · rintro ⟨h1, h2⟩
    rcases e : vk.getD x.orig [] with _ | ⟨v, vs⟩
    · rw [e] at h2; cases h2
    · rw [e] at h2
      rcases List.mem_cons.1 h2 with h | h
      · left
        have : ∀ (vk : List (List (T × T))) (i j : Nat) (v : T × T), (vk.getD j []).head? = some v → (⟨i + j, v.1, v.2⟩ : Copy T) ∈ firsts i vk := by
          intro vk
          induction vk with
          | nil => intro i j v h; simp at h
          | cons l vk ih =>
            intro i j v h
            cases j with
            | zero =>
              rcases l with _ | ⟨w, ws⟩
              · simp at h
              · simp only [List.getD_cons_zero, List.head?_cons, Option.some.injEq] at h
                subst h; rw [firsts]; simp
            | succ j =>
              have := ih (i + 1) j v (by simpa using h)
              rw [show i + (j + 1) = i + 1 + j by omega]
              rcases l with _ | ⟨w, ws⟩
              · rw [firsts]; exact this
              · rw [firsts]; exact List.mem_cons_of_mem _ this
        have h' := this vk 0 x.orig v (by rw [e]; rfl)
        rw [← h, Nat.zero_add] at h'
        exact h'
      · right
        exact ⟨h1, by rw [List.tail_cons]; exact h⟩

theorem nodup_exts : ∀ (vk : List (List (T × T))) (i : Nat), (∀ l ∈ vk, l.Nodup) → (exts i vk).Nodup
  | [], _, _ => List.nodup_nil
  | l :: rest, i, h => by
    rw [exts, List.nodup_append]
    refine ⟨?_, nodup_exts rest (i + 1) (fun l hl => h l (by simp [hl])), ?_⟩
    · apply List.Nodup.map
      · rintro ⟨a, b⟩ ⟨a', b'⟩ e; simp only [Copy.mk.injEq, true_and] at e; rw [e.1, e.2]
      · exact (h l (by simp)).sublist (List.tail_sublist l)
    · intro x hx y hy e
      subst e
      rw [List.mem_map] at hx
      obtain ⟨v, _, rfl⟩ := hx
      have := ((mem_exts rest (i + 1) _).1 hy).1
      simp only at this
      omega

theorem nodup_firsts : ∀ (vk : List (List (T × T))) (i : Nat), (firsts i vk).Nodup
  | [], _ => List.nodup_nil
  | [] :: rest, i => by rw [firsts]; exact nodup_firsts rest (i + 1)
  | (v :: vs) :: rest, i => by
    rw [firsts, List.nodup_cons]
    refine ⟨fun h => ?_, nodup_firsts rest (i + 1)⟩
    have := (mem_firsts rest (i + 1) _ h).1
    simp only at this
    omega

theorem nodup_cpOf {vk : List (List (T × T))} (h : ∀ l ∈ vk, l.Nodup) : (cpOf vk).Nodup := by
  unfold cpOf
  rw [List.nodup_append]
  refine ⟨nodup_firsts vk 0, nodup_exts vk 0 h, ?_⟩
  intro x hx y hy e
  subst e
  obtain ⟨_, h2, h3⟩ := mem_firsts vk 0 x hx
  obtain ⟨_, _, h4⟩ := (mem_exts vk 0 x).1 hy
  rw [Nat.zero_add] at h2
  rw [Nat.sub_zero] at h3 h4
  have hl : vk.getD x.orig [] ∈ vk := by
    rw [List.getD_eq_getElem?_getD, List.getElem?_eq_getElem h2]; exact List.getElem_mem h2
  have := h _ hl
  rcases e : vk.getD x.orig [] with _ | ⟨v, vs⟩
  · rw [e] at h3; cases h3
  · rw [e] at h3 h4 this
    simp only [List.head?_cons, Option.some.injEq, List.tail_cons] at h3 h4
    rw [← h3] at h4
    exact (List.nodup_cons.1 this).1 h4

end Zigzag
end BATS
