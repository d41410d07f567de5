import Verif.Proofs.ZZCorrect

set_option linter.unusedSectionVars false
set_option linter.unusedSimpArgs false
set_option linter.unusedVariables false

/-! # `ZigzagChainComplex(X)` is the complex of copies -/

namespace BATS
namespace Zigzag
open Matrix Reduction

variable {F : Type} [Field F] [DecidableEq F] {T : Type} [LinearOrder T]

/-- the label of the `j`-th copy -/
def labOf (d : T) (vals : List (List (List (T × T)))) (k j : Nat) : Copy T := (cpOf (vals.getD k [])).getD j ⟨0, d, d⟩

theorem labOf_some {d : T} {vals : List (List (List (T × T)))} {k j : Nat} {x : Copy T} (h : (cpOf (vals.getD k []))[j]? = some x) : labOf d vals k j = x := by
  unfold labOf; rw [List.getD_eq_getElem?_getD (l := cpOf _), h]; rfl

theorem some_labOf {d : T} {vals : List (List (List (T × T)))} {k j : Nat} (h : j < (cpOf (vals.getD k [])).length) : (cpOf (vals.getD k []))[j]? = some (labOf d vals k j) := by
  unfold labOf; rw [List.getD_eq_getElem?_getD (l := cpOf _), List.getElem?_eq_getElem h]; rfl

section
variable {B : List (CMat F)} {vals : List (List (List (T × T)))}

theorem IsZigzagFiltration.mem_iff (hv : IsZigzagFiltration B vals) {vk : List (List (T × T))} (h1 : vk ∈ vals) {l : List (T × T)} (h2 : l ∈ vk) :
    ∃ k i, i < cdim B k ∧ l = intervals vals k i := by
  obtain ⟨k, hk, rfl⟩ := List.mem_iff_getElem.1 h1
  obtain ⟨i, hi, rfl⟩ := List.mem_iff_getElem.1 h2
  have e : vals.getD k [] = vals[k] := by rw [List.getD_eq_getElem?_getD, List.getElem?_eq_getElem hk]; rfl
  refine ⟨k, i, ?_, ?_⟩
  · have := hv.lens k (by rw [← hv.len]; exact hk)
    rw [e] at this
    omega
  · unfold intervals
    rw [e, List.getD_eq_getElem?_getD, List.getElem?_eq_getElem hi]; rfl

theorem IsZigzagFiltration.all_ne (hv : IsZigzagFiltration B vals) : ∀ vk ∈ vals, ∀ l ∈ vk, l ≠ [] := by
  intro vk h1 l h2
  obtain ⟨k, i, hi, rfl⟩ := hv.mem_iff h1 h2
  exact hv.ne k i hi

theorem IsZigzagFiltration.all_disj (hv : IsZigzagFiltration B vals) : ∀ vk ∈ vals, ∀ l ∈ vk, l.Pairwise (fun v w => v.2 < w.1) := by
  intro vk h1 l h2
  obtain ⟨k, i, hi, rfl⟩ := hv.mem_iff h1 h2
  exact hv.disjoint k i

theorem IsZigzagFiltration.all_nodup (hv : IsZigzagFiltration B vals) : ∀ vk ∈ vals, ∀ l ∈ vk, l.Nodup := by
  intro vk h1 l h2
  obtain ⟨k, i, hi, rfl⟩ := hv.mem_iff h1 h2
  refine List.Pairwise.imp_of_mem (fun {v w} hv' hw h e => ?_) (hv.disjoint k i)
  subst e
  exact absurd h (not_lt.2 (hv.le k i v hv'))

theorem getD_mem_vals {k : Nat} {P : List (List (T × T)) → Prop} (h : ∀ vk ∈ vals, P vk) (h0 : P []) : P (vals.getD k []) := by
  by_cases hk : k < vals.length
  · rw [List.getD_eq_getElem?_getD, List.getElem?_eq_getElem hk]; exact h _ (List.getElem_mem hk)
  · rw [List.getD_eq_getElem?_getD, List.getElem?_eq_none (by omega)]; exact h0

theorem IsZigzagFiltration.len_eq (hv : IsZigzagFiltration B vals) (k : Nat) : (vals.getD k []).length = cdim B k := by
  by_cases hk : k < B.length
  · exact hv.lens k hk
  · rw [cdim_of_ge (by omega), List.getD_eq_getElem?_getD, List.getElem?_eq_none (by rw [hv.len]; omega)]; rfl

theorem build_labelled (d : T) (hB : IsChainComplex B) (h0 : ZeroBdry0 B) (hv : Treatable B vals) :
    ∃ zc, zigzagChainComplex d B vals = .ok zc ∧ zc.map Prod.snd = vals.map cpOf ∧ Labelled B vals (zc.map Prod.fst) (labOf d vals) := by
  have hz : IsZigzagFiltration B vals := hv.toIsZigzagFiltration
  have hne : ∀ k, ∀ l ∈ vals.getD k [], l ≠ [] := fun k => getD_mem_vals (P := fun vk => ∀ l ∈ vk, l ≠ []) hz.all_ne (by simp)
  have hdj : ∀ k, ∀ l ∈ vals.getD k [], l.Pairwise (fun v w => v.2 < w.1) := fun k => getD_mem_vals (P := fun vk => ∀ l ∈ vk, l.Pairwise (fun v w => v.2 < w.1)) hz.all_disj (by simp)
  have hnd : ∀ k, ∀ l ∈ vals.getD k [], l.Nodup := fun k => getD_mem_vals (P := fun vk => ∀ l ∈ vk, l.Nodup) hz.all_nodup (by simp)
  have hndc : ∀ k, (cpOf (vals.getD k [])).Nodup := fun k => nodup_cpOf (hnd k)
  have hlv : ∀ k, (vals.getD k []).length = cdim B k := hz.len_eq
  have hcl : ∀ k, (cpOf (vals.getD k [])).length = cdim B k + (exts 0 (vals.getD k [])).length := fun k => by rw [cpOf_length (hne k), hlv k]
  -- corrected columns exist
  have hcol : ∀ k, k + 1 < B.length → ∀ j, VecOK ((B.getD (k + 1) ⟨0, []⟩).cols.getD j []) ∧ Below (vals.getD k []).length ((B.getD (k + 1) ⟨0, []⟩).cols.getD j []) := by
    intro k hk j
    have := (hB.shape (k + 1) hk).colsOK.getD j
    rw [hlv k]; exact this
  obtain ⟨zc, e1, e2, e3⟩ := buildFrom_spec d vals B none hz.len (fun k hk => hz.lens k hk) hz.all_ne (by
    intro k hk j hj t
    cases k with
    | zero => exact ⟨_, rfl⟩
    | succ k =>
      obtain ⟨c', h, _⟩ := correctIndices_spec (hne k) (hdj k) t (hcol k hk j).1 (hcol k hk j).2
      exact ⟨c', h⟩)
  refine ⟨zc, e1, ?_, ?_⟩
  · apply List.ext_getElem (by rw [List.length_map, List.length_map, e2, hz.len])
    intro k h1 h2
    rw [List.length_map] at h1 h2
    rw [List.getElem_map, List.getElem_map]
    have := (e3 k (by omega)).cp
    rw [List.getD_eq_getElem?_getD, List.getElem?_eq_getElem h1, List.getD_eq_getElem?_getD, List.getElem?_eq_getElem h2] at this
    exact this
  -- the matrices
  obtain ⟨C, hC⟩ : ∃ C, C = zc.map Prod.fst := ⟨_, rfl⟩
  rw [← hC]
  have hlen : C.length = B.length := by rw [hC, List.length_map, e2]
  have hget : ∀ k, k < B.length → C.getD k ⟨0, []⟩ = (zc.getD k (⟨0, []⟩, [])).1 := by
    intro k hk
    rw [hC, List.getD_eq_getElem?_getD, List.getElem?_map, List.getElem?_eq_getElem (by omega), List.getD_eq_getElem?_getD, List.getElem?_eq_getElem (by omega)]; rfl
  have hcols : ∀ k, k < B.length → ∃ new, (C.getD k ⟨0, []⟩).cols = (B.getD k ⟨0, []⟩).cols ++ new ∧
      List.Forall₂ (fun (x : Copy T) col => corr (prevAt none vals k) x.lo ((B.getD k ⟨0, []⟩).cols.getD x.orig []) = .ok col) (exts 0 (vals.getD k [])) new := by
    intro k hk
    rw [hget k hk]; exact (e3 k hk).cols
  have hcd : ∀ k, cdim C k = (cpOf (vals.getD k [])).length := by
    intro k
    by_cases hk : k < B.length
    · obtain ⟨new, n1, n2⟩ := hcols k hk
      rw [hcl k, n2.length_eq]
      unfold cdim
      rw [n1, List.length_append]
    · rw [cdim_of_ge (by omega), List.getD_eq_getElem?_getD, List.getElem?_eq_none (by rw [hz.len]; omega)]; rfl
  have hinj : ∀ k j j', j < cdim C k → j' < cdim C k → labOf d vals k j = labOf d vals k j' → j = j' := by
    intro k j j' hj hj' e
    rw [hcd] at hj hj'
    have h1 := some_labOf (d := d) hj
    have h2 := some_labOf (d := d) hj'
    rw [← e] at h2
    rw [List.getElem?_eq_getElem hj] at h1
    rw [List.getElem?_eq_getElem hj'] at h2
    injection h1 with h1
    injection h2 with h2
    exact (List.Nodup.getElem_inj_iff (hndc k)).1 (h1.trans h2.symm)
  have hmem : ∀ k j, j < cdim C k → (labOf d vals k j).orig < cdim B k ∧ ((labOf d vals k j).lo, (labOf d vals k j).hi) ∈ intervals vals k (labOf d vals k j).orig := by
    intro k j hj
    rw [hcd] at hj
    have := mem_cpOf.1 (List.mem_of_getElem? (some_labOf (d := d) hj))
    rw [hlv k] at this
    exact this
  -- a first copy
  have hfirst : ∀ k j, j < cdim B k → ∃ v, (intervals vals k j).head? = some v ∧ labOf d vals k j = ⟨j, v.1, v.2⟩ := by
    intro k j hj
    obtain ⟨v, vs, hvs⟩ := List.exists_cons_of_ne_nil (hz.ne k j hj)
    have hh : (intervals vals k j).head? = some v := by rw [hvs]; rfl
    exact ⟨v, hh, labOf_some (cpOf_first (hne k) hh)⟩
  -- a further copy
  have hext : ∀ k j, cdim B k ≤ j → j < cdim C k → k < B.length → ∃ col, (C.getD k ⟨0, []⟩).cols[j]? = some col ∧
      corr (prevAt none vals k) (labOf d vals k j).lo ((B.getD k ⟨0, []⟩).cols.getD (labOf d vals k j).orig []) = .ok col ∧ (labOf d vals k j).lo < (labOf d vals k j).hi := by
    intro k j h1 h2 hk
    obtain ⟨new, n1, n2⟩ := hcols k hk
    rw [hcd, hcl] at h2
    have hx : j - cdim B k < (exts 0 (vals.getD k [])).length := by omega
    have hx' : j - cdim B k < new.length := by rw [← n2.length_eq]; exact hx
    have elb : labOf d vals k j = (exts 0 (vals.getD k []))[j - cdim B k] := by
      apply labOf_some
      unfold cpOf
      rw [List.getElem?_append_right (by rw [firsts_length _ 0 (hne k), hlv k]; exact h1), firsts_length _ 0 (hne k), hlv k, List.getElem?_eq_getElem hx]
    refine ⟨new[j - cdim B k], ?_, ?_, ?_⟩
    · rw [n1, List.getElem?_append_right h1]
      exact List.getElem?_eq_getElem hx'
    · rw [elb]
      exact (List.forall₂_iff_get.1 n2).2 (j - cdim B k) hx hx'
    · rw [elb]
      obtain ⟨_, m2, m3⟩ := (mem_exts (vals.getD k []) 0 _).1 (List.getElem_mem hx)
      exact hv.strict k _ _ m3
  have hfirstcol : ∀ k j, k < B.length → j < cdim B k → (C.getD k ⟨0, []⟩).cols[j]? = (B.getD k ⟨0, []⟩).cols[j]? := by
    intro k j hk hj
    obtain ⟨new, n1, _⟩ := hcols k hk
    rw [n1, List.getElem?_append_left hj]
  -- every column
  have hrow : ∀ k, k < B.length → (C.getD k ⟨0, []⟩).nrow = rdim C k := by
    intro k hk
    cases k with
    | zero => rfl
    | succ k =>
      show _ = cdim C k
      rw [hget _ hk, (e3 (k + 1) hk).nrow, hcd k]
      show (B.getD (k + 1) ⟨0, []⟩).nrow + extraCount (vals.getD k []) = _
      rw [(hB.shape (k + 1) hk).nrow]
      unfold extraCount
      have := hcl k
      rw [hlv k]
      show cdim B k + _ = _
      omega
  have hz0 : ∀ (j : Nat) (col : SVec F), (C.getD 0 ⟨0, []⟩).cols[j]? = some col → col = [] := by
    intro j col hc
    have hl : 0 < B.length := List.length_pos_iff.2 hB.ne
    have hj : j < cdim C 0 := by
      by_contra hcon
      rw [List.getElem?_eq_none (by unfold cdim at hcon; omega)] at hc; cases hc
    by_cases hjb : j < cdim B 0
    · rw [hfirstcol 0 j hl hjb] at hc
      exact h0 col (List.mem_of_getElem? hc)
    · obtain ⟨col', c1, c2, _⟩ := hext 0 j (by omega) hj hl
      rw [hc] at c1
      injection c1 with c1
      subst c1
      injection c2 with c2
      rw [← c2]
      have ho := (hmem 0 j hj).1
      rw [List.getD_eq_getElem?_getD, List.getElem?_eq_getElem ho]
      exact h0 _ (List.getElem_mem ho)
  have hok : ∀ k, k + 1 < B.length → ∀ (j : Nat) (col : SVec F), (C.getD (k + 1) ⟨0, []⟩).cols[j]? = some col → VecOK col ∧ Below (cdim C k) col := by
    intro k hk j col hc
    have hj : j < cdim C (k + 1) := by
      by_contra hcon
      rw [List.getElem?_eq_none (by unfold cdim at hcon; omega)] at hc; cases hc
    by_cases hjb : j < cdim B (k + 1)
    · rw [hfirstcol _ j hk hjb] at hc
      have := (hB.shape (k + 1) hk).colsOK col (List.mem_of_getElem? hc)
      refine ⟨this.1, fun p hp => ?_⟩
      have h1 := this.2 p hp
      have h2 : p.1 < cdim B k := h1
      rw [hcd k, hcl k]; omega
    · obtain ⟨col', c1, c2, _⟩ := hext (k + 1) j (by omega) hj hk
      rw [hc] at c1
      injection c1 with c1
      subst c1
      obtain ⟨c', h, hok, hbel, _⟩ := correctIndices_spec (hne k) (hdj k) (labOf d vals (k + 1) j).lo (hcol k hk (labOf d vals (k + 1) j).orig).1 (hcol k hk (labOf d vals (k + 1) j).orig).2
      have : (Except.ok c' : Res (SVec F)) = .ok col := by rw [← h]; exact c2
      injection this with this
      rw [← this, hcd k]
      exact ⟨hok, hbel⟩
  refine ⟨hlen, ?_, ?_, hmem, ?_, hinj, ?_⟩
  · intro k hk
    rw [hlen] at hk
    refine ⟨?_, hrow k hk, rfl⟩
    intro c hc
    obtain ⟨j, hj, e⟩ := List.mem_iff_getElem.1 hc
    have hcj : (C.getD k ⟨0, []⟩).cols[j]? = some c := by rw [List.getElem?_eq_getElem hj, e]
    cases k with
    | zero => rw [hz0 j c hcj]; exact ⟨vecOK_nil, below_nil _⟩
    | succ k =>
      rw [hrow (k + 1) hk]
      exact hok k hk j c hcj
  · intro c hc
    obtain ⟨j, hj, e⟩ := List.mem_iff_getElem.1 hc
    exact hz0 j c (by rw [List.getElem?_eq_getElem hj, e])
  · intro k i v hi hvi
    have : (⟨i, v.1, v.2⟩ : Copy T) ∈ cpOf (vals.getD k []) := mem_cpOf.2 ⟨by rw [hlv k]; exact hi, hvi⟩
    obtain ⟨j, hj, e⟩ := List.mem_iff_getElem.1 this
    exact ⟨j, by rw [hcd]; exact hj, labOf_some (by rw [List.getElem?_eq_getElem hj, e])⟩
  · intro k i j hi hj
    have hk : k + 1 < B.length := by
      by_contra hcon
      rw [cdim_of_ge (by omega)] at hj; omega
    by_cases hjb : j < cdim B (k + 1)
    · -- a first copy: the column is not changed
      obtain ⟨v, hv1, hv2⟩ := hfirst (k + 1) j hjb
      have hec : ent C (k + 1) i j = ent B (k + 1) i j := by
        unfold ent
        rw [List.getD_eq_getElem?_getD (l := (C.getD (k + 1) ⟨0, []⟩).cols), hfirstcol (k + 1) j hk hjb, ← List.getD_eq_getElem?_getD]
      rw [hec, hv2]
      show ent B (k + 1) i j = if _ then ent B (k + 1) (labOf d vals k i).orig j else 0
      have hvm : v ∈ intervals vals (k + 1) j := List.mem_of_mem_head? hv1
      by_cases hib : i < cdim B k
      · obtain ⟨w, hw1, hw2⟩ := hfirst k i hib
        rw [hw2]
        show ent B (k + 1) i j = if _ then ent B (k + 1) i j else 0
        by_cases he : ent B (k + 1) i j = 0
        · rw [he, ite_self]
        · obtain ⟨w', hw', h1, h2⟩ := hv.first k i j he v hv1
          rw [hw1] at hw'
          injection hw' with hw'
          subst hw'
          rw [if_pos ⟨h1, h2⟩]
      · have hz : ent B (k + 1) i j = 0 := by
          by_contra hne'
          exact hib (ent_row_lt hB.shape hne').1
        rw [hz]
        split
        · rename_i hcon
          by_contra he
          have he' : ent B (k + 1) (labOf d vals k i).orig j ≠ 0 := fun h => he h.symm
          obtain ⟨w', hw', h1, h2⟩ := hv.first k _ j he' v hv1
          have hmi := hmem k i hi
          have hlv' : v.1 ≤ v.2 := hv.toIsZigzagFiltration.le (k + 1) j v hvm
          have := interval_unique (hv.toIsZigzagFiltration.disjoint k (labOf d vals k i).orig) hmi.2 (List.mem_of_mem_head? hw') (t := v.1) hcon.1 (le_trans hlv' hcon.2) h1 (le_trans hlv' h2)
          obtain ⟨w, hw1, hw2⟩ := hfirst k (labOf d vals k i).orig hmi.1
          rw [hw'] at hw1
          injection hw1 with hw1
          subst hw1
          have hieq := hinj k i (labOf d vals k i).orig hi (by rw [hcd, hcl]; have := hmi.1; omega) (by
            rw [hw2, ← this])
          have := hmi.1
          omega
        · rfl
    · obtain ⟨col, c1, c2, c3⟩ := hext (k + 1) j (by omega) hj hk
      obtain ⟨x, hx⟩ : ∃ x, x = labOf d vals (k + 1) j := ⟨_, rfl⟩
      rw [← hx] at c2 c3 ⊢
      have hec : ent C (k + 1) i j = coef col i := by
        unfold ent
        rw [List.getD_eq_getElem?_getD, c1]; rfl
      have hxm := hmem (k + 1) j hj
      rw [← hx] at hxm
      obtain ⟨c', h, _, _, g, g1, g2⟩ := correctIndices_spec (hne k) (hdj k) x.lo (hcol k hk x.orig).1 (hcol k hk x.orig).2
      have ecol : c' = col := by
        have : (Except.ok c' : Res (SVec F)) = .ok col := by rw [← h]; exact c2
        injection this
      rw [ecol] at g1 g2
      rw [hec]
      rw [hlv k] at g1 g2
      have hmi := hmem k i hi
      by_cases hne0 : coef col i = 0
      · rw [hne0]
        split
        · rename_i hcon
          have := (g1 _ hmi.1).2.2 _ hmi.2 hcon.1 (lt_of_lt_of_le c3 hcon.2)
          have hgl : g (labOf d vals k i).orig < cdim C k := by
            rw [hcd]
            by_contra hcc
            rw [List.getElem?_eq_none (by omega)] at this; cases this
          have hgi : g (labOf d vals k i).orig = i := hinj k _ _ hgl hi (labOf_some this)
          have := (g1 _ hmi.1).1
          rw [hgi, hne0] at this
          exact this
        · rfl
      · obtain ⟨i0, hi0, hgi⟩ := g2 i hne0
        have hent : coef col i = ent B (k + 1) i0 x.orig := by rw [← hgi]; exact (g1 i0 hi0).1
        obtain ⟨w, hw, w1, w2⟩ := hv.toIsZigzagFiltration.closed k i0 x.orig (by rw [← hent]; exact hne0) _ hxm.2
        have := (g1 i0 hi0).2.2 w hw w1 (lt_of_lt_of_le c3 w2)
        rw [hgi] at this
        rw [labOf_some (d := d) this, if_pos ⟨w1, w2⟩, hent]

end
end Zigzag
end BATS
