import Verif.Proofs.ZZCopies
import Verif.Proofs.ZZTime

set_option linter.unusedSectionVars false
set_option linter.unusedSimpArgs false
set_option linter.unusedVariables false

/-! # `prepare_ChainComplex` -/

namespace BATS
namespace Zigzag
open Matrix Reduction

variable {F : Type} [Field F] [DecidableEq F] {T : Type} [LinearOrder T]

theorem sortpermBy_spec (S : StdSort) {cmp : Copy T → Copy T → Bool} {cp : List (Copy T)} (h : StrictWeakOn cmp cp) :
    IsPermOf cp.length (sortpermBy S cmp cp) ∧ ∀ (i j x y : Nat) (a b : Copy T), i < j → (sortpermBy S cmp cp)[i]? = some x → (sortpermBy S cmp cp)[j]? = some y →
      cp[x]? = some a → cp[y]? = some b → cmp b a = false := by
  have hm : ∀ z ∈ cp.zipIdx, z.1 ∈ cp := fun z hz => List.fst_mem_of_mem_zipIdx hz
  have hs : StrictWeakOn (fun x y : Copy T × Nat => cmp x.1 y.1) cp.zipIdx :=
    ⟨fun a ha b hb => h.asymm _ (hm a ha) _ (hm b hb), fun a ha b hb c hc => h.negtrans _ (hm a ha) _ (hm b hb) _ (hm c hc)⟩
  obtain ⟨h1, h2⟩ := S.spec _ _ hs
  unfold sortpermBy
  constructor
  · have := h1.map Prod.snd
    rw [List.zipIdx_map_snd] at this
    unfold IsPermOf
    rw [List.range_eq_range']
    exact this
  · intro i j x y a b hij hx hy ha hb
    rw [List.getElem?_map] at hx hy
    rcases ei : (S.sort (fun x y : Copy T × Nat => cmp x.1 y.1) cp.zipIdx)[i]? with _ | p
    · rw [ei] at hx; cases hx
    rcases ej : (S.sort (fun x y : Copy T × Nat => cmp x.1 y.1) cp.zipIdx)[j]? with _ | q
    · rw [ej] at hy; cases hy
    rw [ei] at hx
    rw [ej] at hy
    simp only [Option.map_some, Option.some.injEq] at hx hy
    obtain ⟨hi, ei'⟩ := List.getElem?_eq_some_iff.1 ei
    obtain ⟨hj, ej'⟩ := List.getElem?_eq_some_iff.1 ej
    have := (List.pairwise_iff_getElem.1 h2) i j hi hj hij
    rw [ei', ej'] at this
    have mp := h1.mem_iff.1 (List.mem_of_getElem? ei)
    have mq := h1.mem_iff.1 (List.mem_of_getElem? ej)
    rw [List.mem_zipIdx_iff_getElem?] at mp mq
    rw [hx, ha] at mp
    rw [hy, hb] at mq
    injection mp with mp
    injection mq with mq
    rw [mp, mq]; exact this

/-- an event of a copy -/
def IsEventOf (k : Nat) (p : List Nat) (cp : List (Copy T)) (e : Event T) : Prop :=
  e.dim = k ∧ p[e.ind]? = some e.cind ∧ ∃ c, cp[e.cind]? = some c ∧ e.val = if e.entry then c.lo else c.hi

theorem eventsOf_spec (k : Nat) (q : List Nat) (hq : q.Nodup) : ∀ (cs : List (Copy T)) (i : Nat), i + cs.length ≤ q.length →
    ∃ r, eventsOf k q i cs = .ok r ∧
      (∀ e ∈ r, e.dim = k ∧ ∃ s c, e.cind = i + s ∧ cs[s]? = some c ∧ q[i + s]? = some e.ind ∧ e.val = if e.entry then c.lo else c.hi) ∧
      (∀ (s : Nat) (c : Copy T) (x : Nat), cs[s]? = some c → q[i + s]? = some x → ∀ b : Bool, ∃ e ∈ r, e.dim = k ∧ e.ind = x ∧ e.entry = b) ∧
      r.Pairwise (fun a b => ¬ (a.dim = b.dim ∧ a.ind = b.ind ∧ a.entry = b.entry))
  | [], i, _ => ⟨[], rfl, by simp, by simp, List.Pairwise.nil⟩
  | c :: cs, i, h => by
    have hi : i < q.length := by rw [List.length_cons] at h; omega
    have hrd : rd q i = Except.ok q[i] := rd_ok hi
    obtain ⟨r, r1, r2, r3, r4⟩ := eventsOf_spec k q hq cs (i + 1) (by rw [List.length_cons] at h; omega)
    have hother : ∀ e ∈ r, e.ind ≠ q[i] := by
      intro e he heq
      obtain ⟨_, s, c', _, _, h3, _⟩ := r2 e he
      obtain ⟨hlt, h3'⟩ := List.getElem?_eq_some_iff.1 h3
      rw [heq] at h3'
      have := (List.Nodup.getElem_inj_iff hq).1 h3'
      omega
    refine ⟨⟨k, q[i], i, c.lo, true⟩ :: ⟨k, q[i], i, c.hi, false⟩ :: r, ?_, ?_, ?_, ?_⟩
    · rw [eventsOf, hrd, bind_ok, r1, bind_ok]; rfl
    · intro e he
      rcases List.mem_cons.1 he with rfl | he
      · exact ⟨rfl, 0, c, rfl, rfl, by rw [Nat.add_zero]; exact List.getElem?_eq_getElem hi, rfl⟩
      rcases List.mem_cons.1 he with rfl | he
      · exact ⟨rfl, 0, c, rfl, rfl, by rw [Nat.add_zero]; exact List.getElem?_eq_getElem hi, rfl⟩
      obtain ⟨h1, s, c', h2, h3, h4, h5⟩ := r2 e he
      exact ⟨h1, s + 1, c', by omega, h3, by rw [show i + (s + 1) = i + 1 + s by omega]; exact h4, h5⟩
    · intro s c' x hc hx b
      cases s with
      | zero =>
        rw [Nat.add_zero, List.getElem?_eq_getElem hi] at hx
        injection hx with hx
        cases b
        · exact ⟨⟨k, q[i], i, c.hi, false⟩, by simp, rfl, hx, rfl⟩
        · exact ⟨⟨k, q[i], i, c.lo, true⟩, by simp, rfl, hx, rfl⟩
      | succ s =>
        obtain ⟨e, he, h⟩ := r3 s c' x (by simpa using hc) (by rw [show i + 1 + s = i + (s + 1) by omega]; exact hx) b
        exact ⟨e, by simp [he], h⟩
    · rw [List.pairwise_cons, List.pairwise_cons]
      refine ⟨?_, ?_, r4⟩
      · intro e he
        rcases List.mem_cons.1 he with rfl | he
        · simp
        · rintro ⟨_, h2, _⟩; exact hother e he h2.symm
      · intro e he
        rintro ⟨_, h2, _⟩; exact hother e he h2.symm

theorem eventsFrom_spec : ∀ (ps : List (List Nat)) (cps : List (List (Copy T))) (k : Nat), ps.length = cps.length →
    (∀ (s : Nat) (p : List Nat) (cp : List (Copy T)), ps[s]? = some p → cps[s]? = some cp → IsPermOf cp.length p) →
    ∃ es, eventsFrom k ps cps = .ok es ∧
      (∀ e ∈ es, ∃ (s : Nat) (p : List Nat) (cp : List (Copy T)), ps[s]? = some p ∧ cps[s]? = some cp ∧ IsEventOf (k + s) p cp e) ∧
      (∀ (s : Nat) (p : List Nat) (cp : List (Copy T)) (x i : Nat) (c : Copy T), ps[s]? = some p → cps[s]? = some cp → p[x]? = some i → cp[i]? = some c → ∀ b : Bool,
        ∃ e ∈ es, e.dim = k + s ∧ e.ind = x ∧ e.entry = b) ∧
      es.Pairwise (fun a b => ¬ (a.dim = b.dim ∧ a.ind = b.ind ∧ a.entry = b.entry))
  | [], [], k, _, _ => ⟨[], rfl, by simp, by simp, List.Pairwise.nil⟩
  | [], _ :: _, k, h, _ => by simp at h
  | _ :: _, [], k, h, _ => by simp at h
  | p :: ps, cp :: cps, k, h, hp => by
    have hp0 : IsPermOf cp.length p := hp 0 p cp rfl rfl
    obtain ⟨q, q1, q2, q3⟩ := Perm.invPerm_spec hp0
    have hql : q.length = cp.length := Perm.isPerm_length q2
    obtain ⟨r, r1, r2, r3, r4⟩ := eventsOf_spec k q (Perm.isPerm_nodup q2) cp 0 (by omega)
    obtain ⟨es, e1, e2, e3, e4⟩ := eventsFrom_spec ps cps (k + 1) (by simpa using h) (fun s p cp h1 h2 => hp (s + 1) p cp (by simpa using h1) (by simpa using h2))
    refine ⟨r ++ es, ?_, ?_, ?_, ?_⟩
    · rw [eventsFrom, q1, bind_ok, r1, bind_ok, e1, bind_ok]; rfl
    · intro e he
      rcases List.mem_append.1 he with he | he
      · obtain ⟨h1, s, c, h2, h3, h4, h5⟩ := r2 e he
        rw [Nat.zero_add] at h2 h4
        refine ⟨0, p, cp, rfl, rfl, h1, ?_, c, by rw [h2]; exact h3, h5⟩
        rw [h2]; exact (q3 _ _).2 h4
      · obtain ⟨s, p', cp', h1, h2, h3⟩ := e2 e he
        exact ⟨s + 1, p', cp', by simpa using h1, by simpa using h2, by rw [show k + (s + 1) = k + 1 + s by omega]; exact h3⟩
    · intro s p' cp' x i c h1 h2 h3 h4 b
      cases s with
      | zero =>
        simp only [List.getElem?_cons_zero, Option.some.injEq] at h1 h2
        subst h1; subst h2
        obtain ⟨e, he, h⟩ := r3 i c x h4 (by rw [Nat.zero_add]; exact (q3 _ _).1 h3) b
        exact ⟨e, List.mem_append_left _ he, h⟩
      | succ s =>
        obtain ⟨e, he, h⟩ := e3 s p' cp' x i c (by simpa using h1) (by simpa using h2) h3 h4 b
        exact ⟨e, List.mem_append_right _ he, by rw [h.1]; omega, h.2⟩
    · rw [List.pairwise_append]
      refine ⟨r4, e4, ?_⟩
      intro a ha b hb
      rintro ⟨h1, _, _⟩
      have := (r2 a ha).1
      obtain ⟨s, _, _, _, _, h3⟩ := e2 b hb
      have := h3.1
      omega

/-- what is known about the events passed to the sort -/
structure EventData (C : List (CMat F)) (lab : Nat → Nat → Copy T) (cps : List (List (Copy T))) (es : List (Event T)) : Prop where
  events : EventsOf C lab es
  orig : ∀ e ∈ es, origOf cps e = (lab e.dim e.ind).orig

theorem prepareWith_spec (S : StdSort) (d : T) {cmpCell : Nat → Copy T → Copy T → Bool} {cmpEvent : List (List (Copy T)) → Event T → Event T → Bool}
    {B : List (CMat F)} {vals : List (List (List (T × T)))} (hB : IsChainComplex B) (h0 : ZeroBdry0 B) (h2 : 2 ≤ B.length) (hv : Treatable B vals)
    (hcell : ∀ k, k < B.length → StrictWeakOn (cmpCell k) (cpOf (vals.getD k [])))
    (hdesc : ∀ k, k < B.length → ∀ a ∈ cpOf (vals.getD k []), ∀ b ∈ cpOf (vals.getD k []), cmpCell k b a = false → b.hi ≤ a.hi)
    (hev : ∀ C lab es, Labelled B vals C lab → EventData C lab (vals.map cpOf) es → (∀ k j j', j < j' → j' < cdim C k → cmpCell k (lab k j') (lab k j) = false) →
      CmpOK C es (cmpEvent (vals.map cpOf))) :
    ∃ C lab es cmp, prepareWith S d cmpCell cmpEvent B vals = .ok (C, es) ∧ Labelled B vals C lab ∧ EventsOf C lab es ∧ CmpOK C es cmp ∧
      es.Pairwise (fun a b => cmp b a = false) ∧ (∀ k j j', j < j' → j' < cdim C k → (lab k j').hi ≤ (lab k j).hi) ∧
      ∀ e ∈ es, (cpOf (vals.getD e.dim []))[e.cind]? = some (lab e.dim e.ind) := by
  obtain ⟨zc, z1, z2, z3⟩ := build_labelled d hB h0 hv
  have hlen := hv.len
  obtain ⟨perms, hperms⟩ : ∃ perms, perms = (vals.map cpOf).zipIdx.map (fun x => sortpermBy S (cmpCell x.2) x.1) := ⟨_, rfl⟩
  have hpl : perms.length = B.length := by rw [hperms, List.length_map, List.length_zipIdx, List.length_map, hlen]
  have hpk : ∀ k, k < B.length → perms[k]? = some (sortpermBy S (cmpCell k) (cpOf (vals.getD k []))) := by
    intro k hk
    rw [hperms, List.getElem?_map, List.getElem?_zipIdx, List.getElem?_map, List.getD_eq_getElem?_getD, List.getElem?_eq_getElem (by omega)]
    simp
  have hcd : ∀ k, cdim (zc.map Prod.fst) k = (cpOf (vals.getD k [])).length := by
    intro k
    by_cases hk : k < B.length
    · have hk' : k < vals.length := by omega
      -- labels are a bijection with the copies
      apply Nat.le_antisymm
      · by_contra hc
        push Not at hc
        -- more cells than copies contradicts injectivity into the copies
        have hinj : Function.Injective (fun j : Fin (cdim (zc.map Prod.fst) k) => (⟨(cpOf (vals.getD k [])).idxOf (labOf d vals k j), by
            rw [List.idxOf_lt_length_iff, mem_cpOf]
            have := z3.mem k j j.2
            rw [hv.toIsZigzagFiltration.len_eq k]; exact this⟩ : Fin (cpOf (vals.getD k [])).length)) := by
          intro a b e
          have e' : (cpOf (vals.getD k [])).idxOf (labOf d vals k a) = (cpOf (vals.getD k [])).idxOf (labOf d vals k b) := congrArg Fin.val e
          have ma : labOf d vals k a ∈ cpOf (vals.getD k []) := mem_cpOf.2 (by rw [hv.toIsZigzagFiltration.len_eq k]; exact z3.mem k a a.2)
          have := (List.idxOf_inj ma).1 e'
          exact Fin.ext (z3.inj k a b a.2 b.2 this)
        have := Fintype.card_le_of_injective _ hinj
        rw [Fintype.card_fin, Fintype.card_fin] at this
        omega
      · by_contra hc
        push Not at hc
        have hmem : ∀ j : Fin (cpOf (vals.getD k [])).length, ∃ a, a < cdim (zc.map Prod.fst) k ∧ labOf d vals k a = (cpOf (vals.getD k []))[j] := by
          intro j
          obtain ⟨m1, m2⟩ := mem_cpOf.1 (List.getElem_mem j.2)
          rw [hv.toIsZigzagFiltration.len_eq k] at m1
          exact z3.surj k _ _ m1 m2
        choose f hf1 hf2 using hmem
        have hnd : (cpOf (vals.getD k [])).Nodup := nodup_cpOf (getD_mem_vals (P := fun vk => ∀ l ∈ vk, l.Nodup) hv.toIsZigzagFiltration.all_nodup (by simp))
        have hinj : Function.Injective (fun j => (⟨f j, hf1 j⟩ : Fin (cdim (zc.map Prod.fst) k))) := by
          intro a b e
          have e' : f a = f b := congrArg Fin.val e
          have h1 := hf2 a
          rw [e', hf2 b] at h1
          exact Fin.ext ((List.Nodup.getElem_inj_iff hnd).1 h1).symm
        have := Fintype.card_le_of_injective _ hinj
        rw [Fintype.card_fin, Fintype.card_fin] at this
        omega
    · rw [cdim_of_ge (by rw [z3.len]; omega), List.getD_eq_getElem?_getD, List.getElem?_eq_none (by omega)]; rfl
  have hpp : ∀ k, k < B.length → IsPermOf (cdim (zc.map Prod.fst) k) (perms.getD k []) := by
    intro k hk
    rw [List.getD_eq_getElem?_getD, hpk k hk, hcd]
    exact (sortpermBy_spec S (hcell k hk)).1
  obtain ⟨C, c1, c2⟩ := ipermuteBasis_spec (by rw [z3.len]; exact h2) z3.shapes z3.zero (by rw [z3.len]; exact hpl) (by rw [z3.len]; exact hpp)
  have hC0 : ZeroBdry0 C := by
    intro c hc
    have hl0 : 0 < (zc.map Prod.fst).length := by rw [z3.len]; omega
    have hsh := c2.same.ok c2.ok 0 (by rw [c2.same.len]; exact hl0)
    have hcok := hsh.colsOK c hc
    obtain ⟨j, hj, e⟩ := List.mem_iff_getElem.1 hc
    have hj' : j < cdim (zc.map Prod.fst) 0 := by rw [← c2.same.cdim]; exact hj
    apply hcok.1.eq_nil_iff.2
    intro i
    by_cases hi : i < rdim (zc.map Prod.fst) 0
    · have := c2.zero i j hi hj'
      have e0 : ent (zc.map Prod.fst) 0 i ((perms.getD 0 []).getD j 0) = 0 := ent_zero_bdry z3.zero _ _
      rw [e0] at this
      unfold ent at this
      rw [List.getD_eq_getElem?_getD (l := (C.getD 0 ⟨0, []⟩).cols), List.getElem?_eq_getElem hj, e] at this
      exact this
    · apply hcok.2.coef_eq_zero
      have : rdim C 0 = rdim (zc.map Prod.fst) 0 := c2.same.rdim hl0 0
      omega
  have hL := z3.reindex c2 hC0
  obtain ⟨lab, hlab⟩ : ∃ lab : Nat → Nat → Copy T, lab = fun k j => labOf d vals k ((perms.getD k []).getD j 0) := ⟨_, rfl⟩
  rw [← hlab] at hL
  have hCd : ∀ k, cdim C k = (cpOf (vals.getD k [])).length := fun k => by rw [c2.same.cdim, hcd]
  have hCk : ∀ k j, j < cdim C k → k < B.length := by
    intro k j hj
    by_contra hc
    rw [cdim_of_ge (by rw [hL.len]; omega)] at hj; omega
  -- position j holds copy perms[k][j]
  have hpos : ∀ k j, j < cdim C k → ∃ x, (sortpermBy S (cmpCell k) (cpOf (vals.getD k [])))[j]? = some x ∧ (cpOf (vals.getD k []))[x]? = some (lab k j) := by
    intro k j hj
    have hk := hCk k j hj
    have hp := (sortpermBy_spec S (hcell k hk)).1
    have hjl : j < (sortpermBy S (cmpCell k) (cpOf (vals.getD k []))).length := by rw [Perm.isPerm_length hp, ← hCd]; exact hj
    refine ⟨_, List.getElem?_eq_getElem hjl, ?_⟩
    have hxl := (Perm.isPerm_mem hp).1 (List.getElem_mem hjl)
    rw [some_labOf (d := d) hxl, hlab]
    simp only
    rw [List.getD_eq_getElem?_getD (l := perms), hpk k hk, Option.getD_some, List.getD_eq_getElem?_getD (l := sortpermBy _ _ _), List.getElem?_eq_getElem hjl, Option.getD_some]
  have hcmp : ∀ k j j', j < j' → j' < cdim C k → cmpCell k (lab k j') (lab k j) = false := by
    intro k j j' hjj hj'
    obtain ⟨x, x1, x2⟩ := hpos k j (by omega)
    obtain ⟨y, y1, y2⟩ := hpos k j' hj'
    exact (sortpermBy_spec S (hcell k (hCk k j' hj'))).2 j j' x y _ _ hjj x1 y1 x2 y2
  obtain ⟨es, v1, v2, v3, v4⟩ := eventsFrom_spec perms (vals.map cpOf) 0 (by rw [hpl, List.length_map, hlen]) (by
    intro s p cp hp hcp
    have hs : s < B.length := by
      rw [← hpl]; exact (List.getElem?_eq_some_iff.1 hp).1
    rw [hpk s hs] at hp
    injection hp with hp
    rw [List.getElem?_map, List.getElem?_eq_getElem (by omega)] at hcp
    simp only [Option.map_some, Option.some.injEq] at hcp
    have e : vals.getD s [] = vals[s] := by rw [List.getD_eq_getElem?_getD, List.getElem?_eq_getElem (by omega)]; rfl
    rw [← hp, ← hcp, ← e]
    exact (sortpermBy_spec S (hcell s hs)).1)
  have hcpk : ∀ k, k < B.length → (vals.map cpOf)[k]? = some (cpOf (vals.getD k [])) := by
    intro k hk
    rw [List.getElem?_map, List.getD_eq_getElem?_getD, List.getElem?_eq_getElem (by omega)]; rfl
  have hevt : ∀ e ∈ es, e.dim < B.length ∧ e.ind < cdim C e.dim ∧ (cpOf (vals.getD e.dim []))[e.cind]? = some (lab e.dim e.ind) ∧
      e.val = if e.entry then (lab e.dim e.ind).lo else (lab e.dim e.ind).hi := by
    intro e he
    obtain ⟨s, p, cp, hp, hcp, hd, hi, c, hc, hval⟩ := v2 e he
    rw [Nat.zero_add] at hd
    have hs : s < B.length := by rw [← hpl]; exact (List.getElem?_eq_some_iff.1 hp).1
    rw [hpk s hs] at hp
    injection hp with hp
    rw [hcpk s hs] at hcp
    injection hcp with hcp
    rw [← hp] at hi
    rw [← hcp] at hc
    have hil : e.ind < cdim C s := by
      rw [hCd, ← Perm.isPerm_length (sortpermBy_spec S (hcell s hs)).1]
      exact (List.getElem?_eq_some_iff.1 hi).1
    obtain ⟨x, x1, x2⟩ := hpos s e.ind hil
    rw [hi] at x1
    injection x1 with x1
    rw [← x1, hc] at x2
    injection x2 with x2
    rw [hd]
    refine ⟨hs, hil, by rw [hc, x2], ?_⟩
    rw [hval, x2]
  have hE : EventsOf C lab es := by
    refine ⟨fun e he => ?_, ?_, v4⟩
    · obtain ⟨h1, h2, _, h4⟩ := hevt e he
      exact ⟨by rw [hL.len]; exact h1, h2, h4⟩
    · intro k j hj b
      have hk := hCk k j hj
      obtain ⟨x, x1, x2⟩ := hpos k j hj
      obtain ⟨e, he, h⟩ := v3 k _ _ j x _ (hpk k hk) (hcpk k hk) x1 x2 b
      rw [Nat.zero_add] at h
      exact ⟨e, he, h⟩
  have hD : EventData C lab (vals.map cpOf) es := by
    refine ⟨hE, fun e he => ?_⟩
    obtain ⟨h1, _, h3, _⟩ := hevt e he
    unfold origOf
    rw [List.getD_eq_getElem?_getD, hcpk e.dim h1, Option.getD_some, h3]; rfl
  have hok := hev C lab es hL hD hcmp
  obtain ⟨s1, s2⟩ := S.spec (cmpEvent (vals.map cpOf)) es hok.swo
  refine ⟨C, lab, S.sort (cmpEvent (vals.map cpOf)) es, cmpEvent (vals.map cpOf), ?_, hL, hE.perm s1, hok.perm s1, s2, ?_, ?_⟩
  · unfold prepareWith
    rw [z1, bind_ok]
    simp only [z2]
    rw [← hperms, c1, bind_ok, v1, bind_ok]; rfl
  · intro k j j' hjj hj'
    have hk := hCk k j' hj'
    obtain ⟨x, _, x2⟩ := hpos k j (by omega)
    obtain ⟨y, _, y2⟩ := hpos k j' hj'
    exact hdesc k hk _ (List.mem_of_getElem? x2) _ (List.mem_of_getElem? y2) (hcmp k j j' hjj hj')
  · intro e he
    exact (hevt e (s1.mem_iff.1 he)).2.2.1

end Zigzag
end BATS
