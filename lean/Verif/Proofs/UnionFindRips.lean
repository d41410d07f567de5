import Verif.Proofs.UnionFindHom

set_option linter.unusedSectionVars false
set_option linter.unusedVariables false
set_option linter.unusedSimpArgs false

/-! # rips_union_find_pairs -/

namespace BATS
namespace UF

theorem two_choose2 (u : Nat) : 2 * choose2 u = u * (u - 1) := by
  unfold choose2
  rcases u with _ | u
  · rfl
  · rw [Nat.add_sub_cancel, Nat.mul_comm (u + 1) u]
    exact Nat.mul_div_cancel' (even_iff_two_dvd.1 (Nat.even_mul_succ_self u))

theorem choose2_succ (m : Nat) : choose2 (m + 1) = choose2 m + m := by
  have h1 := two_choose2 (m + 1)
  have h2 := two_choose2 m
  rw [Nat.add_sub_cancel] at h1
  have : (m + 1) * m = m * (m - 1) + 2 * m := by
    rcases m with _ | m
    · rfl
    · rw [Nat.add_sub_cancel]; ring
  omega

theorem choose2_mono {a b : Nat} (h : a ≤ b) : choose2 a ≤ choose2 b := by
  induction b, h using Nat.le_induction with
  | base => exact Nat.le_refl _
  | succ b _ ih => rw [choose2_succ]; omega

theorem choose2InvFrom_spec (targ w : Nat) (hw : 2 * targ ≤ w * (w - 1)) : ∀ (f u : Nat), u ≤ w → w < u + f → (∀ x, u ≤ x → x < w → ¬ 2 * targ ≤ x * (x - 1)) →
    choose2InvFrom targ f u = w := by
  intro f
  induction f with
  | zero => intro u h1 h2; omega
  | succ f ih =>
    intro u h1 h2 h3
    unfold choose2InvFrom
    by_cases e : u = w
    · subst e; rw [if_pos hw]
    · rw [if_neg (h3 u (Nat.le_refl _) (by omega))]
      exact ih (u + 1) (by omega) (by omega) (fun x hx hxw => h3 x (by omega) hxw)

theorem choose2Inv_spec {targ m : Nat} (hm : 1 ≤ m) (h1 : targ ≤ choose2 m) (h2 : m = 1 ∨ choose2 (m - 1) < targ) : choose2Inv targ = m := by
  unfold choose2Inv
  apply choose2InvFrom_spec
  · rw [← two_choose2]; omega
  · exact hm
  · rcases h2 with h2 | h2
    · omega
    · have : m - 1 ≤ choose2 (m - 1) + 1 := by
        have : ∀ n, n ≤ choose2 n + 1 := by
          intro n
          induction n with
          | zero => omega
          | succ n ih =>
            rw [choose2_succ]
            rcases n with _ | n
            · omega
            · omega
        exact this _
      omega
  · intro x hx hxm
    rw [← two_choose2]
    have := choose2_mono (show x ≤ m - 1 by omega)
    omega

theorem condensedIdx_eq {N i j : Nat} (hij : i < j) (hj : j < N) : condensedIdx N i j + choose2 (N - i) = choose2 N + (j - i - 1) := by
  unfold condensedIdx
  have h1 := two_choose2 N
  have h2 := two_choose2 (N - i)
  have h3 : 2 * (i * (i + 1) / 2) = i * (i + 1) := Nat.mul_div_cancel' (even_iff_two_dvd.1 (Nat.even_mul_succ_self i))
  obtain ⟨m, rfl⟩ : ∃ m, N = i + m + 1 := ⟨N - i - 1, by omega⟩
  have e1 : i + m + 1 - i = m + 1 := by omega
  have e2 : i + m + 1 - 1 = i + m := by omega
  rw [e1] at h2 ⊢
  rw [e2] at h1
  rw [Nat.add_sub_cancel] at h2
  have h4 : i * (i + 1) / 2 ≤ i * (i + m + 1) := by
    have : i * (i + 1) ≤ i * (i + m + 1) := Nat.mul_le_mul_left _ (by omega)
    omega
  have h5 : (i + m + 1) * (i + m) = (m + 1) * m + 2 * (i * (i + m + 1)) - i * (i + 1) := by
    have : i * (i + 1) ≤ 2 * (i * (i + m + 1)) := by
      have : i * (i + 1) ≤ i * (i + m + 1) := Nat.mul_le_mul_left _ (by omega)
      omega
    rw [Nat.add_sub_assoc this]
    have : 2 * (i * (i + m + 1)) = i * (i + 1) + (i * i + 2 * (i * m) + i) := by ring
    rw [this, Nat.add_sub_cancel_left]
    ring
  have h6 : i * (i + 1) ≤ 2 * (i * (i + m + 1)) := by
    have : i * (i + 1) ≤ i * (i + m + 1) := Nat.mul_le_mul_left _ (by omega)
    omega
  omega

theorem binomToInds_spec {N i j : Nat} (hij : i < j) (hj : j < N) : binomToInds (condensedIdx N i j) N = (i, j) := by
  have h := condensedIdx_eq hij hj
  have hs : choose2 (N - i) = choose2 (N - i - 1) + (N - i - 1) := by
    have := choose2_succ (N - i - 1)
    rwa [show N - i - 1 + 1 = N - i by omega] at this
  have hm := choose2_mono (show N - i ≤ N by omega)
  have hinv : choose2Inv (choose2 N - condensedIdx N i j) = N - i := choose2Inv_spec (by omega) (by omega) (Or.inr (by omega))
  unfold binomToInds
  simp only [hinv, Prod.mk.injEq]
  constructor <;> omega

theorem condensedIdx_lt {N i j : Nat} (hij : i < j) (hj : j < N) : condensedIdx N i j < choose2 N := by
  have h := condensedIdx_eq hij hj
  have hs : choose2 (N - i) = choose2 (N - i - 1) + (N - i - 1) := by
    have := choose2_succ (N - i - 1)
    rwa [show N - i - 1 + 1 = N - i by omega] at this
  omega

/-- every index below `N (N-1) / 2` is the index of a pair -/
theorem exists_pair {N k : Nat} (hk : k < choose2 N) : ∃ i j, i < j ∧ j < N ∧ condensedIdx N i j = k := by
  have : ∀ m, m ≤ N → choose2 N - choose2 m ≤ k → ∃ i j, i < j ∧ j < N ∧ condensedIdx N i j = k := by
    intro m
    induction m with
    | zero =>
      intro _ h
      have : choose2 0 = 0 := rfl
      omega
    | succ m ih =>
      intro hm h
      by_cases hc : choose2 N - choose2 m ≤ k
      · exact ih (by omega) hc
      · have hs := choose2_succ m
        have hmo := choose2_mono (show m + 1 ≤ N by omega)
        refine ⟨N - (m + 1), N - (m + 1) + 1 + (k - (choose2 N - choose2 (m + 1))), by omega, by omega, ?_⟩
        have := condensedIdx_eq (N := N) (i := N - (m + 1)) (j := N - (m + 1) + 1 + (k - (choose2 N - choose2 (m + 1)))) (by omega) (by omega)
        rw [show N - (N - (m + 1)) = m + 1 by omega] at this
        omega
  exact this N (Nat.le_refl _) (by omega)

theorem ripsN_spec {N : Nat} (hN : 1 ≤ N) : ripsN (choose2 N) = N := by
  unfold ripsN
  have h := two_choose2 N
  obtain ⟨m, rfl⟩ : ∃ m, N = m + 1 := ⟨N - 1, by omega⟩
  rw [Nat.add_sub_cancel] at h
  have : 1 + 8 * choose2 (m + 1) = (2 * m + 1) * (2 * m + 1) := by
    have : (2 * m + 1) * (2 * m + 1) = 1 + 4 * ((m + 1) * m) := by ring
    omega
  rw [this, Nat.sqrt_eq]
  omega

section
variable {T : Type} [LinearOrder T]

theorem stepRips_spec {N : Nat} {b0 : T} {es : List (Nat × Nat × T)} {S : State T} {ρ : Nat → Nat} (h : Inv N (fun _ => b0) es S ρ)
    {rank : List Nat} (hrk : rank.length = N) {i j k : Nat} {d : T} (hi : i < N) (hj : j < N) :
    ∃ S' rank' m ρ', stepRips S rank k d i j = .ok (S', rank', m) ∧ rank'.length = N ∧ Inv N (fun _ => b0) (es ++ [(i, j, d)]) S' ρ' ∧ Ext (fun x => x = d) S.pairs S'.pairs := by
  obtain ⟨p1, e1, f1⟩ := findParent_spec h.forest hi
  obtain ⟨p2, e2, f2⟩ := findParent_spec f1 hj
  unfold stepRips
  simp only [e1, e2, bind_ok]
  by_cases hij : ρ i = ρ j
  · simp only [if_pos hij]
    exact ⟨_, _, _, ρ, rfl, hrk, h.skip hi hj hij f2, Ext.refl _ _⟩
  · simp only [if_neg hij]
    have hri : ρ i < rank.length := by rw [hrk]; exact h.forest.rlt i hi
    have hrj : ρ j < rank.length := by rw [hrk]; exact h.forest.rlt j hj
    rw [rd_ok hri, bind_ok, rd_ok hrj, bind_ok]
    by_cases hlt : rank[ρ j] < rank[ρ i]
    · rw [if_pos hlt]
      obtain ⟨S', ρ', g1, g2, g3, g4⟩ := h.kill (k := k) (d := d) hi hj (die := ρ j) (v := j) (win := ρ i) hj rfl (h.forest.idem i hi) (h.forest.rlt i hi)
        (Ne.symm hij) (Or.inr ⟨rfl, rfl⟩) (le_refl _) f2
      rw [g1]
      exact ⟨S', rank, true, ρ', rfl, hrk, g2, g4⟩
    · rw [if_neg hlt]
      obtain ⟨S', ρ', g1, g2, g3, g4⟩ := h.kill (k := k) (d := d) hi hj (die := ρ i) (v := i) (win := ρ j) hi rfl (h.forest.idem j hj) (h.forest.rlt j hj)
        hij (Or.inl ⟨rfl, rfl⟩) (le_refl _) f2
      rw [g1, bind_ok]
      by_cases e : rank[ρ i] = rank[ρ j]
      · rw [if_pos e, wr_ok _ hrj, bind_ok]
        exact ⟨S', _, true, ρ', rfl, by rw [List.length_set, hrk], g2, g4⟩
      · rw [if_neg e]
        exact ⟨S', rank, true, ρ', rfl, hrk, g2, g4⟩

theorem loopRips_spec {N : Nat} {b0 : T} : ∀ (es2 es1 : List (Nat × Nat × T)) (k : Nat) (S : State T) (ρ : Nat → Nat) (rank : List Nat),
    Inv N (fun _ => b0) es1 S ρ → rank.length = N → (∀ e ∈ es2, e.1 < N ∧ e.2.1 < N) →
    ∃ S' ρ', loopRips N es2 k S rank = .ok S' ∧ Inv N (fun _ => b0) (es1 ++ es2) S' ρ' ∧ Ext (fun x => ∃ e ∈ es2, e.2.2 = x) S.pairs S'.pairs := by
  intro es2
  induction es2 with
  | nil => intro es1 k S ρ rank h _ _; exact ⟨S, ρ, rfl, by rw [List.append_nil]; exact h, Ext.refl _ _⟩
  | cons e es2 ih =>
    obtain ⟨i, j, d⟩ := e
    intro es1 k S ρ rank h hrk hr
    have hij := hr (i, j, d) (by simp)
    obtain ⟨S1, rank1, m, ρ1, s1, s0, s2, s3⟩ := stepRips_spec h hrk (k := k) (d := d) hij.1 hij.2
    unfold loopRips
    simp only at s1
    simp only [s1, bind_ok]
    have hcons : es1 ++ (i, j, d) :: es2 = (es1 ++ [(i, j, d)]) ++ es2 := by simp
    have hE : Ext (fun x => ∃ e ∈ (i, j, d) :: es2, e.2.2 = x) S.pairs S1.pairs := s3.mono (fun x hx => ⟨(i, j, d), by simp, hx.symm⟩)
    by_cases hb : m = true ∧ S1.nfinite + 1 = N
    · rw [if_pos hb]
      exact ⟨S1, ρ1, rfl, by rw [hcons]; exact s2.done hb.2 es2, hE⟩
    · rw [if_neg hb]
      obtain ⟨S', ρ', t1, t2, t3⟩ := ih _ (k + 1) S1 ρ1 rank1 s2 s0 (fun e he => hr e (by simp [he]))
      refine ⟨S', ρ', t1, by rw [hcons]; exact t2, hE.trans (t3.mono ?_)⟩
      rintro x ⟨e, he, rfl⟩
      exact ⟨e, by simp [he], rfl⟩

theorem loopRips_split {N : Nat} {b0 : T} (b : List (Nat × Nat × T)) (hb : ∀ e ∈ b, e.1 < N ∧ e.2.1 < N) :
    ∀ (a es1 : List (Nat × Nat × T)) (k : Nat) (S : State T) (ρ : Nat → Nat) (rank : List Nat),
    Inv N (fun _ => b0) es1 S ρ → rank.length = N → (∀ e ∈ a, e.1 < N ∧ e.2.1 < N) →
    ∃ S' S1 ρ1, loopRips N (a ++ b) k S rank = .ok S' ∧ Inv N (fun _ => b0) (es1 ++ a) S1 ρ1 ∧ Ext (fun x => ∃ e ∈ b, e.2.2 = x) S1.pairs S'.pairs := by
  intro a
  induction a with
  | nil =>
    intro es1 k S ρ rank h hrk _
    obtain ⟨S', ρ', h1, h2, h3⟩ := loopRips_spec b es1 k S ρ rank h hrk hb
    exact ⟨S', S, ρ, h1, by rw [List.append_nil]; exact h, h3⟩
  | cons e a ih =>
    obtain ⟨i, j, d⟩ := e
    intro es1 k S ρ rank h hrk hr
    have hij := hr (i, j, d) (by simp)
    obtain ⟨S1, rank1, m, ρ1, s1, s0, s2, s3⟩ := stepRips_spec h hrk (k := k) (d := d) hij.1 hij.2
    rw [List.cons_append]
    unfold loopRips
    simp only at s1
    simp only [s1, bind_ok]
    have hcons : es1 ++ (i, j, d) :: a = (es1 ++ [(i, j, d)]) ++ a := by simp
    rw [hcons]
    by_cases hb : m = true ∧ S1.nfinite + 1 = N
    · rw [if_pos hb]
      exact ⟨S1, S1, ρ1, rfl, s2.done hb.2 a, Ext.refl _ _⟩
    · rw [if_neg hb]
      exact ih _ (k + 1) S1 ρ1 rank1 s2 s0 (fun e he => hr e (by simp [he]))

variable [Inhabited T]

theorem readRips_spec (vals : List T) (N : Nat) : ∀ (inds : List Nat), (∀ e ∈ inds, e < vals.length) →
    readRips vals N inds = .ok (inds.map (fun e => ((binomToInds e N).1, (binomToInds e N).2, vals.getD e default))) := by
  intro inds
  induction inds with
  | nil => intro _; rfl
  | cons e es ih =>
    intro h
    have he : e < vals.length := h e (by simp)
    unfold readRips
    rw [rd_ok he, bind_ok, ih (fun x hx => h x (by simp [hx])), bind_ok, getElem_getD' (d := default) he]
    rfl

theorem ripsUnionFind_spec [Zero T] {N : Nat} (hN : 1 ≤ N) {inds : List Nat} {vals : List T} (hp : inds.Perm (List.range (choose2 N))) (hl : vals.length = choose2 N)
    (hs : (inds.map (fun e => vals.getD e default)).Pairwise (· ≤ ·)) :
    ∃ S : State T, ripsUnionFindPairs inds vals = .ok S.pairs ∧ (∃ es ρ, Inv N (fun _ => 0) es S ρ ∧ ∀ d : T, (∃ i j, (i, j, d) ∈ es) → d ∈ vals) ∧
      ∀ t, S.pairs.countP (fun q => match q.death with | none => true | some d => decide (t < d)) = Nat.card (Quot (closeAt N vals t)) := by
  have hM : inds.length = choose2 N := by rw [hp.length_eq, List.length_range]
  have hmem : ∀ e, e ∈ inds ↔ e < choose2 N := by intro e; rw [hp.mem_iff, List.mem_range]
  have hread := readRips_spec vals N inds (fun e he => by rw [hl]; exact (hmem e).1 he)
  set es := inds.map (fun e => ((binomToInds e N).1, (binomToInds e N).2, vals.getD e default)) with hes
  have hin : ∀ a b d, (a, b, d) ∈ es ↔ a < b ∧ b < N ∧ vals[condensedIdx N a b]? = some d := by
    intro a b d
    rw [hes, List.mem_map]
    constructor
    · rintro ⟨e, he, heq⟩
      obtain ⟨i, j, hij, hj, rfl⟩ := exists_pair ((hmem e).1 he)
      rw [binomToInds_spec hij hj] at heq
      simp only [Prod.mk.injEq] at heq
      obtain ⟨rfl, rfl, rfl⟩ := heq
      have hlt : condensedIdx N i j < vals.length := by rw [hl]; exact condensedIdx_lt hij hj
      refine ⟨hij, hj, ?_⟩
      rw [List.getElem?_eq_getElem hlt, getElem_getD' (d := default) hlt]
    · rintro ⟨hab, hb, hd⟩
      refine ⟨condensedIdx N a b, (hmem _).2 (condensedIdx_lt hab hb), ?_⟩
      rw [binomToInds_spec hab hb, List.getD_eq_getElem?_getD, hd]
      rfl
  have hlt : ∀ e ∈ es, e.1 < N ∧ e.2.1 < N := by
    rintro ⟨a, b, d⟩ he
    have := (hin a b d).1 he
    exact ⟨by simp only; omega, this.2.1⟩
  have hso : es.Pairwise (fun e f => e.2.2 ≤ f.2.2) := by
    rw [hes, List.pairwise_map]
    rw [List.pairwise_map] at hs
    exact hs
  have hI := inv_init (fun _ => (0 : T)) N
  obtain ⟨S, ρ, h1, h2, h3⟩ := loopRips_spec es [] 0 _ _ (List.replicate N 0) hI (by simp) hlt
  refine ⟨S, ?_, ⟨es, ρ, h2, ?_⟩, fun t => ?_⟩
  · unfold ripsUnionFindPairs
    simp only [hM, ripsN_spec hN, hread, bind_ok, h1]
    rfl
  · rintro d ⟨i, j, hd⟩
    exact List.mem_of_getElem? ((hin i j d).1 hd).2.2
  · obtain ⟨a, b, hab, ha, hb⟩ := split_at t es hso
    obtain ⟨S', S1, ρ1, g1, g2, g3⟩ := loopRips_split b (fun e he => hlt e (by rw [hab]; simp [he])) a [] 0 _ _ (List.replicate N 0) hI (by simp)
      (fun e he => hlt e (by rw [hab]; simp [he]))
    rw [← hab, h1] at g1
    cases g1
    have hc := count_eq g2 ha hb (g3.mono (by rintro x ⟨e, he, rfl⟩; exact hb e he)) 0
    rw [List.nil_append, ← hab] at hc
    have hrel : linkedAt N es t = closeAt N vals t := by
      funext x y
      apply propext
      unfold linkedAt closeAt
      constructor
      · rintro ⟨d, hd, hdt⟩
        obtain ⟨q1, q2, q3⟩ := (hin _ _ _).1 hd
        exact ⟨q1, d, q3, hdt⟩
      · rintro ⟨q1, d, q3, hdt⟩
        exact ⟨d, (hin _ _ _).2 ⟨q1, y.2, q3⟩, hdt⟩
    have hcard : componentsHit N es (fun _ => (0 : T)) 0 t = Nat.card (Quot (closeAt N vals t)) := by
      unfold componentsHit Components
      rw [hrel]
      apply Nat.card_congr
      refine (Equiv.subtypeUnivEquiv ?_)
      intro c
      obtain ⟨v, rfl⟩ := Quot.mk_surjective c
      exact ⟨v, le_refl _, rfl⟩
    rw [← hcard, ← hc]
    apply List.countP_congr
    intro q hq
    have : q.birth ≤ 0 := by
      obtain ⟨x, hx, hxq⟩ := List.mem_iff_getElem.1 hq
      obtain ⟨q', y1, _, _, y4, _⟩ := h2.pair x (by rw [← h2.len]; exact hx)
      rw [List.getElem?_eq_getElem hx] at y1
      have : q' = q := by rw [← hxq]; exact (Option.some.inj y1).symm
      rw [← this, y4]
    rcases hd : q.death with _ | d <;> simp [this, hd]

end

end UF
end BATS
