import Verif.Proofs.VecOps2
import Mathlib.Data.List.Sort

set_option linter.unusedSectionVars false
set_option linter.unusedSimpArgs false
set_option linter.unusedVariables false

/-! # Inserting rows; other operations on sparse vectors -/

namespace BATS
open Reduction

variable {F : Type} [Field F] [DecidableEq F]

/-! ### where an old row goes -/

theorem insertedBefore_le {rinds : List Nat} (h : rinds.Pairwise (· < ·)) (k : Nat) : insertedBefore rinds k ≤ k := by
  unfold insertedBefore
  have h1 : (rinds.filter (fun r => decide (r < k))).Nodup := (h.imp (fun h => by omega)).filter _
  have h2 : rinds.filter (fun r => decide (r < k)) ⊆ List.range k := by
    intro r hr; rw [List.mem_filter] at hr; simpa using hr.2
  have := (List.subperm_of_subset h1 h2).length_le
  simpa using this

/-- between two rows that are not inserted there is less room than the difference -/
theorem insertedBefore_mono {rinds : List Nat} (h : rinds.Pairwise (· < ·)) {j k : Nat} (hj : j ∉ rinds) (hjk : j < k) :
    insertedBefore rinds k ≤ insertedBefore rinds j + (k - j - 1) := by
  unfold insertedBefore
  have hnd : rinds.Nodup := h.imp (fun h => by omega)
  have h1 : (rinds.filter (fun r => decide (r < k))).Nodup := hnd.filter _
  have h2 : rinds.filter (fun r => decide (r < k)) ⊆ rinds.filter (fun r => decide (r < j)) ++ List.range' (j + 1) (k - j - 1) := by
    intro r hr; rw [List.mem_filter] at hr
    rw [List.mem_append, List.mem_filter, List.mem_range'_1]
    have hr2 : r < k := by simpa using hr.2
    have : r ≠ j := by rintro rfl; exact hj hr.1
    by_cases hlt : r < j
    · exact Or.inl ⟨hr.1, by simpa using hlt⟩
    · right; omega
  have := (List.subperm_of_subset h1 h2).length_le
  simpa using this

theorem oldRow_strictMono {rinds : List Nat} (h : rinds.Pairwise (· < ·)) {j k : Nat} (hj : j ∉ rinds) (hjk : j < k) :
    oldRow rinds j < oldRow rinds k := by
  have h1 := insertedBefore_le h j
  have h2 := insertedBefore_le h k
  have h3 := insertedBefore_mono h hj hjk
  unfold oldRow; omega

theorem insertedBefore_split {rinds : List Nat} (h : rinds.Pairwise (· < ·)) {q j : Nat} (h1 : ∀ r ∈ rinds.take q, r < j) (h2 : ∀ r ∈ rinds.drop q, j < r)
    (hq : q ≤ rinds.length) : j ∉ rinds ∧ insertedBefore rinds j = q := by
  have e := (List.take_append_drop q rinds)
  constructor
  · intro hj
    rw [← e, List.mem_append] at hj
    rcases hj with hj | hj
    · exact absurd (h1 j hj) (by omega)
    · exact absurd (h2 j hj) (by omega)
  · unfold insertedBefore
    rw [← e, List.filter_append, List.length_append, List.filter_eq_self.2 (by intro r hr; simpa using h1 r hr),
      List.filter_eq_nil_iff.2 (by intro r hr; have := h2 r hr; simp; omega), List.length_take]
    simp; omega

/-- the inner loop, started when the first `q` inserted rows are before the target -/
theorem insertLoop_spec (rinds : List Nat) (h : rinds.Pairwise (· < ·)) (i : Nat) : ∀ (n q : Nat), rinds.length - q = n → q ≤ rinds.length →
    (∀ r ∈ rinds.take q, r < i + q) →
    ∃ q', q ≤ q' ∧ q' ≤ rinds.length ∧ SVec.insertLoop (rinds.drop q) (i + q) = (i + q', q' - q) ∧
      (∀ r ∈ rinds.take q', r < i + q') ∧ (∀ r ∈ rinds.drop q', i + q' < r) := by
  intro n
  induction n with
  | zero =>
    intro q hn hq hlt
    have e : rinds.drop q = [] := List.drop_eq_nil_of_le (by omega)
    refine ⟨q, Nat.le_refl _, hq, ?_, hlt, ?_⟩
    · rw [e, SVec.insertLoop]; simp
    · rw [e]; simp
  | succ n ih =>
    intro q hn hq hlt
    have hq' : q < rinds.length := by omega
    rw [List.drop_eq_getElem_cons hq', SVec.insertLoop]
    have hcons : rinds.drop q = rinds[q] :: rinds.drop (q + 1) := List.drop_eq_getElem_cons hq'
    have hpd : (rinds.drop q).Pairwise (· < ·) := h.drop
    rw [hcons] at hpd
    by_cases hle : rinds[q] ≤ i + q
    · rw [if_pos hle]
      obtain ⟨q', h1, h2, h3, h4, h5⟩ := ih (q + 1) (by omega) hq' (by
        intro r hr
        rw [List.take_add_one, List.getElem?_eq_getElem hq'] at hr
        simp only [Option.toList_some, List.mem_append, List.mem_singleton] at hr
        rcases hr with hr | hr
        · have := hlt r hr; omega
        · omega)
      refine ⟨q', by omega, h2, ?_, h4, h5⟩
      rw [show i + q + 1 = i + (q + 1) by omega, h3]
      simp; omega
    · rw [if_neg hle]
      refine ⟨q, Nat.le_refl _, hq, by simp, hlt, ?_⟩
      intro r hr
      rw [hcons, List.mem_cons] at hr
      rcases hr with rfl | hr
      · omega
      · have := (List.pairwise_cons.1 hpd).1 r hr; omega

theorem take_takeWhile_length {l : List Nat} (f : Nat → Bool) : l.take (l.takeWhile f).length = l.takeWhile f := by
  induction l with
  | nil => rfl
  | cons a l ih =>
    by_cases h : f a
    · rw [List.takeWhile_cons_of_pos h, List.length_cons, List.take_succ_cons, ih]
    · rw [List.takeWhile_cons_of_neg h]; rfl

theorem mem_takeWhile_lt' {l : List Nat} {n : Nat} : ∀ r ∈ l.takeWhile (fun r => decide (r < n)), r < n := by
  induction l with
  | nil => intro r hr; simp at hr
  | cons a l ih =>
    intro r hr
    by_cases h : a < n
    · rw [List.takeWhile_cons_of_pos (by simpa using h), List.mem_cons] at hr
      rcases hr with rfl | hr
      · exact h
      · exact ih r hr
    · rw [List.takeWhile_cons_of_neg (by simpa using h)] at hr; simp at hr

theorem insertTarget_spec {rinds : List Nat} (h : rinds.Pairwise (· < ·)) (i : Nat) :
    SVec.insertTarget rinds i ∉ rinds ∧ oldRow rinds (SVec.insertTarget rinds i) = i := by
  obtain ⟨q', h1, h2, h3, h4, h5⟩ := insertLoop_spec rinds h i _ (rinds.takeWhile (fun r => decide (r < i))).length rfl
    (List.takeWhile_prefix _).length_le (by
      intro r hr
      rw [take_takeWhile_length] at hr
      have := mem_takeWhile_lt' r hr
      omega)
  have e : SVec.insertTarget rinds i = i + q' := by
    unfold SVec.insertTarget; rw [h3]
  obtain ⟨g1, g2⟩ := insertedBefore_split h h4 h5 h2
  rw [e]
  refine ⟨g1, ?_⟩
  unfold oldRow; omega

theorem insertTarget_unique {rinds : List Nat} (h : rinds.Pairwise (· < ·)) {i j : Nat} (hj : j ∉ rinds) (e : oldRow rinds j = i) :
    SVec.insertTarget rinds i = j := by
  obtain ⟨h1, h2⟩ := insertTarget_spec h i
  rcases lt_trichotomy (SVec.insertTarget rinds i) j with hlt | heq | hgt
  · have := oldRow_strictMono h h1 hlt; omega
  · exact heq
  · have := oldRow_strictMono h hj hgt; omega

theorem insertTarget_lt {rinds : List Nat} (h : rinds.Pairwise (· < ·)) {i j : Nat} (hij : i < j) :
    SVec.insertTarget rinds i < SVec.insertTarget rinds j := by
  obtain ⟨h1, h2⟩ := insertTarget_spec h i
  obtain ⟨h3, h4⟩ := insertTarget_spec h j
  rcases lt_trichotomy (SVec.insertTarget rinds i) (SVec.insertTarget rinds j) with hlt | heq | hgt
  · exact hlt
  · rw [heq] at h2; omega
  · have := oldRow_strictMono h h3 hgt; omega

theorem insertTarget_bound {rinds : List Nat} (h : rinds.Pairwise (· < ·)) {m i : Nat} (hi : i < m) :
    SVec.insertTarget rinds i < m + rinds.length := by
  obtain ⟨h1, h2⟩ := insertTarget_spec h i
  have h3 : insertedBefore rinds (SVec.insertTarget rinds i) ≤ rinds.length := List.length_filter_le _ _
  unfold oldRow at h2
  have := insertedBefore_le h (SVec.insertTarget rinds i)
  omega

/-- the loop over the entries uses the same target for each entry -/
theorem insertZeroRowsLoop_eq {rinds : List Nat} (h : rinds.Pairwise (· < ·)) : ∀ (v : SVec F) (n : Nat), Sorted v → n ≤ rinds.length →
    (∀ p ∈ v, ∀ r ∈ rinds.take n, r < p.1 + n) →
    SVec.insertZeroRowsLoop rinds v n = v.map (fun p => (SVec.insertTarget rinds p.1, p.2)) := by
  intro v
  induction v with
  | nil => intro n _ _ _; rfl
  | cons p v ih =>
    intro n hs hn hlt
    obtain ⟨i, a⟩ := p
    rw [SVec.insertZeroRowsLoop]
    dsimp only
    set sk := ((rinds.drop n).takeWhile (fun r => decide (r < i + n))).length with hsk
    have hskle : n + sk ≤ rinds.length := by
      have : sk ≤ (rinds.drop n).length := (List.takeWhile_prefix _).length_le
      rw [List.length_drop] at this; omega
    have htake : ∀ r ∈ rinds.take (n + sk), r < i + (n + sk) := by
      intro r hr
      rw [List.take_add, List.mem_append] at hr
      rcases hr with hr | hr
      · have := hlt _ (List.mem_cons_self ..) r hr
        dsimp only at this; omega
      · rw [hsk, take_takeWhile_length] at hr
        have := mem_takeWhile_lt' r hr; omega
    obtain ⟨q', h1, h2, h3, h4, h5⟩ := insertLoop_spec rinds h i _ (n + sk) rfl hskle htake
    rw [h3]
    dsimp only
    obtain ⟨g1, g2⟩ := insertedBefore_split h h4 h5 h2
    have e : SVec.insertTarget rinds i = i + q' := insertTarget_unique h g1 (by unfold oldRow; omega)
    rw [List.map_cons, e]
    congr 1
    rw [show n + sk + (q' - (n + sk)) = q' by omega]
    apply ih q' hs.tail h2
    intro p hp r hr
    have h6 := hs.head p hp
    have h7 := h4 r hr
    dsimp only at h6; omega

theorem insertZeroRows_eq {rinds : List Nat} (h : rinds.Pairwise (· < ·)) {v : SVec F} (hs : Sorted v) {n : Nat} (hn : n ≤ rinds.length)
    (hlt : ∀ r ∈ rinds.take n, r < n) :
    SVec.insertZeroRows rinds n v = v.map (fun p => (SVec.insertTarget rinds p.1, p.2)) := by
  unfold SVec.insertZeroRows
  by_cases he : rinds = []
  · subst he
    simp [SVec.insertTarget, SVec.insertLoop]
  · rw [if_neg (by simpa using he)]
    apply insertZeroRowsLoop_eq h v n hs hn
    intro p _ r hr
    have := hlt r hr; omega

theorem coef_target {rinds : List Nat} (h : rinds.Pairwise (· < ·)) (v : SVec F) (k : Nat) :
    coef (v.map (fun p => (SVec.insertTarget rinds p.1, p.2))) k = if k ∈ rinds then 0 else coef v (oldRow rinds k) := by
  by_cases hk : k ∈ rinds
  · rw [if_pos hk]
    apply coef_eq_zero_of_notMem
    intro p hp
    obtain ⟨q, hq, rfl⟩ := List.mem_map.1 hp
    rintro rfl
    exact (insertTarget_spec h q.1).1 hk
  · rw [if_neg hk]
    have e := insertTarget_unique h hk rfl
    conv_lhs => rw [← e]
    refine (coef_map_inj (SVec.insertTarget rinds) v (oldRow rinds k) ?_)
    intro p _ hp
    by_contra hne
    rcases lt_or_gt_of_ne hne with h1 | h1
    · have := insertTarget_lt h h1; omega
    · have := insertTarget_lt h h1; omega

theorem sorted_target {rinds : List Nat} (h : rinds.Pairwise (· < ·)) {v : SVec F} (hv : Sorted v) :
    Sorted (v.map (fun p => (SVec.insertTarget rinds p.1, p.2))) := by
  unfold Sorted
  rw [List.pairwise_map]
  exact hv.imp (fun h' => insertTarget_lt h h')

theorem insertZeroRows_spec {rinds : List Nat} (h : rinds.Pairwise (· < ·)) {v : SVec F} (hv : VecOK v) {n : Nat} (hn : n ≤ rinds.length)
    (hlt : ∀ r ∈ rinds.take n, r < n) :
    VecOK (SVec.insertZeroRows rinds n v) ∧
    (∀ k, coef (SVec.insertZeroRows rinds n v) k = if k ∈ rinds then 0 else coef v (oldRow rinds k)) ∧
    ∀ m, Below m v → Below (m + rinds.length) (SVec.insertZeroRows rinds n v) := by
  rw [insertZeroRows_eq h hv.1 hn hlt]
  refine ⟨⟨sorted_target h hv.1, ?_⟩, coef_target h v, ?_⟩
  · intro p hp
    obtain ⟨q, hq, rfl⟩ := List.mem_map.1 hp
    exact hv.2 q hq
  · intro m hb p hp
    obtain ⟨q, hq, rfl⟩ := List.mem_map.1 hp
    exact insertTarget_bound h (hb q hq)

theorem insertVals_spec : ∀ (rinds : List Nat) (rvals : List F), rinds.length = rvals.length →
    SVec.insertVals rinds rvals = .ok (rinds.zip rvals)
  | [], _, _ => by simp [SVec.insertVals]
  | r :: rs, [], h => by simp at h
  | r :: rs, a :: as, h => by
    rw [SVec.insertVals, insertVals_spec rs as (by simpa using h)]; rfl

theorem insertRows_spec {rinds : List Nat} (h : rinds.Pairwise (· < ·)) {rvals : List F} (hl : rinds.length = rvals.length)
    {v : SVec F} (hv : VecOK v) :
    ∃ w, SVec.insertRows rinds rvals v = .ok w ∧ Sorted w ∧ ((∀ a ∈ rvals, a ≠ 0) → VecOK w) ∧
      (∀ k, k ∉ rinds → coef w k = coef v (oldRow rinds k)) ∧
      (∀ n, n < rinds.length → coef w (rinds.getD n 0) = rvals.getD n 0) := by
  unfold SVec.insertRows
  by_cases he : rinds = []
  · subst he
    refine ⟨v, rfl, hv.1, fun _ => hv, ?_, ?_⟩
    · intro k _; rfl
    · intro n hn; simp at hn
  · rw [if_neg (by simpa using he), insertVals_spec _ _ hl, bind_ok]
    have hz1 : (rinds.zip rvals).map Prod.fst = rinds := List.map_fst_zip (by omega)
    have hzs : Sorted (rinds.zip rvals) := by
      rw [sorted_iff_fst, hz1]; exact h
    have hnd : ((v.map (fun p => (SVec.insertTarget rinds p.1, p.2)) ++ rinds.zip rvals).map Prod.fst).Nodup := by
      rw [List.map_append, hz1, List.nodup_append]
      refine ⟨(sorted_target h hv.1).nodup, h.imp (fun h => by omega), ?_⟩
      intro a ha b hb e
      obtain ⟨p, hp, rfl⟩ := List.mem_map.1 ha
      obtain ⟨q, hq, rfl⟩ := List.mem_map.1 hp
      rw [← e] at hb
      exact (insertTarget_spec h q.1).1 hb
    refine ⟨_, rfl, sorted_sort hnd, ?_, ?_, ?_⟩
    · intro hnz
      refine ⟨sorted_sort hnd, noZero_sort ?_⟩
      intro p hp
      rcases List.mem_append.1 hp with hp | hp
      · obtain ⟨q, hq, rfl⟩ := List.mem_map.1 hp
        exact hv.2 q hq
      · exact hnz _ (List.of_mem_zip hp).2
    · intro k hk
      rw [coef_sort, coef_append, coef_target h, if_neg hk]
      rw [coef_eq_zero_of_notMem (v := rinds.zip rvals), add_zero]
      intro p hp e
      rw [← e] at hk
      exact hk (List.of_mem_zip hp).1
    · intro n hn
      have hn' : n < rvals.length := by omega
      rw [coef_sort, coef_append, coef_target h, List.getD_eq_getElem?_getD (l := rinds), List.getElem?_eq_getElem hn,
        List.getD_eq_getElem?_getD (l := rvals), List.getElem?_eq_getElem hn']
      simp only [Option.getD_some]
      rw [if_pos (List.getElem_mem hn), zero_add]
      apply coef_of_mem hzs
      rw [List.mem_iff_getElem]
      exact ⟨n, by simp; omega, by simp⟩

/-! ### other operations -/

theorem coef_dense (a : F) (m k : Nat) : coef (SVec.dense a m) k = if k < m then a else 0 := by
  unfold SVec.dense
  induction m with
  | zero => simp
  | succ m ih =>
    rw [List.range_succ, List.map_append, coef_append, ih, List.map_singleton, coef_cons']
    rcases lt_trichotomy k m with h | h | h
    · simp [h, show ¬ m = k by omega, show k < m + 1 by omega]
    · subst h; simp
    · simp [show ¬ k < m by omega, show ¬ m = k by omega, show ¬ k < m + 1 by omega]

theorem dense_ok {a : F} (ha : a ≠ 0) (m : Nat) : VecOK (SVec.dense a m) := by
  unfold SVec.dense
  refine ⟨?_, ?_⟩
  · unfold Sorted; rw [List.pairwise_map]; exact List.pairwise_lt_range
  · intro p hp
    obtain ⟨i, _, rfl⟩ := List.mem_map.1 hp
    exact ha

theorem shiftInds_spec {v : SVec F} (hv : VecOK v) (s : Nat) :
    VecOK (SVec.shiftInds v s) ∧ ∀ k, coef (SVec.shiftInds v s) k = if s ≤ k then coef v (k - s) else 0 := by
  unfold SVec.shiftInds
  refine ⟨⟨?_, ?_⟩, fun k => coef_map_add v s k⟩
  · unfold Sorted; rw [List.pairwise_map]; exact hv.1.imp (fun h => by dsimp only; omega)
  · intro p hp
    obtain ⟨i, hi, rfl⟩ := List.mem_map.1 hp
    exact hv.2 i hi

theorem scaleBy_spec (co : List F) : ∀ (v : SVec F), VecOK v → Below co.length v →
    ∃ w, SVec.scaleBy co v = .ok w ∧ w.map Prod.fst = v.map Prod.fst ∧ (∀ k, coef w k = coef v k * co.getD k 0) ∧
      ((∀ a ∈ co, a ≠ 0) → NoZero w)
  | [], _, _ => ⟨[], rfl, rfl, by simp, fun _ p hp => by simp at hp⟩
  | p :: v, hv, hb => by
    obtain ⟨w, h1, h2, h3, h4⟩ := scaleBy_spec co v ⟨hv.1.tail, fun q hq => hv.2 q (by simp [hq])⟩ (fun q hq => hb q (by simp [hq]))
    have hp : p.1 < co.length := hb p (by simp)
    refine ⟨(p.1, p.2 * co.getD p.1 0) :: w, ?_, ?_, ?_, ?_⟩
    · rw [SVec.scaleBy, rd_getD 0 hp, bind_ok, h1, bind_ok]; rfl
    · simp [h2]
    · intro k
      obtain ⟨i, a⟩ := p
      rw [coef_cons', coef_cons', h3]
      dsimp only
      by_cases hik : i = k
      · subst hik; simp; ring
      · simp [hik]
    · intro hco q hq
      rcases List.mem_cons.1 hq with rfl | hq
      · refine mul_ne_zero (hv.2 p (by simp)) (hco _ ?_)
        rw [List.getD_eq_getElem?_getD (l := co), List.getElem?_eq_getElem hp]
        exact List.getElem_mem hp
      · exact h4 hco q hq

theorem nnzIntersection_spec : ∀ (u v : SVec F), Sorted u → Sorted v →
    SVec.nnzIntersection u v = ((u.map Prod.fst).filter (fun i => decide (i ∈ v.map Prod.fst))).length
  | [], v, _, _ => by rw [SVec.nnzIntersection]; rfl
  | (i, a) :: u, [], _, _ => by
    rw [SVec.nnzIntersection, List.filter_eq_nil_iff.2 (by simp)]; rfl
  | (i, a) :: u, (k, b) :: v, hu, hv => by
    have hui : ∀ p ∈ u, i < p.1 := hu.head
    have hvk : ∀ p ∈ v, k < p.1 := hv.head
    rw [SVec.nnzIntersection]
    by_cases h : i = k
    · subst h
      rw [if_pos rfl, nnzIntersection_spec u v hu.tail hv.tail, List.map_cons, List.map_cons, List.filter_cons_of_pos (by simp), List.length_cons,
        Nat.add_comm]
      congr 2
      apply List.filter_congr
      intro j hj
      obtain ⟨p, hp, rfl⟩ := List.mem_map.1 hj
      have := hui p hp
      have : p.1 ≠ i := by omega
      simp [this]
    · rw [if_neg h]
      by_cases hlt : i < k
      · rw [if_pos hlt, nnzIntersection_spec u ((k, b) :: v) hu.tail hv, List.map_cons, List.map_cons, List.filter_cons_of_neg]
        simp only [List.mem_cons, decide_eq_true_eq, not_or, List.mem_map, not_exists, not_and]
        refine ⟨h, ?_⟩
        intro p hp e
        have := hvk p hp; omega
      · rw [if_neg hlt, nnzIntersection_spec ((i, a) :: u) v hu hv.tail]
        congr 1
        apply List.filter_congr
        intro j hj
        have : i ≤ j := by
          rw [List.map_cons, List.mem_cons] at hj
          rcases hj with rfl | hj
          · exact Nat.le_refl _
          · obtain ⟨p, hp, rfl⟩ := List.mem_map.1 hj
            exact Nat.le_of_lt (hui p hp)
        have : j ≠ k := by omega
        simp [this]
termination_by u v => u.length + v.length

theorem coef_kronRow (c : F) (m i : Nat) {v : SVec F} (hb : Below m v) (k : Nat) :
    coef (v.map (fun q => (m * i + q.1, c * q.2))) k = if k / m = i ∧ 0 < m then c * coef v (k % m) else 0 := by
  induction v with
  | nil => simp
  | cons q v ih =>
    have hq : q.1 < m := hb q (by simp)
    rw [List.map_cons, coef_cons', ih (fun p hp => hb p (by simp [hp])), coef_cons']
    dsimp only
    have hm : 0 < m := by omega
    by_cases h : m * i + q.1 = k
    · have h1 : k / m = i := by rw [← h, Nat.mul_add_div hm, Nat.div_eq_of_lt hq]; omega
      have h2 : k % m = q.1 := by rw [← h, Nat.mul_add_mod]; exact Nat.mod_eq_of_lt hq
      rw [if_pos h, if_pos ⟨h1, hm⟩, if_pos ⟨h1, hm⟩, if_pos h2.symm]; ring
    · rw [if_neg h, zero_add]
      by_cases h1 : k / m = i
      · rw [if_pos ⟨h1, hm⟩, if_pos ⟨h1, hm⟩]
        have h2 : q.1 ≠ k % m := by
          rintro e
          apply h
          rw [← h1, e]; exact Nat.div_add_mod k m
        rw [if_neg h2, zero_add]
      · rw [if_neg (by tauto), if_neg (by tauto)]

theorem kron_spec {u v : SVec F} (hu : VecOK u) (hv : VecOK v) {m : Nat} (hb : Below m v) :
    VecOK (SVec.kron u v m) ∧ (∀ k, 0 < m → coef (SVec.kron u v m) k = coef u (k / m) * coef v (k % m)) ∧
    ∀ n, Below n u → Below (n * m) (SVec.kron u v m) := by
  refine ⟨?_, ?_, ?_⟩
  · constructor
    · unfold SVec.kron
      have hus := hu.1
      clear hu
      induction u with
      | nil => exact List.Pairwise.nil
      | cons p u ih =>
        rw [List.flatMap_cons]
        unfold Sorted
        rw [List.pairwise_append]
        refine ⟨?_, ih hus.tail, ?_⟩
        · rw [List.pairwise_map]; exact hv.1.imp (fun h => by dsimp only; omega)
        · intro x hx y hy
          obtain ⟨q, hq, rfl⟩ := List.mem_map.1 hx
          obtain ⟨p', hp', hy⟩ := List.mem_flatMap.1 hy
          obtain ⟨q', hq', rfl⟩ := List.mem_map.1 hy
          have h1 := hus.head p' hp'
          have h2 := hb q hq
          dsimp only
          calc m * p.1 + q.1 < m * p.1 + m := by omega
            _ = m * (p.1 + 1) := by ring
            _ ≤ m * p'.1 := Nat.mul_le_mul_left m h1
            _ ≤ _ := by omega
    · intro x hx
      obtain ⟨p, hp, hx⟩ := List.mem_flatMap.1 hx
      obtain ⟨q, hq, rfl⟩ := List.mem_map.1 hx
      exact mul_ne_zero (hu.2 p hp) (hv.2 q hq)
  · intro k hm
    unfold SVec.kron
    clear hu
    induction u with
    | nil => simp
    | cons p u ih =>
      rw [List.flatMap_cons, coef_append, ih, coef_kronRow _ _ _ hb, coef_cons']
      by_cases h : k / m = p.1
      · rw [if_pos ⟨h, hm⟩, if_pos h.symm]; ring
      · rw [if_neg (by tauto), if_neg (by tauto)]; ring
  · intro n hn x hx
    obtain ⟨p, hp, hx⟩ := List.mem_flatMap.1 hx
    obtain ⟨q, hq, rfl⟩ := List.mem_map.1 hx
    have h1 := hn p hp
    have h2 := hb q hq
    dsimp only
    calc m * p.1 + q.1 < m * p.1 + m := by omega
      _ = (p.1 + 1) * m := by ring
      _ ≤ n * m := Nat.mul_le_mul_right m h1

/-- `pind` sends the old indices to the new ones, `none` to drop an entry; no new index is used twice -/
theorem subvectorLoop_spec (pind : List (Option Nat)) : ∀ (v : SVec F), Below pind.length v →
    SVec.subvectorLoop pind v = .ok (v.filterMap (fun p => (pind.getD p.1 none).map (fun i => (i, p.2))))
  | [], _ => rfl
  | p :: v, hb => by
    have hp : p.1 < pind.length := hb p (by simp)
    rw [SVec.subvectorLoop, rd_getD none hp, bind_ok, subvectorLoop_spec pind v (fun q hq => hb q (by simp [hq])), bind_ok]
    cases h : pind.getD p.1 none with
    | none => rw [List.filterMap_cons_none (by rw [h]; rfl)]; rfl
    | some i => rw [List.filterMap_cons_some (b := (i, p.2)) (by rw [h]; rfl)]; rfl

theorem subvector_spec {pind : List (Option Nat)} (hinj : ∀ i j k : Nat, pind[i]? = some (some k) → pind[j]? = some (some k) → i = j)
    {v : SVec F} (hv : VecOK v) (hb : Below pind.length v) :
    ∃ w, SVec.subvector pind v = .ok w ∧ VecOK w ∧
      (∀ i k : Nat, pind[i]? = some (some k) → coef w k = coef v i) ∧
      (∀ k : Nat, (∀ i : Nat, pind[i]? ≠ some (some k)) → coef w k = 0) := by
  unfold SVec.subvector
  rw [subvectorLoop_spec pind v hb, bind_ok]
  set w := v.filterMap (fun p => (pind.getD p.1 none).map (fun i => (i, p.2))) with hw
  have hmem : ∀ k a, (k, a) ∈ w ↔ ∃ i, (i, a) ∈ v ∧ pind[i]? = some (some k) := by
    intro k a
    rw [hw, List.mem_filterMap]
    constructor
    · rintro ⟨p, hp, e⟩
      refine ⟨p.1, ?_, ?_⟩
      · cases h : pind.getD p.1 none with
        | none => rw [h] at e; simp at e
        | some i =>
          rw [h] at e; simp at e
          rw [← e.2]; exact hp
      · have hl : p.1 < pind.length := hb p hp
        rw [List.getD_eq_getElem?_getD, List.getElem?_eq_getElem hl] at e
        rw [List.getElem?_eq_getElem hl]
        simp only [Option.getD_some, Option.map_eq_some_iff, Prod.mk.injEq] at e
        obtain ⟨i, h1, h2, _⟩ := e
        rw [h1, h2]
    · rintro ⟨i, hi, e⟩
      refine ⟨(i, a), hi, ?_⟩
      rw [List.getD_eq_getElem?_getD, e]; rfl
  have hnd : (w.map Prod.fst).Nodup := by
    rw [hw]
    have hvn := hv.1.nodup
    clear_value w
    clear hmem hw hb
    have hvs := hv.1
    clear hv
    induction v with
    | nil => simp
    | cons p v ih =>
      cases h : pind.getD p.1 none with
      | none =>
        rw [List.filterMap_cons_none (by rw [h]; rfl)]
        exact ih (List.nodup_cons.1 hvn).2 hvs.tail
      | some i =>
        rw [List.filterMap_cons_some (b := (i, p.2)) (by rw [h]; rfl), List.map_cons, List.nodup_cons]
        refine ⟨?_, ih (List.nodup_cons.1 hvn).2 hvs.tail⟩
        intro hi
        obtain ⟨x, hx, e⟩ := List.mem_map.1 hi
        obtain ⟨q, hq, e2⟩ := List.mem_filterMap.1 hx
        have key : ∀ r : Nat, ∀ j, pind.getD r none = some j → pind[r]? = some (some j) := by
          intro r j hr
          rw [List.getD_eq_getElem?_getD] at hr
          cases hh : pind[r]? with
          | none => rw [hh] at hr; simp at hr
          | some o => rw [hh] at hr; simp at hr; rw [hr]
        cases h' : pind.getD q.1 none with
        | none => rw [h'] at e2; simp at e2
        | some i' =>
          rw [h'] at e2; simp at e2
          have : i' = i := by rw [← e2] at e; exact e
          subst this
          have := hinj p.1 q.1 i' (key _ _ h) (key _ _ h')
          have := hvs.head q hq
          omega
  have hsorted : Sorted (SVec.sort w) := sorted_sort hnd
  have hmem' : ∀ k a, (k, a) ∈ SVec.sort w ↔ ∃ i, (i, a) ∈ v ∧ pind[i]? = some (some k) := by
    intro k a
    rw [← hmem]; exact (sort_perm w).mem_iff
  refine ⟨SVec.sort w, rfl, ⟨hsorted, ?_⟩, ?_, ?_⟩
  · intro p hp
    obtain ⟨i, hi, _⟩ := (hmem' p.1 p.2).1 hp
    exact hv.2 (i, p.2) hi
  · intro i k hik
    by_cases h : ∃ a, (i, a) ∈ v
    · obtain ⟨a, ha⟩ := h
      rw [coef_of_mem hv.1 ha]
      exact coef_of_mem hsorted ((hmem' k a).2 ⟨i, ha, hik⟩)
    · rw [coef_eq_zero_of_notMem (v := v) (i := i) (by intro p hp e; exact h ⟨p.2, by rw [← e]; exact hp⟩)]
      apply coef_eq_zero_of_notMem
      intro p hp e
      obtain ⟨j, hj, hjk⟩ := (hmem' p.1 p.2).1 hp
      rw [e] at hjk
      have := hinj i j k hik hjk
      subst this
      exact h ⟨_, hj⟩
  · intro k hk
    apply coef_eq_zero_of_notMem
    intro p hp e
    obtain ⟨j, hj, hjk⟩ := (hmem' p.1 p.2).1 hp
    rw [e] at hjk
    exact hk j hjk

/-! ### `axpy` with a list of coefficients -/

/-- what the loop adds at position `n` of the remaining coefficients -/
def lazyTerm (cs : List (F × Nat)) (x : SVec F) (n : Nat) : F :=
  match cs[n]? with
  | some (a, q) => a * coef x q
  | none => 0

theorem lazyTerm_cons_zero (a : F) (q : Nat) (cs : List (F × Nat)) (x : SVec F) : lazyTerm ((a, q) :: cs) x 0 = a * coef x q := rfl

theorem lazyTerm_cons_succ (p : F × Nat) (cs : List (F × Nat)) (x : SVec F) (n : Nat) : lazyTerm (p :: cs) x (n + 1) = lazyTerm cs x n := by
  unfold lazyTerm; rw [List.getElem?_cons_succ]

theorem lazyTerm_nil (cs : List (F × Nat)) (n : Nat) : lazyTerm cs ([] : SVec F) n = 0 := by
  unfold lazyTerm
  cases cs[n]? with
  | none => rfl
  | some p => simp

/-- dropping the first entry of `x` changes nothing for later columns -/
theorem lazyTerm_tail {cs : List (F × Nat)} {k : Nat} {v : F} {x : SVec F} (h : ∀ p ∈ cs, k < p.2) (n : Nat) :
    lazyTerm cs ((k, v) :: x) n = lazyTerm cs x n := by
  unfold lazyTerm
  cases e : cs[n]? with
  | none => rfl
  | some p =>
    obtain ⟨a, q⟩ := p
    have := h (a, q) (List.mem_of_getElem? e)
    dsimp only at this ⊢
    rw [coef_cons', if_neg (by dsimp only; omega), zero_add]

theorem lazyTail_spec : ∀ (cs : List (F × Nat)) (x : SVec F) (ii : Nat), Sorted x → (cs.map Prod.snd).Pairwise (· < ·) →
    (∀ p ∈ x, p.1 ∈ cs.map Prod.snd) →
    Sorted (SVec.lazyMain.tail ii x cs) ∧ (∀ p ∈ SVec.lazyMain.tail ii x cs, ii ≤ p.1) ∧
    (∀ t, coef (SVec.lazyMain.tail ii x cs) t = if ii ≤ t then lazyTerm cs x (t - ii) else 0) ∧
    (NoZero x → (∀ p ∈ cs, p.1 ≠ 0) → NoZero (SVec.lazyMain.tail ii x cs))
  | cs, [], ii, _, _, _ => by
    rw [SVec.lazyMain.tail]
    refine ⟨List.Pairwise.nil, by simp, ?_, fun _ _ p hp => by simp at hp⟩
    intro t; rw [lazyTerm_nil]; simp
  | [], (k, v) :: x, ii, _, _, hm => by
    have := hm (k, v) (by simp); simp at this
  | (a, q) :: cs, (k, v) :: x, ii, hs, hc, hm => by
    rw [List.map_cons, List.pairwise_cons] at hc
    have hq : ∀ p ∈ cs, q < p.2 := fun p hp => hc.1 p.2 (List.mem_map.2 ⟨p, hp, rfl⟩)
    have hx : ∀ p ∈ x, k < p.1 := hs.head
    rw [SVec.lazyMain.tail]
    by_cases hqk : q < k
    · rw [if_pos hqk]
      obtain ⟨h1, h2, h3, h4⟩ := lazyTail_spec cs ((k, v) :: x) (ii + 1) hs hc.2 (by
        intro p hp
        have := hm p hp
        rw [List.map_cons, List.mem_cons] at this
        rcases this with e | h
        · rcases List.mem_cons.1 hp with rfl | hp
          · dsimp only at e; omega
          · have := hx p hp; dsimp only at e; omega
        · exact h)
      refine ⟨h1, fun p hp => by have := h2 p hp; omega, ?_, fun g1 g2 => h4 g1 (fun p hp => g2 p (by simp [hp]))⟩
      intro t
      rw [h3]
      rcases lt_trichotomy t ii with ht | ht | ht
      · rw [if_neg (by omega), if_neg (by omega)]
      · subst ht
        rw [if_neg (by omega), if_pos (Nat.le_refl _), Nat.sub_self, lazyTerm_cons_zero, coef_eq_zero_of_notMem, mul_zero]
        intro p hp
        rcases List.mem_cons.1 hp with rfl | hp
        · dsimp only; omega
        · have := hx p hp; omega
      · rw [if_pos (by omega), if_pos (by omega), show t - ii = (t - (ii + 1)) + 1 by omega, lazyTerm_cons_succ]
    · rw [if_neg hqk]
      have hkq : k = q := by
        have := hm (k, v) (by simp)
        rw [List.map_cons, List.mem_cons] at this
        rcases this with e | h
        · exact e
        · obtain ⟨p, hp, e⟩ := List.mem_map.1 h
          have := hq p hp
          dsimp only at e; omega
      subst hkq
      obtain ⟨h1, h2, h3, h4⟩ := lazyTail_spec cs x (ii + 1) hs.tail hc.2 (by
        intro p hp
        have := hm p (by simp [hp])
        rw [List.map_cons, List.mem_cons] at this
        rcases this with e | h
        · have := hx p hp; dsimp only at e; omega
        · exact h)
      refine ⟨List.pairwise_cons.2 ⟨fun p hp => by have := h2 p hp; dsimp only; omega, h1⟩, ?_, ?_, ?_⟩
      · intro p hp
        rcases List.mem_cons.1 hp with rfl | hp
        · exact Nat.le_refl _
        · have := h2 p hp; omega
      · intro t
        rw [coef_cons', h3]
        dsimp only
        rcases lt_trichotomy t ii with ht | ht | ht
        · rw [if_neg (by omega), if_neg (by omega), if_neg (by omega), zero_add]
        · subst ht
          rw [if_pos rfl, if_neg (by omega), if_pos (Nat.le_refl _), Nat.sub_self, lazyTerm_cons_zero, coef_cons', if_pos rfl,
            coef_eq_zero_of_notMem (v := x) (by intro p hp; have := hx p hp; omega), add_zero, add_zero]
        · rw [if_neg (by omega), if_pos (by omega), if_pos (by omega), show t - ii = (t - (ii + 1)) + 1 by omega, lazyTerm_cons_succ,
            lazyTerm_tail hq, zero_add]
      · intro g1 g2 p hp
        rcases List.mem_cons.1 hp with rfl | hp
        · exact mul_ne_zero (g2 (a, k) (by simp)) (g1 (k, v) (by simp))
        · exact h4 (fun p hp => g1 p (by simp [hp])) (fun p hp => g2 p (by simp [hp])) p hp

theorem lazyMain_spec : ∀ (cs : List (F × Nat)) (x y : SVec F) (ii : Nat), Sorted x → Sorted y → (cs.map Prod.snd).Pairwise (· < ·) →
    (∀ p ∈ x, p.1 ∈ cs.map Prod.snd) → (∀ p ∈ y, ii ≤ p.1) →
    ∃ w, SVec.lazyMain ii y x cs = .ok w ∧ Sorted w ∧ (∀ p ∈ w, ii ≤ p.1) ∧
    (∀ t, coef w t = coef y t + if ii ≤ t then lazyTerm cs x (t - ii) else 0) ∧
    (NoZero x → NoZero y → (∀ p ∈ cs, p.1 ≠ 0) → NoZero w)
  | cs, x, [], ii, hs, _, hc, hm, _ => by
    obtain ⟨h1, h2, h3, h4⟩ := lazyTail_spec cs x ii hs hc hm
    refine ⟨_, by rw [SVec.lazyMain], h1, h2, ?_, fun g1 _ g2 => h4 g1 g2⟩
    intro t; rw [h3]; simp
  | cs, [], p :: y, ii, _, hy, _, _, hi => by
    refine ⟨p :: y, by rw [SVec.lazyMain]; simp, hy, hi, ?_, fun _ g _ => g⟩
    intro t; rw [lazyTerm_nil]; simp
  | [], (k, v) :: x, p :: y, ii, _, _, _, hm, _ => by
    have := hm (k, v) (by simp); simp at this
  | (a, q) :: cs, (k, v) :: x, (r, b) :: y, ii, hs, hy, hc, hm, hi => by
    rw [List.map_cons, List.pairwise_cons] at hc
    have hq : ∀ p ∈ cs, q < p.2 := fun p hp => hc.1 p.2 (List.mem_map.2 ⟨p, hp, rfl⟩)
    have hx : ∀ p ∈ x, k < p.1 := hs.head
    have hyr : ∀ p ∈ y, r < p.1 := hy.head
    have hri : ii ≤ r := hi (r, b) (by simp)
    have hqk : q ≤ k := by
      have := hm (k, v) (by simp)
      rw [List.map_cons, List.mem_cons] at this
      rcases this with e | h
      · dsimp only at e; omega
      · obtain ⟨p, hp, e⟩ := List.mem_map.1 h
        have := hq p hp
        dsimp only at e; omega
    -- memberships for the recursive calls
    have hm1 : q < k → ∀ p ∈ (k, v) :: x, p.1 ∈ cs.map Prod.snd := by
      intro hlt p hp
      have := hm p hp
      rw [List.map_cons, List.mem_cons] at this
      rcases this with e | h
      · rcases List.mem_cons.1 hp with rfl | hp
        · dsimp only at e; omega
        · have := hx p hp; dsimp only at e; omega
      · exact h
    have hm2 : q = k → ∀ p ∈ x, p.1 ∈ cs.map Prod.snd := by
      intro heq p hp
      have := hm p (by simp [hp])
      rw [List.map_cons, List.mem_cons] at this
      rcases this with e | h
      · have := hx p hp; dsimp only at e; omega
      · exact h
    have hz : q < k → coef ((k, v) :: x) q = 0 := by
      intro hlt
      apply coef_eq_zero_of_notMem
      intro p hp
      rcases List.mem_cons.1 hp with rfl | hp
      · dsimp only; omega
      · have := hx p hp; omega
    have hxk : coef x k = 0 := coef_eq_zero_of_notMem (by intro p hp; have := hx p hp; omega)
    have hyr0 : coef y r = 0 := coef_eq_zero_of_notMem (by intro p hp; have := hyr p hp; omega)
    rw [SVec.lazyMain]
    by_cases hlt : q < k
    · by_cases hir : ii < r
      · rw [if_pos ⟨hir, hlt⟩]
        obtain ⟨w, h0, h1, h2, h3, h4⟩ := lazyMain_spec cs ((k, v) :: x) ((r, b) :: y) (ii + 1) hs hy hc.2 (hm1 hlt) (by
          intro p hp
          rcases List.mem_cons.1 hp with rfl | hp
          · exact hir
          · have := hyr p hp; omega)
        refine ⟨w, h0, h1, fun p hp => by have := h2 p hp; omega, ?_, fun g1 g2 g3 => h4 g1 g2 (fun p hp => g3 p (by simp [hp]))⟩
        intro t
        rw [h3]
        congr 1
        rcases lt_trichotomy t ii with ht | ht | ht
        · rw [if_neg (by omega), if_neg (by omega)]
        · subst ht
          rw [if_neg (by omega), if_pos (Nat.le_refl _), Nat.sub_self, lazyTerm_cons_zero, hz hlt, mul_zero]
        · rw [if_pos (by omega), if_pos (by omega), show t - ii = (t - (ii + 1)) + 1 by omega, lazyTerm_cons_succ]
      · have hir' : r = ii := by omega
        rw [if_neg (by tauto), if_pos ⟨hir', hlt⟩]
        obtain ⟨w, h0, h1, h2, h3, h4⟩ := lazyMain_spec cs ((k, v) :: x) y (ii + 1) hs hy.tail hc.2 (hm1 hlt) (by
          intro p hp; have := hyr p hp; omega)
        rw [h0, bind_ok]
        refine ⟨(r, b) :: w, rfl, List.pairwise_cons.2 ⟨fun p hp => by have := h2 p hp; dsimp only; omega, h1⟩, ?_, ?_, ?_⟩
        · intro p hp
          rcases List.mem_cons.1 hp with rfl | hp
          · exact hri
          · have := h2 p hp; omega
        · intro t
          rw [coef_cons', h3, coef_cons', add_assoc]
          congr 2
          rcases lt_trichotomy t ii with ht | ht | ht
          · rw [if_neg (by omega), if_neg (by omega)]
          · subst ht
            rw [if_neg (by omega), if_pos (Nat.le_refl _), Nat.sub_self, lazyTerm_cons_zero, hz hlt, mul_zero]
          · rw [if_pos (by omega), if_pos (by omega), show t - ii = (t - (ii + 1)) + 1 by omega, lazyTerm_cons_succ]
        · intro g1 g2 g3 p hp
          rcases List.mem_cons.1 hp with rfl | hp
          · exact g2 _ (by simp)
          · exact h4 g1 (fun p hp => g2 p (by simp [hp])) (fun p hp => g3 p (by simp [hp])) p hp
    · have hqe : q = k := by omega
      subst hqe
      by_cases hir : ii < r
      · rw [if_neg (by tauto), if_neg (by tauto), if_pos ⟨hir, rfl⟩]
        obtain ⟨w, h0, h1, h2, h3, h4⟩ := lazyMain_spec cs x ((r, b) :: y) (ii + 1) hs.tail hy hc.2 (hm2 rfl) (by
          intro p hp
          rcases List.mem_cons.1 hp with rfl | hp
          · exact hir
          · have := hyr p hp; omega)
        rw [h0, bind_ok]
        have hy0 : coef ((r, b) :: y) ii = 0 := coef_eq_zero_of_notMem (by
          intro p hp
          rcases List.mem_cons.1 hp with rfl | hp
          · dsimp only; omega
          · have := hyr p hp; omega)
        have hval : ∀ t, (if t = ii then a * v else coef w t) = coef ((r, b) :: y) t +
            if ii ≤ t then lazyTerm ((a, q) :: cs) ((q, v) :: x) (t - ii) else 0 := by
          intro t
          rcases lt_trichotomy t ii with ht | ht | ht
          · rw [if_neg (by omega), h3, if_neg (by omega), if_neg (by omega)]
          · subst ht
            rw [if_pos rfl, hy0, if_pos (Nat.le_refl _), Nat.sub_self, lazyTerm_cons_zero, coef_cons', if_pos rfl, hxk]; ring
          · rw [if_neg (by omega), h3, if_pos (by omega), if_pos (by omega), show t - ii = (t - (ii + 1)) + 1 by omega, lazyTerm_cons_succ,
              lazyTerm_tail hq]
        have hw0 : coef w ii = 0 := coef_eq_zero_of_notMem (by intro p hp; have := h2 p hp; omega)
        by_cases hav : a * v = 0
        · rw [if_neg (not_not.2 hav)]
          refine ⟨w, rfl, h1, fun p hp => by have := h2 p hp; omega, ?_, fun g1 g2 g3 => h4 (fun p hp => g1 p (by simp [hp])) g2 (fun p hp => g3 p (by simp [hp]))⟩
          intro t
          rw [← hval]
          by_cases ht : t = ii
          · rw [if_pos ht, ht, hw0, hav]
          · rw [if_neg ht]
        · rw [if_pos hav]
          refine ⟨(ii, a * v) :: w, rfl, List.pairwise_cons.2 ⟨fun p hp => by have := h2 p hp; dsimp only; omega, h1⟩, ?_, ?_, ?_⟩
          · intro p hp
            rcases List.mem_cons.1 hp with rfl | hp
            · exact Nat.le_refl _
            · have := h2 p hp; omega
          · intro t
            rw [← hval, coef_cons']
            by_cases ht : t = ii
            · subst ht; simp [hw0]
            · rw [if_neg ht, if_neg (by dsimp only; omega), zero_add]
          · intro g1 g2 g3 p hp
            rcases List.mem_cons.1 hp with rfl | hp
            · exact hav
            · exact h4 (fun p hp => g1 p (by simp [hp])) g2 (fun p hp => g3 p (by simp [hp])) p hp
      · have hir' : r = ii := by omega
        subst hir'
        rw [if_neg (by omega), if_neg (by omega), if_neg (by omega), if_pos ⟨rfl, rfl⟩]
        obtain ⟨w, h0, h1, h2, h3, h4⟩ := lazyMain_spec cs x y (r + 1) hs.tail hy.tail hc.2 (hm2 rfl) (by
          intro p hp; have := hyr p hp; omega)
        rw [h0, bind_ok]
        have hval : ∀ t, (if t = r then a * v + b else coef w t) = coef ((r, b) :: y) t +
            if r ≤ t then lazyTerm ((a, q) :: cs) ((q, v) :: x) (t - r) else 0 := by
          intro t
          rcases lt_trichotomy t r with ht | ht | ht
          · rw [if_neg (by omega), h3, if_neg (by omega), if_neg (by omega), coef_cons', if_neg (by dsimp only; omega), zero_add]
          · subst ht
            rw [if_pos rfl, coef_cons', if_pos rfl, if_pos (Nat.le_refl _), Nat.sub_self, lazyTerm_cons_zero, coef_cons', if_pos rfl, hxk, hyr0]; ring
          · rw [if_neg (by omega), h3, if_pos (by omega), if_pos (by omega), show t - r = (t - (r + 1)) + 1 by omega, lazyTerm_cons_succ,
              lazyTerm_tail hq, coef_cons', if_neg (by dsimp only; omega), zero_add]
        have hw0 : coef w r = 0 := coef_eq_zero_of_notMem (by intro p hp; have := h2 p hp; omega)
        by_cases hav : a * v + b = 0
        · rw [if_neg (not_not.2 hav)]
          refine ⟨w, rfl, h1, fun p hp => by have := h2 p hp; omega, ?_, fun g1 g2 g3 => h4 (fun p hp => g1 p (by simp [hp])) (fun p hp => g2 p (by simp [hp])) (fun p hp => g3 p (by simp [hp]))⟩
          intro t
          rw [← hval]
          by_cases ht : t = r
          · rw [if_pos ht, ht, hw0, hav]
          · rw [if_neg ht]
        · rw [if_pos hav]
          refine ⟨(r, a * v + b) :: w, rfl, List.pairwise_cons.2 ⟨fun p hp => by have := h2 p hp; dsimp only; omega, h1⟩, ?_, ?_, ?_⟩
          · intro p hp
            rcases List.mem_cons.1 hp with rfl | hp
            · exact Nat.le_refl _
            · have := h2 p hp; omega
          · intro t
            rw [← hval, coef_cons']
            by_cases ht : t = r
            · subst ht; simp [hw0]
            · rw [if_neg ht, if_neg (by dsimp only; omega), zero_add]
          · intro g1 g2 g3 p hp
            rcases List.mem_cons.1 hp with rfl | hp
            · exact hav
            · exact h4 (fun p hp => g1 p (by simp [hp])) (fun p hp => g2 p (by simp [hp])) (fun p hp => g3 p (by simp [hp])) p hp

theorem lazyAxpy_spec {x y : SVec F} (hx : VecOK x) (hy : VecOK y) {coeff : List F} {inds : List Nat} (hl : coeff.length = inds.length)
    (hs : inds.Pairwise (· < ·)) (hm : ∀ p ∈ x, p.1 ∈ inds) :
    ∃ w, SVec.lazyAxpy x coeff inds y = .ok w ∧ Sorted w ∧ ((∀ a ∈ coeff, a ≠ 0) → VecOK w) ∧
      ∀ t, coef w t = coef y t + if t < inds.length then coeff.getD t 0 * coef x (inds.getD t 0) else 0 := by
  unfold SVec.lazyAxpy
  have hmap : (coeff.zip inds).map Prod.snd = inds := List.map_snd_zip (by omega)
  by_cases he : x = []
  · subst he
    refine ⟨y, rfl, hy.1, fun _ => hy, ?_⟩
    intro t; simp
  · rw [if_neg (by simpa using he)]
    obtain ⟨w, h0, h1, h2, h3, h4⟩ := lazyMain_spec (coeff.zip inds) x y 0 hx.1 hy.1 (by rw [hmap]; exact hs) (by rw [hmap]; exact hm) (by simp)
    refine ⟨w, h0, h1, fun g => ⟨h1, h4 hx.2 hy.2 (fun p hp => g _ (List.of_mem_zip hp).1)⟩, ?_⟩
    intro t
    rw [h3, if_pos (Nat.zero_le _), Nat.sub_zero]
    congr 1
    unfold lazyTerm
    by_cases ht : t < inds.length
    · rw [if_pos ht, List.getElem?_eq_getElem (by simp; omega), List.getElem_zip, List.getD_eq_getElem?_getD (l := coeff),
        List.getElem?_eq_getElem (show t < coeff.length by omega), List.getD_eq_getElem?_getD (l := inds), List.getElem?_eq_getElem ht]
      rfl
    · rw [if_neg ht, List.getElem?_eq_none (by simp; omega)]

theorem ipermute_eq_permute (perm : List Nat) (v : SVec F) : SVec.ipermute perm v = SVec.permute perm v := rfl

end BATS
