import Verif.Proofs.Matrix

set_option linter.unusedSectionVars false
set_option linter.unusedSimpArgs false
set_option linter.unusedVariables false

/-! # Coordinate operations on sparse vectors -/

namespace BATS
open Reduction

variable {F : Type} [Field F] [DecidableEq F]

/-! ### relabelling indices -/

theorem coef_map_inj (f : Nat → Nat) (v : SVec F) (i : Nat) (h : ∀ p ∈ v, f p.1 = f i → p.1 = i) :
    coef (v.map (fun p => (f p.1, p.2))) (f i) = coef v i := by
  induction v with
  | nil => rfl
  | cons p v ih =>
    rw [List.map_cons, coef_cons', coef_cons', ih (fun q hq => h q (by simp [hq]))]
    congr 1
    by_cases e : p.1 = i
    · simp [e]
    · have : f p.1 ≠ f i := fun h' => e (h p (by simp) h')
      simp [e, this]

theorem coef_map_notin (f : Nat → Nat) (v : SVec F) (k : Nat) (h : ∀ p ∈ v, f p.1 ≠ k) :
    coef (v.map (fun p => (f p.1, p.2))) k = 0 := by
  apply coef_eq_zero_of_notMem
  intro p hp
  obtain ⟨q, hq, rfl⟩ := List.mem_map.1 hp
  exact h q hq

theorem sort_perm (v : SVec F) : (SVec.sort v).Perm v := List.perm_insertionSort _ v

theorem coef_sort (v : SVec F) (i : Nat) : coef (SVec.sort v) i = coef v i := coef_perm (sort_perm v) i

theorem sorted_sort {v : SVec F} (h : (v.map Prod.fst).Nodup) : Sorted (SVec.sort v) := by
  have htot : Std.Total (fun p q : Nat × F => p.1 ≤ q.1) := ⟨fun a b => Nat.le_total _ _⟩
  have htr : IsTrans (Nat × F) (fun p q : Nat × F => p.1 ≤ q.1) := ⟨fun a b c => Nat.le_trans⟩
  have h1 : (SVec.sort v).Pairwise (fun p q => p.1 ≤ q.1) := List.pairwise_insertionSort _ v
  have h2 : (SVec.sort v).Pairwise (fun p q => p.1 ≠ q.1) := by
    have : ((SVec.sort v).map Prod.fst).Nodup := ((sort_perm v).map Prod.fst).nodup_iff.2 h
    exact List.pairwise_map.1 this
  exact (h1.and h2).imp (fun ⟨a, b⟩ => by omega)

theorem noZero_sort {v : SVec F} (h : NoZero v) : NoZero (SVec.sort v) := fun p hp => h p ((sort_perm v).mem_iff.1 hp)

theorem below_sort {m : Nat} {v : SVec F} (h : Below m v) : Below m (SVec.sort v) := fun p hp => h p ((sort_perm v).mem_iff.1 hp)

theorem Sorted.nodup {v : SVec F} (h : Sorted v) : (v.map Prod.fst).Nodup := by
  rw [List.Nodup, List.pairwise_map]
  exact h.imp (fun h => ne_of_lt h)

theorem vecOK_sort_map {v : SVec F} (hv : VecOK v) (f : Nat → Nat) (hf : ∀ p ∈ v, ∀ q ∈ v, f p.1 = f q.1 → p.1 = q.1) :
    VecOK (SVec.sort (v.map (fun p => (f p.1, p.2)))) := by
  refine ⟨sorted_sort ?_, noZero_sort ?_⟩
  · rw [List.map_map]
    have hnd := hv.1.nodup
    rw [List.Nodup, List.pairwise_map] at hnd ⊢
    apply hnd.imp_of_mem
    intro p q hp hq hne h
    exact hne (hf p hp q hq h)
  · intro p hp
    obtain ⟨q, hq, rfl⟩ := List.mem_map.1 hp
    exact hv.2 q hq

theorem relabel_spec (perm : List Nat) : ∀ (v : SVec F), Below perm.length v →
    SVec.relabel perm v = .ok (v.map (fun p => (perm.getD p.1 0, p.2)))
  | [], _ => rfl
  | p :: v, h => by
    have hp := (below_cons.1 h).1
    unfold SVec.relabel
    rw [rd_getD 0 hp, relabel_spec perm v (below_cons.1 h).2]; rfl

/-- `permute` moves coordinate `i` to coordinate `perm[i]` -/
theorem permute_spec {perm : List Nat} (hnd : perm.Nodup) {v : SVec F} (hv : VecOK v) (hb : Below perm.length v) :
    ∃ w, SVec.permute perm v = .ok w ∧ VecOK w ∧
      (∀ i (h : i < perm.length), coef w perm[i] = coef v i) ∧ (∀ k, k ∉ perm → coef w k = 0) ∧
      ∀ m, (∀ k ∈ perm, k < m) → Below m w := by
  have hget : ∀ i, i < perm.length → perm.getD i 0 = perm[i]! := by intro i h; simp [h]
  have hinj : ∀ a b, a < perm.length → b < perm.length → perm.getD a 0 = perm.getD b 0 → a = b := by
    intro a b ha hb h
    have e1 : perm.getD a 0 = perm[a] := by simp [ha]
    have e2 : perm.getD b 0 = perm[b] := by simp [hb]
    rw [e1, e2] at h
    exact (hnd.getElem_inj_iff).1 h
  refine ⟨SVec.sort (v.map (fun p => (perm.getD p.1 0, p.2))), ?_, ?_, ?_, ?_, ?_⟩
  · unfold SVec.permute; rw [relabel_spec perm v hb]; rfl
  · exact vecOK_sort_map hv (fun i => perm.getD i 0) (fun p hp q hq h => hinj _ _ (hb p hp) (hb q hq) h)
  · intro i h
    rw [coef_sort]
    have e1 : perm[i] = perm.getD i 0 := by simp [h]
    rw [e1]
    exact coef_map_inj (fun i => perm.getD i 0) v i (fun p hp he => hinj _ _ (hb p hp) h he)
  · intro k hk
    rw [coef_sort]
    apply coef_map_notin (fun i => perm.getD i 0)
    intro p hp e
    apply hk
    have := hb p hp
    rw [← e]
    have e1 : perm.getD p.1 0 = perm[p.1] := by simp [this]
    rw [e1]; exact List.getElem_mem _
  · intro m hm
    apply below_sort
    intro p hp
    obtain ⟨q, hq, rfl⟩ := List.mem_map.1 hp
    have := hb q hq
    have e1 : perm.getD q.1 0 = perm[q.1] := by simp [this]
    simp only
    rw [e1]; exact hm _ (List.getElem_mem _)

/-! ### scaling, dot product -/

theorem coef_scale (c : F) (v : SVec F) (i : Nat) : coef (SVec.scale c v) i = coef v i * c := by
  unfold SVec.scale
  induction v with
  | nil => simp [coef]
  | cons p v ih =>
    rw [List.map_cons, coef_cons', coef_cons', ih, add_mul]
    congr 1
    split <;> simp

theorem coef_smul (a : F) (v : SVec F) (i : Nat) : coef (SVec.smul v a) i = coef v i * a := by
  unfold SVec.smul
  split
  · rename_i h; rw [h]; simp [coef]
  · exact coef_scale a v i

theorem vecOK_smul (a : F) {v : SVec F} (hv : VecOK v) : VecOK (SVec.smul v a) := by
  unfold SVec.smul
  split
  · exact vecOK_nil
  · rename_i h
    constructor
    · unfold Sorted; rw [List.pairwise_map]; exact hv.1
    · intro p hp
      obtain ⟨q, hq, rfl⟩ := List.mem_map.1 hp
      exact mul_ne_zero (hv.2 q hq) h

theorem sum_cons_mul {n : Nat} (g : Nat → F) {k : Nat} (hk : k < n) (a : F) (x : SVec F) :
    ∑ j ∈ Finset.range n, coef ((k, a) :: x) j * g j = a * g k + ∑ j ∈ Finset.range n, coef x j * g j := by
  have := sum_coef_cons g hk a x
  simp only [mul_comm (g _)] at this
  rw [this]

theorem dot_spec {n : Nat} (u v : SVec F) (hu : Sorted u) (hv : Sorted v) (hun : Below n u) (hvn : Below n v) :
    SVec.dot u v = ∑ k ∈ Finset.range n, coef u k * coef v k := by
  fun_induction SVec.dot u v with
  | case1 v => simp [coef]
  | case2 p u => simp [coef]
  | case3 a u k b v ih =>
    have hk := (below_cons.1 hun).1
    simp only at hk
    rw [ih hu.tail hv.tail (below_cons.1 hun).2 (below_cons.1 hvn).2, sum_cons_mul _ hk, sum_coef_cons _ hk,
      coef_cons', if_pos rfl, coef_of_lt_head (v := v) (fun q hq => hv.head q hq),
      coef_of_lt_head (v := u) (fun q hq => hu.head q hq)]
    ring
  | case4 i a u k b v hne hlt ih =>
    have hi := (below_cons.1 hun).1
    simp only at hi
    rw [ih hu.tail hv (below_cons.1 hun).2 hvn, sum_cons_mul _ hi,
      coef_of_lt_head (i := i) (v := (k, b) :: v)]
    · ring
    · intro q hq
      rcases List.mem_cons.1 hq with rfl | hq
      · exact hlt
      · have := hv.head q hq; simp only at this; omega
  | case5 i a u k b v hne hlt ih =>
    have hk := (below_cons.1 hvn).1
    simp only at hk
    rw [ih hu hv.tail hun (below_cons.1 hvn).2, sum_coef_cons _ hk,
      coef_of_lt_head (i := k) (v := (i, a) :: u)]
    · ring
    · intro q hq
      rcases List.mem_cons.1 hq with rfl | hq
      · simp only; omega
      · have := hu.head q hq; simp only at this; omega

/-! ### blocks -/

theorem takeWhile_eq_nil_of {α} {p : α → Bool} {l : List α} (h : ∀ a ∈ l, p a = false) : l.takeWhile p = [] := by
  cases l with
  | nil => rfl
  | cons a l => rw [List.takeWhile_cons, h a (by simp)]; rfl

theorem dropWhile_eq_self_of {α} {p : α → Bool} {l : List α} (h : ∀ a ∈ l, p a = false) : l.dropWhile p = l := by
  cases l with
  | nil => rfl
  | cons a l => rw [List.dropWhile_cons, h a (by simp)]; rfl

theorem mem_takeWhile_lt {v : SVec F} {n : Nat} : ∀ p ∈ v.takeWhile (fun p => decide (p.1 < n)), p.1 < n := by
  intro p hp
  have := List.all_takeWhile (p := fun p : Nat × F => decide (p.1 < n)) (l := v)
  rw [List.all_eq_true] at this
  simpa using this _ hp

theorem mem_dropWhile_ge {v : SVec F} (hs : Sorted v) {n : Nat} : ∀ p ∈ v.dropWhile (fun p => decide (p.1 < n)), n ≤ p.1 := by
  induction v with
  | nil => intro p hp; simp at hp
  | cons q v ih =>
    intro p hp
    rw [List.dropWhile_cons] at hp
    by_cases hq : q.1 < n
    · simp only [hq, decide_true, if_true] at hp
      exact ih hs.tail p hp
    · simp only [hq, decide_false, Bool.false_eq_true, if_false] at hp
      rcases List.mem_cons.1 hp with rfl | h
      · omega
      · have := hs.head p h; omega

theorem coef_map_sub {v : SVec F} {s : Nat} (h : ∀ p ∈ v, s ≤ p.1) (k : Nat) :
    coef (v.map (fun p => (p.1 - s, p.2))) k = coef v (k + s) := by
  have := coef_map_inj (fun i => i - s) v (k + s) (fun p hp e => by have := h p hp; omega)
  simpa using this

theorem coef_map_add (v : SVec F) (s k : Nat) :
    coef (v.map (fun p => (p.1 + s, p.2))) k = if s ≤ k then coef v (k - s) else 0 := by
  split
  · rename_i h
    have := coef_map_inj (fun i => i + s) v (k - s) (fun p hp e => by omega)
    have e : k - s + s = k := by omega
    rw [e] at this; exact this
  · rename_i h
    apply coef_map_notin (fun i => i + s)
    intro p _; omega

theorem block_coef {v : SVec F} (hv : Sorted v) (i0 i1 k : Nat) :
    coef (SVec.block i0 i1 v) k = if k + i0 < i1 then coef v (k + i0) else 0 := by
  unfold SVec.block
  rw [coef_map_sub]
  · rw [coef_takeWhile_lt (sorted_dropWhile hv _), coef_dropWhile_lt hv]
    by_cases h : k + i0 < i1
    · simp [h]
    · simp [h]
  · intro p hp
    exact mem_dropWhile_ge hv p ((List.takeWhile_sublist _).subset hp)

theorem block_ok {v : SVec F} (hv : VecOK v) (i0 i1 : Nat) :
    VecOK (SVec.block i0 i1 v) ∧ Below (i1 - i0) (SVec.block i0 i1 v) := by
  unfold SVec.block
  have hsub : ((v.dropWhile (fun p => decide (p.1 < i0))).takeWhile (fun p => decide (p.1 < i1))).Sublist v :=
    (List.takeWhile_sublist _).trans (List.dropWhile_sublist _)
  have hge : ∀ p ∈ (v.dropWhile (fun p => decide (p.1 < i0))).takeWhile (fun p => decide (p.1 < i1)), i0 ≤ p.1 :=
    fun p hp => mem_dropWhile_ge hv.1 p ((List.takeWhile_sublist _).subset hp)
  refine ⟨⟨?_, ?_⟩, ?_⟩
  · unfold Sorted
    rw [List.pairwise_map]
    apply (List.Pairwise.sublist hsub hv.1).imp_of_mem
    intro p q hp hq h
    have := hge p hp; have := hge q hq
    simp only; omega
  · intro p hp
    obtain ⟨q, hq, rfl⟩ := List.mem_map.1 hp
    exact hv.2 q (hsub.subset hq)
  · intro p hp
    obtain ⟨q, hq, rfl⟩ := List.mem_map.1 hp
    have := mem_takeWhile_lt q hq
    have := hge q hq
    simp only; omega

theorem setBlock_eq {v : SVec F} (hv : Sorted v) {i0 i1 : Nat} (h : i0 ≤ i1) (b : SVec F) :
    SVec.setBlock i0 i1 b v = v.takeWhile (fun p => decide (p.1 < i0)) ++ b.map (fun p => (p.1 + i0, p.2))
      ++ v.dropWhile (fun p => decide (p.1 < i1 + 1)) := by
  unfold SVec.setBlock
  have hle : (fun p : Nat × F => decide (p.1 ≤ i1)) = (fun p => decide (p.1 < i1 + 1)) := by
    funext p; simp [Nat.lt_succ_iff]
  simp only [hle]
  have h2 : ∀ p ∈ v.dropWhile (fun p => decide (p.1 < i1 + 1)), decide (p.1 < i0) = false := by
    intro p hp
    have := mem_dropWhile_ge hv p hp
    simp; omega
  have h1 : ∀ p ∈ v.takeWhile (fun p => decide (p.1 < i0)), (decide (p.1 < i0)) = true := by
    intro p hp; simpa using mem_takeWhile_lt p hp
  rw [List.takeWhile_append_of_pos h1, List.dropWhile_append_of_pos h1, takeWhile_eq_nil_of h2, dropWhile_eq_self_of h2,
    List.append_nil]

theorem setBlock_coef {v : SVec F} (hv : Sorted v) {i0 i1 : Nat} (h : i0 ≤ i1) (b : SVec F) (k : Nat) :
    coef (SVec.setBlock i0 i1 b v) k =
      (if k < i0 ∨ i1 < k then coef v k else 0) + (if i0 ≤ k then coef b (k - i0) else 0) := by
  rw [setBlock_eq hv h, coef_append, coef_append, coef_takeWhile_lt hv, coef_dropWhile_lt hv, coef_map_add]
  by_cases h1 : k < i0
  · rw [if_pos h1, if_neg (by omega), if_neg (by omega), if_pos (Or.inl h1)]; simp
  · rw [if_neg h1, if_pos (by omega)]
    by_cases h2 : i1 < k
    · rw [if_pos (by omega), if_pos (Or.inr h2)]; ring
    · rw [if_neg (by omega), if_neg (by omega)]; ring

theorem setBlock_ok {v b : SVec F} (hv : VecOK v) (hb : VecOK b) {i0 i1 : Nat} (h : i0 ≤ i1) (hbb : Below (i1 - i0) b) :
    VecOK (SVec.setBlock i0 i1 b v) := by
  rw [setBlock_eq hv.1 h]
  constructor
  · unfold Sorted
    rw [List.pairwise_append, List.pairwise_append, List.pairwise_map]
    refine ⟨⟨sorted_takeWhile hv.1 _, hb.1.imp (fun h => by simpa using h), ?_⟩, sorted_dropWhile hv.1 _, ?_⟩
    · intro p hp q hq
      obtain ⟨r, hr, rfl⟩ := List.mem_map.1 hq
      have := mem_takeWhile_lt p hp
      simp only; omega
    · intro p hp q hq
      have hq' := mem_dropWhile_ge hv.1 q hq
      rcases List.mem_append.1 hp with hp | hp
      · have := mem_takeWhile_lt p hp; omega
      · obtain ⟨r, hr, rfl⟩ := List.mem_map.1 hp
        have := hbb r hr
        simp only; omega
  · intro p hp
    rcases List.mem_append.1 hp with hp | hp
    · rcases List.mem_append.1 hp with hp | hp
      · exact hv.2 p ((List.takeWhile_sublist _).subset hp)
      · obtain ⟨r, hr, rfl⟩ := List.mem_map.1 hp
        exact hb.2 r hr
    · exact hv.2 p ((List.dropWhile_sublist _).subset hp)

/-! ### deleting a row -/

theorem eraseForMatrix_coef {v : SVec F} (hv : Sorted v) (i k : Nat) :
    coef (SVec.eraseForMatrix i v) k = if k < i then coef v k else coef v (k + 1) := by
  have hsplit : v = v.takeWhile (fun p => decide (p.1 < i)) ++ v.dropWhile (fun p => decide (p.1 < i)) :=
    (List.takeWhile_append_dropWhile).symm
  have hpre := coef_takeWhile_lt hv i
  have hge := mem_dropWhile_ge hv (n := i)
  have hsd := sorted_dropWhile hv (fun p => decide (p.1 < i))
  have hdc := coef_dropWhile_lt hv i
  unfold SVec.eraseForMatrix
  simp only
  cases hd : v.dropWhile (fun p => decide (p.1 < i)) with
  | nil =>
    simp only
    rw [hd] at hdc
    rw [hpre]
    split
    · rfl
    · have := hdc (k + 1)
      rw [if_pos (by omega)] at this
      rw [← this]; rfl
  | cons p post =>
    simp only
    rw [hd] at hge hsd hdc
    have hpost : ∀ q ∈ post, i + 1 ≤ q.1 := fun q hq => by
      have := hsd.head q hq; have := hge p (by simp); omega
    split
    · rename_i hp
      rw [coef_append, hpre, coef_map_sub (s := 1) (fun q hq => by have := hpost q hq; omega)]
      by_cases hk : k < i
      · rw [if_pos hk, if_pos hk, coef_of_lt_head (v := post) (i := k + 1) (fun q hq => by have := hpost q hq; omega), add_zero]
      · rw [if_neg hk, if_neg hk, zero_add]
        have := hdc (k + 1)
        rw [if_pos (by omega), coef_cons', if_neg (by omega), zero_add] at this
        exact this
    · rename_i hp
      have hpi : i + 1 ≤ p.1 := by have := hge p (by simp); omega
      have hall : ∀ q ∈ p :: post, i + 1 ≤ q.1 := by
        intro q hq
        rcases List.mem_cons.1 hq with rfl | h
        · exact hpi
        · exact hpost q h
      rw [coef_append, hpre, coef_map_sub (s := 1) (fun q hq => by have := hall q hq; omega)]
      by_cases hk : k < i
      · rw [if_pos hk, if_pos hk, coef_of_lt_head (v := p :: post) (i := k + 1) (fun q hq => by have := hall q hq; omega), add_zero]
      · rw [if_neg hk, if_neg hk, zero_add]
        have := hdc (k + 1)
        rw [if_pos (by omega)] at this
        exact this

/-! ### J, swap_rows -/

theorem J_spec {m : Nat} {v : SVec F} (hv : VecOK v) (hb : Below m v) :
    VecOK (SVec.J m v) ∧ Below m (SVec.J m v) ∧ ∀ i, i < m → coef (SVec.J m v) (m - 1 - i) = coef v i := by
  unfold SVec.J
  refine ⟨?_, ?_, ?_⟩
  · apply vecOK_sort_map hv (fun i => m - 1 - i)
    intro p hp q hq h
    have := hb p hp; have := hb q hq
    omega
  · apply below_sort
    intro p hp
    obtain ⟨q, hq, rfl⟩ := List.mem_map.1 hp
    have := hb q hq
    simp only; omega
  · intro i hi
    rw [coef_sort]
    exact coef_map_inj (fun i => m - 1 - i) v i (fun p hp e => by have := hb p hp; omega)

end BATS
