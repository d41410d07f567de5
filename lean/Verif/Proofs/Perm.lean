import Verif.Model.Permutation
import Mathlib.Data.List.Nodup
import Mathlib.Data.List.Range
import Mathlib.Tactic.Ring
import Mathlib.Algebra.BigOperators.Fin
import Mathlib.GroupTheory.Perm.Fin

set_option linter.unusedSectionVars false
set_option linter.unusedVariables false
set_option linter.unusedSimpArgs false

/-! # Lemmas on include/util/permutation.hpp -/

namespace BATS

theorem rd_some {α} {l : List α} {i : Nat} {a : α} (h : l[i]? = some a) : rd l i = .ok a := by
  unfold rd; rw [h]

theorem rd_lt {α} {l : List α} {i : Nat} (h : i < l.length) : rd l i = .ok l[i] := rd_some (List.getElem?_eq_getElem h)

theorem wr_lt {α} {l : List α} {i : Nat} (a : α) (h : i < l.length) : wr l i a = .ok (l.set i a) := by
  unfold wr; rw [if_pos h]

namespace Perm
variable {α : Type _}

/-! ### permutations of `0..n-1` -/

theorem isPerm_length {p : List Nat} {n : Nat} (h : p.Perm (List.range n)) : p.length = n := by
  rw [h.length_eq, List.length_range]
theorem isPerm_nodup {p : List Nat} {n : Nat} (h : p.Perm (List.range n)) : p.Nodup := h.nodup_iff.2 List.nodup_range
theorem isPerm_mem {p : List Nat} {n : Nat} (h : p.Perm (List.range n)) {x : Nat} : x ∈ p ↔ x < n := by
  rw [h.mem_iff, List.mem_range]

/-- a duplicate-free list of `n` numbers below `n` is a permutation -/
theorem isPerm_of_nodup {p : List Nat} {n : Nat} (h1 : p.Nodup) (h2 : ∀ x ∈ p, x < n) (h3 : p.length = n) :
    p.Perm (List.range n) := by
  have hsub : p ⊆ List.range n := fun x hx => List.mem_range.2 (h2 x hx)
  exact (List.subperm_of_subset h1 hsub).perm_of_length_le (by rw [List.length_range, h3])

/-- a list of numbers hitting every number below its length is a permutation -/
theorem isPerm_of_surj {p : List Nat} {n : Nat} (h : ∀ x, x < n → x ∈ p) (h3 : p.length = n) :
    p.Perm (List.range n) := by
  have : (List.range n).Subperm p := List.subperm_of_subset List.nodup_range (fun x hx => h x (List.mem_range.1 hx))
  exact (this.perm_of_length_le (by rw [List.length_range, h3])).symm

/-! ### scatter loops -/

theorem invPermLoop_spec : ∀ (p : List Nat) (j : Nat) (r : List Nat), (∀ x ∈ p, x < r.length) → p.Nodup →
    ∃ q, invPermLoop p j r = .ok q ∧ q.length = r.length ∧ (∀ k (h : k < p.length), q[p[k]]? = some (j + k)) ∧
      ∀ x, x ∉ p → q[x]? = r[x]?
  | [], j, r, _, _ => ⟨r, rfl, rfl, by intro k h; simp at h, fun _ _ => rfl⟩
  | x :: p, j, r, hlt, hnd => by
    have hx := hlt x (by simp)
    obtain ⟨q, h1, h2, h3, h4⟩ := invPermLoop_spec p (j + 1) (r.set x j)
      (fun y hy => by rw [List.length_set]; exact hlt y (by simp [hy])) (List.nodup_cons.1 hnd).2
    have hxp := (List.nodup_cons.1 hnd).1
    refine ⟨q, ?_, by rw [h2, List.length_set], ?_, ?_⟩
    · unfold invPermLoop; rw [wr_lt _ hx]; exact h1
    · intro k hk
      cases k with
      | zero => 
        simp only [List.getElem_cons_zero, Nat.add_zero]
        rw [h4 x hxp, List.getElem?_set_self hx]
      | succ k =>
        simp only [List.getElem_cons_succ]
        rw [h3 k (by simpa using hk)]; congr 1; omega
    · intro y hy
      rw [List.mem_cons, not_or] at hy
      rw [h4 y hy.2, List.getElem?_set_ne (Ne.symm hy.1)]

theorem partialPermLoop_spec : ∀ (p : List Nat) (j : Nat) (r : List (Option Nat)), (∀ x ∈ p, x < r.length) → p.Nodup →
    ∃ q, partialPermLoop p j r = .ok q ∧ q.length = r.length ∧ (∀ k (h : k < p.length), q[p[k]]? = some (some (j + k))) ∧
      ∀ x, x ∉ p → q[x]? = r[x]?
  | [], j, r, _, _ => ⟨r, rfl, rfl, by intro k h; simp at h, fun _ _ => rfl⟩
  | x :: p, j, r, hlt, hnd => by
    have hx := hlt x (by simp)
    obtain ⟨q, h1, h2, h3, h4⟩ := partialPermLoop_spec p (j + 1) (r.set x (some j))
      (fun y hy => by rw [List.length_set]; exact hlt y (by simp [hy])) (List.nodup_cons.1 hnd).2
    have hxp := (List.nodup_cons.1 hnd).1
    refine ⟨q, ?_, by rw [h2, List.length_set], ?_, ?_⟩
    · unfold partialPermLoop; rw [wr_lt _ hx]; exact h1
    · intro k hk
      cases k with
      | zero =>
        simp only [List.getElem_cons_zero, Nat.add_zero]
        rw [h4 x hxp, List.getElem?_set_self hx]
      | succ k =>
        simp only [List.getElem_cons_succ]
        rw [h3 k (by simpa using hk)]; congr 2; omega
    · intro y hy
      rw [List.mem_cons, not_or] at hy
      rw [h4 y hy.2, List.getElem?_set_ne (Ne.symm hy.1)]

theorem invPerm_spec {p : List Nat} {n : Nat} (hp : p.Perm (List.range n)) :
    ∃ q, invPerm p = .ok q ∧ q.Perm (List.range n) ∧ (∀ i x : Nat, p[i]? = some x ↔ q[x]? = some i) := by
  have hlen := isPerm_length hp
  obtain ⟨q, h1, h2, h3, h4⟩ := invPermLoop_spec p 0 (List.replicate p.length 0)
    (fun x hx => by rw [List.length_replicate, hlen]; exact (isPerm_mem hp).1 hx) (isPerm_nodup hp)
  rw [List.length_replicate, hlen] at h2
  have hiff : ∀ i x : Nat, p[i]? = some x ↔ q[x]? = some i := by
    intro i x
    constructor
    · intro h
      obtain ⟨hi, e⟩ := List.getElem?_eq_some_iff.1 h
      have := h3 i hi
      rw [e, Nat.zero_add] at this; exact this
    · intro h
      have hx : x < n := by rw [← h2]; exact (List.getElem?_eq_some_iff.1 h).1
      obtain ⟨k, hk, e⟩ := List.getElem_of_mem ((isPerm_mem hp).2 hx)
      have := h3 k hk
      rw [e, Nat.zero_add, h] at this
      rw [Option.some.inj this, List.getElem?_eq_getElem hk, e]
  refine ⟨q, h1, ?_, hiff⟩
  apply isPerm_of_surj _ h2
  intro x hx
  have hx' : x < p.length := by rw [hlen]; exact hx
  have := (hiff x p[x]).1 (List.getElem?_eq_getElem hx')
  exact List.mem_of_getElem? this

/-! ### gather -/

theorem gather_spec (data : List α) : ∀ (p : List Nat), (∀ x ∈ p, x < data.length) →
    ∃ r, gather data p = .ok r ∧ r.length = p.length ∧ ∀ i x : Nat, p[i]? = some x → r[i]? = data[x]?
  | [], _ => ⟨[], rfl, rfl, by intro i x h; simp at h⟩
  | y :: p, h => by
    obtain ⟨r, h1, h2, h3⟩ := gather_spec data p (fun x hx => h x (by simp [hx]))
    have hy := h y (by simp)
    refine ⟨data[y] :: r, ?_, by simp [h2], ?_⟩
    · unfold gather; rw [rd_lt hy, h1]; rfl
    · intro i x hx
      cases i with
      | zero => simp only [List.getElem?_cons_zero, Option.some.injEq] at hx; subst hx; simp [hy]
      | succ i => simpa using h3 i x (by simpa using hx)

theorem applyPermPtr_spec (data : List α) (p : List Nat) (h : ∀ x ∈ p, x < data.length) (hl : p.length = data.length) :
    ∃ r, applyPermPtr data p = .ok r ∧ r.length = data.length ∧ ∀ i x : Nat, p[i]? = some x → r[i]? = data[x]? := by
  obtain ⟨r, h1, h2, h3⟩ := gather_spec data p h
  refine ⟨r, ?_, by rw [h2, hl], h3⟩
  unfold applyPermPtr
  rw [h1]
  show (if p.length ≤ data.length then (pure (r ++ data.drop p.length) : Res _) else .error .ub) = _
  rw [if_pos (le_of_eq hl), hl, List.drop_length, List.append_nil]; rfl

theorem applyPerm_spec (data : List α) (p : List Nat) (h : ∀ x ∈ p, x < data.length) (hl : p.length = data.length) :
    ∃ r, applyPerm data p = .ok r ∧ r.length = data.length ∧ ∀ i x : Nat, p[i]? = some x → r[i]? = data[x]? := by
  unfold applyPerm
  rw [if_neg (by simp [hl])]
  exact applyPermPtr_spec data p h hl

/-! ### swapping loops -/

theorem permSwapLoop_spec : ∀ (p : List Nat) (i : Nat) (tmp data : List α), (∀ x ∈ p, x < tmp.length) → p.Nodup →
    i + p.length ≤ data.length →
    ∃ tmp' data', permSwapLoop p i tmp data = .ok (tmp', data') ∧ tmp'.length = tmp.length ∧
      (∀ k (h : k < p.length), tmp'[p[k]]? = data[i + k]?) ∧ ∀ x, x ∉ p → tmp'[x]? = tmp[x]?
  | [], i, tmp, data, _, _, _ => ⟨tmp, data, rfl, rfl, by intro k h; simp at h, fun _ _ => rfl⟩
  | x :: p, i, tmp, data, hlt, hnd, hlen => by
    have hx := hlt x (by simp)
    have hi : i < data.length := by simp at hlen; omega
    have hxp := (List.nodup_cons.1 hnd).1
    obtain ⟨t', d', h1, h2, h3, h4⟩ := permSwapLoop_spec p (i + 1) (tmp.set x data[i]) (data.set i tmp[x])
      (fun y hy => by rw [List.length_set]; exact hlt y (by simp [hy])) (List.nodup_cons.1 hnd).2
      (by rw [List.length_set]; simp at hlen; omega)
    refine ⟨t', d', ?_, by rw [h2, List.length_set], ?_, ?_⟩
    · unfold permSwapLoop
      rw [rd_lt hx, rd_lt hi]
      show (do let tmp' ← wr tmp x data[i]; let data' ← wr data i tmp[x]; permSwapLoop p (i + 1) tmp' data' : Res _) = _
      rw [wr_lt _ hx, wr_lt _ hi]; exact h1
    · intro k hk
      cases k with
      | zero =>
        simp only [List.getElem_cons_zero, Nat.add_zero]
        rw [h4 x hxp, List.getElem?_set_self hx, List.getElem?_eq_getElem hi]
      | succ k =>
        simp only [List.getElem_cons_succ]
        rw [h3 k (by simpa using hk), List.getElem?_set_ne (by omega)]; congr 1; omega
    · intro y hy
      rw [List.mem_cons, not_or] at hy
      rw [h4 y hy.2, List.getElem?_set_ne (Ne.symm hy.1)]

theorem applyPermSwap_spec (d : α) {data : List α} {p : List Nat} {n : Nat} (hp : p.Perm (List.range n))
    (hl : data.length = n) :
    ∃ r, applyPermSwap d data p = .ok r ∧ r.length = n ∧ ∀ i x : Nat, p[i]? = some x → r[x]? = data[i]? := by
  have hpl := isPerm_length hp
  obtain ⟨t', d', h1, h2, h3, -⟩ := permSwapLoop_spec p 0 (List.replicate data.length d) data
    (fun x hx => by rw [List.length_replicate, hl]; exact (isPerm_mem hp).1 hx) (isPerm_nodup hp) (by omega)
  refine ⟨t', ?_, by rw [h2, List.length_replicate, hl], ?_⟩
  · unfold applyPermSwap
    rw [if_neg (by rw [hpl, hl]; simp), h1]; rfl
  · intro i x hix
    obtain ⟨hi, e⟩ := List.getElem?_eq_some_iff.1 hix
    have := h3 i hi
    rw [e, Nat.zero_add] at this; exact this

theorem ipermSwapLoop_spec : ∀ (p : List Nat) (i : Nat) (tmp data : List α), (∀ x ∈ p, x < data.length) → p.Nodup →
    i + p.length ≤ tmp.length →
    ∃ tmp' data', ipermSwapLoop p i tmp data = .ok (tmp', data') ∧ tmp'.length = tmp.length ∧
      (∀ k (h : k < p.length), tmp'[i + k]? = data[p[k]]?) ∧ ∀ x, x < i ∨ i + p.length ≤ x → tmp'[x]? = tmp[x]?
  | [], i, tmp, data, _, _, _ => ⟨tmp, data, rfl, rfl, by intro k h; simp at h, fun _ _ => rfl⟩
  | x :: p, i, tmp, data, hlt, hnd, hlen => by
    have hx := hlt x (by simp)
    have hi : i < tmp.length := by simp at hlen; omega
    have hxp := (List.nodup_cons.1 hnd).1
    obtain ⟨t', d', h1, h2, h3, h4⟩ := ipermSwapLoop_spec p (i + 1) (tmp.set i data[x]) (data.set x tmp[i])
      (fun y hy => by rw [List.length_set]; exact hlt y (by simp [hy])) (List.nodup_cons.1 hnd).2
      (by rw [List.length_set]; simp at hlen; omega)
    refine ⟨t', d', ?_, by rw [h2, List.length_set], ?_, ?_⟩
    · unfold ipermSwapLoop
      rw [rd_lt hi, rd_lt hx]
      show (do let tmp' ← wr tmp i data[x]; let data' ← wr data x tmp[i]; ipermSwapLoop p (i + 1) tmp' data' : Res _) = _
      rw [wr_lt _ hi, wr_lt _ hx]; exact h1
    · intro k hk
      cases k with
      | zero =>
        simp only [List.getElem_cons_zero, Nat.add_zero]
        rw [h4 i (Or.inl (by omega)), List.getElem?_set_self hi, List.getElem?_eq_getElem hx]
      | succ k =>
        simp only [List.getElem_cons_succ]
        have hk' : k < p.length := by simpa using hk
        have := h3 k hk'
        rw [show i + (k + 1) = i + 1 + k by omega, this, List.getElem?_set_ne]
        intro e; exact hxp (e ▸ List.getElem_mem hk')
    · intro y hy
      simp at hy
      rw [h4 y (by omega), List.getElem?_set_ne (by omega)]

theorem applyIPermSwap_spec (d : α) {data : List α} {p : List Nat} {n : Nat} (hp : p.Perm (List.range n))
    (hl : data.length = n) :
    ∃ r, applyIPermSwap d data p = .ok r ∧ r.length = n ∧ ∀ i x : Nat, p[i]? = some x → r[i]? = data[x]? := by
  have hpl := isPerm_length hp
  obtain ⟨t', d', h1, h2, h3, -⟩ := ipermSwapLoop_spec p 0 (List.replicate data.length d) data
    (fun x hx => by rw [hl]; exact (isPerm_mem hp).1 hx) (isPerm_nodup hp) (by rw [List.length_replicate]; omega)
  refine ⟨t', ?_, by rw [h2, List.length_replicate, hl], ?_⟩
  · unfold applyIPermSwap
    rw [if_neg (by rw [hpl, hl]; simp), h1]; rfl
  · intro i x hix
    obtain ⟨hi, e⟩ := List.getElem?_eq_some_iff.1 hix
    have := h3 i hi
    rw [e, Nat.zero_add] at this; exact this

/-! ### stable sorting permutation -/

theorem stableSortperm_perm [LinearOrder α] (data : List α) : (stableSortperm data).Perm (List.range data.length) := by
  unfold stableSortperm
  have h := (List.perm_insertionSort (fun (x y : α × Nat) => x.1 ≤ y.1) data.zipIdx).map Prod.snd
  rw [List.zipIdx_map_snd] at h
  rw [List.range_eq_range']; exact h

theorem stableSortperm_pairwise [LinearOrder α] (data : List α) :
    ((data.zipIdx).insertionSort (fun x y => x.1 ≤ y.1)).Pairwise
      (fun x y => x.1 < y.1 ∨ (x.1 = y.1 ∧ x.2 < y.2)) := by
  have hnd : (data.zipIdx.insertionSort (fun x y => x.1 ≤ y.1)).Nodup := by
    apply (List.perm_insertionSort _ _).nodup_iff.2
    apply List.Nodup.of_map Prod.snd
    rw [List.zipIdx_map_snd]; exact List.nodup_range'
  have hs : (data.zipIdx.insertionSort (fun x y => x.1 ≤ y.1)).Pairwise (fun x y => x.1 ≤ y.1) := by
    have t1 : Std.Total (fun (x y : α × Nat) => x.1 ≤ y.1) := ⟨fun a b => le_total _ _⟩
    have t2 : IsTrans (α × Nat) (fun x y => x.1 ≤ y.1) := ⟨fun a b c h1 h2 => le_trans h1 h2⟩
    have := List.pairwise_insertionSort (fun (x y : α × Nat) => x.1 ≤ y.1) data.zipIdx
    exact this.imp (fun h => by simpa using h)
  rw [List.pairwise_iff_forall_sublist] at hs ⊢
  intro x y hxy
  have hle := hs hxy
  rcases lt_or_eq_of_le hle with h | h
  · exact Or.inl h
  · right
    refine ⟨h, ?_⟩
    by_contra hc
    have hx : x ∈ data.zipIdx := (List.mem_insertionSort _).1 (hxy.subset (by simp))
    have hy : y ∈ data.zipIdx := (List.mem_insertionSort _).1 (hxy.subset (by simp))
    have hne : x ≠ y := by
      have := (List.Pairwise.sublist hxy hnd)
      simpa using this
    have hlt : y.2 < x.2 := by
      rcases Nat.lt_trichotomy x.2 y.2 with h' | h' | h'
      · exact absurd h' hc
      · exact absurd (Prod.ext h h') hne
      · exact h'
    -- then y comes before x in the input
    have hsub : [y, x].Sublist data.zipIdx := by
      obtain ⟨i, hi, ei⟩ := List.getElem_of_mem hy
      obtain ⟨j, hj, ej⟩ := List.getElem_of_mem hx
      have hij : i < j := by
        rw [List.getElem_zipIdx] at ei ej
        rw [← ei, ← ej] at hlt; simpa using hlt
      have h1 : [data.zipIdx[i], data.zipIdx[j]].Sublist data.zipIdx := by
        have : data.zipIdx = data.zipIdx.take j ++ data.zipIdx.drop j := (List.take_append_drop j _).symm
        conv => rhs; rw [this]
        refine List.Sublist.append (show [data.zipIdx[i]].Sublist _ from ?_) (show [data.zipIdx[j]].Sublist _ from ?_)
        · apply List.singleton_sublist.2
          rw [List.mem_take_iff_getElem]
          exact ⟨i, by omega, rfl⟩
        · apply List.singleton_sublist.2
          rw [List.drop_eq_getElem_cons hj]; simp
      rw [ei, ej] at h1; exact h1
    have t1 : Std.Total (fun (x y : α × Nat) => x.1 ≤ y.1) := ⟨fun a b => le_total _ _⟩
    have t2 : IsTrans (α × Nat) (fun x y => x.1 ≤ y.1) := ⟨fun a b c h1 h2 => le_trans h1 h2⟩
    have h2 := List.pair_sublist_insertionSort (r := fun (x y : α × Nat) => x.1 ≤ y.1) (le_of_eq h.symm) hsub
    -- both orders in a duplicate-free list
    have hpw : ∀ l : List (α × Nat), l.Nodup → [x, y].Sublist l → [y, x].Sublist l → False := by
      intro l
      induction l with
      | nil => intro _ h; simp at h
      | cons z l ih =>
        intro hnd h1 h2
        rw [List.nodup_cons] at hnd
        cases h1 with
        | cons _ h1 =>
          cases h2 with
          | cons _ h2 => exact ih hnd.2 h1 h2
          | cons_cons _ h2 => exact hnd.1 (h1.subset (by simp))
        | cons_cons _ h1 =>
          cases h2 with
          | cons _ h2 => exact hnd.1 (h2.subset (by simp))
          | cons_cons _ h2 => exact hne rfl
    exact hpw _ hnd hxy h2

theorem stableSortperm_sorted [LinearOrder α] (data : List α) {a b : Nat} (hab : a < b) {x y : Nat}
    (hx : (stableSortperm data)[a]? = some x) (hy : (stableSortperm data)[b]? = some y) :
    ∃ u v, data[x]? = some u ∧ data[y]? = some v ∧ (u < v ∨ (u = v ∧ x < y)) := by
  unfold stableSortperm at hx hy
  set L := data.zipIdx.insertionSort (fun x y => x.1 ≤ y.1) with hL
  rw [List.getElem?_map] at hx hy
  obtain ⟨p, hp, rfl⟩ := Option.map_eq_some_iff.1 hx
  obtain ⟨q, hq, rfl⟩ := Option.map_eq_some_iff.1 hy
  have hpw := stableSortperm_pairwise data
  rw [← hL, List.pairwise_iff_getElem] at hpw
  obtain ⟨ha, ea⟩ := List.getElem?_eq_some_iff.1 hp
  obtain ⟨hb, eb⟩ := List.getElem?_eq_some_iff.1 hq
  have h := hpw a b ha hb hab
  rw [ea, eb] at h
  have hmem : ∀ r ∈ L, data[r.2]? = some r.1 := by
    intro r hr
    have := (List.mem_insertionSort _).1 hr
    obtain ⟨i, hi, e⟩ := List.getElem_of_mem this
    rw [List.getElem_zipIdx] at e
    rw [← e]; simp at hi ⊢
  exact ⟨p.1, q.1, hmem p (ea ▸ List.getElem_mem ha), hmem q (eb ▸ List.getElem_mem hb), h⟩

/-! ### inversions -/

/-- pairs of one element of `l` and one of `r` that are out of order -/
def cross [LinearOrder α] (l r : List α) : Nat := (l.map (fun a => r.countP (fun b => decide (b < a)))).sum

theorem cross_perm [LinearOrder α] {l l' r r' : List α} (h1 : l.Perm l') (h2 : r.Perm r') : cross l r = cross l' r' := by
  unfold cross
  have : (fun a => r.countP (fun b => decide (b < a))) = (fun a => r'.countP (fun b => decide (b < a))) := by
    funext a; exact h2.countP_eq _
  rw [this]
  exact (h1.map _).sum_eq

theorem permInversions_append [LinearOrder α] (l r : List α) :
    permInversions (l ++ r) = permInversions l + permInversions r + cross l r := by
  induction l with
  | nil => simp [permInversions, cross]
  | cons a l ih =>
    simp only [List.cons_append, permInversions, ih, List.countP_append, cross, List.map_cons, List.sum_cons]
    omega

theorem ktMerge_spec [LinearOrder α] (l r : List α) (hl : l.Pairwise (· ≤ ·)) (hr : r.Pairwise (· ≤ ·)) :
    (ktMerge l r).1.Perm (l ++ r) ∧ (ktMerge l r).1.Pairwise (· ≤ ·) ∧ (ktMerge l r).2 = cross l r := by
  fun_induction ktMerge l r with
  | case1 r => simp [cross, hr]
  | case2 l h =>
    refine ⟨by simp, hl, ?_⟩
    unfold cross; simp
  | case3 a l b r hab m k hmk ih =>
    rw [hmk] at ih
    obtain ⟨h1, h2, h3⟩ := ih (List.pairwise_cons.1 hl).2 hr
    simp only at h1 h2 h3
    refine ⟨h1.cons a, ?_, ?_⟩
    · rw [List.pairwise_cons]
      refine ⟨fun x hx => ?_, h2⟩
      rcases List.mem_append.1 (h1.mem_iff.1 hx) with hx | hx
      · exact (List.pairwise_cons.1 hl).1 x hx
      · rcases List.mem_cons.1 hx with rfl | hx
        · exact hab
        · exact le_trans hab ((List.pairwise_cons.1 hr).1 x hx)
    · show k = _
      rw [h3]
      unfold cross
      rw [List.map_cons, List.sum_cons]
      have : (b :: r).countP (fun y => decide (y < a)) = 0 := by
        rw [List.countP_eq_zero]
        intro x hx
        have : a ≤ x := by
          rcases List.mem_cons.1 hx with rfl | hx
          · exact hab
          · exact le_trans hab ((List.pairwise_cons.1 hr).1 x hx)
        simpa using this
      rw [this, Nat.zero_add]
  | case4 a l b r hab m k hmk ih =>
    rw [hmk] at ih
    obtain ⟨h1, h2, h3⟩ := ih hl (List.pairwise_cons.1 hr).2
    simp only at h1 h2 h3
    have hba : b < a := lt_of_not_ge hab
    refine ⟨(h1.cons b).trans ?_, ?_, ?_⟩
    · exact (List.perm_middle).symm
    · rw [List.pairwise_cons]
      refine ⟨fun x hx => ?_, h2⟩
      rcases List.mem_append.1 (h1.mem_iff.1 hx) with hx | hx
      · rcases List.mem_cons.1 hx with rfl | hx
        · exact hba.le
        · exact le_trans hba.le ((List.pairwise_cons.1 hl).1 x hx)
      · exact (List.pairwise_cons.1 hr).1 x hx
    · show k + (l.length + 1) = _
      rw [h3]
      have key : ∀ t : List α, (∀ x ∈ t, b < x) → cross t (b :: r) = cross t r + t.length := by
        intro t
        induction t with
        | nil => intro _; rfl
        | cons x t iht =>
          intro ht
          have := iht (fun y hy => ht y (by simp [hy]))
          unfold cross at this ⊢
          rw [List.map_cons, List.sum_cons, List.map_cons, List.sum_cons, this, List.countP_cons]
          simp [ht x (by simp)]; omega
      rw [key (a :: l)]
      · simp
      · intro x hx
        rcases List.mem_cons.1 hx with rfl | hx
        · exact hba
        · exact lt_of_lt_of_le hba ((List.pairwise_cons.1 hl).1 x hx)

theorem ktInplace_spec [LinearOrder α] (seg : List α) :
    (ktInplace seg).1.Perm seg ∧ (ktInplace seg).1.Pairwise (· ≤ ·) ∧ (ktInplace seg).2 = permInversions seg := by
  fun_induction ktInplace seg with
  | case1 seg h =>
    match seg, h with
    | [], _ => simp [permInversions]
    | [x], _ => simp [permInversions]
    | x :: y :: t, h => simp at h
  | case2 seg h c l k1 hlk r k2 hrk m k3 hmk ih1 ih2 =>
    rw [hlk] at ih1
    rw [hrk] at ih2
    simp only at ih1 ih2
    obtain ⟨a1, a2, a3⟩ := ih1
    obtain ⟨b1, b2, b3⟩ := ih2
    have hm := ktMerge_spec l r a2 b2
    rw [hmk] at hm
    simp only at hm
    obtain ⟨c1, c2, c3⟩ := hm
    refine ⟨c1.trans ((a1.append b1).trans (by rw [List.take_append_drop])), c2, ?_⟩
    show k1 + k2 + k3 = _
    rw [a3, b3, c3, cross_perm a1 b1, ← permInversions_append, List.take_append_drop]

end Perm
end BATS
