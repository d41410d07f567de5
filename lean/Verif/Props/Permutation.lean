import Verif.Spec.Perm
import Verif.Proofs.Perm

set_option linter.unusedSectionVars false
set_option linter.unusedVariables false
set_option linter.unusedSimpArgs false

/-! # C24, C25, C26: permutation utilities (include/util/permutation.hpp) -/

namespace BATS
open Perm

variable {α : Type}

/-! ### C24 -/

/-- C24: `inv_perm` returns a permutation inverting `p` on both sides. -/
theorem C24_inv_perm {p : List Nat} {n : Nat} (hp : IsPermOf n p) :
    ∃ q, invPerm p = .ok q ∧ IsPermOf n q ∧
      (∀ i x : Nat, p[i]? = some x ↔ q[x]? = some i) ∧ invPerm q = .ok p := by
  obtain ⟨q, h1, h2, h3⟩ := invPerm_spec hp
  obtain ⟨r, g1, g2, g3⟩ := invPerm_spec h2
  refine ⟨q, h1, h2, h3, ?_⟩
  rw [g1]
  congr 1
  apply List.ext_getElem?
  intro i
  cases hri : r[i]? with
  | none =>
    symm
    rw [List.getElem?_eq_none_iff] at hri ⊢
    rw [isPerm_length g2] at hri; rw [isPerm_length hp]; exact hri
  | some x => exact ((h3 i x).2 ((g3 x i).2 hri)).symm

/-- C24: `apply_perm` gathers: position `i` receives the element at position `perm[i]`. -/
theorem C24_apply_perm (data : List α) {p : List Nat} (hp : IsPermOf data.length p) :
    ∃ r, applyPerm data p = .ok r ∧ r.length = data.length ∧ r.Perm data ∧
      ∀ i x : Nat, p[i]? = some x → r[i]? = data[x]? := by
  have hpl := isPerm_length hp
  obtain ⟨r, h1, h2, h3⟩ := applyPerm_spec data p (fun x hx => (isPerm_mem hp).1 hx) hpl
  refine ⟨r, h1, h2, ?_, h3⟩
  have hr : r = p.filterMap (fun x => data[x]?) := by
    apply List.ext_getElem?
    intro i
    have hall : p.filterMap (fun x => data[x]?) = p.pmap (fun x h => data[x]'h) (fun x hx => (isPerm_mem hp).1 hx) := by
      have : ∀ (q : List Nat) (hq : ∀ x ∈ q, x < data.length),
          q.filterMap (fun x => data[x]?) = q.pmap (fun x h => data[x]'h) hq := by
        intro q
        induction q with
        | nil => intro _; rfl
        | cons x q ih =>
          intro hq
          have hx := hq x (by simp)
          rw [List.filterMap_cons, List.getElem?_eq_getElem hx, List.pmap_cons, ih (fun y hy => hq y (by simp [hy]))]
      exact this p _
    rw [hall]
    by_cases hi : i < p.length
    · have hx : p[i] < data.length := (isPerm_mem hp).1 (List.getElem_mem hi)
      rw [h3 i p[i] (List.getElem?_eq_getElem hi), List.getElem?_eq_getElem hx,
        List.getElem?_eq_getElem (by rw [List.length_pmap]; exact hi), List.getElem_pmap]
    · rw [List.getElem?_eq_none (by omega), List.getElem?_eq_none (by rw [List.length_pmap]; omega)]
  have h4 : (List.range data.length).filterMap (fun x => data[x]?) = data := by
    apply List.ext_getElem?
    intro i
    have : ∀ (n : Nat), n ≤ data.length → (List.range n).filterMap (fun x => data[x]?) = data.take n := by
      intro n
      induction n with
      | zero => intro _; simp
      | succ n ih =>
        intro hn
        rw [List.range_succ, List.filterMap_append, ih (by omega)]
        have hn' : n < data.length := by omega
        simp [hn', List.take_concat_get']
    rw [this _ (le_refl _), List.take_length]
  rw [hr]
  exact (hp.filterMap _).trans (by rw [h4])

/-- C24: applying `p` and then `q` is applying the composite permutation `i ↦ p[q[i]]`, which is what applying `q` to
the vector `p` itself computes. -/
theorem C24_apply_perm_compose (data : List α) {p q : List Nat} (hp : IsPermOf data.length p)
    (hq : IsPermOf data.length q) :
    ∃ pq r s, applyPerm p q = .ok pq ∧ IsPermOf data.length pq ∧ applyPerm data p = .ok r ∧
      applyPerm r q = .ok s ∧ applyPerm data pq = .ok s := by
  have hpl := isPerm_length hp
  have hql := isPerm_length hq
  obtain ⟨pq, a1, a2, a3, a4⟩ := C24_apply_perm p (p := q) (by rw [hpl]; exact hq)
  obtain ⟨r, b1, b2, b3, b4⟩ := C24_apply_perm data hp
  obtain ⟨s, c1, c2, c3, c4⟩ := C24_apply_perm r (p := q) (by rw [b2]; exact hq)
  have hpq : IsPermOf data.length pq := a3.trans hp
  obtain ⟨t, d1, d2, d3, d4⟩ := C24_apply_perm data hpq
  refine ⟨pq, r, s, a1, hpq, b1, c1, ?_⟩
  rw [d1]; congr 1
  apply List.ext_getElem?
  intro i
  cases hqi : q[i]? with
  | none =>
    have : q.length ≤ i := List.getElem?_eq_none_iff.1 hqi
    rw [List.getElem?_eq_none (by omega), List.getElem?_eq_none (by omega)]
  | some x =>
    have hx : x < p.length := by rw [hpl]; exact (isPerm_mem hq).1 (List.mem_of_getElem? hqi)
    have h1 := a4 i x hqi
    rw [List.getElem?_eq_getElem hx] at h1
    rw [d4 i _ h1, c4 i x hqi, b4 x _ (List.getElem?_eq_getElem hx)]

/-- C24: applying a permutation and then its inverse gives the data back. -/
theorem C24_apply_inverse (data : List α) {p : List Nat} (hp : IsPermOf data.length p) :
    ∃ q r, invPerm p = .ok q ∧ applyPerm data p = .ok r ∧ applyPerm r q = .ok data := by
  obtain ⟨q, h1, h2, h3⟩ := invPerm_spec hp
  obtain ⟨r, b1, b2, b3, b4⟩ := C24_apply_perm data hp
  obtain ⟨s, c1, c2, c3, c4⟩ := C24_apply_perm r (p := q) (by rw [b2]; exact h2)
  refine ⟨q, r, h1, b1, ?_⟩
  rw [c1]; congr 1
  apply List.ext_getElem?
  intro i
  cases hqi : q[i]? with
  | none =>
    have : q.length ≤ i := List.getElem?_eq_none_iff.1 hqi
    have := isPerm_length h2
    rw [List.getElem?_eq_none (by omega), List.getElem?_eq_none (by omega)]
  | some x => rw [c4 i x hqi, b4 x i ((h3 x i).2 hqi)]

/-- C24: `stable_sortperm` returns a permutation; reading the data in that order gives nondecreasing values, and
equal values keep their original order. -/
theorem C24_stable_sortperm [LinearOrder α] (data : List α) :
    IsPermOf data.length (stableSortperm data) ∧
    ∀ (a b x y : Nat), a < b → (stableSortperm data)[a]? = some x → (stableSortperm data)[b]? = some y →
      ∃ u v, data[x]? = some u ∧ data[y]? = some v ∧ (u < v ∨ (u = v ∧ x < y)) :=
  ⟨stableSortperm_perm data, fun a b x y hab hx hy => stableSortperm_sorted data hab hx hy⟩

/-- C24: these two facts determine the result, so any correct stable sort returns the same permutation. -/
theorem C24_stable_sortperm_unique [LinearOrder α] (data : List α) (p : List Nat) (hp : IsPermOf data.length p)
    (hs : ∀ (a b x y : Nat), a < b → p[a]? = some x → p[b]? = some y →
      ∃ u v, data[x]? = some u ∧ data[y]? = some v ∧ (u < v ∨ (u = v ∧ x < y))) :
    p = stableSortperm data := by
  have key : ∀ l : List Nat, (∀ (a b x y : Nat), a < b → l[a]? = some x → l[b]? = some y →
      ∃ u v, data[x]? = some u ∧ data[y]? = some v ∧ (u < v ∨ (u = v ∧ x < y))) →
      l.Pairwise (fun x y => ∃ u v, data[x]? = some u ∧ data[y]? = some v ∧ (u < v ∨ (u = v ∧ x < y))) := by
    intro l h
    rw [List.pairwise_iff_getElem]
    intro a b ha hb hab
    exact h a b _ _ hab (List.getElem?_eq_getElem ha) (List.getElem?_eq_getElem hb)
  have hperm := stableSortperm_perm data
  apply List.Perm.eq_of_pairwise (le := fun x y => ∃ u v, data[x]? = some u ∧ data[y]? = some v ∧ (u < v ∨ (u = v ∧ x < y)))
  · rintro a b ha hb ⟨u, v, h1, h2, h3⟩ ⟨u', v', h4, h5, h6⟩
    rw [h1] at h5; rw [h2] at h4
    obtain rfl := Option.some.inj h5
    obtain rfl := Option.some.inj h4
    rcases h3 with h3 | ⟨h3, h3'⟩
    · rcases h6 with h6 | ⟨h6, h6'⟩
      · exact absurd (lt_trans h3 h6) (lt_irrefl _)
      · rw [h6] at h3; exact absurd h3 (lt_irrefl _)
    · rcases h6 with h6 | ⟨h6, h6'⟩
      · rw [h3] at h6; exact absurd h6 (lt_irrefl _)
      · omega
  · exact key _ hs
  · exact key _ (C24_stable_sortperm data).2
  · exact List.Perm.trans hp hperm.symm

/-- C24: `find_perm_from_vector` returns the rank of every position under (value, position) order. -/
theorem C24_find_perm_from_vector [LinearOrder α] (v : List α) :
    ∃ r, findPermFromVector v = .ok r ∧ IsPermOf v.length r ∧
      ∀ i x : Nat, (stableSortperm v)[i]? = some x ↔ r[x]? = some i := by
  have hp := stableSortperm_perm v
  obtain ⟨q, h1, h2, h3⟩ := invPerm_spec hp
  refine ⟨q, ?_, h2, h3⟩
  unfold findPermFromVector
  unfold invPerm at h1
  rw [isPerm_length hp] at h1
  exact h1

/-- C24: `partial_perm(ind, n)` maps `ind[k]` to `k` and every other index to `NO_IND`. -/
theorem C24_partial_perm {ind : List Nat} {n : Nat} (hnd : ind.Nodup) (hlt : ∀ x ∈ ind, x < n) :
    ∃ r, partialPerm ind n = .ok r ∧ r.length = n ∧
      (∀ k x : Nat, ind[k]? = some x → r[x]? = some (some k)) ∧ (∀ x, x < n → x ∉ ind → r[x]? = some none) := by
  obtain ⟨r, h1, h2, h3, h4⟩ := partialPermLoop_spec ind 0 (List.replicate n none)
    (fun x hx => by rw [List.length_replicate]; exact hlt x hx) hnd
  refine ⟨r, h1, by rw [h2, List.length_replicate], ?_, ?_⟩
  · intro k x hkx
    obtain ⟨hk, e⟩ := List.getElem?_eq_some_iff.1 hkx
    have := h3 k hk
    rw [e, Nat.zero_add] at this; exact this
  · intro x hx hn
    rw [h4 x hn]; simp [hx]

theorem permInversions_eq_numInversions [LinearOrder α] (l : List α) : permInversions l = numInversions l := by
  unfold numInversions
  rw [Finset.card_filter, Fintype.sum_prod_type]
  induction l with
  | nil => rfl
  | cons x l ih =>
    unfold permInversions
    rw [ih]
    have hlen : (x :: l).length = l.length + 1 := rfl
    show _ = ∑ i : Fin (l.length + 1), ∑ j : Fin (l.length + 1), if i < j ∧ (x :: l)[j] < (x :: l)[i] then 1 else 0
    rw [Fin.sum_univ_succ]
    congr 1
    · rw [Fin.sum_univ_succ]
      simp only [lt_self_iff_false, false_and, if_false, Nat.zero_add]
      have h2 : ∀ t : List α, t.countP (fun y => decide (y < x)) = ∑ j : Fin t.length, if t[j] < x then 1 else 0 := by
        intro t
        induction t with
        | nil => rfl
        | cons y t iht =>
          rw [List.countP_cons, iht]
          show _ = ∑ j : Fin (t.length + 1), if (y :: t)[j] < x then 1 else 0
          rw [Fin.sum_univ_succ, Nat.add_comm]
          congr 1
          simp only [decide_eq_true_eq]; rfl
      rw [h2]
      apply Finset.sum_congr rfl
      intro j _
      simp [Fin.succ_pos]
    · apply Finset.sum_congr rfl
      intro i _
      rw [Fin.sum_univ_succ]
      simp

/-- C24: `perm_sign` of a vector of distinct values (listed as `f (σ 0), f (σ 1), ..` with `f` increasing) is the
sign of the permutation `σ` that orders it. -/
theorem C24_perm_sign [LinearOrder α] {n : Nat} (σ : Equiv.Perm (Fin n)) (f : Fin n → α) (hf : StrictMono f) :
    permSign (List.ofFn (fun i => f (σ i))) = (Equiv.Perm.sign σ : ℤ) := by
  have h : (Equiv.Perm.sign σ : ℤ) = (-1) ^ permInversions (List.ofFn (fun i => f (σ i))) := by
    rw [permInversions_eq_numInversions, Equiv.Perm.sign_eq_prod_prod_Ioi]
    unfold numInversions
    rw [Finset.card_filter, Fintype.sum_prod_type, ← Finset.prod_pow_eq_pow_sum]
    have hlen : (List.ofFn (fun i => f (σ i))).length = n := List.length_ofFn
    have e := Fintype.prod_equiv (finCongr hlen)
      (fun i => (-1 : ℤ) ^ ∑ j, if i < j ∧ (List.ofFn (fun i => f (σ i)))[j] < (List.ofFn (fun i => f (σ i)))[i] then 1 else 0)
      (fun i => ∏ j ∈ Finset.Ioi i, if σ i < σ j then 1 else -1) ?_
    · refine Eq.trans ?_ e.symm
      push_cast
      apply Finset.prod_congr rfl; intro i _
      apply Finset.prod_congr rfl; intro j _
      split <;> rfl
    · intro i
      rw [← Finset.prod_pow_eq_pow_sum]
      rw [← Finset.filter_lt_eq_Ioi, Finset.prod_filter]
      apply Fintype.prod_equiv (finCongr hlen)
      intro j
      have hg : ∀ k : Fin (List.ofFn (fun i => f (σ i))).length,
          (List.ofFn (fun i => f (σ i)))[k] = f (σ (finCongr hlen k)) := by
        intro k; simp [finCongr]; rfl
      simp only [hg, hf.lt_iff_lt]
      have hlt : i < j ↔ finCongr hlen i < finCongr hlen j := Iff.rfl
      by_cases h1 : i < j
      · rw [if_pos (hlt.1 h1)]
        have hne : σ (finCongr hlen i) ≠ σ (finCongr hlen j) := by
          intro e; have := σ.injective e; rw [hlt, this] at h1; exact lt_irrefl _ h1
        by_cases h2 : σ (finCongr hlen j) < σ (finCongr hlen i)
        · rw [if_pos ⟨h1, h2⟩, if_neg (not_lt.2 h2.le)]; rfl
        · rw [if_neg (fun h => h2 h.2), if_pos (lt_of_le_of_ne (not_lt.1 h2) hne)]; rfl
      · rw [if_neg (fun h => h1 h.1), if_neg (fun h => h1 (hlt.2 h))]; rfl
  rw [h]
  unfold permSign
  rcases Nat.even_or_odd (permInversions (List.ofFn (fun i => f (σ i)))) with he | ho
  · rw [he.neg_one_pow, if_neg (by rw [Nat.even_iff.1 he]; decide)]
  · rw [ho.neg_one_pow, if_pos (Nat.odd_iff.1 ho)]

/-- C24: `perm_to_the_end(index_list, length)`: the indices not listed, in order, followed by the listed ones; a
permutation whenever the list is sorted without repetition and within range. -/
theorem C24_perm_to_the_end {idx : List Nat} {n : Nat} (hs : idx.Pairwise (· < ·)) (hlt : ∀ x ∈ idx, x < n) :
    permToTheEnd idx n = (List.range n).filter (fun i => i ∉ idx) ++ idx ∧ IsPermOf n (permToTheEnd idx n) := by
  have key : ∀ (k i : Nat) (idx : List Nat), idx.Pairwise (· < ·) → (∀ x ∈ idx, i ≤ x) →
      permToTheEndLoop k i idx = (List.range' i k).filter (fun j => j ∉ idx) := by
    intro k
    induction k with
    | zero => intro i idx _ _; cases idx <;> rfl
    | succ k ih =>
      intro i idx hs hge
      cases idx with
      | nil =>
        unfold permToTheEndLoop
        rw [ih (i + 1) [] List.Pairwise.nil (by simp)]
        simp [List.range'_succ]
      | cons t it =>
        unfold permToTheEndLoop
        rw [List.range'_succ]
        have hit : ∀ x ∈ it, t < x := (List.pairwise_cons.1 hs).1
        by_cases h : i = t
        · rw [if_neg (by simp [h]), ih (i + 1) it (List.pairwise_cons.1 hs).2 (fun x hx => by have := hit x hx; omega)]
          rw [List.filter_cons_of_neg (by simp [h])]
          apply List.filter_congr
          intro x hx
          have : i + 1 ≤ x := (List.mem_range'_1.1 hx).1
          have : x ≠ t := by omega
          simp [this]
        · have hti : i < t := by have := hge t (by simp); omega
          rw [if_pos h, ih (i + 1) (t :: it) hs (fun x hx => by
            rcases List.mem_cons.1 hx with rfl | hx
            · omega
            · have := hit x hx; omega)]
          rw [List.filter_cons_of_pos]
          have : i ∉ t :: it := by
            rw [List.mem_cons, not_or]
            exact ⟨h, fun hx => by have := hit i hx; omega⟩
          simpa using this
  have h1 : permToTheEnd idx n = (List.range n).filter (fun i => i ∉ idx) ++ idx := by
    unfold permToTheEnd
    rw [key n 0 idx hs (by simp), List.range_eq_range']
  refine ⟨h1, ?_⟩
  rw [h1]
  unfold IsPermOf
  rw [List.perm_ext_iff_of_nodup _ List.nodup_range]
  · intro x
    simp only [List.mem_append, List.mem_filter, List.mem_range, decide_eq_true_eq]
    by_cases hx : x ∈ idx
    · simp [hx, hlt x hx]
    · simp [hx]
  · rw [List.nodup_append]
    refine ⟨List.nodup_range.filter _, hs.imp (fun h => ne_of_lt h), ?_⟩
    intro a ha b hb e
    have := (List.mem_filter.1 ha).2
    simp only [decide_eq_true_eq] at this
    exact this (e ▸ hb)

/-- C24: `extension_perm(perm, length)` extends a permutation by fixed points. -/
theorem C24_extension_perm {p : List Nat} {k n : Nat} (hp : IsPermOf k p) (hkn : k ≤ n) :
    IsPermOf n (extensionPerm p n) ∧ (∀ i, i < k → (extensionPerm p n)[i]? = p[i]?) ∧
    ∀ i, k ≤ i → i < n → (extensionPerm p n)[i]? = some i := by
  have hpl := isPerm_length hp
  have heq : extensionPerm p n = p ++ (List.range (n - k)).map (fun i => k + i) := by
    unfold extensionPerm
    split
    · rename_i h
      rw [List.isEmpty_iff] at h
      subst h
      simp at hpl
      subst hpl
      simp [identityPerm]
    · rw [hpl]
  rw [heq]
  refine ⟨?_, ?_, ?_⟩
  · unfold IsPermOf
    have : List.range n = List.range k ++ (List.range (n - k)).map (fun i => k + i) := by
      rw [← List.range_add]; congr 1; omega
    rw [this]
    exact List.Perm.append_right _ hp
  · intro i hi
    rw [List.getElem?_append_left (by omega)]
  · intro i hi hin
    rw [List.getElem?_append_right (by omega), hpl, List.getElem?_map, List.getElem?_range (by omega)]
    simp only [Option.map_some, Option.some.injEq]; omega

example : IsPermOf 3 [2, 0, 1] ∧ invPerm [2, 0, 1] = .ok [1, 2, 0] ∧
    applyPerm ["a", "b", "c"] [2, 0, 1] = .ok ["c", "a", "b"] ∧
    permToTheEnd [1, 3] 5 = [0, 2, 4, 1, 3] ∧ extensionPerm [2, 0, 1] 5 = [2, 0, 1, 3, 4] ∧
    partialPerm [3, 1] 4 = .ok [none, some 1, none, some 0] ∧
    permSign [2, 0, 1] = 1 := by
  refine ⟨?_, by decide, by decide, by decide, by decide, by decide, by decide⟩
  unfold IsPermOf; decide

/-! ### C25 -/

/-- C25: `apply_perm_swap` terminates normally on every permutation and moves element `i` to position `perm[i]`. -/
theorem C25_apply_perm_swap (d : α) (data : List α) {p : List Nat} (hp : IsPermOf data.length p) :
    ∃ r, applyPermSwap d data p = .ok r ∧ r.length = data.length ∧ ∀ i x : Nat, p[i]? = some x → r[x]? = data[i]? :=
  applyPermSwap_spec d hp rfl

/-- C25: `apply_iperm_swap` brings element `perm[i]` to position `i`; it agrees with the out-of-place `apply_perm`. -/
theorem C25_apply_iperm_swap (d : α) (data : List α) {p : List Nat} (hp : IsPermOf data.length p) :
    ∃ r, applyIPermSwap d data p = .ok r ∧ r.length = data.length ∧ (∀ i x : Nat, p[i]? = some x → r[i]? = data[x]?) ∧
      applyPerm data p = .ok r := by
  obtain ⟨r, h1, h2, h3⟩ := applyIPermSwap_spec d hp rfl
  obtain ⟨s, b1, b2, b3, b4⟩ := C24_apply_perm data hp
  refine ⟨r, h1, h2, h3, ?_⟩
  rw [b1]; congr 1
  apply List.ext_getElem?
  intro i
  cases hpi : p[i]? with
  | none =>
    have := isPerm_length hp
    have : p.length ≤ i := List.getElem?_eq_none_iff.1 hpi
    rw [List.getElem?_eq_none (by omega), List.getElem?_eq_none (by omega)]
  | some x => rw [b4 i x hpi, h3 i x hpi]

/-- C25: the two in-place permutations undo each other. -/
theorem C25_swap_inverse (d : α) (data : List α) {p : List Nat} (hp : IsPermOf data.length p) :
    ∃ r s, applyPermSwap d data p = .ok r ∧ applyIPermSwap d r p = .ok data ∧
      applyIPermSwap d data p = .ok s ∧ applyPermSwap d s p = .ok data := by
  have hpl := isPerm_length hp
  obtain ⟨r, a1, a2, a3⟩ := applyPermSwap_spec d (data := data) hp rfl
  obtain ⟨r', b1, b2, b3⟩ := applyIPermSwap_spec d (data := r) hp a2
  obtain ⟨s, c1, c2, c3⟩ := applyIPermSwap_spec d (data := data) hp rfl
  obtain ⟨s', d1, d2, d3⟩ := applyPermSwap_spec d (data := s) hp c2
  refine ⟨r, s, a1, ?_, c1, ?_⟩
  · rw [b1]; congr 1
    apply List.ext_getElem?
    intro i
    cases hpi : p[i]? with
    | none =>
      have : p.length ≤ i := List.getElem?_eq_none_iff.1 hpi
      rw [List.getElem?_eq_none (by omega), List.getElem?_eq_none (by omega)]
    | some x => rw [b3 i x hpi, a3 i x hpi]
  · rw [d1]; congr 1
    apply List.ext_getElem?
    intro x
    by_cases hx : x < data.length
    · obtain ⟨i, hi, e⟩ := List.getElem_of_mem ((isPerm_mem hp).2 hx)
      have hpi : p[i]? = some x := by rw [List.getElem?_eq_getElem hi, e]
      rw [d3 i x hpi, c3 i x hpi]
    · rw [List.getElem?_eq_none (by omega), List.getElem?_eq_none (by omega)]

example : IsPermOf 3 [2, 0, 1] ∧ applyPermSwap "" ["a", "b", "c"] [2, 0, 1] = .ok ["b", "c", "a"] ∧
    applyIPermSwap "" ["a", "b", "c"] [2, 0, 1] = .ok ["c", "a", "b"] := by
  refine ⟨?_, by decide, by decide⟩
  unfold IsPermOf; decide

/-! ### C26 -/

/-- C26: the brute-force double loop and the merge-sort based count both return the number of inverted pairs, and the
in-place pass leaves the data sorted. -/
theorem C26_kendall_tau [LinearOrder α] (l : List α) :
    permInversions l = numInversions l ∧ kendallTau l = numInversions l ∧
    (ktInplace l).1.Perm l ∧ (ktInplace l).1.Pairwise (· ≤ ·) := by
  obtain ⟨h1, h2, h3⟩ := ktInplace_spec l
  refine ⟨permInversions_eq_numInversions l, ?_, h1, h2⟩
  unfold kendallTau
  rw [h3, permInversions_eq_numInversions]

/-- C26: the distance of two permutations is the number of pairs of positions of `perm1` whose two elements occur in
the other order in `perm2` (`q` is the position table of `perm2`); it is `0` for equal permutations. -/
theorem C26_kendall_tau_two {n : Nat} {p1 p2 : List Nat} (h1 : IsPermOf n p1) (h2 : IsPermOf n p2) :
    ∃ q t, invPerm p2 = .ok q ∧ (∀ i x : Nat, p2[i]? = some x ↔ q[x]? = some i) ∧
      t.length = n ∧ (∀ i x : Nat, p1[i]? = some x → t[i]? = q[x]?) ∧
      kendallTau2 p1 p2 = .ok (numInversions t) := by
  obtain ⟨q, a1, a2, a3⟩ := invPerm_spec h2
  have hql := isPerm_length a2
  obtain ⟨t, b1, b2, b3⟩ := applyPermPtr_spec q p1 (fun x hx => by rw [hql]; exact (isPerm_mem h1).1 hx)
    (by rw [hql, isPerm_length h1])
  refine ⟨q, t, a1, a3, by rw [b2, hql], b3, ?_⟩
  unfold kendallTau2
  rw [a1]
  show (do let t ← applyPermPtr q p1; pure (ktInplace t).2 : Res Nat) = _
  rw [b1]
  show Except.ok (ktInplace t).2 = _
  rw [(ktInplace_spec t).2.2, permInversions_eq_numInversions]

theorem C26_kendall_tau_self {n : Nat} {p : List Nat} (h : IsPermOf n p) : kendallTau2 p p = .ok 0 := by
  obtain ⟨q, t, h1, h2, h3, h4, h5⟩ := C26_kendall_tau_two h h
  rw [h5]
  have hid : t = List.range n := by
    apply List.ext_getElem?
    intro i
    by_cases hi : i < n
    · have hi' : i < p.length := by rw [isPerm_length h]; exact hi
      have := h4 i _ (List.getElem?_eq_getElem hi')
      rw [this, (h2 i _).1 (List.getElem?_eq_getElem hi'), List.getElem?_range hi]
    · rw [List.getElem?_eq_none (by omega), List.getElem?_eq_none (by simpa using hi)]
  rw [hid, ← permInversions_eq_numInversions]
  congr 1
  have : ∀ l : List Nat, l.Pairwise (· < ·) → permInversions l = 0 := by
    intro l
    induction l with
    | nil => intro _; rfl
    | cons x l ih =>
      intro hl
      unfold permInversions
      rw [ih (List.pairwise_cons.1 hl).2, Nat.add_zero, List.countP_eq_zero]
      intro y hy
      have := (List.pairwise_cons.1 hl).1 y hy
      simp; omega
  exact this _ List.pairwise_lt_range

example : kendallTau [2, 0, 1] = 2 ∧ permInversions [2, 0, 1] = 2 ∧ kendallTau2 [2, 0, 1] [0, 1, 2] = .ok 2 := by
  decide +kernel

end BATS
