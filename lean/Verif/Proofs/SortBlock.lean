import Verif.Model.Simplicial
import Verif.Proofs.Perm
import Mathlib.Data.List.Sublists

set_option linter.unusedSectionVars false
set_option linter.unusedVariables false
set_option linter.unusedSimpArgs false

/-! # Sorting blocks of the face and coefficient vectors; slices of flattened lists -/

namespace BATS

theorem gather_block {α : Type} (b t : List α) (p : List Nat) (hp : p.Perm (List.range b.length)) :
    ∃ r, Perm.applyPermPtr (b ++ t) p = .ok (r ++ t) ∧ r = p.filterMap (fun x => b[x]?) ∧ r.length = b.length := by
  have hl := Perm.isPerm_length hp
  have key : ∀ q : List Nat, (∀ x ∈ q, x < b.length) →
      Perm.gather (b ++ t) q = .ok (q.filterMap (fun x => b[x]?)) ∧ (q.filterMap (fun x => b[x]?)).length = q.length := by
    intro q
    induction q with
    | nil => intro _; exact ⟨rfl, rfl⟩
    | cons x q ih =>
      intro h
      have hx := h x (by simp)
      obtain ⟨h1, h2⟩ := ih (fun y hy => h y (by simp [hy]))
      have hg : b[x]? = some b[x] := List.getElem?_eq_getElem hx
      have hg' : (b ++ t)[x]? = some b[x] := by rw [List.getElem?_append_left hx, hg]
      constructor
      · unfold Perm.gather
        rw [rd_some hg', h1]
        simp [hg, List.filterMap_cons]; rfl
      · simp [List.filterMap_cons, hg, h2]
  obtain ⟨h1, h2⟩ := key p (fun x hx => (Perm.isPerm_mem hp).1 hx)
  refine ⟨_, ?_, rfl, by rw [h2, hl]⟩
  unfold Perm.applyPermPtr
  rw [h1]
  show (if p.length ≤ (b ++ t).length then (pure (_ ++ (b ++ t).drop p.length) : Res _) else .error .ub) = _
  rw [if_pos (by rw [hl]; simp), hl, List.drop_left]; rfl

theorem filterMap_range_getElem? {α : Type} (l : List α) : (List.range l.length).filterMap (fun x => l[x]?) = l := by
  induction l using List.reverseRecOn with
  | nil => rfl
  | append_singleton l a ih =>
    rw [List.length_append, List.length_singleton, List.range_succ, List.filterMap_append]
    congr 1
    · conv_rhs => rw [← ih]
      apply List.filterMap_congr
      intro x hx
      rw [List.getElem?_append_left (List.mem_range.1 hx)]
    · simp

theorem zip_filterMap {α β : Type} (f : List α) (c : List β) (h : f.length = c.length) (q : List Nat) (hq : ∀ x ∈ q, x < f.length) :
    (q.filterMap (fun x => f[x]?)).zip (q.filterMap (fun x => c[x]?)) = q.filterMap (fun x => (f.zip c)[x]?) := by
  induction q with
  | nil => rfl
  | cons x q ih =>
    have hx := hq x (by simp)
    have := ih (fun y hy => hq y (by simp [hy]))
    have h1 : f[x]? = some f[x] := List.getElem?_eq_getElem hx
    have h2 : c[x]? = some c[x] := List.getElem?_eq_getElem (by omega)
    have h3 : (f.zip c)[x]? = some (f[x], c[x]) := by
      rw [List.getElem?_eq_getElem (by simp; omega)]; simp
    simp [List.filterMap_cons, h1, h2, h3, this]

theorem sortBlock_spec (F0 f F1 : List Nat) (C0 c C1 : List Int) (h0 : F0.length = C0.length) (h : f.length = c.length) :
    ∃ f' c', sortBlock F0.length f.length (F0 ++ (f ++ F1)) (C0 ++ (c ++ C1)) = .ok (F0 ++ (f' ++ F1), C0 ++ (c' ++ C1)) ∧
      f'.length = f.length ∧ c'.length = f.length ∧ f'.Pairwise (· ≤ ·) ∧ (f'.zip c').Perm (f.zip c) := by
  have hp := Perm.stableSortperm_perm f
  obtain ⟨f', e1, hf, l1⟩ := gather_block f F1 _ hp
  obtain ⟨c', e2, hc, l2⟩ := gather_block c C1 (Perm.stableSortperm f) (h ▸ hp)
  refine ⟨f', c', ?_, l1, by rw [l2, h], ?_, ?_⟩
  · unfold sortBlock
    rw [if_neg (by simp)]
    have d1 : (F0 ++ (f ++ F1)).drop F0.length = f ++ F1 := List.drop_left
    have d2 : (C0 ++ (c ++ C1)).drop F0.length = c ++ C1 := by rw [h0]; exact List.drop_left
    have d3 : (F0 ++ (f ++ F1)).take F0.length = F0 := List.take_left
    have d4 : (C0 ++ (c ++ C1)).take F0.length = C0 := by rw [h0]; exact List.take_left
    have d5 : (f ++ F1).take f.length = f := List.take_left
    simp only [d1, d2, d3, d4, d5, e1, e2]
    rfl
  · rw [List.pairwise_iff_getElem]
    intro i j hi hj hij
    have hle : (Perm.stableSortperm f).length = f.length := Perm.isPerm_length hp
    have get : ∀ k (hk : k < f'.length), ∃ x, (Perm.stableSortperm f)[k]? = some x ∧ f[x]? = some f'[k] := by
      intro k hk
      have gs := Perm.gather_spec f (Perm.stableSortperm f) (fun x hx => (Perm.isPerm_mem hp).1 hx)
      obtain ⟨r, g1, g2, g3⟩ := gs
      have : r = f' := by
        have := gather_block f [] _ hp
        obtain ⟨r', q1, q2, q3⟩ := this
        unfold Perm.applyPermPtr at q1
        rw [List.append_nil, g1] at q1
        have q1' : (if (Perm.stableSortperm f).length ≤ f.length then (pure (r ++ f.drop (Perm.stableSortperm f).length) : Res _) else .error .ub) = .ok (r' ++ []) := q1
        rw [if_pos (le_of_eq hle), hle, List.drop_length] at q1'
        have := Except.ok.inj q1'
        simp only [List.append_nil] at this
        rw [this, q2, hf]
      subst this
      refine ⟨(Perm.stableSortperm f)[k]'(by omega), List.getElem?_eq_getElem _, ?_⟩
      rw [← g3 k _ (List.getElem?_eq_getElem (by omega)), List.getElem?_eq_getElem hk]
    obtain ⟨x, hx, hx'⟩ := get i hi
    obtain ⟨y, hy, hy'⟩ := get j hj
    obtain ⟨u, v, hu, hv, hlt⟩ := Perm.stableSortperm_sorted f hij hx hy
    rw [hx'] at hu; rw [hy'] at hv
    cases hu; cases hv
    rcases hlt with h | h
    · exact le_of_lt h
    · exact le_of_eq h.1
  · rw [hf, hc, zip_filterMap f c h _ (fun x hx => (Perm.isPerm_mem hp).1 hx)]
    have hz : (f.zip c).length = f.length := by simp [h]
    have := (hp.filterMap (fun x => (f.zip c)[x]?))
    rw [← hz, filterMap_range_getElem?] at this
    exact this

/-! ### slices of a flattened list of blocks of equal length -/

theorem flatten_length_uniform {α : Type} {L : List (List α)} {n : Nat} (h : ∀ l ∈ L, l.length = n) :
    L.flatten.length = n * L.length := by
  induction L with
  | nil => simp
  | cons a L ih =>
    rw [List.flatten_cons, List.length_append, ih (fun l hl => h l (by simp [hl])), h a (by simp), List.length_cons]
    ring

theorem flatten_drop_uniform {α : Type} {L : List (List α)} {n : Nat} (h : ∀ l ∈ L, l.length = n) (i : Nat) :
    L.flatten.drop (n * i) = (L.drop i).flatten := by
  induction i generalizing L with
  | zero => simp
  | succ i ih =>
    cases L with
    | nil => simp
    | cons a L =>
      have ha := h a (by simp)
      rw [List.drop_succ_cons, List.flatten_cons, ← ih (fun l hl => h l (by simp [hl]))]
      rw [show n * (i + 1) = a.length + n * i by rw [ha]; ring, ← List.drop_drop, List.drop_left]

theorem flatten_slice_uniform {α : Type} {L : List (List α)} {n : Nat} (h : ∀ l ∈ L, l.length = n) {i : Nat} {a : List α}
    (hi : L[i]? = some a) : (L.flatten.drop (n * i)).take n = a := by
  rw [flatten_drop_uniform h]
  obtain ⟨hlt, e⟩ := List.getElem?_eq_some_iff.1 hi
  rw [List.drop_eq_getElem_cons hlt, List.flatten_cons, e]
  have := h a (e ▸ List.getElem_mem hlt)
  rw [← this, List.take_left]

end BATS
