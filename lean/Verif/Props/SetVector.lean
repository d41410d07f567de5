import Verif.Proofs.SetVector
import Mathlib.Algebra.Field.Rat
import Mathlib.Data.Finset.Card

set_option linter.unusedSectionVars false
set_option linter.unusedSimpArgs false

/-! # C88: `SetVector` (include/linalg/set_vector.hpp)

`Inc`, `IsVec`, `NoZero` are in `Verif/Spec/SetVector.lean`: the indices increase; the coordinates of the vector are `f`; no explicit zero is stored. -/

namespace BATS
namespace SetVec
variable {F : Type}

theorem isVec_get [Zero F] {L : SetVec F} (h : Inc L) : IsVec L (get L) := by
  induction L with
  | nil => intro i; exact Or.inr ⟨by simp, rfl⟩
  | cons p L ih =>
    obtain ⟨j, v⟩ := p
    have h1 := inc_cons.1 h
    intro i
    rw [get_cons]
    by_cases e : i = j
    · subst e; rw [if_pos rfl]; exact Or.inl (by simp)
    · rw [if_neg e]
      rcases ih h1.2 i with a | ⟨a, b⟩
      · exact Or.inl (List.mem_cons_of_mem _ a)
      · refine Or.inr ⟨?_, b⟩
        intro p hp
        rcases List.mem_cons.1 hp with e' | e'
        · rw [e']; exact fun e2 => e e2.symm
        · exact a p e'

theorem isVec_unique [Zero F] {L : SetVec F} (h : Inc L) {f : Nat → F} (hf : IsVec L f) (i : Nat) : get L i = f i := by
  induction L with
  | nil =>
    rcases hf i with a | ⟨_, b⟩
    · cases a
    · exact b.symm
  | cons p L ih =>
    obtain ⟨j, v⟩ := p
    have h1 := inc_cons.1 h
    rw [get_cons]
    by_cases e : i = j
    · subst e
      rw [if_pos rfl]
      rcases hf i with a | ⟨a, _⟩
      · rcases List.mem_cons.1 a with a | a
        · exact (congrArg Prod.snd a).symm
        · exact absurd (h1.1 _ a) (lt_irrefl _)
      · exact absurd rfl (a (i, v) (by simp))
    · rw [if_neg e]
      have key : ((i, f i) ∈ L ∨ ((∀ p ∈ L, p.1 ≠ i) ∧ f i = 0)) := by
        rcases hf i with a | ⟨a, b⟩
        · rcases List.mem_cons.1 a with a | a
          · exact absurd (congrArg Prod.fst a) e
          · exact Or.inl a
        · exact Or.inr ⟨fun p hp => a p (List.mem_cons_of_mem _ hp), b⟩
      rw [get_eq]
      clear ih hf h
      have h2 := h1.2
      clear h1
      induction L with
      | nil =>
        rcases key with a | ⟨_, b⟩
        · cases a
        · exact b.symm
      | cons q L ih =>
        obtain ⟨k, w⟩ := q
        have h3 := inc_cons.1 h2
        rw [lookup_cons']
        by_cases e' : i = k
        · subst e'
          rw [if_pos rfl]
          rcases key with a | ⟨a, _⟩
          · rcases List.mem_cons.1 a with a | a
            · exact (congrArg Prod.snd a).symm
            · exact absurd (h3.1 _ a) (lt_irrefl _)
          · exact absurd rfl (a (i, w) (by simp))
        · rw [if_neg e']
          refine ih ?_ h3.2
          rcases key with a | ⟨a, b⟩
          · rcases List.mem_cons.1 a with a | a
            · exact absurd (congrArg Prod.fst a) e'
            · exact Or.inl a
          · exact Or.inr ⟨fun p hp => a p (List.mem_cons_of_mem _ hp), b⟩

/-- C88: `get(i)` is the coordinate of index `i` -/
theorem C88_get [Zero F] {L : SetVec F} (h : Inc L) (f : Nat → F) : IsVec L f ↔ ∀ i, get L i = f i := by
  refine ⟨fun hf i => isVec_unique h hf i, fun hf => ?_⟩
  have : get L = f := funext hf
  rw [← this]; exact isVec_get h

/-- C88: the constructor from lists: the coordinate of `i` is the first value listed with index `i`, whatever the order of the list -/
theorem C88_constructor [Zero F] (l : List (Nat × F)) : Inc (ofPairs l) ∧ IsVec (ofPairs l) (fun i => (l.lookup i).getD 0) := by
  obtain ⟨a, b⟩ := ofPairs_aux l (L := []) List.Pairwise.nil
  refine ⟨a, (C88_get a _).2 fun i => ?_⟩
  rw [get_eq]
  refine (congrArg (fun o : Option F => o.getD 0) (b i)).trans ?_
  simp

/-- C88: `SetVector(i)` is the unit vector -/
theorem C88_single [Zero F] [One F] (i : Nat) : Inc (single i : SetVec F) ∧ IsVec (single i) (fun k => if k = i then (1 : F) else 0) := by
  have h : Inc (single i : SetVec F) := by simp [single, Inc]
  refine ⟨h, (C88_get h _).2 fun k => ?_⟩
  unfold single
  rw [get_cons]; rfl

/-- C88: `set(i, v)` changes the coordinate `i` to `v` and no other -/
theorem C88_set [Zero F] {L : SetVec F} (h : Inc L) {f : Nat → F} (hf : IsVec L f) (i : Nat) (v : F) :
    Inc (set (i, v) L) ∧ IsVec (set (i, v) L) (fun k => if k = i then v else f k) := by
  obtain ⟨a, b⟩ := set_spec (p := (i, v)) h
  refine ⟨a, (C88_get a _).2 fun k => ?_⟩
  rw [get_eq, b]
  by_cases e : k = i
  · subst e; simp
  · rw [if_neg e, if_neg e, ← get_eq]; exact (C88_get h f).1 hf k

/-- C88: `permute(perm)` with distinct entries, for a vector whose indices are below the length of `perm`, moves the coordinate `i` to `perm[i]` -/
theorem C88_permute [Zero F] {L : SetVec F} (h : Inc L) {f : Nat → F} (hf : IsVec L f) {perm : List Nat} (hp : perm.Nodup) (hb : ∀ q ∈ L, q.1 < perm.length) :
    ∃ M, permute perm L = .ok M ∧ Inc M ∧ (∀ i (hi : i < perm.length), get M perm[i] = f i) ∧ ∀ k, k ∉ perm → get M k = 0 := by
  obtain ⟨M, m1, m2, m3⟩ := permuteLoop_spec perm hp L (new := []) h List.Pairwise.nil hb
  refine ⟨M, m1, m2, ?_, ?_⟩
  · intro i hi
    rw [get_eq, m3 i hi, ← (C88_get h f).1 hf i, get_eq]; simp
  · intro k hk
    rw [get_eq, permuteLoop_other perm L (List.Pairwise.nil : Inc ([] : SetVec F)) m1 k hk]; rfl

/-- C88: if an index of the vector is not below the length of `perm`, `permute` reads outside of `perm` -/
theorem C88_permute_ub {L : SetVec F} {perm : List Nat} (h : ∃ q ∈ L, perm.length ≤ q.1) : permute perm L = .error .ub := permuteLoop_ub perm L h

/-- C88: `lastnz()` is the stored pair with the largest index; for the empty vector it is undefined behaviour -/
theorem C88_lastnz {L : SetVec F} (h : Inc L) : (L = [] ∧ lastnz L = .error .ub) ∨ ∃ p ∈ L, lastnz L = .ok p ∧ ∀ q ∈ L, q.1 ≤ p.1 := by
  rcases List.eq_nil_or_concat L with e | ⟨K, p, e⟩
  · exact Or.inl ⟨e, by rw [e]; rfl⟩
  · refine Or.inr ⟨p, by rw [e]; simp, by rw [e]; simp [lastnz], ?_⟩
    intro q hq
    rw [e, List.concat_eq_append] at hq
    unfold Inc at h
    rw [e, List.concat_eq_append, List.pairwise_append] at h
    rcases List.mem_append.1 hq with hq | hq
    · exact (h.2.2 q hq p (by simp)).le
    · rw [List.mem_singleton] at hq; rw [hq]

variable [Field F] [DecidableEq F]

/-- C88: `axpy(a, x)` adds `a` times `x`; if `a` is not zero and no explicit zeros are stored before, none are stored after -/
theorem C88_axpy {L x : SetVec F} (hL : Inc L) (hx : Inc x) {f g : Nat → F} (hf : IsVec L f) (hg : IsVec x g) (a : F) :
    Inc (axpy a x L) ∧ IsVec (axpy a x L) (fun i => f i + a * g i) ∧ (a ≠ 0 → NoZero L → NoZero x → NoZero (axpy a x L)) := by
  obtain ⟨a1, a2, _, a4⟩ := axpyLoop_spec a L x hL hx
  refine ⟨a1, (C88_get a1 _).2 fun i => ?_, a4⟩
  rw [← (C88_get hL f).1 hf i, ← (C88_get hx g).1 hg i]
  exact a2 i

/-- C88: without explicit zeros `operator==` is equality of vectors and `nnz()` counts the coordinates that are not zero -/
theorem C88_eq {L M : SetVec F} (hL : Inc L) (hM : Inc M) (zL : NoZero L) (zM : NoZero M) {f g : Nat → F} (hf : IsVec L f) (hg : IsVec M g) :
    (eq L M = true ↔ f = g) ∧ ∀ S : Finset Nat, (∀ i, i ∈ S ↔ f i ≠ 0) → nnz L = S.card := by
  constructor
  · rw [eq_spec]
    constructor
    · intro e
      funext i
      rw [← (C88_get hL f).1 hf i, ← (C88_get hM g).1 hg i, e]
    · intro e
      refine ext_of_get hL hM zL zM fun i => ?_
      rw [(C88_get hL f).1 hf i, (C88_get hM g).1 hg i, e]
  · intro S hS
    have hn : (L.map Prod.fst).Nodup := by
      rw [List.nodup_iff_pairwise_ne, List.pairwise_map]
      exact hL.imp (fun h => Nat.ne_of_lt h)
    have : S = (L.map Prod.fst).toFinset := by
      ext i
      rw [hS, List.mem_toFinset, mem_keys, ← (C88_get hL f).1 hf i, get_eq]
      rcases e : L.lookup i with _ | v
      · simp
      · simp only [Option.getD_some, ne_eq, reduceCtorEq, not_false_iff, iff_true]
        have hv : get L i = v := by rw [get_eq, e]; rfl
        rcases isVec_get hL i with h | ⟨h, _⟩
        · rw [hv] at h; exact zL _ h
        · exfalso
          have hk := (mem_keys i L).2 (by rw [e]; simp)
          obtain ⟨p, hp, hp2⟩ := List.mem_map.1 hk
          exact h p hp hp2
    rw [this, List.toFinset_card_of_nodup hn]
    simp [nnz]

/-- C88: after every history of allowed calls whose permutations are long enough (all calls succeed) the indices increase and the coordinates are those the
calls give, one after the other -/
theorem C88_history (ops : List (Op F)) (ho : ∀ o ∈ ops, o.Ok) {L M : SetVec F} (hL : Inc L) {f : Nat → F} (hf : IsVec L f) (h : ops.foldlM Op.run L = .ok M) :
    Inc M ∧ ∃ f', IsVec M f' ∧ Runs f ops f' := by
  induction ops generalizing L f with
  | nil => cases h; exact ⟨hL, f, hf, .nil f⟩
  | cons o ops ih =>
    have step : ∀ {K : SetVec F}, o.run L = .ok K → Inc K ∧ ∃ f', IsVec K f' ∧ o.Means f f' := by
      intro K hK
      have hok := ho o (by simp)
      cases o with
      | set i v =>
        cases hK
        obtain ⟨a, b⟩ := C88_set hL hf i v
        exact ⟨a, _, b, fun _ => rfl⟩
      | axpy c x =>
        cases hK
        obtain ⟨a, b, _⟩ := C88_axpy hL (show Inc x from hok) hf (isVec_get hok) c
        exact ⟨a, _, b, ⟨get x, isVec_get hok, fun _ => rfl⟩⟩
      | permute perm =>
        have hb : ∀ q ∈ L, q.1 < perm.length := by
          intro q hq
          by_contra hc
          have : SetVec.permute perm L = .error .ub := C88_permute_ub ⟨q, hq, not_lt.1 hc⟩
          have hK' : SetVec.permute perm L = .ok K := hK
          rw [this] at hK'; cases hK'
        obtain ⟨K', a, b, c, d⟩ := C88_permute hL hf (show perm.Nodup from hok) hb
        have hK' : SetVec.permute perm L = .ok K := hK
        rw [a] at hK'; cases hK'
        exact ⟨b, get K, isVec_get b, c, d⟩
    rw [List.foldlM_cons] at h
    rcases hr : o.run L with e | K
    · rw [hr] at h; cases h
    · rw [hr] at h
      obtain ⟨k1, f1, k2, k3⟩ := step hr
      obtain ⟨a, f2, b, c⟩ := ih (fun o ho' => ho o (by simp [ho'])) k1 k2 h
      exact ⟨a, f2, b, .cons k3 c⟩

theorem dropWhile_inc {L : SetVec F} (h : Inc L) (m : Nat) : Inc (L.dropWhile (fun q => decide (q.1 < m))) := h.sublist (List.dropWhile_sublist _)

theorem dropWhile_lookup {L : SetVec F} (h : Inc L) (m i : Nat) :
    (L.dropWhile (fun q => decide (q.1 < m))).lookup i = if i < m then none else L.lookup i := by
  induction L with
  | nil => simp
  | cons p L ih =>
    obtain ⟨j, v⟩ := p
    have h1 := inc_cons.1 h
    rw [List.dropWhile_cons]
    by_cases hj : j < m
    · rw [if_pos (by simpa using hj), ih h1.2, lookup_cons']
      by_cases e : i < m
      · rw [if_pos e, if_pos e]
      · rw [if_neg e, if_neg e, if_neg (by omega)]
    · rw [if_neg (by simpa using hj)]
      by_cases e : i < m
      · rw [if_pos e, lookup_lt_cons h (by omega)]
      · rw [if_neg e]

theorem takeWhile_lookup {L : SetVec F} (h : Inc L) (m i : Nat) :
    (L.takeWhile (fun q => decide (q.1 < m))).lookup i = if i < m then L.lookup i else none := by
  induction L with
  | nil => simp
  | cons p L ih =>
    obtain ⟨j, v⟩ := p
    have h1 := inc_cons.1 h
    rw [List.takeWhile_cons]
    by_cases hj : j < m
    · rw [if_pos (by simpa using hj), lookup_cons', ih h1.2, lookup_cons']
      by_cases e : i = j
      · subst e; rw [if_pos rfl, if_pos rfl, if_pos hj]
      · rw [if_neg e, if_neg e]
    · rw [if_neg (by simpa using hj)]
      by_cases e : i < m
      · rw [if_pos e, lookup_lt_cons h (by omega)]; rfl
      · rw [if_neg e]; rfl

theorem mem_dropWhile {L : SetVec F} (h : Inc L) (m : Nat) {p : Nat × F} (hp : p ∈ L) (hm : m ≤ p.1) : p ∈ L.dropWhile (fun q => decide (q.1 < m)) := by
  induction L with
  | nil => cases hp
  | cons q L ih =>
    rw [List.dropWhile_cons]
    split
    · rename_i hq
      rw [decide_eq_true_iff] at hq
      rcases List.mem_cons.1 hp with e | e
      · rw [e] at hm; omega
      · exact ih (inc_cons.1 h).2 e
    · exact hp

theorem dropWhile_ge {L : SetVec F} (h : Inc L) (m : Nat) {p : Nat × F} (hp : p ∈ L.dropWhile (fun q => decide (q.1 < m))) : m ≤ p.1 := by
  induction L with
  | nil => cases hp
  | cons q L ih =>
    rw [List.dropWhile_cons] at hp
    split at hp
    · exact ih (inc_cons.1 h).2 hp
    · rename_i hq
      rw [decide_eq_true_iff] at hq
      rcases List.mem_cons.1 hp with e | e
      · rw [e]; omega
      · have := (inc_cons.1 h).1 p e
        omega

/-- C88: what `axpy(a, x, first, last)` does if `x` has entries in the range and both vectors have entries from `last` on: `a` times the part of `x` in the
range is added, and in addition the entries of `a` times `x` from `last` on are stored wherever the vector had no entry -/
theorem C88_window {L x : SetVec F} (hL : Inc L) (hx : Inc x) {f g : Nat → F} (hf : IsVec L f) (hg : IsVec x g) (a : F) {first last : Nat}
    (h1 : ∃ p ∈ x, first ≤ p.1 ∧ p.1 < last) (h2 : ∃ p ∈ x, last ≤ p.1) (h3 : ∃ p ∈ L, last ≤ p.1) :
    ∃ M, axpyWin a x first last L = .ok M ∧ Inc M ∧ (∀ i, i < first → get M i = f i) ∧ (∀ i, first ≤ i → i < last → get M i = f i + a * g i) ∧
      ∀ i, last ≤ i → get M i = if ∃ p ∈ L, p.1 = i then f i else a * g i := by
  obtain ⟨p1, b1, b2, b3⟩ := h1
  obtain ⟨p2, c1, c2⟩ := h2
  obtain ⟨p3, d1, d2⟩ := h3
  have hfl : first < last := lt_of_le_of_lt b2 b3
  have hx' := dropWhile_inc hx first
  obtain ⟨M, m1, m2, m3, m4⟩ := winLoop_spec a last _ _ (dropWhile_inc hL first) hx' ⟨p1, mem_dropWhile hx first b1 b2, b3⟩
    ⟨p2, mem_dropWhile hx first c1 (by omega), c2⟩ ⟨p3, mem_dropWhile hL first d1 (by omega), d2⟩
  have hM : ∀ q ∈ M, first ≤ q.1 := by
    intro q hq
    rcases m3 q hq with ⟨p, e1, e2⟩ | ⟨p, e1, e2⟩
    · rw [← e2]; exact dropWhile_ge hL first e1
    · rw [← e2]; exact dropWhile_ge hx first e1
  have hT : ∀ q ∈ L.takeWhile (fun q => decide (q.1 < first)), q.1 < first := fun q hq => by simpa using List.mem_takeWhile_imp hq
  have happ : ∀ i, get (L.takeWhile (fun q => decide (q.1 < first)) ++ M) i = if i < first then f i else get M i := by
    intro i
    rw [get_eq, List.lookup_append, takeWhile_lookup hL]
    by_cases e : i < first
    · rw [if_pos e, if_pos e, lookup_none (L := M) (fun q hq => by have := hM q hq; omega), ← (C88_get hL f).1 hf i, get_eq]
      simp
    · rw [if_neg e, if_neg e, get_eq]; simp
  refine ⟨L.takeWhile (fun q => decide (q.1 < first)) ++ M, ?_, ?_, ?_, ?_, ?_⟩
  · unfold axpyWin
    rcases hd : x.dropWhile (fun q => decide (q.1 < first)) with _ | ⟨⟨j, v⟩, s⟩
    · have := mem_dropWhile hx first b1 b2
      rw [hd] at this; cases this
    · rw [hd] at m1 hx'
      have hj : j < last := by
        have hm := mem_dropWhile hx first b1 b2
        rw [hd] at hm
        rcases List.mem_cons.1 hm with e | e
        · rw [e] at b3; exact b3
        · exact lt_trans ((inc_cons.1 hx').1 p1 e) b3
      rw [hd]
      simp only []
      rw [if_neg (not_not.2 hj), m1]
      rfl
  · unfold Inc
    rw [List.pairwise_append]
    refine ⟨hL.sublist (List.takeWhile_sublist _), m2, fun q hq q' hq' => ?_⟩
    have := hT q hq
    have := hM q' hq'
    omega
  · intro i hi
    rw [happ, if_pos hi]
  · intro i hi hi2
    rw [happ, if_neg (by omega), m4]
    unfold winVal
    rw [if_pos hi2, dropWhile_lookup hL, dropWhile_lookup hx, if_neg (by omega), if_neg (by omega), ← get_eq, ← get_eq, (C88_get hL f).1 hf i, (C88_get hx g).1 hg i]
  · intro i hi
    rw [happ, if_neg (by omega), m4]
    unfold winVal
    rw [if_neg (by omega), dropWhile_lookup hL, dropWhile_lookup hx, if_neg (by omega), if_neg (by omega), ← (C88_get hL f).1 hf i, ← (C88_get hx g).1 hg i,
      get_eq, get_eq]
    have hk : (∃ p ∈ L, p.1 = i) ↔ L.lookup i ≠ none := by rw [← mem_keys, List.mem_map]
    rcases e : L.lookup i with _ | v
    · rw [if_neg (by rw [hk, e]; simp)]
      cases x.lookup i <;> simp
    · rw [if_pos (by rw [hk, e]; simp)]
      simp

/-- C88: if `x` has no entry from `first` on, `axpy(a, x, first, last)` reads the end of `x` -/
theorem C88_window_end {L x : SetVec F} (a : F) {first last : Nat} (h : ∀ p ∈ x, p.1 < first) : axpyWin a x first last L = .error .ub := by
  unfold axpyWin
  have : x.dropWhile (fun q => decide (q.1 < first)) = [] := by
    rw [List.dropWhile_eq_nil_iff]
    intro p hp
    simpa using h p hp
  rw [this]

theorem head_mem_first {x : SetVec F} (hx : Inc x) {first : Nat} (h1 : ∃ p ∈ x, first ≤ p.1) :
    ∃ j v s, x.dropWhile (fun q => decide (q.1 < first)) = (j, v) :: s ∧ (j, v) ∈ x ∧ first ≤ j := by
  obtain ⟨p, hp, hp2⟩ := h1
  have hm := mem_dropWhile hx first hp hp2
  rcases hd : x.dropWhile (fun q => decide (q.1 < first)) with _ | ⟨⟨j, v⟩, s⟩
  · rw [hd] at hm; cases hm
  · refine ⟨j, v, s, hd, ?_, ?_⟩
    · exact (List.dropWhile_sublist _).subset (by rw [hd]; simp)
    · exact dropWhile_ge hx first (p := (j, v)) (by rw [hd]; simp)

/-- C88: if `x` has entries from `first` on but none of them is in the range, `axpy(a, x, first, last)` changes nothing -/
theorem C88_window_none {L x : SetVec F} (hx : Inc x) (a : F) {first last : Nat} (h1 : ∃ p ∈ x, first ≤ p.1) (h2 : ∀ p ∈ x, first ≤ p.1 → last ≤ p.1) :
    axpyWin a x first last L = .ok L := by
  obtain ⟨j, v, s, e, hm, hj⟩ := head_mem_first hx h1
  unfold axpyWin
  rw [e]
  exact if_pos (not_lt.2 (h2 _ hm hj))

/-- finding, in general: if the vector has no entry from `first` on, `axpy(a, x, first, last)` changes nothing, whatever entries of `x` are in the range -/
theorem C88_window_dropped {L x : SetVec F} (hx : Inc x) (a : F) {first last : Nat} (h1 : ∃ p ∈ x, first ≤ p.1) (h2 : ∀ p ∈ L, p.1 < first) :
    axpyWin a x first last L = .ok L := by
  obtain ⟨j, v, s, e, hm, hj⟩ := head_mem_first hx h1
  unfold axpyWin
  rw [e]
  simp only []
  split
  · rfl
  · rename_i hl
    have hd : L.dropWhile (fun q => decide (q.1 < first)) = [] := by
      rw [List.dropWhile_eq_nil_iff]
      intro p hp
      simpa using h2 p hp
    have ht : L.takeWhile (fun q => decide (q.1 < first)) = L := by
      rw [List.takeWhile_eq_self_iff]
      intro p hp
      simpa using h2 p hp
    rw [hd, ht, winLoop, List.takeWhile_cons, if_neg (by simpa using hl)]
    show Except.ok (L ++ []) = _
    rw [List.append_nil]

/-- findings: `axpy(0, x)` stores explicit zeros, so that `==` and `nnz` are wrong -/
theorem C88_axpy_zero : axpy (0 : ℚ) [(2, 5)] [(0, 1)] = [(0, 1), (2, 0)] ∧ eq (axpy (0 : ℚ) [(2, 5)] [(0, 1)]) [(0, 1)] = false := by decide +kernel

/-- findings about `axpy(a, x, first, last)`: an entry of `x` outside of the range is stored; an entry in the range is dropped if the vector ends before it; the
end of `x` is read if `x` ends in the range -/
theorem C88_window_wrong : axpyWin (1 : ℚ) [(1, 5), (7, 3)] 0 4 [(1, 1), (9, 1)] = .ok [(1, 6), (7, 3), (9, 1)] ∧
    axpyWin (1 : ℚ) [(3, 5), (7, 3)] 0 4 [(0, 1)] = .ok [(0, 1)] ∧ axpyWin (1 : ℚ) [(3, 5)] 0 4 [(3, 1)] = .error .ub := by decide +kernel

/-! ### examples -/

example : ofPairs [(3, (2 : ℚ)), (1, 4), (3, 7)] = [(1, 4), (3, 2)] := by decide +kernel
example : permute [2, 0, 3, 1] [(1, (4 : ℚ)), (3, 2)] = .ok [(0, 4), (1, 2)] := by decide +kernel
example : axpy (2 : ℚ) [(0, 1), (3, -1), (5, 1)] [(1, 4), (3, 2)] = [(0, 2), (1, 4), (5, 2)] := by decide +kernel
/-- a history whose calls all succeed -/
example : [Op.axpy (2 : ℚ) [(0, 1), (2, 3)], .permute [2, 0, 1], .set 1 7].foldlM Op.run (ofPairs [(2, (1 : ℚ)), (1, 4)]) = .ok [(0, 4), (1, 7), (2, 2)] := by decide +kernel

/-- the hypotheses of `C88_window` are met -/
example : ∃ M : SetVec ℚ, axpyWin 2 [(0, 1), (3, -1), (5, 1)] 2 5 [(1, 4), (3, 3), (5, 7)] = .ok M ∧ get M 1 = 4 ∧ get M 3 = 1 ∧ get M 5 = 7 := by
  obtain ⟨M, h, _, h1, h2, h3⟩ := C88_window (L := [(1, (4 : ℚ)), (3, 3), (5, 7)]) (x := [(0, 1), (3, -1), (5, 1)]) (by simp [Inc]) (by simp [Inc])
    (isVec_get (by simp [Inc])) (isVec_get (by simp [Inc])) 2 (first := 2) (last := 5) ⟨(3, -1), by simp, by simp⟩ ⟨(5, 1), by simp, by simp⟩ ⟨(5, 7), by simp, by simp⟩
  refine ⟨M, h, ?_, ?_, ?_⟩
  · rw [h1 1 (by omega)]; decide +kernel
  · rw [h2 3 (by omega) (by omega)]; decide +kernel
  · rw [h3 5 (by omega), if_pos ⟨(5, 7), by simp, rfl⟩]; decide +kernel

end SetVec
end BATS
