import Verif.Spec.Pairing
import Verif.Proofs.UnionFind
import Mathlib.Data.List.GetD

set_option linter.unusedSectionVars false
set_option linter.unusedVariables false
set_option linter.unusedSimpArgs false

/-! # Pairings: proofs -/

namespace BATS
namespace MPair
open Classical
open UF (Forest below)

/-! ### find_parent -/

theorem findParent_aux {N : Nat} {ρ : Nat → Nat} {p : List Nat} (h : Forest N p ρ) {r : Nat → Nat} (hr : ∀ i x : Nat, p[i]? = some x → x ≠ i → r x < r i) :
    ∀ (f i : Nat), i < N → below N r i < f → ∃ p', findParent f p i = .ok (p', ρ i) ∧ Forest N p' ρ := by
  intro f
  induction f with
  | zero => intro i _ h; omega
  | succ f ih =>
    intro i hi hb
    obtain ⟨x, hx, hxN⟩ := h.get hi
    rw [findParent, rd_some hx, bind_ok]
    by_cases he : i = x
    · rw [if_neg (by simpa using he)]
      have : ρ i = i := (h.root i x hx).2 he.symm
      exact ⟨p, by rw [this, ← he]; rfl, h⟩
    · rw [if_pos he]
      have hlt := UF.below_lt hxN (hr i x hx (fun e => he e.symm))
      obtain ⟨p', e1, e2⟩ := ih x hxN (by omega)
      have hs : ρ x = ρ i := h.step i x hx
      have hne : ρ i ≠ i := fun e => he ((h.root i x hx).1 e).symm
      rw [e1, bind_ok, hs]
      show ∃ q, (wr p' i (ρ i) >>= _) = _ ∧ _
      rw [wr, if_pos (by rw [e2.len]; exact hi), bind_ok]
      exact ⟨_, rfl, e2.redirect hi hne⟩

theorem findParent_spec {N : Nat} {ρ : Nat → Nat} {p : List Nat} (h : Forest N p ρ) {i : Nat} (hi : i < N) :
    ∃ p', findParent p.length p i = .ok (p', ρ i) ∧ Forest N p' ρ := by
  obtain ⟨r, hr⟩ := h.rank
  exact findParent_aux h hr _ i hi (by rw [h.len]; exact UF.below_bound hi)

/-! ### the lists -/

theorem set_range {A : Type} {n k : Nat} {f g : Nat → A} {v : A} (hv : g k = v) (ho : ∀ x, x ≠ k → f x = g x) :
    ((List.range n).map f).set k v = (List.range n).map g := by
  apply List.ext_getElem
  · simp
  · intro i h1 h2
    rw [List.getElem_set]
    simp only [List.getElem_map, List.getElem_range]
    by_cases hk : k = i
    · rw [if_pos hk, ← hk, hv]
    · rw [if_neg hk, ho i (fun e => hk e.symm)]

theorem rd_range {A : Type} {n k : Nat} {f : Nat → A} (h : k < n) : rd ((List.range n).map f) k = .ok (f k) := by
  apply rd_some
  rw [List.getElem?_eq_getElem (by simpa using h)]
  simp

theorem wr_range {A : Type} {n k : Nat} {f : Nat → A} {v : A} (g : Nat → A) (h : k < n) (hv : g k = v) (ho : ∀ x, x ≠ k → f x = g x) :
    wr ((List.range n).map f) k v = .ok ((List.range n).map g) := by
  rw [wr, if_pos (by simpa using h), set_range hv ho]

def upOf (ps : List (Nat × Nat × Nat)) (d : Nat) : List Nat := (ps.filter fun p => p.1 = d).map fun p => p.2.1
def downOf (ps : List (Nat × Nat × Nat)) (d : Nat) : List Nat := (ps.filter fun p => p.1 = d).map fun p => p.2.2
noncomputable def flags (nc : List Nat) (ps : List (Nat × Nat × Nat)) (d : Nat) : List Bool := (List.range (nc.getD d 0)).map fun i => decide (Paired ps d i)

/-- the pairing of sizes `nc` with the pairs `ps` -/
noncomputable def form (nc : List Nat) (ps : List (Nat × Nat × Nat)) (par : List Nat) : MPair :=
  ⟨(List.range nc.length).map (flags nc ps), (List.range nc.length).map (upOf ps), (List.range (nc.length - 1)).map (downOf ps), nc.length - 1, par⟩

theorem paired_append (ps : List (Nat × Nat × Nat)) (d i j d' x : Nat) :
    Paired (ps ++ [(d, i, j)]) d' x ↔ Paired ps d' x ∨ (d = d' ∧ i = x) ∨ (d + 1 = d' ∧ j = x) := by
  unfold Paired
  constructor
  · rintro ⟨p, hp, h⟩
    rcases List.mem_append.1 hp with hp | hp
    · exact Or.inl ⟨p, hp, h⟩
    · rw [List.mem_singleton] at hp
      subst hp
      exact Or.inr h
  · rintro (⟨p, hp, h⟩ | h)
    · exact ⟨p, List.mem_append_left _ hp, h⟩
    · exact ⟨_, List.mem_append_right _ (List.mem_singleton.2 rfl), h⟩

theorem setPairUnsafe_form {nc : List Nat} {ps : List (Nat × Nat × Nat)} {par : List Nat} {d i j : Nat} (hd : d + 1 < nc.length) (hi : i < nc.getD d 0)
    (hj : j < nc.getD (d + 1) 0) : (form nc ps par).setPairUnsafe d i j = .ok (form nc (ps ++ [(d, i, j)]) par, true) := by
  have hup : ∀ x, upOf (ps ++ [(d, i, j)]) x = if d = x then upOf ps x ++ [i] else upOf ps x := by
    intro x
    by_cases h : d = x <;> simp [upOf, List.filter_append, List.filter_cons, h]
  have hdn : ∀ x, downOf (ps ++ [(d, i, j)]) x = if d = x then downOf ps x ++ [j] else downOf ps x := by
    intro x
    by_cases h : d = x <;> simp [downOf, List.filter_append, List.filter_cons, h]
  let mid : Nat → List Bool := fun d' => (List.range (nc.getD d' 0)).map fun x => decide (Paired ps d' x ∨ (d = d' ∧ i = x))
  have hmid : ∀ x, x ≠ d → flags nc ps x = mid x := by
    intro x hx
    apply List.map_congr_left
    intro y _
    congr 1
    apply propext
    exact ⟨Or.inl, fun h => h.resolve_right (fun q => hx q.1.symm)⟩
  have hfin : ∀ x, x ≠ d + 1 → mid x = flags nc (ps ++ [(d, i, j)]) x := by
    intro x hx
    apply List.map_congr_left
    intro y _
    congr 1
    apply propext
    rw [paired_append]
    constructor
    · rintro (h | h)
      · exact Or.inl h
      · exact Or.inr (Or.inl h)
    · rintro (h | h | h)
      · exact Or.inl h
      · exact Or.inr h
      · exact absurd h.1.symm hx
  unfold setPairUnsafe
  show (rd ((List.range nc.length).map (upOf ps)) d >>= _) = _
  rw [rd_range (by omega), bind_ok]
  show (wr ((List.range nc.length).map (upOf ps)) d _ >>= _) = _
  rw [wr_range (upOf (ps ++ [(d, i, j)])) (by omega) (by rw [hup, if_pos rfl]) (fun x hx => by rw [hup, if_neg (fun e => hx e.symm)]), bind_ok]
  show (rd ((List.range (nc.length - 1)).map (downOf ps)) d >>= _) = _
  rw [rd_range (by omega), bind_ok]
  show (wr ((List.range (nc.length - 1)).map (downOf ps)) d _ >>= _) = _
  rw [wr_range (downOf (ps ++ [(d, i, j)])) (by omega) (by rw [hdn, if_pos rfl]) (fun x hx => by rw [hdn, if_neg (fun e => hx e.symm)]), bind_ok]
  show (rd ((List.range nc.length).map (flags nc ps)) d >>= _) = _
  rw [rd_range (by omega), bind_ok]
  unfold flags at *
  rw [wr_range (fun x => decide (Paired ps d x ∨ (d = d ∧ i = x))) hi (by simp) (fun x hx => by
    congr 1; apply propext
    exact ⟨Or.inl, fun h => h.resolve_right (fun q => hx q.2.symm)⟩), bind_ok]
  show (wr ((List.range nc.length).map fun d' => (List.range (nc.getD d' 0)).map fun i => decide (Paired ps d' i)) d _ >>= _) = _
  rw [wr_range mid (by omega) rfl hmid, bind_ok, rd_range hd, bind_ok]
  show (wr ((List.range (nc.getD (d + 1) 0)).map fun x => decide (Paired ps (d + 1) x ∨ (d = d + 1 ∧ i = x))) j true >>= _) = _
  rw [wr_range (fun x => decide (Paired (ps ++ [(d, i, j)]) (d + 1) x)) hj (by rw [decide_eq_true_iff, paired_append]; exact Or.inr (Or.inr ⟨rfl, rfl⟩)) (fun x hx => by
    congr 1; apply propext
    rw [paired_append]
    constructor
    · rintro (h | h)
      · exact Or.inl h
      · exact Or.inr (Or.inl h)
    · rintro (h | h | h)
      · exact Or.inl h
      · exact Or.inr h
      · exact absurd h.2.symm hx), bind_ok, wr_range (fun d' => (List.range (nc.getD d' 0)).map fun x => decide (Paired (ps ++ [(d, i, j)]) d' x)) hd rfl hfin, bind_ok]
  rfl

theorem setPair_form {nc : List Nat} {ps : List (Nat × Nat × Nat)} {par : List Nat} {d i j : Nat} (hd : d + 1 < nc.length) (hi : i < nc.getD d 0)
    (hj : j < nc.getD (d + 1) 0) : (form nc ps par).setPair d i j =
      if Paired ps d i ∨ Paired ps (d + 1) j then .ok (form nc ps par, false) else .ok (form nc (ps ++ [(d, i, j)]) par, true) := by
  unfold setPair
  show (rd ((List.range nc.length).map (flags nc ps)) d >>= _) = _
  rw [rd_range (by omega), bind_ok]
  unfold flags
  rw [rd_range hi, bind_ok]
  by_cases h1 : Paired ps d i
  · rw [if_pos (by simpa using h1), if_pos (Or.inl h1)]; rfl
  · rw [if_neg (by simpa using h1)]
    show (rd ((List.range nc.length).map (flags nc ps)) (d + 1) >>= _) = _
    rw [rd_range hd, bind_ok]
    unfold flags
    rw [rd_range hj, bind_ok]
    by_cases h2 : Paired ps (d + 1) j
    · rw [if_pos (by simpa using h2), if_pos (Or.inr h2)]; rfl
    · rw [if_neg (by simpa using h2), if_neg (by rintro (h | h); exact h1 h; exact h2 h)]
      exact setPairUnsafe_form hd hi hj

theorem clear_form (nc : List Nat) (ps : List (Nat × Nat × Nat)) (par : List Nat) : (form nc ps par).clear = form nc [] par := by
  unfold clear form
  simp only [List.map_map, MPair.mk.injEq, and_true, true_and]
  refine ⟨?_, ?_, ?_⟩
  · apply List.map_congr_left
    intro d _
    show List.replicate (flags nc ps d).length false = flags nc [] d
    unfold flags
    rw [List.length_map, List.length_range]
    apply List.ext_getElem
    · simp
    · intro i _ _
      simp [Paired]
  · apply List.map_congr_left
    intro d _
    simp [upOf]
  · apply List.map_congr_left
    intro d _
    simp [downOf]

/-! ### the constructor -/

theorem grow_range {A : Type} (n : Nat) (f : Nat → A) {a : A} (h : f n = a) : grow ((List.range n).map f) (n + 1) a = (List.range (n + 1)).map f := by
  unfold grow
  rw [List.length_map, List.length_range, show n + 1 - n = 1 by omega, List.range_succ, List.map_append]
  simp [h]

theorem ofSizes_form : ∀ (rest done : List Nat) (par : List Nat), done.length ≠ 0 → (done ≠ [] → par = List.range (done.getD 0 0)) →
    ofSizes (form done [] par) rest done.length = form (done ++ rest) [] par
  | [], done, par, h0, h => by rw [ofSizes, List.append_nil]
  | n :: rest, done, par, h0, h => by
    have hstep : (form done [] par).reserveN done.length n = form (done ++ [n]) [] par := by
      have hfl : ∀ d, d < done.length → flags (done ++ [n]) [] d = flags done [] d := by
        intro d hd
        unfold flags
        rw [List.getD_append _ _ _ _ hd]
      have hg : grow ((List.range done.length).map (flags done [])) (done.length + 1) [] = (List.range done.length).map (flags done []) ++ [[]] := by
        unfold grow
        rw [List.length_map, List.length_range, show done.length + 1 - done.length = 1 by omega]; rfl
      unfold reserveN reserve form
      simp only [MPair.mk.injEq]
      refine ⟨?_, ?_, ?_, ?_, ?_⟩
      · rw [hg, List.modify_eq_set_getElem?]
        have : ((List.range done.length).map (flags done []) ++ [[]])[done.length]? = some ([] : List Bool) := by
          rw [List.getElem?_append_right (by simp)]; simp
        rw [this]
        show ((List.range done.length).map (flags done []) ++ [[]]).set done.length (grow [] n false) = _
        have e : grow ([] : List Bool) n false = flags (done ++ [n]) [] done.length := by
          unfold grow flags
          have : (done ++ [n]).getD done.length 0 = n := by simp [List.getD_eq_getElem?_getD]
          rw [this]
          apply List.ext_getElem
          · simp
          · intro i _ _; simp [Paired]
        rw [e, List.length_append, List.length_singleton, List.range_succ, List.map_append, List.set_append_right _ _ (by simp)]
        simp only [List.length_map, List.length_range, Nat.sub_self, List.set_cons_zero, List.map_cons, List.map_nil]
        congr 1
        apply List.map_congr_left
        intro d hd
        rw [hfl d (List.mem_range.1 hd)]
      · rw [grow_range _ _ (by simp [upOf])]; simp
      · have h1 : done.length = done.length - 1 + 1 := by omega
        have : grow ((List.range (done.length - 1)).map (downOf [])) done.length [] = (List.range done.length).map (downOf []) := by
          conv_lhs => arg 2; rw [h1]
          rw [grow_range _ _ (by simp [downOf]), ← h1]
        rw [this]; simp
      · simp
      · rw [if_neg h0]
    rw [ofSizes, hstep]
    have := ofSizes_form rest (done ++ [n]) par (by simp) (fun _ => by
      rw [h (by intro e; exact h0 (by rw [e]; rfl)), List.getD_append _ _ _ _ (by omega)])
    rw [List.length_append, List.length_singleton] at this
    rw [this, List.append_assoc]; rfl

theorem init_form {nc : List Nat} (h : nc ≠ []) : init nc = form nc [] (List.range (nc.getD 0 0)) := by
  match nc, h with
  | n :: rest, _ =>
    have h1 : empty.reserveN 0 n = form [n] [] (List.range n) := by
      unfold reserveN reserve form empty grow
      simp only [List.length_nil, Nat.sub_zero, List.nil_append, MPair.mk.injEq, if_pos]
      refine ⟨?_, ?_, ?_, ?_, ?_⟩
      · simp only [Nat.zero_add, List.replicate_one, List.modify_zero_cons, List.length_singleton, List.range_one, List.map_cons, List.map_nil]
        congr 1
        unfold flags
        apply List.ext_getElem
        · simp
        · intro i _ _; simp [Paired]
      · simp [upOf]
      · simp
      · simp
      · rw [List.range_eq_range']
    unfold init
    rw [ofSizes, h1]
    have := ofSizes_form rest [n] (List.range n) (by simp) (fun _ => rfl)
    simpa using this

/-! ### the queries -/

theorem unpairedFrom_eq (f : Nat → Bool) : ∀ (n i : Nat), unpairedFrom ((List.range' i n).map f) i = (List.range' i n).filter (fun x => !f x)
  | 0, i => rfl
  | n + 1, i => by
    rw [List.range'_succ, List.map_cons, unpairedFrom, List.filter_cons, unpairedFrom_eq f n (i + 1)]
    cases f i <;> simp

theorem answers_form (nc : List Nat) (ps : List (Nat × Nat × Nat)) (par : List Nat) : Answers (form nc ps par) nc ps := by
  refine ⟨?_, ?_, ?_, ?_, ?_⟩
  · intro d i hd hi
    unfold MPair.isPaired
    show (rd ((List.range nc.length).map (flags nc ps)) d >>= _) = _
    rw [rd_range hd, bind_ok]
    unfold flags
    exact rd_range hi
  · intro d hd
    unfold MPair.unpaired
    show (rd ((List.range nc.length).map (flags nc ps)) d >>= _) = _
    rw [rd_range hd, bind_ok]
    unfold flags
    rw [List.range_eq_range', unpairedFrom_eq]
    show Except.ok _ = Except.ok _
    congr 1
    apply List.filter_congr
    intro x _
    simp
  · intro d hd
    exact rd_range (by omega)
  · intro d hd
    unfold MPair.downPaired
    rw [if_neg (by omega)]
    exact rd_range (by omega)
  · intro d hd
    unfold MPair.ncells
    show (rd ((List.range nc.length).map (flags nc ps)) d >>= _) = _
    rw [rd_range hd, bind_ok]
    unfold flags
    simp

end MPair
end BATS
