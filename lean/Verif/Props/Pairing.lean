import Verif.Proofs.PairingEdge

set_option linter.unusedSectionVars false
set_option linter.unusedVariables false
set_option linter.unusedSimpArgs false

/-! # C85: pairings of cells (include/morse/pairing.hpp)

`Steps`, `Step`, `Oldest`, `Connected`, `Paired`, `Answers` are in `Verif/Spec/Pairing.lean`. -/

namespace BATS
namespace MPair
open Classical

variable {T : Type} [LinearOrder T] [Inhabited T] {rank : Option (List T)}

/-- C85: every history of calls on a `MorsePairing` of the given sizes (with one rank vector, or none) succeeds, the results of the calls are as specified
and the queries describe exactly the specified pairs -/
theorem C85_history {nc : List Nat} (hnc : nc ≠ []) (hr : ∀ r, rank = some r → nc.getD 0 0 ≤ r.length) (os : List Op) (ho : ∀ o ∈ os, ValidOp nc o) :
    ∃ M s bs, (init nc).run rank os = .ok (M, bs) ∧ Steps rank ⟨[], []⟩ os s bs ∧ Answers M nc s.pairs := by
  obtain ⟨M, s, bs, e1, e2, par, ρ, rfl, _⟩ := run_spec hr os (init nc) ⟨[], []⟩ ⟨_, id, init_form hnc, einv_init rank _⟩ ho
  exact ⟨_, s, bs, e1, e2, answers_form _ _ _⟩

/-- the specification is deterministic: `C85_history` determines the results and the pairs -/
theorem C85_deterministic {s s1 s2 : Hist} {os : List Op} {b1 b2 : List Bool} (h1 : Steps rank s os s1 b1) (h2 : Steps rank s os s2 b2) : s1 = s2 ∧ b1 = b2 := by
  have hold : ∀ {l : List (Nat × Nat)} {x a a' : Nat}, Oldest rank l x a → Oldest rank l x a' → a = a' := by
    intro l x a a' h h'
    rcases h.2 a' h'.1 with e | e
    · exact e.symm
    · rcases h'.2 a h.1 with f | f
      · exact f
      · exact absurd (older_trans e f) (fun h => older_irrefl h)
  have hstep : ∀ {s s1 s2 : Hist} {o : Op} {b1 b2 : Bool}, Step rank s o s1 b1 → Step rank s o s2 b2 → s1 = s2 ∧ b1 = b2 := by
    intro s s1 s2 o b1 b2 g1 g2
    cases o with
    | pair d i j =>
      rcases g1 with ⟨c, rfl, rfl⟩ | ⟨c, c', rfl, rfl⟩ <;> rcases g2 with ⟨k, rfl, rfl⟩ | ⟨k, k', rfl, rfl⟩
      · exact ⟨rfl, rfl⟩
      · exact absurd c (by rintro (h | h); exact k h; exact k' h)
      · exact absurd k (by rintro (h | h); exact c h; exact c' h)
      · exact ⟨rfl, rfl⟩
    | clear => exact ⟨g1.2.trans g2.2.symm, g1.1.trans g2.1.symm⟩
    | edge i j e =>
      rcases g1 with ⟨c, rfl, rfl⟩ | ⟨c, rfl, v, w, hvw, hl, rfl⟩ <;> rcases g2 with ⟨k, rfl, rfl⟩ | ⟨k, rfl, v', w', hvw', hl', rfl⟩
      · exact ⟨rfl, rfl⟩
      · exact absurd c k
      · exact absurd k c
      · have : v = v' := by
          rcases hvw with ⟨a, b⟩ | ⟨a, b⟩ <;> rcases hvw' with ⟨a', b'⟩ | ⟨a', b'⟩
          · exact hold a a'
          · have e1 := hold a b'
            have e2 := hold b a'
            subst e1 e2
            exact absurd (older_trans hl hl') (fun h => older_irrefl h)
          · have e1 := hold a b'
            have e2 := hold b a'
            subst e1 e2
            exact absurd (older_trans hl hl') (fun h => older_irrefl h)
          · exact hold a a'
        rw [this]; exact ⟨rfl, rfl⟩
  induction h1 generalizing s2 b2 with
  | nil s => cases h2; exact ⟨rfl, rfl⟩
  | cons g1 _ ih =>
    cases h2 with
    | cons g2 g3 =>
      obtain ⟨rfl, rfl⟩ := hstep g1 g2
      obtain ⟨rfl, rfl⟩ := ih g3
      exact ⟨rfl, rfl⟩

/-! ### histories of one kind -/

/-- two pairs have no cell in common -/
def Disjoint (p q : Nat × Nat × Nat) : Prop := ∀ d i, ¬ (InPair d i p ∧ InPair d i q)

/-- C85: with `set_pair` (and `clear`) only, no cell is ever in two pairs -/
theorem C85_matching {s s' : Hist} {os : List Op} {bs : List Bool} (h : Steps rank s os s' bs) (ho : ∀ o ∈ os, ∀ i j e, o ≠ .edge i j e)
    (hs : s.pairs.Pairwise Disjoint) : s'.pairs.Pairwise Disjoint := by
  induction h with
  | nil s => exact hs
  | @cons s s1 s2 o os b bs g _ ih =>
    refine ih (fun o h => ho o (List.mem_cons_of_mem _ h)) ?_
    cases o with
    | edge i j e => exact absurd rfl (ho _ (by simp) i j e)
    | clear => rw [g.2]; exact List.Pairwise.nil
    | pair d i j =>
      rcases g with ⟨_, _, rfl⟩ | ⟨h1, h2, _, rfl⟩
      · exact hs
      · rw [List.pairwise_append]
        refine ⟨hs, List.pairwise_singleton _ _, ?_⟩
        intro p hp q hq
        rw [List.mem_singleton] at hq
        subst hq
        rintro d' i' ⟨a, b⟩
        rcases b with ⟨rfl, rfl⟩ | ⟨rfl, rfl⟩
        · exact h1 ⟨p, hp, a⟩
        · exact h2 ⟨p, hp, a⟩

theorem connected_cut {l : List (Nat × Nat)} {i j x y : Nat} (h : Connected (l ++ [(i, j)]) x y) :
    Connected l x y ∨ (Connected l x i ∧ Connected l j y) ∨ (Connected l x j ∧ Connected l i y) := by
  have sy : ∀ {a b}, Connected l a b → Connected l b a := fun {a b} h => Relation.EqvGen.symm _ _ h
  have tr : ∀ {a b c}, Connected l a b → Connected l b c → Connected l a c := fun {a b c} h g => Relation.EqvGen.trans _ _ _ h g
  have rf : ∀ a, Connected l a a := fun a => Relation.EqvGen.refl a
  induction h with
  | rel a b hab =>
    rcases List.mem_append.1 hab with hab | hab
    · exact Or.inl (Relation.EqvGen.rel _ _ hab)
    · rw [List.mem_singleton] at hab
      injection hab with h1 h2
      subst h1 h2
      exact Or.inr (Or.inl ⟨rf _, rf _⟩)
  | refl a => exact Or.inl (rf a)
  | symm a b _ ih =>
    rcases ih with h | ⟨h, g⟩ | ⟨h, g⟩
    · exact Or.inl (sy h)
    · exact Or.inr (Or.inr ⟨sy g, sy h⟩)
    · exact Or.inr (Or.inl ⟨sy g, sy h⟩)
  | trans a b c _ _ i1 i2 =>
    rcases i1 with h | ⟨h, g⟩ | ⟨h, g⟩ <;> rcases i2 with h' | ⟨h', g'⟩ | ⟨h', g'⟩
    · exact Or.inl (tr h h')
    · exact Or.inr (Or.inl ⟨tr h h', g'⟩)
    · exact Or.inr (Or.inr ⟨tr h h', g'⟩)
    · exact Or.inr (Or.inl ⟨h, tr g h'⟩)
    · exact Or.inr (Or.inl ⟨h, g'⟩)
    · exact Or.inl (tr h g')
    · exact Or.inr (Or.inr ⟨h, tr g h'⟩)
    · exact Or.inl (tr h g')
    · exact Or.inr (Or.inr ⟨h, g'⟩)

theorem oldest_skip {l : List (Nat × Nat)} {i j x a : Nat} (h : Connected l i j) : Oldest rank (l ++ [(i, j)]) x a ↔ Oldest rank l x a := by
  have hc : ∀ a b, Connected (l ++ [(i, j)]) a b ↔ Connected l a b := by
    intro a b
    refine ⟨fun g => ?_, connected_mono⟩
    rcases connected_cut g with g | ⟨g, g'⟩ | ⟨g, g'⟩
    · exact g
    · exact Relation.EqvGen.trans _ _ _ g (Relation.EqvGen.trans _ _ _ h g')
    · exact Relation.EqvGen.trans _ _ _ g (Relation.EqvGen.trans _ _ _ (Relation.EqvGen.symm _ _ h) g')
  unfold Oldest
  simp only [hc]

theorem oldest_merge {l : List (Nat × Nat)} {i j v w x : Nat}
    (h : (Oldest rank l i v ∧ Oldest rank l j w) ∨ (Oldest rank l j v ∧ Oldest rank l i w)) (ho : Older rank w v) :
    Oldest rank (l ++ [(i, j)]) x x ↔ Oldest rank l x x ∧ x ≠ v := by
  have sy : ∀ {a b}, Connected l a b → Connected l b a := fun {a b} h => Relation.EqvGen.symm _ _ h
  have tr : ∀ {a b c}, Connected l a b → Connected l b c → Connected l a c := fun {a b c} h g => Relation.EqvGen.trans _ _ _ h g
  have un : ∀ {y a}, Oldest rank l x x → Oldest rank l y a → Connected l x y → x = a := by
    intro y a h1 h2 h3
    rcases h1.2 a (tr h3 h2.1) with e | e
    · exact e.symm
    · rcases h2.2 x (sy h3) with f | f
      · exact f
      · exact absurd (older_trans e f) (fun h => older_irrefl h)
  constructor
  · intro hx
    refine ⟨⟨Relation.EqvGen.refl _, fun y hy => hx.2 y (connected_mono hy)⟩, ?_⟩
    rintro rfl
    have hij : Connected (l ++ [(i, j)]) i j := Relation.EqvGen.rel _ _ (List.mem_append_right _ (List.mem_singleton.2 rfl))
    have hc : Connected (l ++ [(i, j)]) x w := by
      rcases h with ⟨a, b⟩ | ⟨a, b⟩
      · exact Relation.EqvGen.trans _ _ _ (connected_mono (sy a.1)) (Relation.EqvGen.trans _ _ _ hij (connected_mono b.1))
      · exact Relation.EqvGen.trans _ _ _ (connected_mono (sy a.1)) (Relation.EqvGen.trans _ _ _ (Relation.EqvGen.symm _ _ hij) (connected_mono b.1))
    rcases hx.2 w hc with e | e
    · rw [e] at ho; exact older_irrefl ho
    · exact older_irrefl (older_trans e ho)
  · rintro ⟨hx, hne⟩
    refine ⟨Relation.EqvGen.refl _, fun y hy => ?_⟩
    have fin : ∀ {p q}, Oldest rank l p v → Oldest rank l q w → Connected l x q → Connected l p y → y = x ∨ Older rank x y := by
      intro p q hp hq h1 h2
      have := un hx hq h1
      subst this
      rcases hp.2 y h2 with e | e
      · rw [e]; exact Or.inr ho
      · exact Or.inr (older_trans ho e)
    rcases connected_cut hy with g | ⟨g, g'⟩ | ⟨g, g'⟩
    · exact hx.2 y g
    · rcases h with ⟨a, b⟩ | ⟨a, b⟩
      · exact absurd (un hx a g) hne
      · exact fin a b g g'
    · rcases h with ⟨a, b⟩ | ⟨a, b⟩
      · exact fin a b g g'
      · exact absurd (un hx a g) hne

/-- the edges passed to the calls -/
def ends : Op → List (Nat × Nat)
  | .edge i j _ => [(i, j)]
  | _ => []

/-- the lower cells of the pairs -/
def lower (ps : List (Nat × Nat × Nat)) : List Nat := ps.map fun p => p.2.1

theorem edges_inv {s s' : Hist} {os : List Op} {bs : List Bool} (h : Steps rank s os s' bs) (ho : ∀ o ∈ os, ∃ i j e, o = .edge i j e) :
    s'.links = s.links ++ os.flatMap ends ∧
    ((∀ x, (∃ p ∈ s.pairs, p.1 = 0 ∧ p.2.1 = x) ↔ ¬ Oldest rank s.links x x) → (∀ p ∈ s.pairs, p.1 = 0) → (lower s.pairs).Nodup →
      (∀ x, (∃ p ∈ s'.pairs, p.1 = 0 ∧ p.2.1 = x) ↔ ¬ Oldest rank s'.links x x) ∧ (∀ p ∈ s'.pairs, p.1 = 0) ∧ (lower s'.pairs).Nodup) := by
  induction h with
  | nil s => exact ⟨by simp, fun h1 h2 h3 => ⟨h1, h2, h3⟩⟩
  | @cons s s1 s2 o os b bs g _ ih =>
    obtain ⟨i, j, e, rfl⟩ := ho o (by simp)
    obtain ⟨h1, h2⟩ := ih (fun o h => ho o (List.mem_cons_of_mem _ h))
    have hl : s1.links = s.links ++ [(i, j)] := by
      rcases g with ⟨_, _, rfl⟩ | ⟨_, _, v, w, _, _, rfl⟩ <;> rfl
    refine ⟨by rw [h1, hl, List.flatMap_cons, List.append_assoc]; rfl, fun a1 a2 a3 => ?_⟩
    rcases g with ⟨hc, _, rfl⟩ | ⟨hc, _, v, w, hvw, hold, rfl⟩
    · exact h2 (fun x => by rw [a1 x]; exact not_congr (oldest_skip hc).symm) a2 a3
    · have hvo : Oldest rank s.links v v := by
        rcases hvw with ⟨a, _⟩ | ⟨a, _⟩ <;>
          exact ⟨Relation.EqvGen.refl _, fun y hy => a.2 y (Relation.EqvGen.trans _ _ _ a.1 hy)⟩
      have hvn : v ∉ lower s.pairs := by
        intro hm
        obtain ⟨p, hp, e⟩ := List.mem_map.1 hm
        exact (a1 v).1 ⟨p, hp, a2 p hp, e⟩ hvo
      refine h2 (fun x => ?_) ?_ ?_
      · show (∃ p ∈ s.pairs ++ [(0, v, e)], p.1 = 0 ∧ p.2.1 = x) ↔ _
        rw [oldest_merge hvw hold]
        constructor
        · rintro ⟨p, hp, q1, q2⟩ ⟨c1, c2⟩
          rcases List.mem_append.1 hp with hp | hp
          · exact (a1 x).1 ⟨p, hp, q1, q2⟩ c1
          · rw [List.mem_singleton] at hp
            subst hp
            exact c2 q2.symm
        · intro hn
          by_cases hx : x = v
          · exact ⟨(0, v, e), List.mem_append_right _ (List.mem_singleton.2 rfl), rfl, hx.symm⟩
          · obtain ⟨p, hp, q1, q2⟩ := (a1 x).2 (fun c => hn ⟨c, hx⟩)
            exact ⟨p, List.mem_append_left _ hp, q1, q2⟩
      · intro p hp
        rcases List.mem_append.1 hp with hp | hp
        · exact a2 p hp
        · rw [List.mem_singleton] at hp
          subst hp; rfl
      · show (lower (s.pairs ++ [(0, v, e)])).Nodup
        unfold lower
        rw [List.map_append, List.nodup_append]
        exact ⟨a3, by simp, by
          intro a ha b hb hab
          simp only [List.map_cons, List.map_nil, List.mem_singleton] at hb
          subst hb hab
          exact hvn ha⟩

/-- C85: if only `set_pair_edge` is called, the unpaired vertices are exactly the oldest vertices of the components of the graph, and no vertex is paired
twice -/
theorem C85_edges {nc : List Nat} (hnc : nc ≠ []) (hr : ∀ r, rank = some r → nc.getD 0 0 ≤ r.length) (os : List Op) (ho : ∀ o ∈ os, ValidOp nc o)
    (he : ∀ o ∈ os, ∃ i j e, o = .edge i j e) :
    ∃ M bs, (init nc).run rank os = .ok (M, bs) ∧
      M.unpaired 0 = .ok ((List.range (nc.getD 0 0)).filter fun x => decide (Oldest rank (os.flatMap ends) x x)) ∧
      (1 < nc.length → ∃ l, M.upPaired 0 = .ok l ∧ l.Nodup) := by
  obtain ⟨M, s, bs, e1, e2, e3⟩ := C85_history hnc hr os ho
  obtain ⟨h1, h2⟩ := edges_inv e2 he
  have hnil : ∀ x y, Connected [] x y → x = y := by
    intro x y h
    induction h with
    | rel a b hab => cases hab
    | refl => rfl
    | symm a b _ ih => exact ih.symm
    | trans a b c _ _ i1 i2 => exact i1.trans i2
  obtain ⟨g1, g2, g3⟩ := h2 (by
    intro x
    constructor
    · rintro ⟨p, hp, _⟩; cases hp
    · intro h
      exact absurd ⟨Relation.EqvGen.refl _, fun y hy => Or.inl (hnil _ _ hy).symm⟩ h) (by intro p hp; cases hp) (by simp [lower])
  have hp : ∀ x, Paired s.pairs 0 x ↔ ∃ p ∈ s.pairs, p.1 = 0 ∧ p.2.1 = x := by
    intro x
    constructor
    · rintro ⟨p, hp, h | h⟩
      · exact ⟨p, hp, h⟩
      · omega
    · rintro ⟨p, hp, h⟩; exact ⟨p, hp, Or.inl h⟩
  rw [List.nil_append] at h1
  refine ⟨M, bs, e1, ?_, fun h => ⟨_, e3.up 0 (by omega), g3.sublist (List.Sublist.map _ List.filter_sublist)⟩⟩
  rw [e3.unpaired 0 (by have := List.length_pos_iff.2 hnc; exact this)]
  congr 1
  apply List.filter_congr
  intro x _
  congr 1
  apply propext
  rw [hp, g1, h1, not_not]

/-! ### what is not checked -/

/-- C85: a vertex already paired by `set_pair` is paired again by `set_pair_edge`, and so is the edge -/
theorem C85_mixed_wrong : (do
    let r ← (init [2, 1]).run (none : Option (List Nat)) [.pair 0 1 0, .edge 0 1 0]
    let u ← r.1.upPaired 0
    let d ← r.1.downPaired 1
    pure (r.2, u, d)) = .ok ([true, true], [1, 1], [0, 0]) := by decide +kernel

/-- C85: `clear` does not separate the components: after it the same edge is refused, and both vertices stay unpaired -/
theorem C85_clear_wrong : (do
    let r ← (init [2, 1]).run (none : Option (List Nat)) [.edge 0 1 0, .clear, .edge 0 1 0]
    let u ← r.1.unpaired 0
    pure (r.2, u)) = .ok ([true, false, false], [0, 1]) := by decide +kernel

/-! ### witnesses -/

/-- a cycle of four vertices with ranks: the hypotheses of `C85_history` and `C85_edges`, and the result -/
example : ∀ o ∈ [Op.edge 0 1 0, .edge 2 3 1, .edge 1 2 2, .edge 3 0 3], ValidOp [4, 4] o := by
  intro o ho
  simp only [List.mem_cons, List.not_mem_nil, or_false] at ho
  rcases ho with rfl | rfl | rfl | rfl <;> exact ⟨by decide, by decide, by decide, by decide⟩

example : ∀ r, some [(3 : Nat), 1, 1, 2] = some r → ([4, 4] : List Nat).getD 0 0 ≤ r.length := by
  intro r h; injection h with h; subst h; decide

example : (do
    let r ← (init [4, 4]).run (some [(3 : Nat), 1, 1, 2]) [.edge 0 1 0, .edge 2 3 1, .edge 1 2 2, .edge 3 0 3]
    let u ← r.1.unpaired 0
    let v ← r.1.upPaired 0
    let w ← r.1.unpaired 1
    pure (r.2, u, v, w)) = .ok ([true, true, true, false], [1], [0, 3, 2], [3]) := by decide +kernel

end MPair
end BATS
