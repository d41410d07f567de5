import Verif.Proofs.Pairing
import Mathlib.Order.Basic

set_option linter.unusedSectionVars false
set_option linter.unusedVariables false
set_option linter.unusedSimpArgs false

/-! # Pairings of vertices and edges: proofs -/

namespace BATS
namespace MPair
open Classical
open UF (Forest below)

variable {T : Type} [LinearOrder T] [Inhabited T] {rank : Option (List T)}

theorem older_total {a b : Nat} (h : a ≠ b) : Older rank a b ∨ Older rank b a := by
  unfold Older
  cases rank with
  | none => exact lt_or_gt_of_ne h
  | some r =>
    dsimp only
    rcases lt_trichotomy (r.getD a default) (r.getD b default) with h1 | h1 | h1
    · exact Or.inl (Or.inl h1)
    · rcases lt_or_gt_of_ne h with h2 | h2
      · exact Or.inl (Or.inr ⟨h1, h2⟩)
      · exact Or.inr (Or.inr ⟨h1.symm, h2⟩)
    · exact Or.inr (Or.inl h1)

theorem older_trans {a b c : Nat} (h1 : Older rank a b) (h2 : Older rank b c) : Older rank a c := by
  unfold Older at *
  cases rank with
  | none => exact lt_trans h1 h2
  | some r =>
    dsimp only at *
    rcases h1 with h1 | ⟨h1, h1'⟩ <;> rcases h2 with h2 | ⟨h2, h2'⟩
    · exact Or.inl (lt_trans h1 h2)
    · exact Or.inl (h2 ▸ h1)
    · exact Or.inl (h1 ▸ h2)
    · exact Or.inr ⟨h1.trans h2, lt_trans h1' h2'⟩

theorem older_irrefl {a : Nat} (h : Older rank a a) : False := by
  unfold Older at h
  cases rank with
  | none => exact lt_irrefl _ h
  | some r => exact h.elim (lt_irrefl _) (fun h => lt_irrefl _ h.2)

structure EInv (rank : Option (List T)) (N : Nat) (par : List Nat) (links : List (Nat × Nat)) (ρ : Nat → Nat) : Prop where
  forest : Forest N par ρ
  out : ∀ x, N ≤ x → ρ x = x
  conn : ∀ x y, ρ x = ρ y ↔ Connected links x y
  old : ∀ x, ρ x = x ∨ Older rank (ρ x) x

theorem einv_init (rank : Option (List T)) (N : Nat) : EInv rank N (List.range N) [] id := by
  refine ⟨UF.forest_range N, fun _ _ => rfl, fun x y => ?_, fun _ => Or.inl rfl⟩
  constructor
  · intro h
    have : x = y := h
    rw [this]; exact Relation.EqvGen.refl _
  · intro h
    induction h with
    | rel a b hab => cases hab
    | refl => rfl
    | symm a b _ ih => exact ih.symm
    | trans a b c _ _ i1 i2 => exact i1.trans i2

variable {N : Nat} {par : List Nat} {links : List (Nat × Nat)} {ρ : Nat → Nat}

theorem EInv.idem (h : EInv rank N par links ρ) (x : Nat) : ρ (ρ x) = ρ x := by
  by_cases hx : x < N
  · exact h.forest.idem x hx
  · rw [h.out x (by omega), h.out x (by omega)]

theorem EInv.oldest (h : EInv rank N par links ρ) (x : Nat) : Oldest rank links x (ρ x) := by
  refine ⟨(h.conn _ _).1 (h.idem x).symm, fun y hy => ?_⟩
  have := (h.conn _ _).2 hy
  rw [this]
  rcases h.old y with h1 | h1
  · exact Or.inl h1.symm
  · exact Or.inr h1

theorem connected_mono {l l' : List (Nat × Nat)} {a b : Nat} (h : Connected l a b) : Connected (l ++ l') a b := by
  induction h with
  | rel a b hab => exact Relation.EqvGen.rel _ _ (List.mem_append_left _ hab)
  | refl a => exact Relation.EqvGen.refl _
  | symm a b _ ih => exact Relation.EqvGen.symm _ _ ih
  | trans a b c _ _ i1 i2 => exact Relation.EqvGen.trans _ _ _ i1 i2

theorem EInv.skip (h : EInv rank N par links ρ) {par' : List Nat} (hf : Forest N par' ρ) {i j : Nat} (hij : ρ i = ρ j) :
    EInv rank N par' (links ++ [(i, j)]) ρ := by
  refine ⟨hf, h.out, fun x y => ?_, h.old⟩
  constructor
  · intro hxy
    exact connected_mono ((h.conn x y).1 hxy)
  · intro hxy
    induction hxy with
    | rel a b hab =>
      rcases List.mem_append.1 hab with hab | hab
      · exact (h.conn a b).2 (Relation.EqvGen.rel _ _ hab)
      · rw [List.mem_singleton] at hab
        injection hab with h1 h2
        rw [h1, h2]; exact hij
    | refl => rfl
    | symm a b _ ih => exact ih.symm
    | trans a b c _ _ i1 i2 => exact i1.trans i2

theorem EInv.merge (h : EInv rank N par links ρ) {par' : List Nat} (hf : Forest N par' ρ) {i j v w : Nat} (hi : i < N) (hj : j < N)
    (hvw : (ρ i = v ∧ ρ j = w) ∨ (ρ j = v ∧ ρ i = w)) (hne : v ≠ w) (ho : Older rank w v) :
    EInv rank N (par'.set v w) (links ++ [(i, j)]) (fun x => if ρ x = v then w else ρ x) := by
  have hvN : v < N ∧ w < N ∧ ρ v = v ∧ ρ w = w := by
    rcases hvw with ⟨rfl, rfl⟩ | ⟨rfl, rfl⟩
    · exact ⟨h.forest.rlt i hi, h.forest.rlt j hj, h.idem i, h.idem j⟩
    · exact ⟨h.forest.rlt j hj, h.forest.rlt i hi, h.idem j, h.idem i⟩
  obtain ⟨hv, hw, hv', hw'⟩ := hvN
  refine ⟨hf.attach hv hw hv' hw' hne, ?_, ?_, ?_⟩
  · intro x hx
    have := h.out x hx
    simp only [this]
    rw [if_neg (by omega)]
  · intro x y
    have hup : ∀ {a b}, ρ a = ρ b → Connected (links ++ [(i, j)]) a b := fun {a b} hab =>
      connected_mono ((h.conn a b).1 hab)
    have hl : Connected (links ++ [(i, j)]) v w := by
      have hij : Connected (links ++ [(i, j)]) i j := Relation.EqvGen.rel _ _ (List.mem_append_right _ (List.mem_singleton.2 rfl))
      rcases hvw with ⟨e1, e2⟩ | ⟨e1, e2⟩
      · exact ((hup (by rw [hv', e1])).trans _ _ _ hij).trans _ _ _ (hup (by rw [hw', e2]))
      · exact ((hup (by rw [hv', e1])).trans _ _ _ (hij.symm _ _)).trans _ _ _ (hup (by rw [hw', e2]))
    constructor
    · intro hxy
      by_cases c1 : ρ x = v <;> by_cases c2 : ρ y = v
      · exact hup (by rw [c1, c2])
      · rw [if_pos c1, if_neg c2] at hxy
        exact ((hup (by rw [hv', c1])).trans _ _ _ hl).trans _ _ _ (hup (by rw [hw', hxy]))
      · rw [if_neg c1, if_pos c2] at hxy
        exact ((hup (by rw [hw', hxy])).trans _ _ _ (hl.symm _ _)).trans _ _ _ (hup (by rw [hv', c2]))
      · rw [if_neg c1, if_neg c2] at hxy
        exact hup hxy
    · intro hxy
      induction hxy with
      | rel a b hab =>
        rcases List.mem_append.1 hab with hab | hab
        · have := (h.conn a b).2 (Relation.EqvGen.rel _ _ hab)
          rw [this]
        · rw [List.mem_singleton] at hab
          injection hab with h1 h2
          subst h1 h2
          rcases hvw with ⟨e1, e2⟩ | ⟨e1, e2⟩
          · rw [if_pos e1, if_neg (by rw [e2]; exact hne.symm), e2]
          · rw [if_pos e1, if_neg (by rw [e2]; exact hne.symm), e2]
      | refl => rfl
      | symm a b _ ih => exact ih.symm
      | trans a b c _ _ i1 i2 => exact i1.trans i2
  · intro x
    show (if ρ x = v then w else ρ x) = x ∨ Older rank (if ρ x = v then w else ρ x) x
    by_cases c : ρ x = v
    · rw [if_pos c]
      rcases h.old x with h1 | h1
      · rw [← h1, c]; exact Or.inr ho
      · rw [c] at h1; exact Or.inr (older_trans ho h1)
    · rw [if_neg c]; exact h.old x

/-! ### the calls -/

/-- the state of the program and of the specification -/
def Sim (rank : Option (List T)) (nc : List Nat) (M : MPair) (s : Hist) : Prop :=
  ∃ par ρ, M = form nc s.pairs par ∧ EInv rank (nc.getD 0 0) par s.links ρ

theorem edge_spec {nc : List Nat} {M : MPair} {s : Hist} {i j e : Nat} (hM : Sim rank nc M s) (h1 : 1 < nc.length) (hi : i < nc.getD 0 0) (hj : j < nc.getD 0 0)
    (he : e < nc.getD 1 0) (hr : ∀ r, rank = some r → nc.getD 0 0 ≤ r.length) :
    ∃ M' s' b, M.step rank (.edge i j e) = .ok (M', b) ∧ Step rank s (.edge i j e) s' b ∧ Sim rank nc M' s' := by
  obtain ⟨par, ρ, rfl, hE⟩ := hM
  obtain ⟨p1, q1, f1⟩ := findParent_spec hE.forest hi
  obtain ⟨p2, q2, f2⟩ := findParent_spec f1 hj
  have hw : ∀ {v w : Nat}, v < nc.getD 0 0 → wr p2 v w = .ok (p2.set v w) := fun {v w} hv => by rw [wr, if_pos (by rw [f2.len]; exact hv)]
  have hri := hE.forest.rlt i hi
  have hrj := hE.forest.rlt j hj
  have hun : ∀ {v w : Nat}, v < nc.getD 0 0 →
      setPairUnsafe { form nc s.pairs par with parent := p2.set v w } 0 v e = .ok (form nc (s.pairs ++ [(0, v, e)]) (p2.set v w), true) :=
    fun {v w} hv => setPairUnsafe_form (par := p2.set v w) h1 hv he
  have key : (ρ i = ρ j → (form nc s.pairs par).step rank (.edge i j e) = .ok (form nc s.pairs p2, false)) ∧
      (ρ i ≠ ρ j → (Older rank (ρ i) (ρ j) → (form nc s.pairs par).step rank (.edge i j e) = .ok (form nc (s.pairs ++ [(0, ρ j, e)]) (p2.set (ρ j) (ρ i)), true)) ∧
        (Older rank (ρ j) (ρ i) → (form nc s.pairs par).step rank (.edge i j e) = .ok (form nc (s.pairs ++ [(0, ρ i, e)]) (p2.set (ρ i) (ρ j)), true))) := by
    have e1 : findParent (form nc s.pairs par).parent.length (form nc s.pairs par).parent i = .ok (p1, ρ i) := q1
    cases rank with
    | none =>
      simp only [step]
      unfold setEdge
      rw [e1, bind_ok]
      dsimp only
      rw [q2, bind_ok]
      dsimp only
      refine ⟨fun h => by rw [if_pos h]; rfl, fun h => ⟨fun ho => ?_, fun ho => ?_⟩⟩
      · have ho : ρ i < ρ j := ho
        rw [if_neg h, if_pos ho, hw hrj, bind_ok]
        exact hun hrj
      · have ho : ρ j < ρ i := ho
        rw [if_neg h, if_neg (by omega), hw hri, bind_ok]
        exact hun hri
    | some r =>
      have hlen := hr r rfl
      simp only [step]
      unfold setEdgeRank
      rw [e1, bind_ok]
      dsimp only
      rw [q2, bind_ok]
      dsimp only
      have hrd : ∀ {x : Nat}, x < nc.getD 0 0 → rd r x = .ok (r.getD x default) := fun {x} hx => by
        have hx' : x < r.length := by omega
        rw [List.getD_eq_getElem?_getD, List.getElem?_eq_getElem hx']
        exact rd_some (List.getElem?_eq_getElem hx')
      refine ⟨fun h => by rw [if_pos h]; rfl, fun h => ?_⟩
      rw [if_neg h, hrd hri, bind_ok, hrd hrj, bind_ok]
      refine ⟨fun ho => ?_, fun ho => ?_⟩
      · have ho : r.getD (ρ i) default < r.getD (ρ j) default ∨ (r.getD (ρ i) default = r.getD (ρ j) default ∧ ρ i < ρ j) := ho
        rw [if_pos ho, hw hrj, bind_ok]
        exact hun hrj
      · have hno : ¬ (r.getD (ρ i) default < r.getD (ρ j) default ∨ (r.getD (ρ i) default = r.getD (ρ j) default ∧ ρ i < ρ j)) :=
          fun hc => older_irrefl (older_trans ho (show Older (some r) _ _ from hc))
        rw [if_neg hno, hw hri, bind_ok]
        exact hun hri
  by_cases hc : ρ i = ρ j
  · exact ⟨_, _, _, key.1 hc, Or.inl ⟨(hE.conn _ _).1 hc, rfl, rfl⟩, p2, ρ, rfl, hE.skip f2 hc⟩
  · have hnc : ¬ Connected s.links i j := fun h => hc ((hE.conn _ _).2 h)
    rcases older_total (rank := rank) hc with ho | ho
    · exact ⟨_, _, _, (key.2 hc).1 ho, Or.inr ⟨hnc, rfl, ρ j, ρ i, Or.inr ⟨hE.oldest j, hE.oldest i⟩, ho, rfl⟩, _, _, rfl,
        hE.merge f2 hi hj (Or.inr ⟨rfl, rfl⟩) (fun e => hc e.symm) ho⟩
    · exact ⟨_, _, _, (key.2 hc).2 ho, Or.inr ⟨hnc, rfl, ρ i, ρ j, Or.inl ⟨hE.oldest i, hE.oldest j⟩, ho, rfl⟩, _, _, rfl,
        hE.merge f2 hi hj (Or.inl ⟨rfl, rfl⟩) hc ho⟩

theorem step_spec {nc : List Nat} {M : MPair} {s : Hist} {o : Op} (hM : Sim rank nc M s) (ho : ValidOp nc o) (hr : ∀ r, rank = some r → nc.getD 0 0 ≤ r.length) :
    ∃ M' s' b, M.step rank o = .ok (M', b) ∧ Step rank s o s' b ∧ Sim rank nc M' s' := by
  cases o with
  | edge i j e =>
    obtain ⟨h1, hi, hj, he⟩ := ho
    exact edge_spec hM h1 hi hj he hr
  | pair d i j =>
    obtain ⟨h1, hi, hj⟩ := ho
    obtain ⟨par, ρ, rfl, hE⟩ := hM
    by_cases hc : Paired s.pairs d i ∨ Paired s.pairs (d + 1) j
    · exact ⟨_, s, false, by rw [step, setPair_form h1 hi hj, if_pos hc], Or.inl ⟨hc, rfl, rfl⟩, par, ρ, rfl, hE⟩
    · exact ⟨_, ⟨s.pairs ++ [(d, i, j)], s.links⟩, true, by rw [step, setPair_form h1 hi hj, if_neg hc],
        Or.inr ⟨fun h => hc (Or.inl h), fun h => hc (Or.inr h), rfl, rfl⟩, par, ρ, rfl, hE⟩
  | clear =>
    obtain ⟨par, ρ, rfl, hE⟩ := hM
    exact ⟨_, ⟨[], s.links⟩, false, rfl, ⟨rfl, rfl⟩, par, ρ, clear_form _ _ _, hE⟩

theorem run_spec {nc : List Nat} (hr : ∀ r, rank = some r → nc.getD 0 0 ≤ r.length) : ∀ (os : List Op) (M : MPair) (s : Hist), Sim rank nc M s → (∀ o ∈ os, ValidOp nc o) →
    ∃ M' s' bs, M.run rank os = .ok (M', bs) ∧ Steps rank s os s' bs ∧ Sim rank nc M' s'
  | [], M, s, hM, _ => ⟨M, s, [], rfl, .nil s, hM⟩
  | o :: os, M, s, hM, ho => by
    obtain ⟨M1, s1, b, e1, e2, e3⟩ := step_spec hM (ho o (by simp)) hr
    obtain ⟨M2, s2, bs, f1, f2, f3⟩ := run_spec hr os M1 s1 e3 (fun o h => ho o (List.mem_cons_of_mem _ h))
    refine ⟨M2, s2, b :: bs, ?_, .cons e2 f2, f3⟩
    rw [MPair.run, e1, bind_ok]
    dsimp only
    rw [f1]; rfl

end MPair
end BATS
