import Verif.Model.CubicalFilt
import Verif.Spec.LowerStarGrad
import Verif.Proofs.DiagramLoops
import Mathlib.Tactic.Ring

set_option linter.unusedSectionVars false
set_option linter.unusedVariables false
set_option linter.unusedSimpArgs false

namespace BATS
namespace LSG

variable {T : Type} [CommRing T] {imap : List (List Nat)}

theorem sum_set (x : Nat → T) (g : T) : ∀ (df : List T) (v : Nat) (hv : v < df.length),
    ∑ u ∈ Finset.range df.length, (df.set v (df[v] + g)).getD u 0 * x u = (∑ u ∈ Finset.range df.length, df.getD u 0 * x u) + g * x v := by
  intro df v hv
  have : ∀ u ∈ Finset.range df.length, (df.set v (df[v] + g)).getD u 0 * x u = df.getD u 0 * x u + (if u = v then g * x v else 0) := by
    intro u hu
    rw [Finset.mem_range] at hu
    rw [List.getD_eq_getElem?_getD, List.getD_eq_getElem?_getD, List.getElem?_set]
    by_cases h : v = u
    · subst h
      rw [if_pos rfl, if_pos hu, if_pos rfl, List.getElem?_eq_getElem hu]
      show (df[v] + g) * x v = df[v] * x v + g * x v
      ring
    · rw [if_neg h, if_neg (fun e => h e.symm), add_zero]
  rw [Finset.sum_congr rfl this, Finset.sum_add_distrib, Finset.sum_ite_eq' (Finset.range df.length) v, if_pos (Finset.mem_range.2 hv)]

/-- the contribution of one entry -/
def contrib (imap : List (List Nat)) (x : Nat → T) (d : Nat) (i : Int) (g : T) : T :=
  match critVertex imap d i with
  | none => 0
  | some v => g * x v

def EntryOK (imap : List (List Nat)) (n d : Nat) (i : Int) : Prop := i = -1 ∨ ∃ v, critVertex imap d i = some v ∧ v < n

/-- the relation between the vector before and after -/
def Adds (df df' : List T) (s : (Nat → T) → T) : Prop :=
  df'.length = df.length ∧ ∀ x : Nat → T, ∑ u ∈ Finset.range df.length, df'.getD u 0 * x u = (∑ u ∈ Finset.range df.length, df.getD u 0 * x u) + s x

theorem Adds.refl (df : List T) : Adds df df (fun _ => 0) := ⟨rfl, fun x => by simp⟩

theorem Adds.trans {a b c : List T} {s t : (Nat → T) → T} (h : Adds a b s) (h' : Adds b c t) : Adds a c (fun x => s x + t x) := by
  refine ⟨h'.1.trans h.1, fun x => ?_⟩
  have := h'.2 x
  rw [h.1] at this
  rw [this, h.2, add_assoc]

theorem Adds.congr {a b : List T} {s t : (Nat → T) → T} (h : Adds a b s) (e : ∀ x, s x = t x) : Adds a b t :=
  ⟨h.1, fun x => by rw [← e]; exact h.2 x⟩

theorem gradAdd_spec (d : Nat) (i : Int) (g : T) (df : List T) :
    (EntryOK imap df.length d i → ∃ df', gradAdd imap d i g df = .ok df' ∧ Adds df df' (fun x => contrib imap x d i g)) ∧
    (¬ EntryOK imap df.length d i → gradAdd imap d i g df = .error .ub) := by
  by_cases h1 : i = -1
  · have hc : critVertex imap d i = none := by unfold critVertex; rw [if_pos (by omega)]
    refine ⟨fun _ => ⟨df, by unfold gradAdd; rw [if_pos h1], (Adds.refl df).congr (fun x => by unfold contrib; rw [hc])⟩, fun h => absurd (Or.inl h1) h⟩
  · by_cases h2 : i < 0
    · refine ⟨?_, fun _ => by unfold gradAdd; rw [if_neg h1, if_pos h2]⟩
      rintro (h | ⟨v, hv, _⟩)
      · exact absurd h h1
      · unfold critVertex at hv; rw [if_pos h2] at hv; cases hv
    · have hc : critVertex imap d i = (imap[d]?).bind (fun r => r[i.toNat]?) := by unfold critVertex; rw [if_neg h2]
      unfold gradAdd EntryOK contrib
      rw [if_neg h1, if_neg h2, hc]
      rcases hr : imap[d]? with _ | row
      · refine ⟨?_, fun _ => by rw [show rd imap d = .error .ub by unfold rd; rw [hr]]; rfl⟩
        rintro (h | ⟨v, hv, _⟩)
        · exact absurd h h1
        · cases hv
      · rw [show rd imap d = .ok row by unfold rd; rw [hr], bind_ok, Option.bind_some]
        rcases hv : row[i.toNat]? with _ | v
        · refine ⟨?_, fun _ => by rw [show rd row i.toNat = .error .ub by unfold rd; rw [hv]]; rfl⟩
          rintro (h | ⟨v, hv, _⟩)
          · exact absurd h h1
          · cases hv
        · rw [show rd row i.toNat = .ok v by unfold rd; rw [hv], bind_ok]
          by_cases hl : v < df.length
          · refine ⟨fun _ => ⟨df.set v (df[v] + g), ?_, List.length_set, fun x => sum_set x g df v hl⟩, fun h => absurd (Or.inr ⟨v, rfl, hl⟩) h⟩
            rw [rd_lt hl, bind_ok, wr_lt _ hl]
          · refine ⟨?_, fun _ => ?_⟩
            · rintro (h | ⟨v', hv', h'⟩)
              · exact absurd h h1
              · cases hv'; exact absurd h' hl
            · rw [show rd df v = .error .ub by unfold rd; rw [List.getElem?_eq_none (by omega)]]; rfl

def RowOK (imap : List (List Nat)) (n d : Nat) (g : List T) (b : List Int) : Prop :=
  (∀ k, k < g.length → ∃ i, b[k]? = some i ∧ EntryOK imap n (entryDim d k) i) ∧ (g.length % 2 = 1 → b[g.length]? = some (-1))

def rowSum (imap : List (List Nat)) (d : Nat) (g : List T) (b : List Int) (x : Nat → T) : T :=
  ∑ k ∈ Finset.range g.length, contrib imap x (entryDim d k) (b.getD k (-1)) (g.getD k 0)

theorem rowSum_cons (d : Nat) (g0 g1 : T) (g : List T) (b0 b1 : Int) (b : List Int) (x : Nat → T) :
    rowSum imap d (g0 :: g1 :: g) (b0 :: b1 :: b) x = contrib imap x d b0 g0 + contrib imap x (d + 1) b1 g1 + rowSum imap d g b x := by
  unfold rowSum
  rw [show (g0 :: g1 :: g).length = g.length + 1 + 1 from rfl, Finset.sum_range_succ', Finset.sum_range_succ']
  have e : ∀ k, entryDim d (k + 1 + 1) = entryDim d k := fun k => by unfold entryDim; omega
  have h0 : entryDim d 0 = d := rfl
  have h1 : entryDim d (0 + 1) = d + 1 := rfl
  simp only [e, h0, h1, List.getD_cons_succ, List.getD_cons_zero]
  ring

theorem rowOK_cons (n d : Nat) (g0 g1 : T) (g : List T) (b0 b1 : Int) (b : List Int) :
    RowOK imap n d (g0 :: g1 :: g) (b0 :: b1 :: b) ↔ EntryOK imap n d b0 ∧ EntryOK imap n (d + 1) b1 ∧ RowOK imap n d g b := by
  have e : ∀ k, entryDim d (k + 1 + 1) = entryDim d k := fun k => by unfold entryDim; omega
  unfold RowOK
  constructor
  · rintro ⟨h1, h2⟩
    refine ⟨?_, ?_, ?_, ?_⟩
    · obtain ⟨i, e1, e2⟩ := h1 0 (by simp)
      cases e1; exact e2
    · obtain ⟨i, e1, e2⟩ := h1 1 (by simp)
      cases e1; exact e2
    · intro k hk
      obtain ⟨i, e1, e2⟩ := h1 (k + 1 + 1) (by simp only [List.length_cons]; omega)
      rw [e] at e2
      exact ⟨i, e1, e2⟩
    · intro hk
      exact h2 (by simp only [List.length_cons]; omega)
  · rintro ⟨h1, h2, h3, h4⟩
    refine ⟨?_, ?_⟩
    · intro k hk
      match k, hk with
      | 0, _ => exact ⟨b0, rfl, h1⟩
      | 1, _ => exact ⟨b1, rfl, h2⟩
      | k + 2, hk =>
        obtain ⟨i, e1, e2⟩ := h3 k (by simp only [List.length_cons] at hk; omega)
        exact ⟨i, e1, by rw [e]; exact e2⟩
    · intro hk
      exact h4 (by simp only [List.length_cons] at hk; omega)

theorem gradRow_spec (d : Nat) : ∀ (g : List T) (b : List Int) (df : List T),
    (RowOK imap df.length d g b → ∃ df', gradRow imap d g b df = .ok df' ∧ Adds df df' (rowSum imap d g b)) ∧
    (¬ RowOK imap df.length d g b → gradRow imap d g b df = .error .ub)
  | [], b, df => by
    refine ⟨fun _ => ⟨df, by rw [gradRow], (Adds.refl df).congr (fun x => by simp [rowSum])⟩, fun h => ?_⟩
    exact absurd ⟨fun k hk => by simp at hk, fun h => by simp at h⟩ h
  | g0 :: g1 :: g, b0 :: b1 :: b, df => by
    obtain ⟨p1, p2⟩ := gradAdd_spec (imap := imap) d b0 g0 df
    rw [rowOK_cons, gradRow]
    by_cases h1 : EntryOK imap df.length d b0
    · obtain ⟨d1, e1, a1⟩ := p1 h1
      obtain ⟨q1, q2⟩ := gradAdd_spec (imap := imap) (d + 1) b1 g1 d1
      rw [a1.1] at q1 q2
      rw [e1, bind_ok]
      by_cases h2 : EntryOK imap df.length (d + 1) b1
      · obtain ⟨d2, e2, a2⟩ := q1 h2
        obtain ⟨r1, r2⟩ := gradRow_spec d g b d2
        rw [a2.1, a1.1] at r1 r2
        rw [e2, bind_ok]
        by_cases h3 : RowOK imap df.length d g b
        · obtain ⟨d3, e3, a3⟩ := r1 h3
          refine ⟨fun _ => ⟨d3, e3, ((a1.trans a2).trans a3).congr (fun x => by rw [rowSum_cons])⟩, fun h => absurd ⟨h1, h2, h3⟩ h⟩
        · exact ⟨fun h => absurd h.2.2 h3, fun _ => r2 h3⟩
      · exact ⟨fun h => absurd h.2.1 h2, fun _ => by rw [q2 h2]; rfl⟩
    · exact ⟨fun h => absurd h.1 h1, fun _ => by rw [p2 h1]; rfl⟩
  | [g0], b0 :: b1 :: b, df => by
    obtain ⟨p1, p2⟩ := gradAdd_spec (imap := imap) d b0 g0 df
    have hr : RowOK imap df.length d [g0] (b0 :: b1 :: b) ↔ EntryOK imap df.length d b0 ∧ b1 = -1 := by
      unfold RowOK
      constructor
      · rintro ⟨h1, h2⟩
        obtain ⟨i, e1, e2⟩ := h1 0 (by simp)
        cases e1
        have := h2 rfl
        exact ⟨e2, by simpa using this⟩
      · rintro ⟨h1, h2⟩
        refine ⟨fun k hk => ?_, fun _ => by rw [h2]; rfl⟩
        have : k = 0 := by simpa using hk
        subst this
        exact ⟨b0, rfl, h1⟩
    rw [hr, gradRow]
    by_cases h1 : EntryOK imap df.length d b0
    · obtain ⟨d1, e1, a1⟩ := p1 h1
      rw [e1, bind_ok]
      by_cases h2 : b1 = -1
      · rw [if_pos h2]
        refine ⟨fun _ => ⟨d1, rfl, a1.congr (fun x => ?_)⟩, fun h => absurd ⟨h1, h2⟩ h⟩
        unfold rowSum
        rw [show [g0].length = 1 from rfl, Finset.sum_range_one]; rfl
      · rw [if_neg h2]
        exact ⟨fun h => absurd h.2 h2, fun _ => rfl⟩
    · exact ⟨fun h => absurd h.1 h1, fun _ => by rw [p2 h1]; rfl⟩
  | [g0], [], df => by
    refine ⟨fun h => ?_, fun _ => by rw [gradRow] <;> simp⟩
    obtain ⟨i, e, _⟩ := h.1 0 (by simp)
    cases e
  | [g0], [b0], df => by
    refine ⟨fun h => ?_, fun _ => by rw [gradRow] <;> simp⟩
    have := h.2 rfl
    cases this
  | g0 :: g1 :: g, [], df => by
    refine ⟨fun h => ?_, fun _ => by rw [gradRow] <;> simp⟩
    obtain ⟨i, e, _⟩ := h.1 0 (by simp)
    cases e
  | g0 :: g1 :: g, [b0], df => by
    refine ⟨fun h => ?_, fun _ => by rw [gradRow] <;> simp⟩
    obtain ⟨i, e, _⟩ := h.1 1 (by simp)
    cases e

theorem gradLoop_spec (b : List (List Int)) : ∀ (gs : List (List T)) (d : Nat) (df : List T),
    ((∀ j g, gs[j]? = some g → RowOK imap df.length (d + j) g (b.getD (d + j) [])) →
      ∃ df', gradLoop imap d gs b df = .ok df' ∧ Adds df df' (fun x => ∑ j ∈ Finset.range gs.length, rowSum imap (d + j) (gs.getD j []) (b.getD (d + j) []) x)) ∧
    (¬ (∀ j g, gs[j]? = some g → RowOK imap df.length (d + j) g (b.getD (d + j) [])) → gradLoop imap d gs b df = .error .ub)
  | [], d, df => by
    refine ⟨fun _ => ⟨df, rfl, (Adds.refl df).congr (fun x => by simp)⟩, fun h => absurd (fun j g hj => by simp at hj) h⟩
  | g :: gs, d, df => by
    have hall : (∀ j g', (g :: gs)[j]? = some g' → RowOK imap df.length (d + j) g' (b.getD (d + j) [])) ↔
        RowOK imap df.length d g (b.getD d []) ∧ ∀ j g', gs[j]? = some g' → RowOK imap df.length (d + 1 + j) g' (b.getD (d + 1 + j) []) := by
      constructor
      · intro h
        refine ⟨h 0 g rfl, fun j g' hj => ?_⟩
        have := h (j + 1) g' hj
        rwa [show d + (j + 1) = d + 1 + j by omega] at this
      · rintro ⟨h1, h2⟩ j g' hj
        rcases j with _ | j
        · cases hj; exact h1
        · have := h2 j g' hj
          rwa [show d + 1 + j = d + (j + 1) by omega] at this
    obtain ⟨p1, p2⟩ := gradRow_spec (imap := imap) d g (b.getD d []) df
    rw [hall, gradLoop]
    by_cases h1 : RowOK imap df.length d g (b.getD d [])
    · obtain ⟨d1, e1, a1⟩ := p1 h1
      have hb : (do let bd ← rowInds b d g; gradRow imap d g bd df : Res (List T)) = .ok d1 := by
        unfold rowInds
        by_cases hg : g = []
        · subst hg
          rw [if_pos rfl, bind_ok]
          rw [gradRow] at e1 ⊢; exact e1
        · rw [if_neg hg]
          obtain ⟨i, e, _⟩ := h1.1 0 (List.length_pos_iff.2 hg)
          rcases hb : b[d]? with _ | bd
          · rw [List.getD_eq_getElem?_getD, hb] at e; cases e
          · rw [show rd b d = .ok bd by unfold rd; rw [hb], bind_ok]
            rwa [List.getD_eq_getElem?_getD, hb] at e1
      obtain ⟨bd, hb1, hb2⟩ := bind_ok_iff.1 hb
      rw [hb1, bind_ok, hb2, bind_ok]
      obtain ⟨r1, r2⟩ := gradLoop_spec b gs (d + 1) d1
      rw [a1.1] at r1 r2
      by_cases h2 : ∀ j g', gs[j]? = some g' → RowOK imap df.length (d + 1 + j) g' (b.getD (d + 1 + j) [])
      · obtain ⟨d2, e2, a2⟩ := r1 h2
        refine ⟨fun _ => ⟨d2, e2, (a1.trans a2).congr (fun x => ?_)⟩, fun h => absurd ⟨h1, h2⟩ h⟩
        rw [show (g :: gs).length = gs.length + 1 from rfl, Finset.sum_range_succ', add_comm]
        congr 1
        apply Finset.sum_congr rfl
        intro j _
        rw [show d + (j + 1) = d + 1 + j by omega]; rfl
      · exact ⟨fun h => absurd h.2 h2, fun _ => r2 h2⟩
    · refine ⟨fun h => absurd h.1 h1, fun _ => ?_⟩
      have hg : g ≠ [] := by
        rintro rfl
        exact h1 ⟨fun k hk => by simp at hk, fun h => by simp at h⟩
      rw [show rowInds b d g = rd b d by unfold rowInds; rw [if_neg hg]]
      have e := p2 h1
      rcases hb : b[d]? with _ | bd
      · rw [show rd b d = .error .ub by unfold rd; rw [hb]]; rfl
      · rw [show rd b d = .ok bd by unfold rd; rw [hb], bind_ok]
        rw [List.getD_eq_getElem?_getD, hb] at e
        rw [show gradRow imap d g bd df = .error .ub from e]; rfl

end LSG
end BATS
