import Verif.Proofs.ZZOrder
import Mathlib.LinearAlgebra.FiniteDimensional.Basic

set_option linter.unusedSectionVars false
set_option linter.unusedSimpArgs false
set_option linter.unusedVariables false

/-! # The complex of the copies present at time `t` -/

namespace BATS
namespace Zigzag
open Matrix Reduction

variable {F : Type} [Field F] [DecidableEq F] {T : Type} [LinearOrder T]

/-- the event has happened at time `t` (entries at `t` have, exits at `t` have not) -/
def before (t : T) (e : Event T) : Bool := decide (e.val < t) || (decide (e.val = t) && e.entry)

theorem before_entry {t : T} {e : Event T} (h : e.entry = true) : before t e = true ↔ e.val ≤ t := by
  unfold before; rw [h]; simp [le_iff_lt_or_eq]

theorem before_exit {t : T} {e : Event T} (h : e.entry = false) : before t e = true ↔ e.val < t := by
  unfold before; rw [h]; simp

theorem take_countP {α : Type} (P : α → Bool) : ∀ l : List α, l.Pairwise (fun a b => P b = true → P a = true) →
    l.take (l.countP P) = l.filter P ∧ ∀ s (hs : s < l.length), (P l[s] = true ↔ s < l.countP P)
  | [], _ => ⟨rfl, fun s hs => absurd hs (by simp)⟩
  | a :: l, h => by
    rw [List.pairwise_cons] at h
    obtain ⟨h1, h2⟩ := take_countP P l h.2
    by_cases ha : P a = true
    · rw [List.countP_cons_of_pos ha, List.take_succ_cons, h1, List.filter_cons_of_pos ha]
      refine ⟨rfl, fun s hs => ?_⟩
      cases s with
      | zero => simp [ha]
      | succ s => rw [List.getElem_cons_succ, h2 s (by simpa using hs)]; omega
    · have h0 : ∀ b ∈ l, ¬ P b = true := fun b hb hPb => ha (h.1 b hb hPb)
      have hc : l.countP P = 0 := List.countP_eq_zero.2 h0
      rw [List.countP_cons_of_neg ha, hc, List.take_zero, List.filter_cons_of_neg ha, List.filter_eq_nil_iff.2 h0]
      refine ⟨rfl, fun s hs => ?_⟩
      cases s with
      | zero => simp [ha]
      | succ s =>
        rw [List.getElem_cons_succ]
        exact ⟨fun hh => absurd hh (h0 _ (List.getElem_mem _)), fun hh => absurd hh (by omega)⟩

section
variable {B C : List (CMat F)} {vals : List (List (List (T × T)))} {lab : Nat → Nat → Copy T} {es : List (Event T)} {cmp : Event T → Event T → Bool}

theorem before_pairwise (hc : CmpOK C es cmp) (hs : es.Pairwise (fun a b => cmp b a = false)) (t : T) : es.Pairwise (fun a b => before t b = true → before t a = true) := by
  rw [List.pairwise_iff_getElem] at hs ⊢
  intro i j hi hj hij hb
  have h := hs i j hi hj hij
  by_contra hna
  have : cmp es[j] es[i] = true := by
    rcases hbe : es[j].entry with _ | _ <;> rcases hae : es[i].entry with _ | _
    · rw [before_exit hbe] at hb; rw [before_exit hae] at hna
      exact hc.val _ (List.getElem_mem hj) _ (List.getElem_mem hi) (lt_of_lt_of_le hb (not_lt.1 hna))
    · rw [before_exit hbe] at hb; rw [before_entry hae] at hna
      exact hc.val _ (List.getElem_mem hj) _ (List.getElem_mem hi) (lt_trans hb (not_le.1 hna))
    · rw [before_entry hbe] at hb; rw [before_exit hae] at hna
      rcases lt_or_eq_of_le (le_trans hb (not_lt.1 hna)) with h1 | h1
      · exact hc.val _ (List.getElem_mem hj) _ (List.getElem_mem hi) h1
      · exact hc.entry _ (List.getElem_mem hj) _ (List.getElem_mem hi) h1 hbe hae
    · rw [before_entry hbe] at hb; rw [before_entry hae] at hna
      exact hc.val _ (List.getElem_mem hj) _ (List.getElem_mem hi) (lt_of_le_of_lt hb (not_le.1 hna))
  rw [this] at h; cases h

/-- the position of time `t` in the sequence of events -/
def cutAt (es : List (Event T)) (t : T) : Nat := es.countP (before t)

theorem present_cut (hl : Labelled B vals C lab) (hv : IsZigzagFiltration B vals) (he : EventsOf C lab es) (hc : CmpOK C es cmp)
    (hs : es.Pairwise (fun a b => cmp b a = false)) (t : T) (k j : Nat) :
    j ∈ present (es.take (cutAt es t)) k ↔ j < cdim C k ∧ (lab k j).lo ≤ t ∧ t ≤ (lab k j).hi := by
  have htake := (take_countP (before t) es (before_pairwise hc hs t)).1
  have hok : EventsOK (es.take (cutAt es t)) := by
    have := eventsOK hl hv he hc hs
    rw [← List.take_append_drop (cutAt es t) es] at this
    exact this.append_left
  rw [mem_present _ hok]
  unfold cutAt
  rw [htake]
  constructor
  · rintro ⟨⟨e, h1, rfl, rfl, h4⟩, hno⟩
    rw [List.mem_filter] at h1
    have m := he.mem e h1.1
    rw [h4] at m
    have hlo : e.val = (lab e.dim e.ind).lo := by simpa using m.2.2
    refine ⟨m.2.1, ?_, ?_⟩
    · rw [← hlo]; exact (before_entry h4).1 h1.2
    · by_contra hlt
      obtain ⟨f, hf, f1, f2, f3⟩ := he.all e.dim e.ind m.2.1 false
      have mf := (he.mem f hf).2.2
      rw [f1, f2, f3] at mf
      have hhi : f.val = (lab e.dim e.ind).hi := by simpa using mf
      exact hno ⟨f, List.mem_filter.2 ⟨hf, (before_exit f3).2 (by rw [hhi]; exact not_le.1 hlt)⟩, f1, f2, f3⟩
  · rintro ⟨hj, h1, h2⟩
    constructor
    · obtain ⟨f, hf, f1, f2, f3⟩ := he.all k j hj true
      have mf := (he.mem f hf).2.2
      rw [f1, f2, f3] at mf
      have hlo : f.val = (lab k j).lo := by simpa using mf
      exact ⟨f, List.mem_filter.2 ⟨hf, (before_entry f3).2 (by rw [hlo]; exact h1)⟩, f1, f2, f3⟩
    · rintro ⟨f, hf, f1, f2, f3⟩
      rw [List.mem_filter] at hf
      have mf := (he.mem f hf.1).2.2
      rw [f1, f2, f3] at mf
      have hhi : f.val = (lab k j).hi := by simpa using mf
      have := (before_exit f3).1 hf.2
      rw [hhi] at this
      exact absurd this (not_lt.2 h2)

/-! ### the projection to the original complex -/

/-- the projection of chains: every copy goes to its cell -/
def proj (B C : List (CMat F)) (lab : Nat → Nat → Copy T) (k : Nat) : (Fin (cdim C k) → F) →ₗ[F] (Fin (cdim B k) → F) where
  toFun x c := ∑ j : Fin (cdim C k), if (lab k j).orig = c.val then x j else 0
  map_add' x y := by
    funext c
    show ∑ j : Fin (cdim C k), (if (lab k j).orig = c.val then x j + y j else 0) = _ + _
    rw [← Finset.sum_add_distrib]
    refine Finset.sum_congr rfl (fun j _ => ?_)
    split <;> simp
  map_smul' a x := by
    funext c
    show ∑ j : Fin (cdim C k), (if (lab k j).orig = c.val then a * x j else 0) = a * ∑ j : Fin (cdim C k), if (lab k j).orig = c.val then x j else 0
    rw [Finset.mul_sum]
    refine Finset.sum_congr rfl (fun j _ => ?_)
    split <;> simp

theorem proj_apply (k : Nat) (x : Fin (cdim C k) → F) (c : Fin (cdim B k)) : proj B C lab k x c = ∑ j : Fin (cdim C k), if (lab k j).orig = c.val then x j else 0 := rfl

theorem proj_bdry (hl : Labelled B vals C lab) (hB : ShapesOK B) (hv : IsZigzagFiltration B vals) (k : Nat) (x : Fin (cdim C (k + 1)) → F) :
    proj B C lab k ((bdryUp C k).mulVecLin x) = (bdryUp B k).mulVecLin (proj B C lab (k + 1) x) := by
  funext a0
  rw [proj_apply]
  simp only [Matrix.mulVecLin_apply, Matrix.mulVec, dotProduct]
  show ∑ a : Fin (cdim C k), (if (lab k a).orig = a0.val then ∑ j : Fin (cdim C (k + 1)), ent C (k + 1) a j * x j else 0) =
    ∑ c : Fin (cdim B (k + 1)), ent B (k + 1) a0 c * ∑ j : Fin (cdim C (k + 1)), if (lab (k + 1) j).orig = c.val then x j else 0
  have e1 : ∀ c : Fin (cdim B (k + 1)), ent B (k + 1) a0 c * ∑ j : Fin (cdim C (k + 1)), (if (lab (k + 1) j).orig = c.val then x j else 0) =
      ∑ j : Fin (cdim C (k + 1)), if (lab (k + 1) j).orig = c.val then ent B (k + 1) a0 (lab (k + 1) j).orig * x j else 0 := by
    intro c
    rw [Finset.mul_sum]
    refine Finset.sum_congr rfl (fun j _ => ?_)
    by_cases h : (lab (k + 1) j).orig = c.val
    · rw [if_pos h, if_pos h, h]
    · rw [if_neg h, if_neg h, mul_zero]
  rw [Finset.sum_congr rfl (fun c _ => e1 c), Finset.sum_comm]
  have e2 : ∀ a : Fin (cdim C k), (if (lab k a).orig = a0.val then ∑ j : Fin (cdim C (k + 1)), ent C (k + 1) a j * x j else 0) =
      ∑ j : Fin (cdim C (k + 1)), if (lab k a).orig = a0.val then ent C (k + 1) a j * x j else 0 := by
    intro a
    split <;> simp
  rw [Finset.sum_congr rfl (fun a _ => e2 a), Finset.sum_comm]
  refine Finset.sum_congr rfl (fun j _ => ?_)
  have hR : ∑ c : Fin (cdim B (k + 1)), (if (lab (k + 1) j).orig = c.val then ent B (k + 1) a0 (lab (k + 1) j).orig * x j else 0) =
      ent B (k + 1) a0 (lab (k + 1) j).orig * x j := by
    rw [Finset.sum_eq_single ⟨(lab (k + 1) j).orig, (hl.mem _ j j.2).1⟩]
    · rw [if_pos rfl]
    · intro c _ hc
      rw [if_neg (fun e => hc (Fin.ext e.symm))]
    · intro h; exact absurd (Finset.mem_univ _) h
  rw [hR]
  have key := hl.sum_copies hv k (lab (k + 1) j) (hl.le hv j.2) (fun i => if i = a0.val then ent B (k + 1) i (lab (k + 1) j).orig else 0)
    (fun i hi hne => hl.face hB hv j.2 (by
      by_cases h : i = a0.val
      · simpa [h] using hne
      · simp [h] at hne))
  have hS : ∑ i : Fin (cdim B k), (if i.val = a0.val then ent B (k + 1) i (lab (k + 1) j).orig else 0) = ent B (k + 1) a0 (lab (k + 1) j).orig := by
    rw [Finset.sum_eq_single a0]
    · rw [if_pos rfl]
    · intro c _ hc
      rw [if_neg (fun e => hc (Fin.ext e))]
    · intro h; exact absurd (Finset.mem_univ _) h
  have key' := key.trans hS
  rw [← key', Finset.sum_mul]
  refine Finset.sum_congr rfl (fun a _ => ?_)
  rw [hl.ent k a j a.2 j.2]
  by_cases h1 : (lab k a).orig = a0.val
  · rw [if_pos h1, if_pos h1]
  · rw [if_neg h1, if_neg h1]; simp

/-- a subcomplex of the complex of copies with at most one copy of each cell -/
structure SubCopies (C : List (CMat F)) (lab : Nat → Nat → Copy T) (P : Nat → Set Nat) : Prop where
  lt : ∀ k j, j ∈ P k → j < cdim C k
  uniq : ∀ k j j', j ∈ P k → j' ∈ P k → (lab k j).orig = (lab k j').orig → j = j'
  closed : ∀ k a j, j ∈ P (k + 1) → a < cdim C k → ent C (k + 1) a j ≠ 0 → a ∈ P k

/-- the members of `P` as a set of indices -/
def onC (C : List (CMat F)) (P : Nat → Set Nat) (k : Nat) : Set (Fin (cdim C k)) := {j | j.val ∈ P k}
/-- the cells with a copy in `P` -/
def onB (B : List (CMat F)) (lab : Nat → Nat → Copy T) (P : Nat → Set Nat) (k : Nat) : Set (Fin (cdim B k)) := {c | ∃ j ∈ P k, (lab k j).orig = c.val}

section
variable {P : Nat → Set Nat}

theorem proj_at (hp : SubCopies C lab P) {k : Nat} {x : Fin (cdim C k) → F} (hx : x ∈ supported (F := F) (onC C P k))
    {j : Fin (cdim C k)} (hj : j ∈ onC C P k) (c : Fin (cdim B k)) (hc : (lab k j).orig = c.val) : proj B C lab k x c = x j := by
  rw [proj_apply, Finset.sum_eq_single j]
  · rw [if_pos hc]
  · intro j' _ hne
    split
    · rename_i ho
      apply hx
      intro hj'
      exact hne (Fin.ext (hp.uniq k j' j hj' hj (by rw [ho, hc])))
    · rfl
  · intro h; exact absurd (Finset.mem_univ _) h

theorem proj_inj (hl : Labelled B vals C lab) (hp : SubCopies C lab P) {k : Nat} {x : Fin (cdim C k) → F} (hx : x ∈ supported (F := F) (onC C P k))
    (h0 : proj B C lab k x = 0) : x = 0 := by
  funext j
  by_cases hj : j ∈ onC C P k
  · have := proj_at hp hx hj ⟨_, (hl.mem k j j.2).1⟩ rfl
    rw [← this, h0]; rfl
  · exact hx j hj

theorem map_supported (hl : Labelled B vals C lab) (hp : SubCopies C lab P) (k : Nat) :
    (supported (F := F) (onC C P k)).map (proj B C lab k) = supported (onB B lab P k) := by
  classical
  have zero : ∀ (x : Fin (cdim C k) → F), x ∈ supported (F := F) (onC C P k) → ∀ c, c ∉ onB B lab P k → proj B C lab k x c = 0 := by
    intro x hx c hc
    rw [proj_apply]
    apply Finset.sum_eq_zero
    intro j _
    split
    · rename_i ho
      apply hx
      intro hj
      exact hc ⟨j, hj, ho⟩
    · rfl
  ext y
  rw [Submodule.mem_map]
  constructor
  · rintro ⟨x, hx, rfl⟩ c hc
    exact zero x hx c hc
  · intro hy
    obtain ⟨x, hxdef⟩ : ∃ x : Fin (cdim C k) → F, x = fun j => if j ∈ onC C P k then y ⟨(lab k j).orig, (hl.mem k j j.2).1⟩ else 0 := ⟨_, rfl⟩
    have hx : x ∈ supported (F := F) (onC C P k) := by
      intro j hj; rw [hxdef]; exact if_neg hj
    refine ⟨x, hx, ?_⟩
    funext c
    by_cases hc : c ∈ onB B lab P k
    · obtain ⟨j, hjm, ho⟩ := hc
      have hjm' : (⟨j, hp.lt k j hjm⟩ : Fin (cdim C k)) ∈ onC C P k := hjm
      rw [proj_at hp hx hjm' c ho, hxdef]
      show (if _ then _ else _) = _
      rw [if_pos hjm']
      congr 1
      exact Fin.ext ho
    · rw [hy c hc, zero x hx c hc]

/-- the boundary of a chain of present copies consists of present copies -/
theorem bdry_supported (hp : SubCopies C lab P) {k : Nat} {x : Fin (cdim C (k + 1)) → F} (hx : x ∈ supported (F := F) (onC C P (k + 1))) :
    (bdryUp C k).mulVecLin x ∈ supported (F := F) (onC C P k) := by
  intro a ha
  rw [Matrix.mulVecLin_apply]
  show ∑ j : Fin (cdim C (k + 1)), ent C (k + 1) a j * x j = 0
  apply Finset.sum_eq_zero
  intro j _
  by_cases hj : j ∈ onC C P (k + 1)
  · by_cases he : ent C (k + 1) a j = 0
    · rw [he, zero_mul]
    · exact absurd (hp.closed k a j hj a.2 he) ha
  · rw [hx j hj, mul_zero]

theorem cycles_zero_top {B : List (CMat F)} (h : ZeroBdry0 B) : cycles B 0 = ⊤ := by
  rw [eq_top_iff]
  intro x _
  unfold cycles
  rw [LinearMap.mem_ker, Matrix.mulVecLin_apply]
  funext a
  show ∑ j : Fin (cdim B 0), ent B 0 a j * x j = 0
  exact Finset.sum_eq_zero (fun j _ => by rw [ent_zero_bdry h, zero_mul])

theorem map_cycles (hl : Labelled B vals C lab) (hB : ShapesOK B) (h0 : ZeroBdry0 B) (hv : IsZigzagFiltration B vals) (hp : SubCopies C lab P) (k : Nat) :
    (cycles C k ⊓ supported (F := F) (onC C P k)).map (proj B C lab k) = cycles B k ⊓ supported (onB B lab P k) := by
  rw [← map_supported hl hp]
  cases k with
  | zero => rw [cycles_zero_top hl.zero, cycles_zero_top h0, top_inf_eq, top_inf_eq]
  | succ k =>
    ext y
    rw [Submodule.mem_map, Submodule.mem_inf, Submodule.mem_map]
    constructor
    · rintro ⟨x, hx, rfl⟩
      rw [Submodule.mem_inf] at hx
      refine ⟨?_, x, hx.2, rfl⟩
      have h1 : (bdryUp C k).mulVecLin x = 0 := hx.1
      show (bdryUp B k).mulVecLin _ = 0
      rw [← proj_bdry hl hB hv, h1, map_zero]
    · rintro ⟨h1, x, hx, rfl⟩
      refine ⟨x, Submodule.mem_inf.2 ⟨?_, hx⟩, rfl⟩
      have h1' : (bdryUp B k).mulVecLin (proj B C lab (k + 1) x) = 0 := h1
      show (bdryUp C k).mulVecLin x = 0
      apply proj_inj hl hp (bdry_supported hp hx)
      rw [proj_bdry hl hB hv, h1']

theorem map_boundaries (hl : Labelled B vals C lab) (hB : ShapesOK B) (hv : IsZigzagFiltration B vals) (hp : SubCopies C lab P) (k : Nat) :
    ((supported (F := F) (onC C P (k + 1))).map (bdryUp C k).mulVecLin).map (proj B C lab k) = (supported (onB B lab P (k + 1))).map (bdryUp B k).mulVecLin := by
  have e : (proj B C lab k).comp (bdryUp C k).mulVecLin = (bdryUp B k).mulVecLin.comp (proj B C lab (k + 1)) := LinearMap.ext (fun x => proj_bdry hl hB hv k x)
  rw [← map_supported hl hp, ← Submodule.map_comp, ← Submodule.map_comp, e]

theorem finrank_map_of_inj {V W : Type} [AddCommGroup V] [Module F V] [FiniteDimensional F V] [AddCommGroup W] [Module F W] (f : V →ₗ[F] W) (S : Submodule F V)
    (h : ∀ x ∈ S, f x = 0 → x = 0) : Module.finrank F (S.map f) = Module.finrank F S := by
  have h1 := LinearMap.finrank_range_add_finrank_ker (f.domRestrict S)
  have h2 : LinearMap.ker (f.domRestrict S) = ⊥ := by
    rw [eq_bot_iff]
    intro x hx
    rw [LinearMap.mem_ker] at hx
    exact Subtype.ext (h x.1 x.2 hx)
  rw [h2, finrank_bot, add_zero, LinearMap.range_domRestrict] at h1
  exact h1

theorem bound_le_sub (hC : IsChainComplex C) (hp : SubCopies C lab P) (k : Nat) :
    (supported (F := F) (onC C P (k + 1))).map (bdryUp C k).mulVecLin ≤ cycles C k ⊓ supported (F := F) (onC C P k) := by
  rintro y ⟨x, hx, rfl⟩
  refine Submodule.mem_inf.2 ⟨?_, bdry_supported hp hx⟩
  show (bdry C k).mulVecLin _ = 0
  rw [← LinearMap.comp_apply, ← Matrix.mulVecLin_mul, hC.sq' k]
  simp

/-- the homology of the copies is the homology of the cells -/
theorem betti_copies (hl : Labelled B vals C lab) (hB : IsChainComplex B) (h0 : ZeroBdry0 B) (hv : IsZigzagFiltration B vals) (hp : SubCopies C lab P) (k : Nat) :
    Module.finrank F ((cycles C k ⊓ supported (F := F) (onC C P k) : Submodule F (Fin (cdim C k) → F)) ⧸
      ((supported (F := F) (onC C P (k + 1))).map (bdryUp C k).mulVecLin).submoduleOf (cycles C k ⊓ supported (F := F) (onC C P k))) =
    Module.finrank F ((cycles B k ⊓ supported (F := F) (onB B lab P k) : Submodule F (Fin (cdim B k) → F)) ⧸
      ((supported (F := F) (onB B lab P (k + 1))).map (bdryUp B k).mulVecLin).submoduleOf (cycles B k ⊓ supported (F := F) (onB B lab P k))) := by
  have hC := hl.isChainComplex hB hv
  have sup : ∀ x ∈ (cycles C k ⊓ supported (F := F) (onC C P k) : Submodule F (Fin (cdim C k) → F)), proj B C lab k x = 0 → x = 0 :=
    fun x hx => proj_inj hl hp (Submodule.mem_inf.1 hx).2
  have hle := bound_le_sub (F := F) hC hp k
  have hle' : (supported (F := F) (onB B lab P (k + 1))).map (bdryUp B k).mulVecLin ≤ cycles B k ⊓ supported (F := F) (onB B lab P k) := by
    rw [← map_boundaries hl hB.shape hv hp, ← map_cycles hl hB.shape h0 hv hp]
    exact Submodule.map_mono hle
  have r1 := finrank_quot hle
  have r2 := finrank_quot hle'
  have e1 := finrank_map_of_inj (proj B C lab k) _ sup
  have e2 := finrank_map_of_inj (proj B C lab k) _ (fun x hx => sup x (hle hx))
  rw [map_cycles hl hB.shape h0 hv hp] at e1
  rw [map_boundaries hl hB.shape hv hp] at e2
  omega

end

/-! ### the copies present after the first events -/

theorem eventsOK_take (hok : EventsOK es) (i : Nat) : EventsOK (es.take i) := by
  rw [← List.take_append_drop i es] at hok
  exact hok.append_left

/-- copies present after `i` events have entered before and leave later -/
theorem present_take (hl : Labelled B vals C lab) (he : EventsOf C lab es) (hok : EventsOK es) {i k j : Nat} (hj : j ∈ present (es.take i) k) :
    j < cdim C k ∧ (∃ e ∈ es.take i, e.dim = k ∧ e.ind = j ∧ e.entry = true ∧ e.val = (lab k j).lo) ∧
      ∃ f ∈ es.drop i, f.dim = k ∧ f.ind = j ∧ f.entry = false ∧ f.val = (lab k j).hi := by
  obtain ⟨⟨e, h1, h2, h3, h4⟩, hno⟩ := (mem_present _ (eventsOK_take hok i) _ _).1 hj
  have m := he.mem e (List.mem_of_mem_take h1)
  rw [h2, h3, h4] at m
  refine ⟨m.2.1, ⟨e, h1, h2, h3, h4, by simpa using m.2.2⟩, ?_⟩
  obtain ⟨f, hf, f1, f2, f3⟩ := he.all k j m.2.1 false
  have mf := (he.mem f hf).2.2
  rw [f1, f2, f3] at mf
  refine ⟨f, ?_, f1, f2, f3, by simpa using mf⟩
  rw [← List.take_append_drop i es] at hf
  rcases List.mem_append.1 hf with hf | hf
  · exact absurd ⟨f, hf, f1, f2, f3⟩ hno
  · exact hf

theorem subCopies_present (hl : Labelled B vals C lab) (hv : IsZigzagFiltration B vals) (he : EventsOf C lab es) (hc : CmpOK C es cmp)
    (hs : es.Pairwise (fun a b => cmp b a = false)) (ho : IsZigzagOrder C es) (i : Nat) : SubCopies C lab (fun k => {j | j ∈ present (es.take i) k}) := by
  have hok := eventsOK hl hv he hc hs
  have hcross : ∀ a ∈ es.take i, ∀ b ∈ es.drop i, ¬ b.val < a.val := by
    intro a ha b hb hlt
    have hs' := hs
    rw [← List.take_append_drop i es] at hs'
    have := (List.pairwise_append.1 hs').2.2 a ha b hb
    rw [hc.val b (List.mem_of_mem_drop hb) a (List.mem_of_mem_take ha) hlt] at this
    cases this
  refine ⟨fun k j hj => (present_take hl he hok hj).1, ?_, ?_⟩
  · intro k j j' hj hj' horig
    obtain ⟨l1, ⟨a, a1, _, _, _, a5⟩, ⟨b, b1, _, _, _, b5⟩⟩ := present_take hl he hok hj
    obtain ⟨l2, ⟨a', a1', _, _, _, a5'⟩, ⟨b', b1', _, _, _, b5'⟩⟩ := present_take hl he hok hj'
    -- the later of the two entries is a common time
    have c1 := hcross a a1 b' b1'
    have c2 := hcross a' a1' b b1
    rw [a5, b5', not_lt] at c1
    rw [a5', b5, not_lt] at c2
    rcases le_total (lab k j).lo (lab k j').lo with h | h
    · exact hl.unique hv l1 l2 horig h c2 le_rfl (hl.le hv l2)
    · exact hl.unique hv l1 l2 horig le_rfl (hl.le hv l1) h c1
  · intro k a j hj ha hne
    obtain ⟨l1, ⟨e, e1, e2, e3, e4, e5⟩, ⟨f, f1, f2, f3, f4, f5⟩⟩ := present_take hl he hok hj
    have hcon : Contains (lab k a) (lab (k + 1) j) := by
      by_contra hcon
      rw [hl.ent k a j ha l1, if_neg hcon] at hne; exact hne rfl
    show a ∈ present (es.take i) k
    rw [mem_present _ (eventsOK_take hok i)]
    constructor
    · -- a enters before e
      obtain ⟨pre, post, hes⟩ := List.append_of_mem e1
      have hes' : es = pre ++ e :: (post ++ es.drop i) := by
        conv_lhs => rw [← List.take_append_drop i es, hes]
        simp
      have hst := ho pre e _ hes'
      have := hst.2.2
      rw [e4] at this
      simp only [if_true] at this
      have hin := this.2 k e2 a (by rw [e3]; exact hne)
      rw [mem_present pre (by rw [hes'] at hok; exact hok.append_left)] at hin
      obtain ⟨⟨g, g1, g2⟩, _⟩ := hin
      exact ⟨g, by rw [hes]; exact List.mem_append_left _ g1, g2⟩
    · rintro ⟨g, g1, g2, g3, g4⟩
      -- a leaves before e's cell does
      obtain ⟨pre, post, hes⟩ := List.append_of_mem g1
      have hes' : es = pre ++ g :: (post ++ es.drop i) := by
        conv_lhs => rw [← List.take_append_drop i es, hes]
        simp
      have hst := ho pre g _ hes'
      have := hst.2.2
      rw [g4] at this
      simp only [Bool.false_eq_true, if_false] at this
      have hokp : EventsOK pre := by rw [hes'] at hok; exact hok.append_left
      rw [g2, g3] at this
      by_cases hjp : j ∈ present pre (k + 1)
      · exact hne (this.2.2 j hjp)
      · -- then the entry e comes after g, and its boundary is not present
        rw [mem_present pre hokp] at hjp
        have hnoexit : ¬ ∃ e ∈ pre, e.dim = k + 1 ∧ e.ind = j ∧ e.entry = false := by
          rintro ⟨x, x1, x2, x3, x4⟩
          have := (mem_present _ (eventsOK_take hok i) _ _).1 hj
          exact this.2 ⟨x, by rw [hes]; exact List.mem_append_left _ x1, x2, x3, x4⟩
        have hnoentry : ¬ ∃ e ∈ pre, e.dim = k + 1 ∧ e.ind = j ∧ e.entry = true := fun h => hjp ⟨h, hnoexit⟩
        have hepost : e ∈ post := by
          rw [hes] at e1
          rcases List.mem_append.1 e1 with h | h
          · exact absurd ⟨e, h, e2, e3, e4⟩ hnoentry
          · rcases List.mem_cons.1 h with h | h
            · rw [h] at e4; rw [e4] at g4; cases g4
            · exact h
        obtain ⟨p1, p2, hpost⟩ := List.append_of_mem hepost
        have hes2 : es = (pre ++ g :: p1) ++ e :: (p2 ++ es.drop i) := by
          conv_lhs => rw [hes', hpost]
          simp
        have hst2 := (ho _ e _ hes2).2.2
        rw [e4] at hst2
        simp only [if_true] at hst2
        have hin := hst2.2 k e2 a (by rw [e3]; exact hne)
        rw [mem_present _ (by rw [hes2] at hok; exact hok.append_left)] at hin
        exact hin.2 ⟨g, by simp, g2, g3, g4⟩

end
end Zigzag
end BATS
