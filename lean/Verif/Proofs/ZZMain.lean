import Verif.Proofs.ZZLeave

set_option linter.unusedSectionVars false
set_option linter.unusedSimpArgs false
set_option linter.unusedVariables false

/-! # Zigzag: the whole algorithm -/

namespace BATS
namespace Zigzag
open Reduction Matrix BATS.Fact CMat

variable {F : Type} [Field F] [DecidableEq F] {T : Type}

section
variable {B : List (CMat F)} {es : List (Event T)} {nb N : Nat}

theorem map_getD {α β : Type} (l : List α) (f : α → β) (k : Nat) (d : α) : (l.map f).getD k (f d) = f (l.getD k d) := by
  rw [List.getD_eq_getElem?_getD, List.getD_eq_getElem?_getD, List.getElem?_map]
  cases l[k]? <;> rfl

theorem present_zero (k : Nat) : present (es.take 0) k = ∅ := by simp [present]

theorem cycles_zero {k : Nat} {z : Fin (cdim B k) → F} (hz : z ∈ cyclesOn B es k 0) : z = 0 := by
  rw [cyclesOn_eq, present_zero] at hz
  have h2 := hz.2
  rw [SetLike.mem_coe, mem_onS] at h2
  funext i
  exact h2 i (by simp)

theorem init_spec (hB : IsChainComplex B) (hnb : nb ≤ B.length) : SInv B es nb 0 (initState (T := T) B nb) := by
  have hU : ∀ k, Uk B (initRed B) k = CMat.identity (cdim B k) := by
    intro k
    by_cases h : k < B.length
    · show (B.map (fun b => CMat.identity b.cols.length)).getD k _ = _
      rw [getD_lt (by rw [List.length_map]; exact h) _ (CMat.identity (⟨0, []⟩ : CMat F).cols.length), map_getD B (fun b => CMat.identity b.cols.length)]
      rfl
    · show (B.map (fun b => CMat.identity b.cols.length)).getD k _ = _
      rw [getD_of_ge (by rw [List.length_map]; omega), cdim_ge (by omega)]
      rfl
  have hR : ∀ k, Rk B (initRed B) k = Dk B k := fun k => rfl
  have hp : ∀ k, pk B (initRed B) k = List.replicate (rdim B k) none := by
    intro k
    by_cases h : k < B.length
    · show (B.map (fun b => List.replicate b.nrow none)).getD k _ = _
      rw [getD_lt (by rw [List.length_map]; exact h) _ (List.replicate (⟨0, []⟩ : CMat F).nrow none), map_getD B (fun b => List.replicate b.nrow none)]
      rw [(hB.shape k h).nrow]
    · show (B.map (fun b => List.replicate b.nrow none)).getD k _ = _
      rw [getD_of_ge (by rw [List.length_map]; omega)]
  refine ⟨rfl, by simp [initState, initRed], by simp [initState, initRed], by simp [initState, initRed], by simp [initState], by simp [initState], by simp [initState], by simp [initState], by simp [initState], ?_, ?_, ?_⟩
  · intro k
    show Lev _ _ _ (Rk B (initRed B) k) (Uk B (initRed B) k) (pk B (initRed B) k) _
    rw [hU, hR, hp, present_zero]
    have hD := Dk_shape hB k
    refine ⟨hD, hD.nrow, rfl, ⟨hD.ncol, (shape_identity (F := F) _).ncol, by simp, hD.colsOK, (shape_identity (F := F) _).colsOK, by simp, by simp, by simp, by simp⟩, ⟨by simp, ?_⟩⟩
    intro i c
    simp [List.getElem?_replicate]
  · intro k c hc _
    show (Rk B (initRed B) k).cols.getD c [] = _ ∧ (Uk B (initRed B) k).cols.getD c [] = _
    rw [hU, hR]
    refine ⟨rfl, ?_⟩
    show ((List.range (cdim B k)).map (fun j => [(j, (1 : F))])).getD c [] = _
    rw [List.getD_eq_getElem?_getD, List.getElem?_map, List.getElem?_range hc]; rfl
  · intro k hk
    have hI : (initRed B).I.getD k [] = [] := by
      show (B.map (fun _ => ([] : List Nat))).getD k [] = []
      rw [List.getD_eq_getElem?_getD, List.getElem?_map]
      cases B[k]? <;> rfl
    have hrep : ∀ {α : Type} (a d : α), (List.replicate nb a).getD k d = a := by
      intro α a d
      rw [List.getD_eq_getElem?_getD, List.getElem?_replicate, if_pos hk]; rfl
    show KOK B es 0 k (Rk B (initRed B) k) (Uk B (initRed B) k) (pk B (initRed B) (k + 1)) ((initRed B).I.getD k []) ((List.replicate nb ⟨0, []⟩).getD k ⟨0, []⟩)
      ((List.replicate nb ⟨0, []⟩).getD k ⟨0, []⟩) ((List.replicate nb false).getD k false) ((List.replicate nb []).getD k []) ((List.replicate nb []).getD k [])
    rw [hI, hrep, hrep, hrep, hrep]
    refine ⟨⟨List.Pairwise.nil, by intro c; rw [present_zero]; simp⟩, ⟨⟨fun c hc => absurd hc (by show ¬ c ∈ ([] : List (SVec F)); simp), rfl, rfl⟩,
      ⟨fun c hc => absurd hc (by show ¬ c ∈ ([] : List (SVec F)); simp), rfl, rfl⟩, ⟨fun i => i.elim0, fun i => i.elim0⟩, ⟨Equiv.refl _, fun i => i.elim0⟩, ?_⟩⟩
    refine ⟨[], fun _ => 0, 1, ?_, rfl, by intro b hb; simp at hb, by simp, by simp, by simp [alive], by simp, ?_⟩
    · unfold Chg; rw [if_neg (by simp)]
      ext i; exact i.elim0
    · intro X hX
      refine ⟨fun _ _ => 0, ⟨?_, ?_, ?_, ?_, ?_⟩, fun a => a.elim0⟩
      · intro i hi b hb; simp [alive] at hb
      · intro i hi z hz
        have : i = 0 := by omega
        subst this
        refine ⟨fun _ => 0, ?_⟩
        rw [cycles_zero hz]
        simp [Submodule.zero_mem]
      · intro i hi c hc b hb; simp [alive] at hb
      · intro i hi; omega
      · intro i hi; omega

theorem loop_spec (hB : IsChainComplex B) (hz0 : ZeroBdry0 B) (ho : IsZigzagOrder B es) (hnb : nb ≤ B.length) (hdim : ∀ e ∈ es, e.entry = false → e.dim ≤ nb) :
    ∀ (t N : Nat) (s : State F T), N + t = es.length → SInv B es nb N s → ∃ s', loop nb (es.drop N) s = .ok s' ∧ SInv B es nb es.length s' := by
  intro t
  induction t with
  | zero =>
    intro N s hN hs
    have : N = es.length := by omega
    subst this
    rw [List.drop_length]
    exact ⟨s, rfl, hs⟩
  | succ t ih =>
    intro N s hN hs
    have hlt : N < es.length := by omega
    have he : es[N]? = some es[N] := List.getElem?_eq_getElem hlt
    rw [← List.cons_getElem_drop_succ (h := hlt)]
    rw [loop]
    cases hen : es[N].entry with
    | true =>
      obtain ⟨s', h1, h2⟩ := enter_spec hB hz0 ho hnb hs he hen
      obtain ⟨s2, h3, h4⟩ := ih (N + 1) s' (by omega) h2
      refine ⟨s2, ?_, h4⟩
      simp only [if_true, h1, bind_ok]; exact h3
    | false =>
      obtain ⟨s', h1, h2⟩ := leave_spec hB hz0 ho hnb hs he hen (hdim _ (List.getElem_mem hlt) hen)
      obtain ⟨s2, h3, h4⟩ := ih (N + 1) s' (by omega) h2
      refine ⟨s2, ?_, h4⟩
      simp only [Bool.false_eq_true, if_false, h1, bind_ok]; exact h3

theorem SInv.barcode (hs : SInv B es nb es.length s) {k : Nat} (hk : k < nb) :
    ∃ iv, IsZigzagBarcode B es k iv ∧ iv.map (pairOf es k) = (s.bars.getD k []).map some := by
  obtain ⟨iv, β, C, h1, h2, h3, h4, h5, h6, h7, h8⟩ := (hs.kok k hk).bar.data
  refine ⟨iv, ⟨h3, ?_⟩, h2⟩
  obtain ⟨v, hv, _⟩ := h8 1 BATS.Quiver.upper_one
  exact ⟨v, hv⟩

end

/-! ### orders -/

theorem order_iff {B : List (CMat F)} {es : List (Event T)} : IsZigzagOrder B es ↔ ∀ N, ∀ h : N < es.length, StepOK B (es.take N) es[N] := by
  constructor
  · intro h N hN
    exact h _ _ (es.drop (N + 1)) (by rw [List.cons_getElem_drop_succ, List.take_append_drop])
  · intro h pre e post hes
    have hl : pre.length < es.length := by rw [hes]; simp
    have := h pre.length hl
    have h1 : es.take pre.length = pre := by rw [hes]; simp
    have h2 : es[pre.length] = e := by simp [hes]
    rw [h1, h2] at this
    exact this

/-- checking one event -/
def stepOKb (B : List (CMat F)) (pre : List (Event T)) (e : Event T) : Bool :=
  decide (e.dim < B.length) && decide (e.ind < cdim B e.dim) &&
  if e.entry then
    pre.all (fun f => !(f.dim == e.dim && f.ind == e.ind)) &&
      ((List.range e.dim).all fun k => !(e.dim == k + 1) || (List.range (cdim B k)).all fun i => decide (ent B (k + 1) i e.ind = 0) || decide (i ∈ present pre k))
  else
    decide (e.ind ∈ present pre e.dim) && decide (∀ j ∈ present pre e.dim, j ≤ e.ind) && decide ((present pre (e.dim + 1)).filter (fun j => ent B (e.dim + 1) e.ind j ≠ 0) = ∅)

theorem stepOKb_sound {B : List (CMat F)} (hB : IsChainComplex B) {pre : List (Event T)} {e : Event T} (h : stepOKb B pre e = true) : StepOK B pre e := by
  unfold stepOKb at h
  rw [Bool.and_eq_true, Bool.and_eq_true] at h
  obtain ⟨⟨h1, h2⟩, h3⟩ := h
  refine ⟨by simpa using h1, by simpa using h2, ?_⟩
  split
  · rename_i hen
    rw [if_pos hen, Bool.and_eq_true] at h3
    obtain ⟨h4, h5⟩ := h3
    rw [List.all_eq_true] at h4 h5
    refine ⟨?_, ?_⟩
    · intro f hf hh
      have := h4 f hf
      simp [hh.1, hh.2] at this
    · intro k hk i hi
      have := h5 k (by rw [List.mem_range]; omega)
      simp only [hk, beq_self_eq_true, Bool.not_true, Bool.false_or, List.all_eq_true, List.mem_range] at this
      have hik : i < cdim B k := by
        by_contra hh
        apply hi
        have hsh := (hB.shape (k + 1) (by have := of_decide_eq_true h1; omega)).colsOK.getD e.ind
        exact hsh.2.coef_eq_zero (by show cdim B k ≤ i; omega)
      have := this i hik
      simp only [Bool.or_eq_true, decide_eq_true_eq] at this
      rcases this with h | h
      · exact absurd h hi
      · exact h
  · rename_i hen
    rw [if_neg hen, Bool.and_eq_true, Bool.and_eq_true] at h3
    refine ⟨of_decide_eq_true h3.1.1, of_decide_eq_true h3.1.2, fun j hj => ?_⟩
    have h4 := of_decide_eq_true h3.2
    rw [Finset.filter_eq_empty_iff] at h4
    by_contra hne
    exact h4 hj hne

theorem order_of_check {B : List (CMat F)} (hB : IsChainComplex B) {es : List (Event T)}
    (h : (List.range es.length).all (fun N => (es[N]?).all (fun e => stepOKb B (es.take N) e)) = true) : IsZigzagOrder B es := by
  rw [order_iff]
  intro N hN
  rw [List.all_eq_true] at h
  have := h N (List.mem_range.2 hN)
  rw [List.getElem?_eq_getElem hN] at this
  exact stepOKb_sound hB this

end Zigzag
end BATS
