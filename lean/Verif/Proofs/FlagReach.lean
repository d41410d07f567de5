import Verif.Proofs.FlagTop
import Verif.Proofs.Nerve
import Verif.Proofs.DiagramHom

set_option linter.unusedSectionVars false
set_option linter.unusedVariables false
set_option linter.unusedSimpArgs false

/-! # Flag complexes are built by `add`: reachability and dimension -/

namespace BATS
namespace Flag
open Srt SCpx Reduction Nrv

/-- `Y` is obtained from `X` by calls of `add` with at most `B` vertices -/
def Steps (B : Nat) (X Y : SCpx) : Prop := ∃ L : List (List Nat), (∀ s ∈ L, s ≠ [] ∧ s.length ≤ B) ∧ X.run (L.map SCpx.Op.add) = .ok Y

theorem Steps.refl (B : Nat) (X : SCpx) : Steps B X X := ⟨[], by simp, rfl⟩

theorem Steps.trans {B : Nat} {X Y Z : SCpx} (h : Steps B X Y) (h' : Steps B Y Z) : Steps B X Z := by
  obtain ⟨L, l1, l2⟩ := h
  obtain ⟨M, m1, m2⟩ := h'
  refine ⟨L ++ M, ?_, ?_⟩
  · intro s hs
    rcases List.mem_append.1 hs with h | h
    · exact l1 s h
    · exact m1 s h
  · rw [List.map_append, runC_append, l2]; exact m2

theorem steps_add {B : Nat} {X : SCpx} {s : List Nat} (h1 : s ≠ []) (h2 : s.length ≤ B) {r : SCpx × Option Nat} (h : X.add s = .ok r) : Steps B X r.1 := by
  refine ⟨[s], by simpa using ⟨h1, h2⟩, ?_⟩
  rw [List.map_cons, run_cons_add, h]; rfl

theorem steps_loop {B : Nat} {f : Nat → SCpx → Res SCpx} (hf : ∀ k X Y, f k X = .ok Y → Steps B X Y) : ∀ (C : List Nat) (X Y : SCpx), loop f C X = .ok Y → Steps B X Y := by
  intro C
  induction C with
  | nil => intro X Y h; rw [loop] at h; cases h; exact Steps.refl _ _
  | cons k C ih =>
    intro X Y h
    rw [loop, bind_ok_iff] at h
    obtain ⟨Z, h1, h2⟩ := h
    exact (hf k X Z h1).trans (ih Z Y h2)

theorem steps_rec {B : Nat} (nbrs : List (List Nat)) : ∀ (m : Nat) (iter spx : List Nat) (X Y : SCpx), spx.length + 1 + m ≤ B → recCpx nbrs m iter spx X = .ok Y → Steps B X Y := by
  intro m
  induction m with
  | zero =>
    intro iter spx X Y hB h
    rw [recCpx] at h
    refine steps_loop ?_ iter X Y h
    intro k X Y hk
    rw [bind_ok_iff] at hk
    obtain ⟨r, h1, h2⟩ := hk
    rw [pure_ok] at h2
    cases h2
    refine steps_add ?_ ?_ h1
    · intro e
      have := congrArg List.length e
      rw [sortV_length'] at this
      simp at this
    · rw [sortV_length', List.length_append, List.length_singleton]; omega
  | succ m ih =>
    intro iter spx X Y hB h
    rw [recCpx] at h
    refine steps_loop ?_ iter X Y h
    intro k X Y hk
    rw [bind_ok_iff] at hk
    obtain ⟨r, h1, h2⟩ := hk
    rw [bind_ok_iff] at h2
    obtain ⟨nb, h2, h3⟩ := h2
    refine (steps_add ?_ ?_ h1).trans (ih _ _ _ _ ?_ h3)
    · intro e
      have := congrArg List.length e
      rw [sortV_length'] at this
      simp at this
    · rw [sortV_length', List.length_append, List.length_singleton]; omega
    · rw [sortV_length', List.length_append, List.length_singleton]; omega

theorem steps_verts {B : Nat} (hB : 1 ≤ B) : ∀ (c k : Nat) (X Y : SCpx), vertsCpx c k X = .ok Y → Steps B X Y := by
  intro c
  induction c with
  | zero => intro k X Y h; rw [vertsCpx] at h; cases h; exact Steps.refl _ _
  | succ c ih =>
    intro k X Y h
    rw [vertsCpx, bind_ok_iff] at h
    obtain ⟨r, h1, h2⟩ := h
    exact (steps_add (by simp) (by simpa using hB) h1).trans (ih _ _ _ h2)

theorem steps_edges {maxdim : Nat} : ∀ (n : Nat) (es : List Nat) (nbrs : List (List Nat)) (X Y : SCpx), es.length ≤ n → edgesCpx maxdim es nbrs X = .ok Y → Steps (max maxdim 1 + 1) X Y := by
  intro n
  induction n with
  | zero =>
    intro es nbrs X Y hn h
    have : es = [] := List.length_eq_zero_iff.1 (by omega)
    subst this
    rw [edgesCpx] at h
    · cases h; exact Steps.refl _ _
    · intro i j es h; cases h
  | succ n ih =>
    intro es nbrs X Y hn h
    match es, hn, h with
    | [], _, h =>
      rw [edgesCpx] at h
      · cases h; exact Steps.refl _ _
      · intro i j es h; cases h
    | [i], _, h =>
      rw [edgesCpx] at h
      · cases h; exact Steps.refl _ _
      · intro i j es h; cases h
    | i :: j :: es, hn, h =>
      rw [edgesCpx, bind_ok_iff] at h
      obtain ⟨r, h1, h⟩ := h
      rw [bind_ok_iff] at h
      obtain ⟨ni, _, h⟩ := h
      rw [bind_ok_iff] at h
      obtain ⟨nj, _, h⟩ := h
      rw [bind_ok_iff] at h
      obtain ⟨Z, h2, h⟩ := h
      rw [bind_ok_iff] at h
      obtain ⟨nbrs', _, h⟩ := h
      refine ((steps_add (by simp) (by simp) h1).trans ?_).trans (ih es nbrs' Z Y (by simp at hn; omega) h)
      unfold recIfCpx at h2
      by_cases hc : (intersectSorted ni nj).isEmpty = false ∧ 2 ≤ maxdim
      · rw [if_pos hc] at h2
        exact steps_rec nbrs _ _ _ _ _ (by simp; omega) h2
      · rw [if_neg hc] at h2
        cases h2; exact Steps.refl _ _

/-- flag complexes are reachable; the dimension is `maxdim`, but 1 for `maxdim = 0` and a graph with edges -/
theorem flagComplex_reach {es : List Nat} {n maxdim : Nat} {Y : SCpx} (h : flagComplex es n maxdim = .ok Y) :
    SCpx.Reachable Y ∧ maxdim ≤ Y.maxdim ∧ Y.maxdim ≤ max maxdim 1 := by
  unfold flagComplex at h
  by_cases hl : es.length ≠ 2 * (es.length / 2)
  · rw [if_pos hl] at h; cases h
  · rw [if_neg hl, bind_ok_iff] at h
    obtain ⟨X, h1, h2⟩ := h
    obtain ⟨L, l1, l2⟩ := (steps_verts (B := max maxdim 1 + 1) (by omega) _ _ _ _ h1).trans (steps_edges _ _ _ _ _ (Nat.le_refl _) h2)
    obtain ⟨i1, i2⟩ := init_inv maxdim
    have hm : (SCpx.init maxdim).maxdim = maxdim := by unfold SCpx.maxdim; rw [i2]; omega
    obtain ⟨m1, m2⟩ := run_maxdim L i1 (fun s hs => (l1 s hs).1) Y l2
    refine ⟨⟨maxdim, L.map SCpx.Op.add, ?_, l2⟩, by omega, m2 _ (by omega) (fun s hs => (l1 s hs).2)⟩
    intro o ho
    rw [List.mem_map] at ho
    obtain ⟨s, hs, rfl⟩ := ho
    exact (l1 s hs).1

/-- without edges the dimension is `maxdim` -/
theorem flagComplex_no_edges {n maxdim : Nat} {Y : SCpx} (h : flagComplex [] n maxdim = .ok Y) : Y.maxdim ≤ maxdim := by
  unfold flagComplex at h
  rw [if_neg (by simp), bind_ok_iff] at h
  obtain ⟨X, h1, h2⟩ := h
  rw [edgesCpx] at h2
  · cases h2
    obtain ⟨L, l1, l2⟩ := steps_verts (B := 1) (by omega) _ _ _ _ h1
    obtain ⟨i1, i2⟩ := init_inv maxdim
    have hm : (SCpx.init maxdim).maxdim = maxdim := by unfold SCpx.maxdim; rw [i2]; omega
    obtain ⟨m1, m2⟩ := run_maxdim L i1 (fun s hs => (l1 s hs).1) Y l2
    exact m2 maxdim (by omega) (fun s hs => by have := (l1 s hs).2; omega)
  · intro i j es h; cases h

end Flag
end BATS
