import Verif.Proofs.ZZLabel
import Verif.Proofs.SVecOps

set_option linter.unusedSectionVars false
set_option linter.unusedSimpArgs false
set_option linter.unusedVariables false

/-! # `ZigzagChainComplex(X)` -/

namespace BATS
namespace Zigzag
open Matrix Reduction

variable {F : Type} [Field F] [DecidableEq F] {T : Type} [LinearOrder T]

/-- the first copies -/
def firsts : Nat → List (List (T × T)) → List (Copy T)
  | _, [] => []
  | i, [] :: rest => firsts (i + 1) rest
  | i, (v :: _) :: rest => ⟨i, v.1, v.2⟩ :: firsts (i + 1) rest

/-- the further copies -/
def exts : Nat → List (List (T × T)) → List (Copy T)
  | _, [] => []
  | i, ivs :: rest => ivs.tail.map (fun v => ⟨i, v.1, v.2⟩) ++ exts (i + 1) rest

/-- `extra_cells[k]` without its last entry -/
def extraIdx : Nat → List (List (T × T)) → List Nat
  | _, [] => []
  | L, ivs :: rest => L :: extraIdx (L + ivs.tail.length) rest

def cpOf (vk : List (List (T × T))) : List (Copy T) := firsts 0 vk ++ exts 0 vk
def exOf (vk : List (List (T × T))) : List Nat := extraIdx vk.length vk ++ [(cpOf vk).length]

/-- the column of a copy with entry time `t` of a cell with column `c` -/
def corr (prev : Option (List (Copy T) × List Nat)) (t : T) (c : SVec F) : Res (SVec F) :=
  match prev with
  | none => .ok c
  | some p => correctIndices t p.1 p.2 c

theorem extraLoop_spec (prev : Option (List (Copy T) × List Nat)) (i : Nat) (c : SVec F) (hcorr : ∀ t : T, ∃ c', corr prev t c = .ok c') :
    ∀ (vs : List (T × T)) (st : DimState F T), st.cols.length = st.cp.length → st.cols[i]? = some c →
    ∃ new, extraLoop prev i vs st = .ok ⟨st.cols ++ new, st.cp ++ vs.map (fun v => ⟨i, v.1, v.2⟩)⟩ ∧
      List.Forall₂ (fun (x : Copy T) col => corr prev x.lo c = .ok col) (vs.map (fun v => (⟨i, v.1, v.2⟩ : Copy T))) new
  | [], st, _, _ => ⟨[], by simp [extraLoop], by simp⟩
  | v :: vs, st, hl, hc => by
    obtain ⟨c', hc'⟩ := hcorr v.1
    obtain ⟨new, h1, h2⟩ := extraLoop_spec prev i c hcorr vs ⟨st.cols ++ [c'], st.cp ++ [⟨i, v.1, v.2⟩]⟩ (by simp [hl]) (by
      rw [List.getElem?_append_left (by by_contra h; rw [List.getElem?_eq_none (by omega)] at hc; cases hc)]; exact hc)
    refine ⟨c' :: new, ?_, ?_⟩
    · have e1 : rd st.cols i = Except.ok c := by unfold rd; rw [hc]
      have e2 : rd (st.cp ++ [(⟨i, v.1, v.2⟩ : Copy T)]) st.cols.length = Except.ok ⟨i, v.1, v.2⟩ := by
        unfold rd; rw [hl, List.getElem?_append_right (Nat.le_refl _)]; simp
      rw [extraLoop, e1, bind_ok]
      simp only [e2, bind_ok]
      rcases prev with _ | p
      · have e3 : c = c' := by injection hc'
        rw [← e3] at h1 ⊢
        show extraLoop none i vs _ = _
        rw [h1]; simp
      · have e3 : correctIndices v.1 p.1 p.2 c = Except.ok c' := hc'
        simp only [e3, bind_ok, h1]
        simp
    · rw [List.map_cons]
      exact List.Forall₂.cons hc' h2

theorem cellLoop_spec (prev : Option (List (Copy T) × List Nat)) (M : List (SVec F)) (hcorr : ∀ j, j < M.length → ∀ t : T, ∃ c', corr prev t (M.getD j []) = .ok c') :
    ∀ (rest : List (List (T × T))) (i : Nat) (st : DimState F T) (new0 : List (SVec F)), st.cols = M ++ new0 → st.cp.length = M.length + new0.length →
    i + rest.length = M.length → (∀ l ∈ rest, l ≠ []) →
    ∃ new, cellLoop prev i rest st = .ok (⟨st.cols ++ new, st.cp.take i ++ firsts i rest ++ st.cp.drop M.length ++ exts i rest⟩, extraIdx st.cp.length rest) ∧
      List.Forall₂ (fun (x : Copy T) col => corr prev x.lo (M.getD x.orig []) = .ok col) (exts i rest) new
  | [], i, st, new0, h1, h2, h3, h4 => by
    have : i = M.length := by simpa using h3
    subst this
    refine ⟨[], ?_, by simp [exts]⟩
    simp [cellLoop, firsts, exts, extraIdx]
  | [] :: rest, i, st, new0, h1, h2, h3, h4 => absurd rfl (h4 [] (by simp))
  | (v :: vs) :: rest, i, st, new0, h1, h2, h3, h4 => by
    simp only [List.length_cons] at h3
    have hi : i < M.length := by omega
    have hic : i < st.cp.length := by omega
    have hcol : st.cols[i]? = some (M.getD i []) := by
      rw [h1, List.getElem?_append_left hi, List.getElem?_eq_getElem hi, List.getD_eq_getElem?_getD, List.getElem?_eq_getElem hi]; rfl
    obtain ⟨n1, e1, f1⟩ := extraLoop_spec prev i (M.getD i []) (hcorr i hi) vs ⟨st.cols, st.cp.set i ⟨i, v.1, v.2⟩⟩ (by
      simp only [List.length_set, h1, List.length_append]; omega) hcol
    have hn1 : n1.length = vs.length := by have := f1.length_eq; simpa using this.symm
    obtain ⟨n2, e2, f2⟩ := cellLoop_spec prev M hcorr rest (i + 1) ⟨st.cols ++ n1, st.cp.set i ⟨i, v.1, v.2⟩ ++ vs.map (fun v => ⟨i, v.1, v.2⟩)⟩ (new0 ++ n1)
      (by rw [h1, List.append_assoc]) (by simp only [List.length_append, List.length_set, List.length_map]; omega) (by omega) (fun l hl => h4 l (by simp [hl]))
    refine ⟨n1 ++ n2, ?_, ?_⟩
    · rw [cellLoop]
      simp only [wr_ok _ hic, bind_ok, e1, e2]
      show Except.ok _ = Except.ok _
      congr 2
      · congr 1
        · rw [List.append_assoc]
        · rw [List.take_append_of_le_length (by rw [List.length_set]; omega), List.drop_append_of_le_length (by rw [List.length_set]; omega)]
          have t1 : (st.cp.set i ⟨i, v.1, v.2⟩).take (i + 1) = st.cp.take i ++ [⟨i, v.1, v.2⟩] := by
            rw [List.take_add_one, List.getElem?_set_self hic, List.take_set_of_le (Nat.le_refl _)]; rfl
          have t2 : (st.cp.set i ⟨i, v.1, v.2⟩).drop M.length = st.cp.drop M.length := List.drop_set_of_lt hi
          rw [t1, t2]
          simp only [firsts, exts, List.tail_cons, List.append_assoc, List.cons_append, List.nil_append]
      · simp [extraIdx, List.length_append, List.length_set, List.length_map]
    · rw [exts, List.tail_cons]
      refine List.rel_append ?_ f2
      have : ∀ (l : List (T × T)) (n : List (SVec F)), List.Forall₂ (fun (x : Copy T) col => corr prev x.lo (M.getD i []) = .ok col) (l.map (fun v => (⟨i, v.1, v.2⟩ : Copy T))) n →
          List.Forall₂ (fun (x : Copy T) col => corr prev x.lo (M.getD x.orig []) = .ok col) (l.map (fun v => (⟨i, v.1, v.2⟩ : Copy T))) n := by
        intro l
        induction l with
        | nil => intro n h; cases h; exact List.Forall₂.nil
        | cons a l ih =>
          intro n h
          cases h with
          | cons h1 h2 => exact List.Forall₂.cons h1 (ih _ h2)
      exact this _ _ f1

/-- the columns and copies of one dimension -/
structure DimRes (prev : Option (List (Copy T) × List Nat)) (M : CMat F) (vk : List (List (T × T))) (extraRows : Nat) (r : CMat F × List (Copy T)) : Prop where
  cp : r.2 = cpOf vk
  nrow : r.1.nrow = M.nrow + extraRows
  cols : ∃ new, r.1.cols = M.cols ++ new ∧ List.Forall₂ (fun (x : Copy T) col => corr prev x.lo (M.cols.getD x.orig []) = .ok col) (exts 0 vk) new

/-- number of further copies -/
def extraCount (vk : List (List (T × T))) : Nat := (cpOf vk).length - vk.length

def prevAt (prev : Option (List (Copy T) × List Nat)) (vals : List (List (List (T × T)))) : Nat → Option (List (Copy T) × List Nat)
  | 0 => prev
  | k + 1 => some (cpOf (vals.getD k []), exOf (vals.getD k []))

theorem firsts_length : ∀ (vk : List (List (T × T))) (i : Nat), (∀ l ∈ vk, l ≠ []) → (firsts i vk).length = vk.length
  | [], _, _ => rfl
  | [] :: rest, i, h => absurd rfl (h [] (by simp))
  | (v :: vs) :: rest, i, h => by
    rw [firsts, List.length_cons, firsts_length rest (i + 1) (fun l hl => h l (by simp [hl])), List.length_cons]

theorem buildFrom_spec (d : T) : ∀ (vals : List (List (List (T × T)))) (Ms : List (CMat F)) (prev : Option (List (Copy T) × List Nat)), vals.length = Ms.length →
    (∀ k, k < Ms.length → (vals.getD k []).length = (Ms.getD k ⟨0, []⟩).cols.length) → (∀ vk ∈ vals, ∀ l ∈ vk, l ≠ []) →
    (∀ k, k < Ms.length → ∀ j, j < (Ms.getD k ⟨0, []⟩).cols.length → ∀ t : T, ∃ c', corr (prevAt prev vals k) t ((Ms.getD k ⟨0, []⟩).cols.getD j []) = .ok c') →
    ∃ zc, buildFrom d prev Ms vals = .ok zc ∧ zc.length = Ms.length ∧
      ∀ k, k < Ms.length → DimRes (prevAt prev vals k) (Ms.getD k ⟨0, []⟩) (vals.getD k []) (match k with | 0 => 0 | k + 1 => extraCount (vals.getD k [])) (zc.getD k (⟨0, []⟩, []))
  | [], [], prev, _, _, _, _ => ⟨[], by simp [buildFrom], rfl, fun k hk => absurd hk (by simp)⟩
  | [], M :: Ms, prev, h, _, _, _ => by simp at h
  | vk :: vals, [], prev, h, _, _, _ => by simp at h
  | vk :: vals, M :: Ms, prev, h1, h2, h3, h4 => by
    have h20 := h2 0 (by simp)
    simp only [List.getD_cons_zero] at h20
    obtain ⟨new, e1, f1⟩ := cellLoop_spec prev M.cols (h4 0 (by simp)) vk 0 ⟨M.cols, List.replicate vk.length ⟨0, d, d⟩⟩ [] (by simp) (by simp [h20]) (by omega)
      (h3 vk (by simp))
    have ecp : (List.take 0 (List.replicate vk.length (⟨0, d, d⟩ : Copy T)) ++ firsts 0 vk ++ List.drop M.cols.length (List.replicate vk.length (⟨0, d, d⟩ : Copy T)) ++ exts 0 vk) = cpOf vk := by
      rw [← h20]; simp [cpOf]
    simp only [ecp, List.length_replicate] at e1
    obtain ⟨Ms', hMs'⟩ : ∃ Ms', Ms' = (match vals, Ms with | _ :: _, N :: Ns => (⟨N.nrow + ((cpOf vk).length - vk.length), N.cols⟩ : CMat F) :: Ns | _, Ms => Ms) := ⟨_, rfl⟩
    have hlen : Ms'.length = Ms.length := by
      rw [hMs']; rcases vals with _ | ⟨a, vals⟩ <;> rcases Ms with _ | ⟨N, Ns⟩ <;> simp
    have hcols : ∀ k, (Ms'.getD k ⟨0, []⟩).cols = (Ms.getD k ⟨0, []⟩).cols := by
      intro k
      rw [hMs']; rcases vals with _ | ⟨a, vals⟩ <;> rcases Ms with _ | ⟨N, Ns⟩ <;> try rfl
      cases k <;> simp
    have hnrow : ∀ k, k < Ms.length → (Ms'.getD k ⟨0, []⟩).nrow = (Ms.getD k ⟨0, []⟩).nrow + (match k with | 0 => extraCount vk | _ + 1 => 0) := by
      intro k hk
      rw [hMs']
      simp only [List.length_cons] at h1
      rcases vals with _ | ⟨a, vals⟩ <;> rcases Ms with _ | ⟨N, Ns⟩
      · simp at hk
      · simp at h1
      · simp at hk
      · cases k <;> simp [extraCount]
    obtain ⟨zc, e2, l2, p2⟩ := buildFrom_spec d vals Ms' (some (cpOf vk, exOf vk)) (by rw [hlen]; simpa using h1)
      (fun k hk => by rw [hcols]; have := h2 (k + 1) (by rw [List.length_cons]; omega); simpa using this)
      (fun vk hv => h3 vk (by simp [hv]))
      (fun k hk j hj t => by
        rw [hcols] at hj ⊢
        have := h4 (k + 1) (by rw [List.length_cons]; omega) j (by simpa using hj) t
        have e : prevAt prev (vk :: vals) (k + 1) = prevAt (some (cpOf vk, exOf vk)) vals k := by cases k <;> simp [prevAt]
        rw [e] at this
        simpa using this)
    refine ⟨(⟨M.nrow, M.cols ++ new⟩, cpOf vk) :: zc, ?_, by simp [l2, hlen], ?_⟩
    · rw [buildFrom, e1, bind_ok]
      show (do let rest ← buildFrom d (some (cpOf vk, exOf vk)) (match vals, Ms with | _ :: _, N :: Ns => (⟨N.nrow + ((cpOf vk).length - vk.length), N.cols⟩ : CMat F) :: Ns | _, Ms => Ms) vals
               pure (((⟨M.nrow, M.cols ++ new⟩ : CMat F), cpOf vk) :: rest)) = _
      rw [← hMs', e2, bind_ok]; rfl
    · intro k hk
      cases k with
      | zero =>
        show DimRes prev M vk 0 (⟨M.nrow, M.cols ++ new⟩, cpOf vk)
        exact ⟨rfl, rfl, new, rfl, f1⟩
      | succ k =>
        have hk' : k < Ms.length := by simpa using hk
        have h5 := p2 k (by rw [hlen]; exact hk')
        have e : prevAt prev (vk :: vals) (k + 1) = prevAt (some (cpOf vk, exOf vk)) vals k := by cases k <;> simp [prevAt]
        rw [e]
        simp only [List.getD_cons_succ]
        refine ⟨h5.cp, ?_, ?_⟩
        · rw [h5.nrow, hnrow k hk']
          cases k <;> simp
        · obtain ⟨n', h6, h7⟩ := h5.cols
          rw [hcols] at h6 h7
          exact ⟨n', h6, h7⟩

/-! ### the list of copies -/

theorem getElem?_firsts : ∀ (vk : List (List (T × T))) (i : Nat), (∀ l ∈ vk, l ≠ []) → ∀ j v, (vk.getD j []).head? = some v → (firsts i vk)[j]? = some ⟨i + j, v.1, v.2⟩
  | [], _, _, j, v, hv => by simp at hv
  | [] :: rest, i, h, _, _, _ => absurd rfl (h [] (by simp))
  | (w :: ws) :: rest, i, h, j, v, hv => by
    rw [firsts]
    cases j with
    | zero =>
      simp only [List.getD_cons_zero, List.head?_cons, Option.some.injEq] at hv
      subst hv; simp
    | succ j =>
      rw [List.getElem?_cons_succ, getElem?_firsts rest (i + 1) (fun l hl => h l (by simp [hl])) j v (by simpa using hv)]
      congr 2; omega

theorem mem_firsts : ∀ (vk : List (List (T × T))) (i : Nat) (x : Copy T), x ∈ firsts i vk → i ≤ x.orig ∧ x.orig < i + vk.length ∧ (vk.getD (x.orig - i) []).head? = some (x.lo, x.hi)
  | [], _, _, h => by simp [firsts] at h
  | [] :: rest, i, x, h => by
    rw [firsts] at h
    obtain ⟨h1, h2, h3⟩ := mem_firsts rest (i + 1) x h
    refine ⟨by omega, by rw [List.length_cons]; omega, ?_⟩
    rw [show x.orig - i = (x.orig - (i + 1)) + 1 by omega, List.getD_cons_succ]; exact h3
  | (w :: ws) :: rest, i, x, h => by
    rw [firsts] at h
    rcases List.mem_cons.1 h with rfl | h
    · simp
    · obtain ⟨h1, h2, h3⟩ := mem_firsts rest (i + 1) x h
      refine ⟨by omega, by rw [List.length_cons]; omega, ?_⟩
      rw [show x.orig - i = (x.orig - (i + 1)) + 1 by omega, List.getD_cons_succ]; exact h3

theorem mem_exts : ∀ (vk : List (List (T × T))) (i : Nat) (x : Copy T), x ∈ exts i vk ↔ i ≤ x.orig ∧ x.orig < i + vk.length ∧ (x.lo, x.hi) ∈ (vk.getD (x.orig - i) []).tail
  | [], _, x => by simp [exts]
  | l :: rest, i, x => by
    rw [exts, List.mem_append, mem_exts rest (i + 1) x, List.mem_map]
    constructor
    · rintro (⟨v, hv, rfl⟩ | ⟨h1, h2, h3⟩)
      · simp [hv]
      · refine ⟨by omega, by rw [List.length_cons]; omega, ?_⟩
        rw [show x.orig - i = (x.orig - (i + 1)) + 1 by omega, List.getD_cons_succ]; exact h3
    · rintro ⟨h1, h2, h3⟩
      by_cases e : x.orig = i
      · left
        rw [e, Nat.sub_self, List.getD_cons_zero] at h3
        exact ⟨_, h3, by rw [← e]⟩
      · right
        rw [List.length_cons] at h2
        refine ⟨by omega, by omega, ?_⟩
        rw [show x.orig - i = (x.orig - (i + 1)) + 1 by omega, List.getD_cons_succ] at h3; exact h3

/-- the positions of the further copies of a cell -/
theorem extraIdx_spec : ∀ (vk : List (List (T × T))) (i L : Nat) (pre : List (Copy T)) , pre.length = L → ∀ j, j < vk.length →
    ∃ a b, (extraIdx L vk ++ [L + (exts i vk).length])[j]? = some a ∧ (extraIdx L vk ++ [L + (exts i vk).length])[j + 1]? = some b ∧
      a + (vk.getD j []).tail.length = b ∧ b ≤ L + (exts i vk).length ∧ ∀ r v, (vk.getD j []).tail[r]? = some v → (pre ++ exts i vk)[a + r]? = some ⟨i + j, v.1, v.2⟩
  | [], _, _, _, _, j, hj => by simp at hj
  | l :: rest, i, L, pre, hp, j, hj => by
    cases j with
    | zero =>
      refine ⟨L, L + l.tail.length, by simp [extraIdx], ?_, by simp, ?_, ?_⟩
      · cases rest with
        | nil => simp [extraIdx, exts]
        | cons l' rest => simp [extraIdx]
      · simp [exts]
      · intro r v hv
        simp only [List.getD_cons_zero] at hv
        rw [List.getElem?_append_right (by omega), exts, hp, Nat.add_sub_cancel_left, List.getElem?_append_left, List.getElem?_map, hv]
        · simp
        · rw [List.length_map]
          by_contra hc
          rw [List.getElem?_eq_none (by omega)] at hv; cases hv
    | succ j =>
      obtain ⟨a, b, h1, h2, h3, h3', h4⟩ := extraIdx_spec rest (i + 1) (L + l.tail.length) (pre ++ l.tail.map (fun v => ⟨i, v.1, v.2⟩)) (by simp [hp]) j (by simpa using hj)
      have e : L + (exts i (l :: rest)).length = L + l.tail.length + (exts (i + 1) rest).length := by simp [exts]; omega
      refine ⟨a, b, ?_, ?_, ?_, by rw [e]; exact h3', ?_⟩
      · rw [e, extraIdx, List.cons_append, List.getElem?_cons_succ]; exact h1
      · rw [e, extraIdx, List.cons_append, List.getElem?_cons_succ]; exact h2
      · simpa using h3
      · intro r v hv
        have := h4 r v (by simpa using hv)
        rw [List.append_assoc] at this
        rw [exts, this]
        congr 2; omega

end Zigzag
end BATS
