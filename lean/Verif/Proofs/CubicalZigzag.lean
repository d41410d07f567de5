import Verif.Spec.CubicalZigzag
import Verif.Proofs.ZZHist
import Verif.Proofs.CubicalFilt

set_option linter.unusedSectionVars false
set_option linter.unusedVariables false
set_option linter.unusedSimpArgs false

/-! # Zigzag filtrations of cubical complexes: histories and level sets -/

namespace BATS
namespace Zigzag
open Cub Reduction
open SCpx (Cells push_same push_ne mem_push)

variable {T : Type}

attribute [local instance] zeroList

theorem push_spec (val : List (List (List (T × T)))) (d i : Nat) (p : T × T) (hi : i ≤ (val.getD d []).length) :
    ∃ v, push val d i p = .ok v ∧ v.length = max val.length (d + 1) ∧ (∀ e, e ≠ d → v.getD e [] = val.getD e []) ∧
      v.getD d [] = if i < (val.getD d []).length then (val.getD d []).set i ((val.getD d []).getD i [] ++ [p]) else val.getD d [] ++ [[p]] := by
  rw [push_eq]
  obtain ⟨v, h1, h2, h3, h4⟩ := Filt.setVal_spec val d i ((val.getD d []).getD i [] ++ [p]) hi
  refine ⟨v, h1, h2, h3, ?_⟩
  rw [h4]
  split
  · rfl
  · rw [List.getD_eq_getElem?_getD (l := val.getD d []), List.getElem?_eq_none (by omega)]
    rfl

/-- the invariant -/
structure CZInv (Φ : CZFilt T) (D : Nat) (cells : Cells) (g : List Nat → List (T × T)) : Prop where
  inv : Cub.Inv Φ.X D cells
  row : ∀ d, Φ.val.getD d [] = (cells d).map g
  len : Φ.val.length ≤ D + 1
  out : ∀ s, s ∉ Cub.setOf cells → g s = []

/-- one more interval for `s` -/
def upd (g : List Nat → List (T × T)) (s : List Nat) (p : T × T) : List Nat → List (T × T) := fun u => if u = s then g s ++ [p] else g u

theorem init_czinv {D : Nat} (hD : 0 < D) : CZInv (CZFilt.init D : CZFilt T) D (fun _ => []) (fun _ => []) :=
  ⟨Cub.init_inv hD, fun d => rfl, by show (0 : Nat) ≤ _; omega, fun _ _ => rfl⟩

variable {Φ : CZFilt T} {D : Nat} {cells : Cells} {g : List Nat → List (T × T)}

theorem mem_setOf' {s : List Nat} : s ∈ Cub.setOf cells ↔ s ∈ cells (cubeDim s) := Iff.rfl

theorem add_ok (h : CZInv Φ D cells g) (p : T × T) {s : List Nat} (hc : IsCube D s) (hf : FacesIn cells s) :
    ∃ Ψ cells', Φ.add p s = .ok Ψ ∧ CZInv Ψ D cells' (upd g s p) ∧ Cub.setOf cells' = {t | t ∈ Cub.setOf cells ∨ t = s} := by
  obtain ⟨Y, cells', r, e1, e2, e3⟩ := Cub.add_spec h.inv hc
  have hle := Cub.cubeDim_le hc
  rcases e3 with ⟨h1, rfl, rfl⟩ | ⟨h1, _, rfl, rfl⟩ | ⟨_, h2, _⟩
  · have hlt := List.idxOf_lt_length_iff.2 h1
    have hl : (Φ.val.getD (cubeDim s) []).length = (cells' (cubeDim s)).length := by rw [h.row, List.length_map]
    obtain ⟨v, v1, v2, v3, v4⟩ := push_spec Φ.val (cubeDim s) ((cells' (cubeDim s)).idxOf s) p (by omega)
    refine ⟨⟨Y, v⟩, cells', ?_, ⟨e2, ?_, ?_, ?_⟩, ?_⟩
    · unfold CZFilt.add
      rw [e1, bind_ok]
      simp only
      rw [v1]; rfl
    · intro d
      by_cases hd : d = cubeDim s
      · subst hd
        show v.getD _ _ = _
        rw [v4, if_pos (by omega), h.row]
        apply List.ext_getElem?
        intro m
        rw [List.getElem?_set, List.getElem?_map, List.getElem?_map, List.length_map]
        have hg : (List.map g (cells' (cubeDim s))).getD ((cells' (cubeDim s)).idxOf s) [] = g s := by
          rw [List.getD_eq_getElem?_getD, List.getElem?_map, List.getElem?_eq_getElem hlt, List.getElem_idxOf]; rfl
        by_cases hm : (cells' (cubeDim s)).idxOf s = m
        · subst hm
          rw [if_pos rfl, if_pos hlt, hg, List.getElem?_eq_getElem hlt, List.getElem_idxOf]
          simp [upd]
        · rw [if_neg hm]
          cases hx : (cells' (cubeDim s))[m]? with
          | none => rfl
          | some x =>
            have hne : x ≠ s := by
              rintro rfl
              obtain ⟨hlt', hx'⟩ := List.getElem?_eq_some_iff.1 hx
              have hq := List.Nodup.idxOf_getElem (h.inv.ok.nodup (cubeDim x)) m hlt'
              rw [hx'] at hq
              exact hm hq
            simp [upd, hne]
      · show v.getD _ _ = _
        rw [v3 d hd, h.row]
        apply List.map_congr_left
        intro x hx
        have : x ≠ s := by
          rintro rfl
          exact hd ((h.inv.ok.cube d x hx).2.symm)
        simp [upd, this]
    · show v.length ≤ _
      have := h.len
      rw [v2]; omega
    · intro t ht
      have hts : t ≠ s := by rintro rfl; exact ht h1
      show (if t = s then _ else _) = _
      rw [if_neg hts]; exact h.out t ht
    · ext t
      constructor
      · intro ht; exact Or.inl ht
      · rintro (ht | rfl)
        · exact ht
        · exact h1
  · have hl : (Φ.val.getD (cubeDim s) []).length = (cells (cubeDim s)).length := by rw [h.row, List.length_map]
    obtain ⟨v, v1, v2, v3, v4⟩ := push_spec Φ.val (cubeDim s) (cells (cubeDim s)).length p (by omega)
    have hgs : g s = [] := h.out s h1
    have hcg : ∀ d, (cells d).map (upd g s p) = (cells d).map g := by
      intro d
      apply List.map_congr_left
      intro x hx
      have : x ≠ s := by
        rintro rfl
        exact h1 (by rw [(h.inv.ok.cube d x hx).2]; exact hx)
      simp [upd, this]
    refine ⟨⟨Y, v⟩, SCpx.push cells (cubeDim s) s, ?_, ⟨e2, ?_, ?_, ?_⟩, Cub.setOf_push cells s⟩
    · unfold CZFilt.add
      rw [e1, bind_ok]
      simp only
      rw [v1]; rfl
    · intro d
      by_cases hd : d = cubeDim s
      · subst hd
        show v.getD _ _ = _
        rw [v4, if_neg (by omega), push_same, List.map_append, hcg, h.row]
        simp [upd, hgs]
      · show v.getD _ _ = _
        rw [v3 d hd, push_ne _ _ hd, hcg, h.row]
    · show v.length ≤ _
      have := h.len
      rw [v2]; omega
    · intro t ht
      rw [Cub.setOf_push] at ht
      have hts : t ≠ s := by rintro rfl; exact ht (Or.inr rfl)
      show (if t = s then _ else _) = _
      rw [if_neg hts]; exact h.out t (fun hh => ht (Or.inl hh))
  · exact absurd hf h2

theorem facesIn_of_mem (h : Cub.CellsOK D cells) {s : List Nat} (hs : s ∈ cells (cubeDim s)) : FacesIn cells s := by
  intro p hp
  have hc := (h.cube _ s hs).1
  obtain ⟨q1, q2⟩ := Cub.face_cube hc hp
  have : s ∈ cells (cubeDim p.1 + 1) := by rw [q2]; exact hs
  have e : cubeDim s - 1 = cubeDim p.1 := by omega
  rw [e]
  exact h.closed _ s this p hp

theorem add_fail (h : CZInv Φ D cells g) (p : T × T) {s : List Nat} (hc : IsCube D s) (hf : ¬ FacesIn cells s) : Φ.add p s = .error .ub := by
  obtain ⟨Y, cells', r, e1, e2, e3⟩ := Cub.add_spec h.inv hc
  rcases e3 with ⟨h1, rfl, rfl⟩ | ⟨h1, h2, rfl, rfl⟩ | ⟨_, h2, rfl, rfl, rfl⟩
  · exact absurd (facesIn_of_mem h.inv.ok h1) hf
  · exact absurd h2 hf
  · unfold CZFilt.add
    rw [e1, bind_ok]

theorem add_error_ub (h : CZInv Φ D cells g) (p : T × T) {s : List Nat} (hc : IsCube D s) {e : Err} (he : Φ.add p s = .error e) : e = .ub := by
  by_cases hf : FacesIn cells s
  · obtain ⟨Ψ, c, h1, _⟩ := add_ok h p hc hf
    rw [he] at h1; cases h1
  · rw [add_fail h p hc hf] at he; cases he; rfl

theorem intervalsOf_cons (o : (T × T) × List Nat) (ops : List ((T × T) × List Nat)) (s : List Nat) :
    intervalsOf (o :: ops) s = (if o.2 = s then [o.1] else []) ++ intervalsOf ops s := by
  unfold intervalsOf
  rw [List.filter_cons]
  by_cases h : o.2 = s <;> simp [h]

theorem upd_intervals (g : List Nat → List (T × T)) (o : (T × T) × List Nat) (ops : List ((T × T) × List Nat)) :
    (fun s => upd g o.2 o.1 s ++ intervalsOf ops s) = fun s => g s ++ intervalsOf (o :: ops) s := by
  funext s
  rw [intervalsOf_cons]
  unfold upd
  by_cases h : s = o.2
  · subst h; simp
  · rw [if_neg h, if_neg (fun h' => h h'.symm), List.nil_append]

/-- a history all of whose additions are allowed -/
theorem run_ok : ∀ (ops : List ((T × T) × List Nat)) {Φ : CZFilt T} {cells : Cells} {g : List Nat → List (T × T)}, CZInv Φ D cells g → (∀ o ∈ ops, IsCube D o.2) →
    (∀ pre o post, ops = pre ++ o :: post → ∀ i ∈ dirs D o.2, (upperFace o.2 i ∈ Cub.setOf cells ∨ upperFace o.2 i ∈ pre.map Prod.snd) ∧
      (lowerFace o.2 i ∈ Cub.setOf cells ∨ lowerFace o.2 i ∈ pre.map Prod.snd)) →
    ∃ Ψ cells', Φ.run ops = .ok Ψ ∧ CZInv Ψ D cells' (fun s => g s ++ intervalsOf ops s) ∧ Cub.setOf cells' = {t | t ∈ Cub.setOf cells ∨ t ∈ ops.map Prod.snd}
  | [], Φ, cells, g, h, _, _ => by
    refine ⟨Φ, cells, rfl, ?_, by ext t; simp⟩
    have : (fun s => g s ++ intervalsOf [] s) = g := by funext s; show g s ++ [] = g s; simp
    rw [this]; exact h
  | o :: ops, Φ, cells, g, h, hc, hf => by
    have hfo : FacesIn cells o.2 := (Cub.facesIn_iff h.inv.ok (hc o (by simp))).2 (by
      intro i hi
      obtain ⟨h1, h2⟩ := hf [] o ops rfl i hi
      exact ⟨by simpa using h1, by simpa using h2⟩)
    obtain ⟨Ψ, c1, e1, e2, e3⟩ := add_ok h o.1 (hc o (by simp)) hfo
    obtain ⟨Ω, c2, f1, f2, f3⟩ := run_ok ops e2 (fun o' ho => hc o' (by simp [ho])) (by
      intro pre o' post he i hi
      obtain ⟨h1, h2⟩ := hf (o :: pre) o' post (by rw [he]; rfl) i hi
      rw [e3]
      simp only [List.map_cons, List.mem_cons] at h1 h2
      constructor
      · rcases h1 with h1 | h1 | h1
        · exact Or.inl (Or.inl h1)
        · exact Or.inl (Or.inr h1)
        · exact Or.inr h1
      · rcases h2 with h1 | h1 | h1
        · exact Or.inl (Or.inl h1)
        · exact Or.inl (Or.inr h1)
        · exact Or.inr h1)
    refine ⟨Ω, c2, ?_, ?_, ?_⟩
    · unfold CZFilt.run
      rw [e1, bind_ok, f1]
    · rw [← upd_intervals]; exact f2
    · rw [f3, e3]
      ext t
      simp only [List.map_cons, List.mem_cons]
      exact or_assoc

theorem run_append : ∀ (a b : List ((T × T) × List Nat)) (Φ : CZFilt T), Φ.run (a ++ b) = (Φ.run a).bind (fun Ψ => Ψ.run b)
  | [], b, Φ => rfl
  | o :: a, b, Φ => by
    rw [List.cons_append, CZFilt.run, CZFilt.run]
    cases Φ.add o.1 o.2 with
    | error e => rfl
    | ok Ψ => exact run_append a b Ψ

theorem czinv_represents (h : CZInv Φ D cells g) : CubHistRepresents Φ D (Cub.setOf cells) g := by
  refine ⟨h.inv.represents, ?_, ?_⟩
  · intro d hd
    have := h.len
    rw [h.row, List.length_map]
    exact BATS.rd_some (h.inv.dim d (by omega)).nc
  · intro s i hl hi
    have hg := (h.inv.trie s hl i).1 hi
    have hc := (h.inv.ok.cube _ s (List.mem_of_getElem? hg)).1
    rw [cubeDimension_eq hc, h.row, List.getElem?_map, hg]; rfl

/-- the first addition that is not allowed accesses memory out of bounds -/
theorem run_fail (ops : List ((T × T) × List Nat)) (hD : 0 < D) (hc : ∀ o ∈ ops, IsCube D o.2) (hf : ¬ FacesFirst D ops) :
    (CZFilt.init D : CZFilt T).run ops = .error .ub := by
  classical
  unfold FacesFirst at hf
  push Not at hf
  -- the shortest bad prefix
  have hex : ∃ n, ∃ pre o post, ops = pre ++ o :: post ∧ pre.length = n ∧ ∃ i ∈ dirs D o.2, ¬ (upperFace o.2 i ∈ pre.map Prod.snd ∧ lowerFace o.2 i ∈ pre.map Prod.snd) := by
    obtain ⟨pre, o, post, h1, i, hi, h2⟩ := hf
    refine ⟨pre.length, pre, o, post, h1, rfl, i, hi, ?_⟩
    rintro ⟨a, b⟩; exact h2 a b
  obtain ⟨pre, o, post, h1, h2, i, hi, h3⟩ := Nat.find_spec hex
  obtain ⟨Ψ, c, e1, e2, e3⟩ := run_ok (D := D) pre (init_czinv (T := T) hD) (fun o' ho => hc o' (by rw [h1]; simp [ho])) (by
    intro pre' o' post' he i' hi'
    by_contra hcon
    have : pre'.length < Nat.find hex := by rw [← h2, he]; simp
    apply Nat.find_min hex this
    refine ⟨pre', o', post' ++ o :: post, by rw [h1, he]; simp, rfl, i', hi', ?_⟩
    rintro ⟨a, b⟩
    exact hcon ⟨Or.inr a, Or.inr b⟩)
  rw [h1, run_append, e1]
  show Ψ.run (o :: post) = _
  have hnf : ¬ FacesIn c o.2 := by
    rw [Cub.facesIn_iff e2.inv.ok (hc o (by rw [h1]; simp)), e3]
    intro hh
    apply h3
    obtain ⟨a, b⟩ := hh i hi
    constructor
    · rcases a with a | a
      · simp [Cub.setOf] at a
      · exact a
    · rcases b with a | a
      · simp [Cub.setOf] at a
      · exact a
  rw [CZFilt.run, add_fail e2 o.1 (hc o (by rw [h1]; simp)) hnf]
  rfl

end Zigzag
end BATS
