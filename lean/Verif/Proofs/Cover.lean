import Verif.Proofs.Nerve
import Verif.Proofs.Skeleton
import Verif.Proofs.DiagramHom
import Mathlib.Algebra.Order.Monoid.Defs

set_option linter.unusedSectionVars false
set_option linter.unusedVariables false
set_option linter.unusedSimpArgs false

/-! # Diagrams of nerves, bivariate covers, landmark covers -/

namespace BATS
namespace Nrv
open Srt SCpx Reduction BATS.Flag

/-- the loops of a functor whose edges are computed from the images of the nodes -/
theorem spaceLoops_iff {N E N' E' : Type} [Inhabited N'] [Inhabited E'] {sc : Schedule} {D : Diagram N E} (hs : sc.For D)
    (hl : D.elist.length = D.edata.length) {g : N → Res N'} {h : N' → N' → E → Res E'} {TD : Diagram N' E'} :
    (do let TD ← nodeLoop D g sc.nodes (Diagram.init D.node.length D.edata.length)
        edgeLoop D (fun nodes s t f => do
          let X ← rd nodes s
          let Y ← rd nodes t
          h X Y f) sc.edges TD) = .ok TD ↔
    ∃ Xs Ms, List.Forall₂ (fun c X => g c = .ok X) D.node Xs ∧ Ms.length = D.edata.length ∧
      (∀ (j : Nat) (st : Nat × Nat) (f : E), D.elist[j]? = some st → D.edata[j]? = some f →
        ∃ M X Y, Ms[j]? = some M ∧ Xs[st.1]? = some X ∧ Xs[st.2]? = some Y ∧ h X Y f = .ok M) ∧ TD = ⟨Xs, Ms, D.elist⟩ := by
  rw [bind_ok_iff]
  constructor
  · rintro ⟨TD1, h1, h2⟩
    obtain ⟨Xs, b1, rfl⟩ := (nodeLoop_iff hs.1 (by simp [Diagram.init])).1 h1
    obtain ⟨ys, y1, y2, rfl⟩ := (edgeLoop_iff hs.2 hl (by simp [Diagram.init]) (by simp [Diagram.init])).1 h2
    refine ⟨Xs, ys, b1, y1, ?_, rfl⟩
    intro j st f e1 e2
    obtain ⟨y, q1, q2⟩ := y2 j st f e1 e2
    rw [bind_ok_iff] at q2
    obtain ⟨X, x1, q2⟩ := q2
    rw [bind_ok_iff] at q2
    obtain ⟨Y, x2, q2⟩ := q2
    exact ⟨y, X, Y, q1, rd_ok_iff.1 x1, rd_ok_iff.1 x2, q2⟩
  · rintro ⟨Xs, Ms, h1, h2, h3, rfl⟩
    refine ⟨_, (nodeLoop_iff hs.1 (by simp [Diagram.init])).2 ⟨Xs, h1, rfl⟩,
      (edgeLoop_iff hs.2 hl (by simp [Diagram.init]) (by simp [Diagram.init])).2 ⟨Ms, h2, ?_, rfl⟩⟩
    intro j st f e1 e2
    obtain ⟨M, X, Y, q1, q2, q3, q4⟩ := h3 j st f e1 e2
    refine ⟨M, q1, ?_⟩
    show (do let X ← rd Xs st.1; let Y ← rd Xs st.2; h X Y f) = _
    rw [rd_some q2, bind_ok, rd_some q3, bind_ok, q4]

/-! ## Maps of covers -/

theorem found_iff {Y : SCpx} {cover : List (List Nat)} {D : Nat} (h : SCpx.Represents Y {s | IsNerveSimplex cover D s}) {s : List Nat} (hs : s ≠ []) :
    (∃ i, Y.findIdx s = some i) ↔ IsNerveSimplex cover D s := (h.found s hs).symm

theorem coverMap_carries {c c' : List (List Nat)} {f : List Nat} (hf : IsCoverMap c c' f) {D D' : Nat} (hD : D ≤ D') {X Y : SCpx}
    (hX : SCpx.Represents X {s | IsNerveSimplex c D s}) (hY : SCpx.Represents Y {s | IsNerveSimplex c' D' s}) :
    SMap.Covers f X ∧ SMap.Carries f X Y := by
  refine ⟨?_, ?_⟩
  · intro x hx hi v hv
    have := ((found_iff hX hx).1 hi).lt v hv
    have := hf.1
    omega
  · intro x hx hi hn
    have hs := (found_iff hX hx).1 hi
    have hlen : ((SMap.img f x).mergeSort (· ≤ ·)).length = x.length := by
      rw [List.length_mergeSort]; exact List.length_map _
    have hmem : ∀ a, a ∈ (SMap.img f x).mergeSort (· ≤ ·) ↔ ∃ v ∈ x, f.getD v 0 = a := by
      intro a
      rw [List.mem_mergeSort]
      unfold SMap.img
      rw [List.mem_map]
    rw [found_iff hY (by
      intro e
      rw [e] at hlen
      exact hx (List.length_eq_zero_iff.1 hlen.symm))]
    refine ⟨?_, ?_, ?_, by rw [hlen]; have := hs.len; omega, ?_⟩
    · intro e
      rw [e] at hlen
      exact hx (List.length_eq_zero_iff.1 hlen.symm)
    · have h1 : ((SMap.img f x).mergeSort (· ≤ ·)).Pairwise (· ≤ ·) := by
        have := List.pairwise_mergeSort (le := fun a b : Nat => decide (a ≤ b)) (by intro a b c; simp; omega) (by intro a b; simp; omega) (SMap.img f x)
        simpa using this
      have h2 : ((SMap.img f x).mergeSort (· ≤ ·)).Nodup := (List.mergeSort_perm _ _).nodup_iff.2 hn
      exact (h1.and h2).imp (fun h => lt_of_le_of_ne h.1 h.2)
    · intro a ha
      obtain ⟨v, hv, rfl⟩ := (hmem a).1 ha
      exact (hf.2 v (hs.lt v hv)).1
    · intro h2
      rw [hlen] at h2
      obtain ⟨p, hp⟩ := hs.common h2
      refine ⟨p, ?_⟩
      intro a ha
      obtain ⟨v, hv, rfl⟩ := (hmem a).1 ha
      exact (hf.2 v (hs.lt v hv)).2 p (hp v hv)

/-! ## Bivariate covers -/

theorem biRow_spec (c1 : List Nat) (i : Nat) : ∀ (cs : List (List Nat)) (j : Nat), ∃ ps : List (Nat × Nat),
    biRow c1 i cs j = (ps.map (fun p => intersectSorted c1 (cs.getD (p.2 - j) [])), ps.map Prod.fst, ps.map Prod.snd) ∧
    (∀ p : Nat × Nat, p ∈ ps ↔ p.1 = i ∧ j ≤ p.2 ∧ p.2 < j + cs.length ∧ 0 < (intersectSorted c1 (cs.getD (p.2 - j) [])).length) ∧
    ps.Pairwise (fun p q => p.2 < q.2) := by
  intro cs
  induction cs with
  | nil => intro j; exact ⟨[], rfl, by intro p; simp; omega, by simp⟩
  | cons c cs ih =>
    intro j
    obtain ⟨ps, h1, h2, h3⟩ := ih (j + 1)
    have hshift : ∀ p : Nat × Nat, j + 1 ≤ p.2 → (c :: cs).getD (p.2 - j) [] = cs.getD (p.2 - (j + 1)) [] := by
      intro p hp
      rw [show p.2 - j = (p.2 - (j + 1)) + 1 by omega]
      rfl
    have hmap : ps.map (fun p => intersectSorted c1 ((c :: cs).getD (p.2 - j) [])) = ps.map (fun p => intersectSorted c1 (cs.getD (p.2 - (j + 1)) [])) := by
      apply List.map_congr_left
      intro p hp
      rw [hshift p ((h2 p).1 hp).2.1]
    have hgt : ∀ p : Nat × Nat, p ∈ ps ↔ p.1 = i ∧ j + 1 ≤ p.2 ∧ p.2 < j + (c :: cs).length ∧ 0 < (intersectSorted c1 ((c :: cs).getD (p.2 - j) [])).length := by
      intro p
      rw [h2]
      constructor
      · rintro ⟨a, b, d, e⟩
        exact ⟨a, b, by simp; omega, by rw [hshift p b]; exact e⟩
      · rintro ⟨a, b, d, e⟩
        exact ⟨a, b, by simp at d; omega, by rw [hshift p b] at e; exact e⟩
    rw [biRow, h1]
    by_cases hq : (intersectSorted c1 c).length > 0
    · refine ⟨(i, j) :: ps, ?_, ?_, ?_⟩
      · show (if _ then _ else _) = _
        rw [if_pos hq, List.map_cons, hmap, Nat.sub_self]
        rfl
      · intro p
        rw [List.mem_cons, hgt]
        constructor
        · rintro (rfl | ⟨a, b, d, e⟩)
          · exact ⟨rfl, Nat.le_refl _, by simp, by rw [Nat.sub_self]; exact hq⟩
          · exact ⟨a, by omega, d, e⟩
        · rintro ⟨a, b, d, e⟩
          by_cases hj : p.2 = j
          · left; exact Prod.ext a hj
          · right; exact ⟨a, by omega, d, e⟩
      · rw [List.pairwise_cons]
        refine ⟨?_, h3⟩
        intro p hp
        have := ((h2 p).1 hp).2.1
        show j < p.2
        omega
    · refine ⟨ps, ?_, ?_, h3⟩
      · show (if _ then _ else _) = _
        rw [if_neg hq, hmap]
      · intro p
        rw [hgt]
        constructor
        · rintro ⟨a, b, d, e⟩; exact ⟨a, by omega, d, e⟩
        · rintro ⟨a, b, d, e⟩
          refine ⟨a, ?_, d, e⟩
          by_contra hc
          have hj : p.2 = j := by omega
          rw [hj, Nat.sub_self] at e
          exact hq e

theorem biLoop_spec (cover2 : List (List Nat)) : ∀ (cs : List (List Nat)) (i : Nat), ∃ ps : List (Nat × Nat),
    biLoop cover2 cs i = (ps.map (fun p => intersectSorted (cs.getD (p.1 - i) []) (cover2.getD p.2 [])), ps.map Prod.fst, ps.map Prod.snd) ∧
    (∀ p : Nat × Nat, p ∈ ps ↔ i ≤ p.1 ∧ p.1 < i + cs.length ∧ p.2 < cover2.length ∧
      0 < (intersectSorted (cs.getD (p.1 - i) []) (cover2.getD p.2 [])).length) ∧
    ps.Pairwise (fun p q => p.1 < q.1 ∨ (p.1 = q.1 ∧ p.2 < q.2)) := by
  intro cs
  induction cs with
  | nil => intro i; exact ⟨[], rfl, by intro p; simp; omega, by simp⟩
  | cons c cs ih =>
    intro i
    obtain ⟨ps, h1, h2, h3⟩ := ih (i + 1)
    obtain ⟨qs, r1, r2, r3⟩ := biRow_spec c i cover2 0
    have hshift : ∀ p : Nat × Nat, i + 1 ≤ p.1 → (c :: cs).getD (p.1 - i) [] = cs.getD (p.1 - (i + 1)) [] := by
      intro p hp
      rw [show p.1 - i = (p.1 - (i + 1)) + 1 by omega]
      rfl
    refine ⟨qs ++ ps, ?_, ?_, ?_⟩
    · rw [biLoop, h1, r1, List.map_append, List.map_append, List.map_append]
      have e1 : qs.map (fun p => intersectSorted ((c :: cs).getD (p.1 - i) []) (cover2.getD p.2 [])) = qs.map (fun p => intersectSorted c (cover2.getD (p.2 - 0) [])) := by
        apply List.map_congr_left
        intro p hp
        rw [((r2 p).1 hp).1, Nat.sub_self]; rfl
      have e2 : ps.map (fun p => intersectSorted ((c :: cs).getD (p.1 - i) []) (cover2.getD p.2 [])) = ps.map (fun p => intersectSorted (cs.getD (p.1 - (i + 1)) []) (cover2.getD p.2 [])) := by
        apply List.map_congr_left
        intro p hp
        rw [hshift p ((h2 p).1 hp).1]
      rw [e1, e2]
    · intro p
      rw [List.mem_append, r2, h2]
      constructor
      · rintro (⟨a, b, d, e⟩ | ⟨a, b, d, e⟩)
        · exact ⟨by omega, by simp; omega, by omega, by rw [a, Nat.sub_self]; exact e⟩
        · exact ⟨by omega, by simp; omega, d, by rw [hshift p a]; exact e⟩
      · rintro ⟨a, b, d, e⟩
        by_cases hi : p.1 = i
        · left
          refine ⟨hi, Nat.zero_le _, by omega, ?_⟩
          rw [hi, Nat.sub_self] at e; exact e
        · right
          have hi : i + 1 ≤ p.1 := by omega
          refine ⟨hi, by simp at b; omega, d, ?_⟩
          rw [hshift p hi] at e; exact e
    · rw [List.pairwise_append]
      refine ⟨?_, h3, ?_⟩
      · refine (List.Pairwise.and_mem.1 r3).imp ?_
        rintro p q ⟨hp, hq, h⟩
        have := ((r2 p).1 hp).1
        have := ((r2 q).1 hq).1
        exact Or.inr ⟨by omega, h⟩
      · intro p hp q hq
        have := ((r2 p).1 hp).1
        have := ((h2 q).1 hq).1
        exact Or.inl (by omega)

/-! ## Landmark covers -/

section
variable {T : Type} [LinearOrder T] [Add T]

theorem minOf_spec : ∀ (xs : List T) (x : T), (∀ y ∈ x :: xs, minOf x xs ≤ y) ∧ minOf x xs ∈ x :: xs := by
  intro xs
  induction xs with
  | nil => intro x; refine ⟨?_, ?_⟩ <;> simp [minOf]
  | cons y ys ih =>
    intro x
    obtain ⟨h1, h2⟩ := ih (min x y)
    have e : minOf x (y :: ys) = minOf (min x y) ys := rfl
    rw [e]
    have hm := h1 (min x y) (by simp)
    refine ⟨?_, ?_⟩
    · intro z hz
      rw [List.mem_cons, List.mem_cons] at hz
      rcases hz with rfl | rfl | hz
      · exact le_trans hm (min_le_left _ _)
      · exact le_trans hm (min_le_right _ _)
      · exact h1 z (by simp [hz])
    · rw [List.mem_cons] at h2
      rcases h2 with h2 | h2
      · rw [h2]
        rcases min_choice x y with h | h <;> rw [h] <;> simp
      · simp [h2]

theorem mem_epsRow (lo eps : T) : ∀ (ds : List T) (j a : Nat), a ∈ epsRow lo eps ds j ↔ j ≤ a ∧ ∃ d, ds[a - j]? = some d ∧ d < lo + eps := by
  intro ds
  induction ds with
  | nil => intro j a; simp [epsRow]
  | cons d ds ih =>
    intro j a
    have hsh : j + 1 ≤ a → (d :: ds)[a - j]? = ds[a - (j + 1)]? := by
      intro h
      rw [show a - j = (a - (j + 1)) + 1 by omega]; rfl
    rw [epsRow]
    split
    · rename_i hd
      rw [List.mem_cons, ih]
      constructor
      · rintro (rfl | ⟨h1, h2⟩)
        · exact ⟨Nat.le_refl _, d, by rw [Nat.sub_self]; rfl, hd⟩
        · exact ⟨by omega, by rw [hsh h1]; exact h2⟩
      · rintro ⟨h1, h2⟩
        by_cases e : a = j
        · exact Or.inl e
        · right
          refine ⟨by omega, ?_⟩
          rw [hsh (by omega)] at h2; exact h2
    · rename_i hd
      rw [ih]
      constructor
      · rintro ⟨h1, h2⟩
        exact ⟨by omega, by rw [hsh h1]; exact h2⟩
      · rintro ⟨h1, x, h2, h3⟩
        by_cases e : a = j
        · subst e
          rw [Nat.sub_self] at h2
          simp at h2
          subst h2
          exact absurd h3 hd
        · refine ⟨by omega, x, ?_, h3⟩
          rw [hsh (by omega)] at h2; exact h2

theorem epsRow_inc (lo eps : T) : ∀ (ds : List T) (j : Nat), (epsRow lo eps ds j).Pairwise (· < ·) := by
  intro ds
  induction ds with
  | nil => intro j; simp [epsRow]
  | cons d ds ih =>
    intro j
    rw [epsRow]
    split
    · rw [List.pairwise_cons]
      refine ⟨?_, ih _⟩
      intro a ha
      have := ((mem_epsRow lo eps ds (j + 1) a).1 ha).1
      omega
    · exact ih _

theorem emplaceAll_spec (i : Nat) : ∀ (js : List Nat) (c : List (List Nat)), js.Nodup → (∀ j ∈ js, j < c.length) →
    ∃ c', emplaceAll i js c = .ok c' ∧ c'.length = c.length ∧ ∀ j, c'.getD j [] = if j ∈ js then c.getD j [] ++ [i] else c.getD j [] := by
  intro js
  induction js with
  | nil => intro c _ _; exact ⟨c, rfl, rfl, by simp⟩
  | cons j js ih =>
    intro c hn hl
    have hj : j < c.length := hl j (by simp)
    rw [List.nodup_cons] at hn
    obtain ⟨c', h1, h2, h3⟩ := ih (c.set j (c.getD j [] ++ [i])) hn.2 (by
      intro k hk; rw [List.length_set]; exact hl k (by simp [hk]))
    refine ⟨c', ?_, by rw [h2, List.length_set], ?_⟩
    · rw [emplaceAll, Flag.rd_getD c [] hj, bind_ok, wr_lt _ hj, bind_ok, h1]
    · intro k
      rw [h3, Flag.getD_set _ _ _ hj]
      by_cases hk : k = j
      · subst hk
        rw [if_neg hn.1, if_pos rfl, if_pos (by simp)]
      · rw [if_neg hk]
        by_cases hkj : k ∈ js
        · rw [if_pos hkj, if_pos (by simp [hkj])]
        · rw [if_neg hkj, if_neg (by simp [hk, hkj])]

/-- the row `di` assigns its point to landmark `j` -/
def Assigned (eps : T) (di : List T) (j : Nat) : Prop := j ∈ epsAssign eps di

theorem epsLoop_spec (eps : T) (nL : Nat) : ∀ (ds : List (List T)) (i : Nat) (c : List (List Nat)), (∀ di ∈ ds, di.length = nL) → c.length = nL →
    (∀ j, (c.getD j []).Pairwise (· < ·) ∧ ∀ a ∈ c.getD j [], a < i) →
    ∃ c', epsLoop eps ds i c = .ok c' ∧ c'.length = nL ∧ ∀ j, (c'.getD j []).Pairwise (· < ·) ∧
      ∀ a, a ∈ c'.getD j [] ↔ a ∈ c.getD j [] ∨ (i ≤ a ∧ ∃ di, ds[a - i]? = some di ∧ Assigned eps di j) := by
  intro ds
  induction ds with
  | nil => intro i c _ hc h; exact ⟨c, rfl, hc, fun j => ⟨(h j).1, by simp⟩⟩
  | cons di ds ih =>
    intro i c hd hc h
    have hdi := hd di (by simp)
    have hnd : (epsAssign eps di).Nodup ∧ ∀ j ∈ epsAssign eps di, j < c.length := by
      cases di with
      | nil => exact ⟨by simp [epsAssign], by simp [epsAssign]⟩
      | cons d di =>
        refine ⟨(epsRow_inc _ eps _ 0).imp (fun h => ne_of_lt h), ?_⟩
        intro j hj
        obtain ⟨_, x, h2, _⟩ := (mem_epsRow _ eps _ 0 j).1 hj
        rw [hc, ← hdi]
        have := (List.getElem?_eq_some_iff.1 h2).1
        omega
    obtain ⟨c1, e1, e2, e3⟩ := emplaceAll_spec i (epsAssign eps di) c hnd.1 hnd.2
    obtain ⟨c', f1, f2, f3⟩ := ih (i + 1) c1 (fun x hx => hd x (by simp [hx])) (by omega) (by
      intro j
      obtain ⟨g1, g2⟩ := h j
      rw [e3]
      split
      · refine ⟨?_, ?_⟩
        · rw [List.pairwise_append]
          exact ⟨g1, by simp, fun a ha b hb => by simp at hb; rw [hb]; exact g2 a ha⟩
        · intro a ha
          rw [List.mem_append, List.mem_singleton] at ha
          rcases ha with ha | ha
          · have := g2 a ha; omega
          · omega
      · exact ⟨g1, fun a ha => by have := g2 a ha; omega⟩)
    refine ⟨c', by rw [epsLoop, e1, bind_ok, f1], f2, fun j => ⟨(f3 j).1, fun a => ?_⟩⟩
    rw [(f3 j).2, e3]
    have hsh : i + 1 ≤ a → (di :: ds)[a - i]? = ds[a - (i + 1)]? := by
      intro h
      rw [show a - i = (a - (i + 1)) + 1 by omega]; rfl
    have hmem : (a ∈ if j ∈ epsAssign eps di then c.getD j [] ++ [i] else c.getD j []) ↔ a ∈ c.getD j [] ∨ (a = i ∧ Assigned eps di j) := by
      unfold Assigned
      split
      · rename_i hq
        rw [List.mem_append, List.mem_singleton]
        constructor
        · rintro (h | h)
          · exact Or.inl h
          · exact Or.inr ⟨h, hq⟩
        · rintro (h | h)
          · exact Or.inl h
          · exact Or.inr h.1
      · rename_i hq
        constructor
        · exact Or.inl
        · rintro (h | h)
          · exact h
          · exact absurd h.2 hq
    rw [hmem]
    constructor
    · rintro ((h | ⟨rfl, h0⟩) | ⟨h1, h2⟩)
      · exact Or.inl h
      · exact Or.inr ⟨Nat.le_refl _, di, by rw [Nat.sub_self]; rfl, h0⟩
      · exact Or.inr ⟨by omega, by rw [hsh h1]; exact h2⟩
    · rintro (h | ⟨h1, x, h2, h3⟩)
      · exact Or.inl (Or.inl h)
      · by_cases e : a = i
        · subst e
          rw [Nat.sub_self] at h2
          simp at h2
          subst h2
          exact Or.inl (Or.inr ⟨rfl, h3⟩)
        · right
          refine ⟨by omega, x, ?_, h3⟩
          rw [hsh (by omega)] at h2; exact h2

end

end Nrv
end BATS
