import Verif.Proofs.FlagReach
import Verif.Proofs.Cover
import Verif.Props.Flag
import Verif.Props.Nerve
import Verif.Spec.RipsDiagram

set_option linter.unusedSectionVars false
set_option linter.unusedVariables false
set_option linter.unusedSimpArgs false

/-! # Rips complexes of subsets, inclusion maps, node loops with index -/

namespace BATS
namespace Zoo
open Srt SCpx Reduction Nrv BATS.Flag

/-! ## Inclusion maps -/

theorem seek_ok {x : Nat} : ∀ {t : List Nat}, x ∈ t → ∀ ct, ∃ p, t[p]? = some x ∧ seek x t ct = .ok (t.drop p, ct + p) := by
  intro t
  induction t with
  | nil => intro h; simp at h
  | cons y t ih =>
    intro h ct
    rw [seek]
    by_cases hy : y ≠ x
    · obtain ⟨p, p1, p2⟩ := ih (by simpa [Ne.symm hy] using h) (ct + 1)
      exact ⟨p + 1, by simpa using p1, by rw [if_pos hy, p2]; simp; omega⟩
    · rw [if_neg hy]
      have : y = x := not_not.1 hy
      subst this
      exact ⟨0, by simp, by simp⟩

theorem seek_ub {x : Nat} : ∀ {t : List Nat}, x ∉ t → ∀ ct, seek x t ct = .error .ub := by
  intro t
  induction t with
  | nil => intro _ ct; rfl
  | cons y t ih =>
    intro h ct
    simp only [List.mem_cons, not_or] at h
    rw [seek, if_pos (Ne.symm h.1)]
    exact ih h.2 _

theorem inclLoop_ok : ∀ {s t : List Nat}, s.Pairwise (· < ·) → t.Pairwise (· < ·) → (∀ x ∈ s, x ∈ t) → ∀ ct,
    ∃ f, inclLoop s t ct = .ok f ∧ f.length = s.length ∧ ∀ i, i < s.length → ct ≤ f.getD i 0 ∧ t[f.getD i 0 - ct]? = s[i]? := by
  intro s
  induction s with
  | nil => intro t _ _ _ ct; exact ⟨[], rfl, rfl, by simp⟩
  | cons x s ih =>
    intro t hs ht hsub ct
    obtain ⟨p, p1, p2⟩ := seek_ok (hsub x (by simp)) ct
    rw [List.pairwise_cons] at hs
    obtain ⟨hp, px⟩ := List.getElem?_eq_some_iff.1 p1
    obtain ⟨f, f1, f2, f3⟩ := ih (t := t.drop p) hs.2 (ht.sublist (List.drop_sublist _ _)) (by
      intro y hy
      obtain ⟨q, hq, e⟩ := List.getElem_of_mem (hsub y (by simp [hy]))
      have hxy := hs.1 y hy
      have hpq : p ≤ q := by
        by_contra hlt
        have := List.pairwise_iff_getElem.1 ht q p hq hp (by omega)
        omega
      rw [List.mem_iff_getElem?]
      exact ⟨q - p, by rw [List.getElem?_drop, show p + (q - p) = q from by omega, List.getElem?_eq_getElem hq, e]⟩) (ct + p)
    refine ⟨(ct + p) :: f, ?_, by simp [f2], ?_⟩
    · rw [inclLoop, p2, bind_ok, f1]; rfl
    · intro i hi
      cases i with
      | zero =>
        refine ⟨by simp, ?_⟩
        simp only [List.getD_cons_zero, List.getElem?_cons_zero]
        rw [show ct + p - ct = p from by omega, p1]
      | succ i =>
        obtain ⟨g1, g2⟩ := f3 i (by simpa using hi)
        simp only [List.getD_cons_succ, List.getElem?_cons_succ]
        refine ⟨by omega, ?_⟩
        rw [← g2, List.getElem?_drop]
        congr 1; omega

theorem inclLoop_ub : ∀ {s t : List Nat}, (∃ x ∈ s, x ∉ t) → ∀ ct, inclLoop s t ct = .error .ub := by
  intro s
  induction s with
  | nil => rintro t ⟨x, hx, _⟩; simp at hx
  | cons y s ih =>
    rintro t ⟨x, hx, hnot⟩ ct
    by_cases hy : y ∈ t
    · obtain ⟨p, p1, p2⟩ := seek_ok hy ct
      rw [inclLoop, p2, bind_ok]
      rcases List.mem_cons.1 hx with rfl | hx
      · exact absurd hy hnot
      · rw [ih ⟨x, hx, fun h => hnot (List.mem_of_mem_drop h)⟩]; rfl
    · rw [inclLoop, seek_ub hy]; rfl

theorem vertexInclusionMap_ok {s t : List Nat} (hs : s.Pairwise (· < ·)) (ht : t.Pairwise (· < ·)) (h : ∀ x ∈ s, x ∈ t) :
    ∃ f, vertexInclusionMap s t = .ok f ∧ IsInclusionMap s t f := by
  obtain ⟨f, f1, f2, f3⟩ := inclLoop_ok hs ht h 0
  exact ⟨f, f1, f2, fun i hi => by simpa using (f3 i hi).2⟩

/-! ## Rips complexes -/

section rips
variable {T : Type} [Zero T] [LinearOrder T]

theorem ripsEdgeRow_eq (d : Nat → Nat → T) (r : T) (i : Nat) : ∀ c j, ripsEdgeRow d r i c j = (ripsDataRow d r i c j).flatMap (fun e => [e.t, e.s]) := by
  intro c
  induction c with
  | zero => intro j; rfl
  | succ c ih =>
    intro j
    rw [ripsEdgeRow, ripsDataRow]
    by_cases h : d i j ≤ r
    · rw [if_pos h, if_pos h, List.flatMap_cons, ih]; rfl
    · rw [if_neg h, if_neg h, ih]

theorem ripsEdges_eq (d : Nat → Nat → T) (n : Nat) (r : T) : ripsEdges d n r = ((ripsDataLoop d r n 0).map (fun e => (e.t, e.s))).flatMap (fun p => [p.1, p.2]) := by
  have : ∀ c i, ripsEdgeLoop d r c i = (ripsDataLoop d r c i).flatMap (fun e => [e.t, e.s]) := by
    intro c
    induction c with
    | zero => intro i; rfl
    | succ c ih => intro i; rw [ripsEdgeLoop, ripsDataLoop, List.flatMap_append, ih, ripsEdgeRow_eq]
  unfold ripsEdges
  rw [this, List.flatMap_map]

theorem ripsPairs_simple (d : Nat → Nat → T) (n : Nat) (r : T) : SimpleGraphOn n ((ripsDataLoop d r n 0).map (fun e => (e.t, e.s))) := by
  constructor
  · intro p hp
    rw [List.mem_map] at hp
    obtain ⟨e, he, rfl⟩ := hp
    have := (mem_ripsDataLoop d r n 0 e).1 he
    refine ⟨?_, ?_, ?_⟩ <;> simp only [] <;> omega
  · rw [List.pairwise_map]
    refine (List.Pairwise.and_mem.1 (ripsDataLoop_pairwise d r n 0)).imp ?_
    rintro e f ⟨he, hf, h⟩
    have h1 := (mem_ripsDataLoop d r n 0 e).1 he
    have h2 := (mem_ripsDataLoop d r n 0 f).1 hf
    constructor
    · intro e; rw [Prod.mk.injEq] at e; omega
    · intro e; simp only [Prod.swap, Prod.mk.injEq] at e; omega

theorem joined_rips (d : Nat → Nat → T) (n : Nat) (r : T) {a b : Nat} (hab : a < b) (hb : b < n) :
    Joined ((ripsDataLoop d r n 0).map (fun e => (e.t, e.s))) a b ↔ d b a ≤ r := by
  unfold Joined
  simp only [List.mem_map, Prod.mk.injEq]
  constructor
  · rintro (⟨e, he, rfl, rfl⟩ | ⟨e, he, rfl, rfl⟩)
    · have := (mem_ripsDataLoop d r n 0 e).1 he
      rw [← this.2.2.2.1]; exact this.2.2.2.2
    · have := (mem_ripsDataLoop d r n 0 e).1 he
      omega
  · intro h
    exact Or.inl ⟨⟨b, a, d b a⟩, (mem_ripsDataLoop d r n 0 _).2 ⟨Nat.zero_le _, by simpa using hb, hab, rfl, h⟩, rfl, rfl⟩

theorem ripsCpx_spec (d : Nat → Nat → T) (n : Nat) (r : T) (dmax : Nat) :
    ∃ Y, ripsCpx d n r dmax = .ok Y ∧ Reachable Y ∧ SCpx.Represents Y {s | IsRipsSimplex (fun a b => d b a) n (max dmax 1) r s} ∧ dmax ≤ Y.maxdim ∧ Y.maxdim ≤ max dmax 1 := by
  obtain ⟨Y, h1, h2⟩ := C36_flag_complex (ripsPairs_simple d n r) dmax
  rw [← ripsEdges_eq] at h1
  obtain ⟨r1, r2, r3⟩ := flagComplex_reach h1
  refine ⟨Y, h1, r1, ?_, r2, r3⟩
  have : {s | IsCliqueList n (max dmax 1) ((ripsDataLoop d r n 0).map (fun e => (e.t, e.s))) s} = {s | IsRipsSimplex (fun a b => d b a) n (max dmax 1) r s} := by
    ext s
    constructor
    · intro h
      exact ⟨h.ne, h.inc, h.lt, h.len, fun a ha b hb hab => (joined_rips d n r hab (h.lt b hb)).1 (h.joined a ha b hb (ne_of_lt hab))⟩
    · intro h
      refine ⟨h.ne, h.inc, h.lt, h.len, fun a ha b hb hab => ?_⟩
      rcases Nat.lt_or_gt_of_ne hab with hlt | hlt
      · exact (joined_rips d n r hlt (h.lt b hb)).2 (h.close a ha b hb hlt)
      · exact ((joined_rips d n r hlt (h.lt a ha)).2 (h.close b hb a ha hlt)).symm
  rw [← this]; exact h2

/-- the complex of a node, with dimension -/
theorem ripsNode_spec (dist : Nat → Nat → T) {n : Nat} (r : T) (dmax : Nat) {S : List Nat} (hS : ∀ x ∈ S, x < n) :
    ∃ Y, ripsNode dist n r dmax S = .ok Y ∧ Reachable Y ∧ SCpx.Represents Y {s | IsRipsSimplex (subDist dist S) S.length (max dmax 1) r s} ∧
      dmax ≤ Y.maxdim ∧ Y.maxdim ≤ max dmax 1 := by
  unfold ripsNode getSubset
  rw [if_pos hS, bind_ok]
  exact ripsCpx_spec _ _ r dmax

theorem rips_found {Y : SCpx} {d : Nat → Nat → T} {n D : Nat} {r : T} (h : SCpx.Represents Y {s | IsRipsSimplex d n D r s}) {s : List Nat} (hs : s ≠ []) :
    (∃ i, Y.findIdx s = some i) ↔ IsRipsSimplex d n D r s := (h.found s hs).symm

theorem incl_mono {s t f : List Nat} (hs : s.Pairwise (· < ·)) (ht : t.Pairwise (· < ·)) (hf : IsInclusionMap s t f) {i j : Nat} (hij : i < j) (hj : j < s.length) :
    f.getD i 0 < f.getD j 0 := by
  have e1 := hf.2 i (by omega)
  have e2 := hf.2 j hj
  rw [List.getElem?_eq_getElem (show i < s.length by omega)] at e1
  rw [List.getElem?_eq_getElem hj] at e2
  obtain ⟨p1, q1⟩ := List.getElem?_eq_some_iff.1 e1
  obtain ⟨p2, q2⟩ := List.getElem?_eq_some_iff.1 e2
  have hlt := List.pairwise_iff_getElem.1 hs i j (by omega) hj hij
  by_contra hge
  rcases Nat.lt_or_ge (f.getD j 0) (f.getD i 0) with h | h
  · have := List.pairwise_iff_getElem.1 ht _ _ p2 p1 h
    omega
  · have : f.getD i 0 = f.getD j 0 := by omega
    simp only [this] at q1
    omega

theorem inclusion_carries {dist : Nat → Nat → T} {s t f : List Nat} (hs : s.Pairwise (· < ·)) (ht : t.Pairwise (· < ·)) (hf : IsInclusionMap s t f) {D D' : Nat}
    (hD : D ≤ D') {r r' : T} (hr : r ≤ r') {X Y : SCpx} (hX : SCpx.Represents X {x | IsRipsSimplex (subDist dist s) s.length D r x})
    (hY : SCpx.Represents Y {x | IsRipsSimplex (subDist dist t) t.length D' r' x}) : SMap.Covers f X ∧ SMap.Carries f X Y := by
  have hlt : ∀ i, i < s.length → f.getD i 0 < t.length := by
    intro i hi
    have e := hf.2 i hi
    rw [List.getElem?_eq_getElem hi] at e
    exact (List.getElem?_eq_some_iff.1 e).1
  have hval : ∀ i, i < s.length → t.getD (f.getD i 0) 0 = s.getD i 0 := by
    intro i hi
    rw [List.getD_eq_getElem?_getD (l := t), List.getD_eq_getElem?_getD (l := s), hf.2 i hi]
  refine ⟨?_, ?_⟩
  · intro x hx hi v hv
    have := ((rips_found hX hx).1 hi).lt v hv
    rw [hf.1]; exact this
  · intro x hx hi hn
    have hsx := (rips_found hX hx).1 hi
    have hmono : (SMap.img f x).Pairwise (· < ·) := by
      unfold SMap.img
      rw [List.pairwise_map]
      refine (List.Pairwise.and_mem.1 hsx.inc).imp ?_
      rintro a b ⟨ha, hb, hab⟩
      exact incl_mono hs ht hf hab (hsx.lt b hb)
    have hsort : (SMap.img f x).mergeSort (· ≤ ·) = SMap.img f x := SMap.sorted_eq (List.Perm.refl _) hmono
    rw [hsort]
    have hne : SMap.img f x ≠ [] := by
      unfold SMap.img
      intro e
      exact hx (List.map_eq_nil_iff.1 e)
    rw [rips_found hY hne]
    have hmem : ∀ a, a ∈ SMap.img f x ↔ ∃ v ∈ x, f.getD v 0 = a := by
      intro a; unfold SMap.img; rw [List.mem_map]
    refine ⟨hne, hmono, ?_, ?_, ?_⟩
    · intro a ha
      obtain ⟨v, hv, rfl⟩ := (hmem a).1 ha
      exact hlt v (hsx.lt v hv)
    · unfold SMap.img; rw [List.length_map]; have := hsx.len; omega
    · intro a ha b hb hab
      obtain ⟨v, hv, rfl⟩ := (hmem a).1 ha
      obtain ⟨w, hw, rfl⟩ := (hmem b).1 hb
      unfold subDist
      rw [hval v (hsx.lt v hv), hval w (hsx.lt w hw)]
      have hvw : v < w := by
        rcases Nat.lt_trichotomy v w with h | h | h
        · exact h
        · subst h; omega
        · have := incl_mono hs ht hf h (hsx.lt v hv)
          omega
      exact le_trans (hsx.close v hv w hw hvw) hr

end rips

/-! ## Loops -/

theorem nodeLoopI_eq {N E N' E' : Type} (D : Diagram N E) (g : Nat → N → Res N') (sched : List Nat) (TD : Diagram N' E') :
    nodeLoopI D g sched TD = nodeLoop (⟨D.node.zipIdx, D.edata, D.elist⟩ : Diagram (N × Nat) E) (fun p => g p.2 p.1) sched TD := by
  unfold nodeLoopI nodeLoop
  congr 1
  funext s i
  unfold rd
  simp only [List.getElem?_zipIdx]
  cases D.node[i]? with
  | none => rfl
  | some x => simp

/-- a loop in which some iteration fails with `e`, and all others succeed or fail with `e` -/
theorem parFor_error {σ : Type} {body : σ → Nat → Res σ} {P : σ → Prop} {e : Err} : ∀ {sched : List Nat} {s : σ}, P s →
    (∀ i ∈ sched, ∀ s, P s → body s i = .error e ∨ ∃ s', body s i = .ok s' ∧ P s') → (∃ i ∈ sched, ∀ s, P s → body s i = .error e) → parFor body sched s = .error e := by
  intro sched
  induction sched with
  | nil => rintro s _ _ ⟨i, hi, _⟩; simp at hi
  | cons j js ih =>
    rintro s hs h ⟨i, hi, he⟩
    rw [parFor]
    rcases h j (by simp) s hs with h1 | ⟨s', h1, h2⟩
    · rw [h1]; rfl
    · rw [h1, bind_ok]
      rcases List.mem_cons.1 hi with rfl | hi
      · rw [he s hs] at h1; cases h1
      · exact ih h2 (fun i hi => h i (by simp [hi])) ⟨i, hi, he⟩

end Zoo
end BATS
