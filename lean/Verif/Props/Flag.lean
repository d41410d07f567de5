import Verif.Proofs.FlagTop
import Verif.Props.SimplicialPersistence

set_option linter.unusedSectionVars false
set_option linter.unusedVariables false
set_option linter.unusedSimpArgs false

/-! # C36: flag and Rips filtrations; C53: persistent homology of Rips filtrations

`SimpleGraphOn`, `IsCliqueList`, `IsCliqueValue`, `IsRipsSimplex`, `IsDiam` are in `Verif/Spec/Flag.lean`. -/

namespace BATS
open Filt SCpx BATS.Flag

section filt
variable {T : Type} [Zero T] [LinearOrder T]

theorem exists_cliqueValue (t0 : T) {n D : Nat} {edges : List (FEdge T)} {s : List Nat} (h : IsCliqueList n D (edges.map FEdge.ends) s) :
    ∃ x, IsCliqueValue t0 edges s x := by
  rcases Nat.lt_or_ge s.length 2 with hl | hl
  · exact ⟨t0, fun _ => rfl, fun h => by omega⟩
  · obtain ⟨a, b, s', rfl⟩ : ∃ a b s', s = a :: b :: s' := by
      match s, hl with
      | a :: b :: s', _ => exact ⟨a, b, s', rfl⟩
    have hab : a ≠ b := by
      have := h.inc
      rw [List.pairwise_cons] at this
      exact ne_of_lt (this.1 b (by simp))
    have hfin : Set.Finite {e | e ∈ edges ∧ e.s ∈ a :: b :: s' ∧ e.t ∈ a :: b :: s'} :=
      (List.finite_toSet edges).subset (fun e he => he.1)
    have hne : Set.Nonempty {e | e ∈ edges ∧ e.s ∈ a :: b :: s' ∧ e.t ∈ a :: b :: s'} := by
      rcases h.joined a (by simp) b (by simp) hab with hj | hj
      · obtain ⟨e, he, heq⟩ := List.mem_map.1 hj
        unfold FEdge.ends at heq
        rw [Prod.mk.injEq] at heq
        exact ⟨e, he, by rw [heq.1]; simp, by rw [heq.2]; simp⟩
      · obtain ⟨e, he, heq⟩ := List.mem_map.1 hj
        unfold FEdge.ends at heq
        rw [Prod.mk.injEq] at heq
        exact ⟨e, he, by rw [heq.1]; simp, by rw [heq.2]; simp⟩
    obtain ⟨e, he, hmax⟩ := Set.exists_max_image _ (fun e : FEdge T => e.r) hfin hne
    refine ⟨e.r, fun h => by simp at h, fun _ => ⟨⟨e, he.1, he.2.1, he.2.2, rfl⟩, ?_⟩⟩
    rintro r ⟨f, hf, h1, h2, rfl⟩
    exact hmax f ⟨hf, h1, h2⟩

theorem clique_sublist {n D : Nat} {ps : List (Nat × Nat)} {s u : List Nat} (h : IsCliqueList n D ps s) (hu : u ≠ []) (hs : u.Sublist s) : IsCliqueList n D ps u :=
  ⟨hu, h.inc.sublist hs, fun a ha => h.lt a (hs.subset ha), le_trans hs.length_le h.len, fun a ha b hb hne => h.joined a (hs.subset ha) b (hs.subset hb) hne⟩

theorem clique_monotone {n D : Nat} {t0 : T} {edges : List (FEdge T)} (h0 : ∀ e ∈ edges, t0 ≤ e.r) {w : List Nat → Option T}
    (hw : ∀ s x, w s = some x ↔ IsCliqueList n D (edges.map FEdge.ends) s ∧ IsCliqueValue t0 edges s x) : Filt.Monotone w := by
  intro s u hu hsub x hx
  obtain ⟨h1, h2⟩ := (hw s x).1 hx
  have hcu := clique_sublist h1 hu hsub
  obtain ⟨y, hy⟩ := exists_cliqueValue t0 hcu
  refine ⟨y, (hw u y).2 ⟨hcu, hy⟩, ?_⟩
  have hup : 0 < u.length := List.length_pos_iff.2 hu
  have hle := hsub.length_le
  rcases Nat.lt_or_ge s.length 2 with hs | hs
  · rw [hy.1 (by omega), h2.1 (by omega)]
  · obtain ⟨⟨e, he, e1, e2, e3⟩, hmax⟩ := h2.2 hs
    rcases Nat.lt_or_ge u.length 2 with hu' | hu'
    · rw [hy.1 (by omega), ← e3]; exact h0 e he
    · obtain ⟨⟨f, hf, f1, f2, f3⟩, _⟩ := hy.2 hu'
      exact hmax ⟨f, hf, hsub.subset f1, hsub.subset f2, f3⟩

/-- C36: for the edges of a simple graph in any order, `FlagFiltration` builds the filtration whose simplices are exactly the cliques
with at most `maxdim + 1` vertices (at least the edges are always included), each with the value of its largest edge, and the
vertices with value `t0`. If no edge is below `t0` the values are monotone. -/
theorem C36_flag_filtration {edges : List (FEdge T)} {n : Nat} (hs : SimpleGraphOn n (edges.map FEdge.ends)) (maxdim : Nat) (t0 : T) :
    ∃ Ψ w, flagFiltration edges n maxdim t0 = .ok Ψ ∧ Filt.Represents Ψ w ∧
      (∀ s x, w s = some x ↔ IsCliqueList n (max maxdim 1) (edges.map FEdge.ends) s ∧ IsCliqueValue t0 edges s x) ∧
      (∀ s, w s ≠ none ↔ IsCliqueList n (max maxdim 1) (edges.map FEdge.ends) s) ∧
      ((∀ e ∈ edges, t0 ≤ e.r) → Filt.Monotone w) := by
  obtain ⟨Ψ, cells, u, h1, h2, h3, _⟩ := flagFiltration_spec (simple_of_graph hs) maxdim t0
  refine ⟨Ψ, ofFin u, h1, h2.represents, ofFin_val h3, fun s => ?_, fun h0 => clique_monotone h0 (ofFin_val h3)⟩
  rw [Option.ne_none_iff_exists']
  constructor
  · rintro ⟨x, hx⟩; exact ((ofFin_val h3 s x).1 hx).1
  · intro h
    obtain ⟨x, hx⟩ := exists_cliqueValue t0 h
    exact ⟨x, (ofFin_val h3 s x).2 ⟨h, hx⟩⟩

/-- C36: the order in which the edges are passed does not matter at all: the same filtration, with the same cell indices, results
(for any list of edges whatsoever, including loops and repetitions). -/
theorem C36_edge_order {edges edges' : List (FEdge T)} (h : edges.Perm edges') (n maxdim : Nat) (t0 : T) :
    flagFiltration edges n maxdim t0 = flagFiltration edges' n maxdim t0 := by
  unfold flagFiltration
  rw [sortEdges_congr h]

theorem rips_val {dist : Nat → Nat → T} {n D : Nat} {rmax : T} {es : List (FEdge T)}
    (hm : ∀ a b r, ((⟨a, b, r⟩ : FEdge T) ∈ es ∨ ⟨b, a, r⟩ ∈ es) ∧ a < b ↔ a < b ∧ b < n ∧ r = dist a b ∧ r ≤ rmax) (hne : ∀ e ∈ es, e.s ≠ e.t) (s : List Nat) (x : T) :
    (IsCliqueList n D (es.map FEdge.ends) s ∧ IsCliqueValue 0 es s x) ↔ IsRipsSimplex dist n D rmax s ∧ IsDiam dist s x := by
  have hj : ∀ a b, a < b → b < n → (Joined (es.map FEdge.ends) a b ↔ dist a b ≤ rmax) := by
    intro a b hab hbn
    unfold Joined FEdge.ends
    simp only [List.mem_map, Prod.mk.injEq]
    constructor
    · rintro (⟨⟨a', b', r⟩, he, rfl, rfl⟩ | ⟨⟨a', b', r⟩, he, rfl, rfl⟩)
      · have := (hm a' b' r).1 ⟨Or.inl he, hab⟩
        rw [← this.2.2.1]; exact this.2.2.2
      · have := (hm b' a' r).1 ⟨Or.inr he, hab⟩
        rw [← this.2.2.1]; exact this.2.2.2
    · intro hd
      rcases ((hm a b (dist a b)).2 ⟨hab, hbn, rfl, hd⟩).1 with h | h
      · exact Or.inl ⟨_, h, rfl, rfl⟩
      · exact Or.inr ⟨_, h, rfl, rfl⟩
  have hset : (∀ a ∈ s, a < n) → (∀ a ∈ s, ∀ b ∈ s, a < b → dist a b ≤ rmax) →
      {r | ∃ e ∈ es, e.s ∈ s ∧ e.t ∈ s ∧ e.r = r} = {r | ∃ a ∈ s, ∃ b ∈ s, a < b ∧ dist a b = r} := by
    intro hlt hcl
    ext r
    constructor
    · rintro ⟨⟨a, b, r⟩, he, ha, hb, rfl⟩
      rcases Nat.lt_trichotomy a b with h | h | h
      · have := (hm a b r).1 ⟨Or.inl he, h⟩
        exact ⟨a, ha, b, hb, h, this.2.2.1.symm⟩
      · exact absurd h (hne _ he)
      · have := (hm b a r).1 ⟨Or.inr he, h⟩
        exact ⟨b, hb, a, ha, h, this.2.2.1.symm⟩
    · rintro ⟨a, ha, b, hb, hab, rfl⟩
      rcases ((hm a b (dist a b)).2 ⟨hab, hlt b hb, rfl, hcl a ha b hb hab⟩).1 with h | h
      · exact ⟨_, h, ha, hb, rfl⟩
      · exact ⟨_, h, hb, ha, rfl⟩
  constructor
  · rintro ⟨h1, h2⟩
    have hcl : ∀ a ∈ s, ∀ b ∈ s, a < b → dist a b ≤ rmax := fun a ha b hb hab => (hj a b hab (h1.lt b hb)).1 (h1.joined a ha b hb (ne_of_lt hab))
    refine ⟨⟨h1.ne, h1.inc, h1.lt, h1.len, hcl⟩, h2.1, fun hl => ?_⟩
    rw [← hset h1.lt hcl]; exact h2.2 hl
  · rintro ⟨h1, h2⟩
    refine ⟨⟨h1.ne, h1.inc, h1.lt, h1.len, ?_⟩, h2.1, fun hl => ?_⟩
    · intro a ha b hb hne'
      rcases Nat.lt_or_gt_of_ne hne' with h | h
      · exact (hj a b h (h1.lt b hb)).2 (h1.close a ha b hb h)
      · exact ((hj b a h (h1.lt a ha)).2 (h1.close b hb a ha h)).symm
    · rw [hset h1.lt h1.close]; exact h2.2 hl

theorem rips_edges (pdist : Nat → Nat → T) (n : Nat) (rmax : T) (a b : Nat) (r : T) :
    ((⟨a, b, r⟩ : FEdge T) ∈ ripsFiltrationEdges pdist n rmax ∨ ⟨b, a, r⟩ ∈ ripsFiltrationEdges pdist n rmax) ∧ a < b ↔
      a < b ∧ b < n ∧ r = pdist a b ∧ r ≤ rmax := by
  rw [mem_ripsFiltrationEdges, mem_ripsFiltrationEdges]
  constructor
  · rintro ⟨h | h, hab⟩
    · exact h
    · simp only at h; omega
  · intro h; exact ⟨Or.inl h, h.1⟩

theorem ripsData_edges (d : Nat → Nat → T) (n : Nat) (rmax : T) (a b : Nat) (r : T) :
    ((⟨a, b, r⟩ : FEdge T) ∈ ripsDataEdges d n rmax ∨ ⟨b, a, r⟩ ∈ ripsDataEdges d n rmax) ∧ a < b ↔
      a < b ∧ b < n ∧ r = d b a ∧ r ≤ rmax := by
  rw [mem_ripsDataEdges, mem_ripsDataEdges]
  constructor
  · rintro ⟨h | h, hab⟩
    · simp only at h; omega
    · exact h
  · intro h; exact ⟨Or.inr h, h.1⟩

theorem ripsFiltration_spec (pdist : Nat → Nat → T) (n : Nat) (rmax : T) (dmax : Nat) :
    ∃ Ψ cells w, ripsFiltration pdist n rmax dmax = .ok Ψ ∧ Filt.FInv Ψ cells w ∧ dmax ≤ Ψ.X.maxdim ∧
      ∀ s x, w s = some x ↔ IsRipsSimplex pdist n (max dmax 1) rmax s ∧ IsDiam pdist s x := by
  obtain ⟨Ψ, cells, u, h1, h2, h3, h4⟩ := flagFiltration_spec (rips_simple pdist n rmax) dmax 0
  refine ⟨Ψ, cells, ofFin u, h1, h2, h4, fun s x => ?_⟩
  rw [ofFin_val h3 s x]
  exact rips_val (rips_edges pdist n rmax) (fun e he => by have := (mem_ripsFiltrationEdges pdist n rmax e).1 he; omega) s x

theorem ripsFiltrationData_spec (d : Nat → Nat → T) (n : Nat) (rmax : T) (dmax : Nat) :
    ∃ Ψ cells w, ripsFiltrationData d n rmax dmax = .ok Ψ ∧ Filt.FInv Ψ cells w ∧ dmax ≤ Ψ.X.maxdim ∧
      ∀ s x, w s = some x ↔ IsRipsSimplex (fun a b => d b a) n (max dmax 1) rmax s ∧ IsDiam (fun a b => d b a) s x := by
  obtain ⟨Ψ, cells, u, h1, h2, h3, h4⟩ := flagFiltration_spec (ripsData_simple d n rmax) dmax 0
  refine ⟨Ψ, cells, ofFin u, h1, h2, h4, fun s x => ?_⟩
  rw [ofFin_val h3 s x]
  exact rips_val (ripsData_edges d n rmax) (fun e he => by have := (mem_ripsDataEdges d n rmax e).1 he; omega) s x

/-- C36: `RipsFiltration` on any distance matrix (only the entries above the diagonal are read; no triangle inequality or
positivity is needed) contains exactly the sets of at most `dmax + 1` points (at least pairs) with diameter at most `rmax`, with
value their diameter. -/
theorem C36_rips_filtration (pdist : Nat → Nat → T) (n : Nat) (rmax : T) (dmax : Nat) :
    ∃ Ψ w, ripsFiltration pdist n rmax dmax = .ok Ψ ∧ Filt.Represents Ψ w ∧
      ∀ s x, w s = some x ↔ IsRipsSimplex pdist n (max dmax 1) rmax s ∧ IsDiam pdist s x := by
  obtain ⟨Ψ, cells, w, h1, h2, _, h4⟩ := ripsFiltration_spec pdist n rmax dmax
  exact ⟨Ψ, w, h1, h2.represents, h4⟩

/-- C36: the version on a data set computes `dist(X[i], X[j])` for `j < i`. -/
theorem C36_rips_filtration_data (d : Nat → Nat → T) (n : Nat) (rmax : T) (dmax : Nat) :
    ∃ Ψ w, ripsFiltrationData d n rmax dmax = .ok Ψ ∧ Filt.Represents Ψ w ∧
      ∀ s x, w s = some x ↔ IsRipsSimplex (fun a b => d b a) n (max dmax 1) rmax s ∧ IsDiam (fun a b => d b a) s x := by
  obtain ⟨Ψ, cells, w, h1, h2, _, h4⟩ := ripsFiltrationData_spec d n rmax dmax
  exact ⟨Ψ, w, h1, h2.represents, h4⟩

theorem rips_sublist {dist : Nat → Nat → T} {n D : Nat} {rmax : T} {s u : List Nat} (h : IsRipsSimplex dist n D rmax s) (hu : u ≠ []) (hs : u.Sublist s) :
    IsRipsSimplex dist n D rmax u :=
  ⟨hu, h.inc.sublist hs, fun a ha => h.lt a (hs.subset ha), le_trans hs.length_le h.len, fun a ha b hb hne => h.close a (hs.subset ha) b (hs.subset hb) hne⟩

end filt

/-- C36: `FlagComplex` of a simple graph, given as the flat list of the ends of its edges, contains exactly the cliques with at most
`maxdim + 1` vertices (at least the edges). -/
theorem C36_flag_complex {ps : List (Nat × Nat)} {n : Nat} (hs : SimpleGraphOn n ps) (maxdim : Nat) :
    ∃ Y, flagComplex (ps.flatMap (fun p => [p.1, p.2])) n maxdim = .ok Y ∧ SCpx.Represents Y {s | IsCliqueList n (max maxdim 1) ps s} := by
  obtain ⟨Y, cells, h1, h2, h3⟩ := flagComplex_spec hs maxdim
  refine ⟨Y, h1, ?_⟩
  have := h2.represents
  rw [h3, finSet_cliques] at this
  exact this

/-- C36: a list of odd length is rejected. -/
theorem C36_flag_complex_odd (edges : List Nat) (n maxdim : Nat) (h : edges.length % 2 = 1) : flagComplex edges n maxdim = .error .thrown := by
  unfold flagComplex
  rw [if_pos (by omega)]

section pers
variable {F : Type} [Field F] [DecidableEq F] {T : Type} [Zero T] [LinearOrder T]

theorem exists_diam (dist : Nat → Nat → T) (s : List Nat) (h : s.Pairwise (· < ·)) : ∃ x, IsDiam dist s x := by
  rcases Nat.lt_or_ge s.length 2 with hl | hl
  · exact ⟨0, fun _ => rfl, fun h => by omega⟩
  · have hfin : Set.Finite {p : Nat × Nat | p.1 ∈ s ∧ p.2 ∈ s ∧ p.1 < p.2} := by
      apply ((List.finite_toSet s).prod (List.finite_toSet s)).subset
      rintro ⟨a, b⟩ ⟨h1, h2, _⟩
      exact ⟨h1, h2⟩
    have hne : Set.Nonempty {p : Nat × Nat | p.1 ∈ s ∧ p.2 ∈ s ∧ p.1 < p.2} := by
      match s, hl, h with
      | a :: b :: s', _, h =>
        rw [List.pairwise_cons] at h
        exact ⟨(a, b), by simp, by simp, h.1 b (by simp)⟩
    obtain ⟨⟨a, b⟩, hp, hmax⟩ := Set.exists_max_image _ (fun p : Nat × Nat => dist p.1 p.2) hfin hne
    refine ⟨dist a b, fun h => by omega, fun _ => ⟨⟨a, hp.1, b, hp.2.1, hp.2.2, rfl⟩, ?_⟩⟩
    rintro r ⟨a', ha, b', hb, hab, rfl⟩
    exact hmax (a', b') ⟨ha, hb, hab⟩

theorem rips_monotone {dist : Nat → Nat → T} {n D : Nat} {rmax : T} (h0 : ∀ a b, a < b → b < n → 0 ≤ dist a b) {w : List Nat → Option T}
    (hw : ∀ s x, w s = some x ↔ IsRipsSimplex dist n D rmax s ∧ IsDiam dist s x) : Filt.Monotone w := by
  intro s u hu hsub x hx
  obtain ⟨h1, h2⟩ := (hw s x).1 hx
  have hcu := rips_sublist h1 hu hsub
  obtain ⟨y, hy⟩ := exists_diam dist u hcu.inc
  refine ⟨y, (hw u y).2 ⟨hcu, hy⟩, ?_⟩
  have hup : 0 < u.length := List.length_pos_iff.2 hu
  have hle := hsub.length_le
  rcases Nat.lt_or_ge s.length 2 with hs | hs
  · rw [hy.1 (by omega), h2.1 (by omega)]
  · obtain ⟨⟨a, ha, b, hb, hab, e⟩, hmax⟩ := h2.2 hs
    rcases Nat.lt_or_ge u.length 2 with hu' | hu'
    · rw [hy.1 (by omega), ← e]; exact h0 a b hab (h1.lt b hb)
    · obtain ⟨⟨a', ha', b', hb', hab', e'⟩, _⟩ := hy.2 hu'
      exact hmax ⟨a', hsub.subset ha', b', hsub.subset hb', hab', e'⟩

theorem mem_rips_iff {dist : Nat → Nat → T} {n D : Nat} {rmax : T} (h0 : ∀ a b, a < b → b < n → 0 ≤ dist a b) {w : List Nat → Option T}
    (hw : ∀ s x, w s = some x ↔ IsRipsSimplex dist n D rmax s ∧ IsDiam dist s x) (a : T) (σ : Finset Nat) :
    σ ∈ (if 0 ≤ a then ripsComplex dist n D (min a rmax) else ∅) ↔ ∃ x, w (σ.sort (· ≤ ·)) = some x ∧ x ≤ a := by
  have hmem : ∀ b, b ∈ σ.sort (· ≤ ·) ↔ b ∈ σ := fun b => Finset.mem_sort _
  have hlen : (σ.sort (· ≤ ·)).length = σ.card := Finset.length_sort _
  constructor
  · intro h
    split at h
    · rename_i ha
      obtain ⟨h1, h2, h3, h4⟩ := (mem_ripsComplex ..).1 h
      obtain ⟨x, hx⟩ := exists_diam dist (σ.sort (· ≤ ·)) (pairwise_sort_lt σ)
      refine ⟨x, (hw _ x).2 ⟨⟨?_, pairwise_sort_lt σ, ?_, ?_, ?_⟩, hx⟩, ?_⟩
      · rw [← List.length_pos_iff, hlen, Finset.card_pos]; exact h2
      · intro b hb; exact h1 b ((hmem b).1 hb)
      · rw [hlen]; exact h3
      · intro b hb c hc hbc
        exact le_trans (h4 b ((hmem b).1 hb) c ((hmem c).1 hc) hbc) (min_le_right _ _)
      · rcases Nat.lt_or_ge σ.card 2 with hs | hs
        · rw [hx.1 (by rw [hlen]; have := Finset.card_pos.2 h2; omega)]; exact ha
        · obtain ⟨⟨b, hb, c, hc, hbc, e⟩, _⟩ := hx.2 (by rw [hlen]; exact hs)
          rw [← e]
          exact le_trans (h4 b ((hmem b).1 hb) c ((hmem c).1 hc) hbc) (min_le_left _ _)
    · simp at h
  · rintro ⟨x, hx, hxa⟩
    obtain ⟨h1, h2⟩ := (hw _ x).1 hx
    have hpos : 0 < σ.card := by rw [← hlen]; exact List.length_pos_iff.2 h1.ne
    have hx0 : 0 ≤ x := by
      rcases Nat.lt_or_ge σ.card 2 with hs | hs
      · rw [h2.1 (by rw [hlen]; omega)]
      · obtain ⟨⟨b, hb, c, hc, hbc, e⟩, _⟩ := h2.2 (by rw [hlen]; exact hs)
        rw [← e]; exact h0 b c hbc (h1.lt c hc)
    rw [if_pos (le_trans hx0 hxa), mem_ripsComplex]
    refine ⟨fun b hb => h1.lt b ((hmem b).2 hb), Finset.card_pos.1 hpos, by rw [← hlen]; exact h1.len, ?_⟩
    intro b hb c hc hbc
    apply le_min _ (h1.close b ((hmem b).2 hb) c ((hmem c).2 hc) hbc)
    have hl2 : 2 ≤ (σ.sort (· ≤ ·)).length := by
      rw [hlen]
      exact Finset.one_lt_card.2 ⟨b, hb, c, hc, ne_of_lt hbc⟩
    exact le_trans ((h2.2 hl2).2 ⟨b, (hmem b).2 hb, c, (hmem c).2 hc, hbc, rfl⟩) hxa

theorem finrank_inclusion_congr {K L K' L' : Finset (Finset Nat)} (hK : IsASC K) (hL : IsASC L) (h : K ⊆ L) (hK' : IsASC K') (hL' : IsASC L') (h' : K' ⊆ L')
    (e1 : K = K') (e2 : L = L') (k : Nat) :
    Module.finrank F (LinearMap.range (simpInclusion F hK hL h k)) = Module.finrank F (LinearMap.range (simpInclusion F hK' hL' h' k)) := by
  subst e1 e2; rfl

/-- C53: for nonnegative distances, build the Rips filtration, form the filtered chain complex over any field and reduce it with any of
the algorithms. For every `k` up to the dimension limit and all scales `0 ≤ s ≤ t ≤ rmax`, the number of reported bars of dimension
`k` born at or before `s` and still alive at `t` is the rank of `H_k(VR_s) → H_k(VR_t)`, where `VR_r` is the `dmax`-skeleton of the
Vietoris–Rips complex at scale `r`. -/
theorem C53_rips_persistence (v : Variant) (pdist : Nat → Nat → T) (n : Nat) (h0 : ∀ a b, a < b → b < n → 0 ≤ pdist a b) (rmax : T) (dmax : Nat)
    (hd : 1 ≤ dmax) :
    ∃ (Ψ : Filt T) (B : List (CMat F)) (R : RedFiltCpx T F), ripsFiltration pdist n rmax dmax = .ok Ψ ∧
      Ψ.X.chainComplex = .ok B ∧ RedFiltCpx.ofFiltration v.reduce Ψ.val B = .ok R ∧
      ∀ k, k ≤ dmax → ∃ ps, R.persistencePairs k false = .ok ps ∧
        ∀ (s t : T) (hs : 0 ≤ s) (hst : s ≤ t) (ht : t ≤ rmax),
          ps.countP (fun q => decide (q.birth ≤ s) && (match q.death with | none => true | some d => decide (t < d))) =
            Module.finrank F (LinearMap.range (simpInclusion F (isASC_ripsComplex pdist n dmax s) (isASC_ripsComplex pdist n dmax t)
              (ripsComplex_mono pdist n dmax hst) k)) := by
  obtain ⟨Ψ, cells, w, h1, h2, h3, h4⟩ := ripsFiltration_spec pdist n rmax dmax
  rw [Nat.max_eq_left hd] at h4
  have hsort : ∀ d s, s ∈ cells d → s.Pairwise (· < ·) := by
    intro d s hs
    have hmem := (mem_setOf (h2.inv.ok.len d s hs)).2 hs
    obtain ⟨x, hx⟩ := Option.ne_none_iff_exists'.1 ((h2.dom s).2 hmem)
    exact ((h4 s x).1 hx).1.inc
  obtain ⟨B, R, hasc, hsub, b1, b2, b3⟩ := persistence_core (F := F) v h2 hsort (rips_monotone h0 h4) (by omega)
    (fun a => if 0 ≤ a then ripsComplex pdist n dmax (min a rmax) else ∅) (mem_rips_iff h0 h4)
  refine ⟨Ψ, B, R, h1, b1, b2, fun k hk => ?_⟩
  obtain ⟨ps, p1, p2⟩ := b3 k (by omega)
  refine ⟨ps, p1, fun s t hs hst ht => ?_⟩
  exact (p2 s t hst).trans (finrank_inclusion_congr _ _ _ _ _ _ (by rw [if_pos hs, min_eq_left (le_trans hst ht)])
    (by rw [if_pos (le_trans hs hst), min_eq_left ht]) k)

end pers

/-! ### examples and boundary cases -/

/-- a square with one diagonal and a pendant edge -/
def exEdges : List (FEdge Nat) := [⟨2, 3, 2⟩, ⟨1, 0, 1⟩, ⟨0, 2, 5⟩, ⟨3, 0, 4⟩, ⟨1, 2, 3⟩, ⟨4, 3, 1⟩]

example : SimpleGraphOn 5 (exEdges.map FEdge.ends) := ⟨by decide, by decide⟩

example : (flagFiltration exEdges 5 2 0).map (fun Φ => (Φ.val, Φ.X.ncells)) =
    .ok ([[0, 0, 0, 0, 0], [1, 1, 2, 3, 4, 5], [5, 5]], [5, 6, 2]) := by decide +kernel

/-- four points on a square with sides 1 and diagonals 2: one loop, born at 1, filled at 2 -/
def exDist (a b : Nat) : Nat := if a = b then 0 else if (a + 2) % 4 = b % 4 then 2 else 1

example : ∀ a b, a < b → b < 4 → 0 ≤ exDist a b := by intros; omega

example : (ripsFiltration exDist 4 2 2).bind (fun Ψ => (Ψ.X.chainComplex : Res (List (CMat ℚ))).bind (fun B =>
    (RedFiltCpx.ofFiltration Variant.standard.reduce Ψ.val B).bind (fun R => (R.persistencePairs 0 false).bind (fun p0 =>
      (R.persistencePairs 1 false).map (fun p1 => (p0.map (fun q => (q.birth, q.death)), (p1.map (fun q => (q.birth, q.death))).filter (fun q => q.2 ≠ some q.1))))))) =
    .ok ([(0, none), (0, some 1), (0, some 1), (0, some 1)], [(1, some 2)]) := by decide +kernel

/-- C36 (boundary): the graph must be simple. An edge listed twice gets the larger of its two parameters, not the smaller one, although
its simplices are present from the smaller one on. -/
theorem C36_repeated_edge : (flagFiltration [⟨0, 1, 1⟩, ⟨0, 2, 1⟩, ⟨1, 2, 1⟩, (⟨0, 1, 7⟩ : FEdge Nat)] 3 1 0).map (fun Φ => Φ.val) = .ok [[0, 0, 0], [7, 1, 1]] ∧
    (flagFiltration [⟨0, 1, 1⟩, ⟨0, 2, 1⟩, ⟨1, 2, 1⟩, (⟨0, 1, 7⟩ : FEdge Nat)] 3 2 0).map (fun Φ => Φ.val) = .ok [[0, 0, 0], [7, 1, 1], [7]] := by
  constructor <;> decide +kernel

end BATS
