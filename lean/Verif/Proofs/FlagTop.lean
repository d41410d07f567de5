import Verif.Proofs.Flag
import Verif.Spec.Flag

set_option linter.unusedSectionVars false
set_option linter.unusedVariables false
set_option linter.unusedSimpArgs false

/-! # FlagFiltration, RipsFiltration, FlagComplex -/

namespace BATS
namespace Flag
open Srt SCpx Reduction

section filt
variable {T : Type} [Zero T] [LinearOrder T]

/-- vertices only -/
def VertSpec (k : Nat) (t0 : T) (u : Finset Nat → Option T) : Prop := ∀ τ x, u τ = some x ↔ x = t0 ∧ ∃ a, a < k ∧ τ = {a}

theorem VertSpec.val {k : Nat} {t0 : T} {u : Finset Nat → Option T} (h : VertSpec k t0 u) (D : Nat) : ValSpec k D t0 [] u := by
  intro τ x
  rw [h]
  constructor
  · rintro ⟨rfl, a, ha, rfl⟩
    refine ⟨⟨by simp, by simpa using ha, by simp, ?_⟩, fun _ => rfl, by simp⟩
    intro x hx y hy hne
    simp at hx hy; omega
  · rintro ⟨⟨h1, h2, _, h4⟩, h5, _⟩
    have hcard : τ.card = 1 := by
      have h6 := Finset.card_pos.2 h1
      by_contra hc
      obtain ⟨a, ha, b, hb, hab⟩ := Finset.one_lt_card.1 (show 1 < τ.card by omega)
      obtain ⟨e, he, _⟩ := h4 a ha b hb hab
      simp at he
    obtain ⟨a, rfl⟩ := Finset.card_eq_one.1 hcard
    exact ⟨h5 hcard, a, h2 a (by simp), rfl⟩

open Classical in
theorem vertsFilt_spec (t0 : T) : ∀ (c k : Nat) (Φ : Filt T) (cells : Cells) (u : Finset Nat → Option T), Filt.FInv Φ cells (ofFin u) → VertSpec k t0 u →
    ∃ Ψ cells' u', vertsFilt t0 c k Φ = .ok Ψ ∧ Filt.FInv Ψ cells' (ofFin u') ∧ VertSpec (k + c) t0 u' ∧ Φ.X.maxdim ≤ Ψ.X.maxdim := by
  intro c
  induction c with
  | zero => intro k Φ cells u h1 h2; exact ⟨Φ, cells, u, rfl, h1, h2, Nat.le_refl _⟩
  | succ c ih =>
    intro k Φ cells u h1 h2
    have hleg : Legal {τ | u τ ≠ none} [[k]] := ⟨by simp, by simp, Or.inl rfl, trivial⟩
    have hspec := specRun_legal t0 _ u hleg
    obtain ⟨Ψ1, c1, r1, r2, r3⟩ := (Filt.run_inv [Filt.Op.add t0 [k]] h1 (by intro o ho; simp at ho; subst ho; simp [Filt.Op.simplex])).1 _ hspec
    obtain ⟨Ψ, c', u', f1, f2, f3, f4⟩ := ih (k + 1) Ψ1 c1 _ r2 (by
      intro τ x
      show (if τ ∈ setsOf [[k]] then some t0 else u τ) = some x ↔ _
      have hs : τ ∈ setsOf [[k]] ↔ τ = {k} := by
        simp [setsOf, eq_comm]
      by_cases hτ : τ = {k}
      · rw [if_pos (hs.2 hτ)]
        constructor
        · intro e; cases e; exact ⟨rfl, k, by omega, hτ⟩
        · rintro ⟨rfl, _⟩; rfl
      · rw [if_neg (fun h => hτ (hs.1 h)), h2 τ x]
        constructor
        · rintro ⟨rfl, a, ha, e⟩; exact ⟨rfl, a, by omega, e⟩
        · rintro ⟨rfl, a, ha, e⟩
          refine ⟨rfl, a, ?_, e⟩
          rcases Nat.lt_or_ge a k with h | h
          · exact h
          · have : a = k := by omega
            subst this; exact absurd e hτ)
    refine ⟨Ψ, c', u', ?_, f2, by rw [show k + (c + 1) = k + 1 + c by omega]; exact f3, Nat.le_trans r3 f4⟩
    show (do let r ← Φ.add t0 [k]; vertsFilt t0 c (k + 1) r.1 : Res (Filt T)) = _
    have hr : (do let r ← Φ.add t0 [k]; pure r.1 : Res (Filt T)) = .ok Ψ1 := by
      rw [← r1]
      show _ = (do let Ψ ← (do let r ← Φ.add t0 [k]; pure r.1 : Res (Filt T)); Ψ.run [] : Res (Filt T))
      rcases Φ.add t0 [k] with e | r <;> rfl
    rcases hadd : Φ.add t0 [k] with e | r
    · rw [hadd] at hr; cases hr
    · rw [hadd] at hr
      simp only [bind_ok, pure_ok] at hr
      cases hr
      simp only [bind_ok, f1]

instance : Std.Total (edgeLe (T := T)) := ⟨by
  intro a b
  unfold edgeLe
  rcases lt_trichotomy a.r b.r with h | h | h
  · exact Or.inl (Or.inl h)
  · rcases Nat.lt_trichotomy a.s b.s with h1 | h1 | h1
    · exact Or.inl (Or.inr ⟨h, Or.inl h1⟩)
    · rcases Nat.le_total a.t b.t with h2 | h2
      · exact Or.inl (Or.inr ⟨h, Or.inr ⟨h1, h2⟩⟩)
      · exact Or.inr (Or.inr ⟨h.symm, Or.inr ⟨h1.symm, h2⟩⟩)
    · exact Or.inr (Or.inr ⟨h.symm, Or.inl h1⟩)
  · exact Or.inr (Or.inl h)⟩

instance : IsTrans (FEdge T) (edgeLe (T := T)) := ⟨by
  intro a b c h1 h2
  unfold edgeLe at *
  rcases h1 with h1 | ⟨h1, h1'⟩
  · rcases h2 with h2 | ⟨h2, _⟩
    · exact Or.inl (lt_trans h1 h2)
    · exact Or.inl (by rw [← h2]; exact h1)
  · rcases h2 with h2 | ⟨h2, h2'⟩
    · exact Or.inl (by rw [h1]; exact h2)
    · right
      refine ⟨h1.trans h2, ?_⟩
      rcases h1' with h1' | ⟨h1', h1''⟩
      · rcases h2' with h2' | ⟨h2', _⟩
        · exact Or.inl (by omega)
        · exact Or.inl (by omega)
      · rcases h2' with h2' | ⟨h2', h2''⟩
        · exact Or.inl (by omega)
        · exact Or.inr ⟨by omega, by omega⟩⟩

theorem edgeLe_antisymm {a b : FEdge T} (h1 : edgeLe a b) (h2 : edgeLe b a) : a = b := by
  unfold edgeLe at *
  have hr : a.r = b.r := by
    rcases h1 with h1 | ⟨h1, _⟩
    · rcases h2 with h2 | ⟨h2, _⟩
      · exact absurd (lt_trans h1 h2) (lt_irrefl _)
      · exact h2.symm
    · exact h1
  have h1' := h1.resolve_left (by rw [hr]; exact lt_irrefl _)
  have h2' := h2.resolve_left (by rw [hr]; exact lt_irrefl _)
  have hs : a.s = b.s := by
    rcases h1'.2 with h | h <;> rcases h2'.2 with h' | h' <;> omega
  have ht : a.t = b.t := by
    rcases h1'.2 with h | h <;> rcases h2'.2 with h' | h' <;> omega
  cases a; cases b; simp_all

theorem sortEdges_perm (es : List (FEdge T)) : (sortEdges es).Perm es := List.perm_insertionSort _ _

theorem sortEdges_sorted (es : List (FEdge T)) : (sortEdges es).Pairwise (fun e f => e.r ≤ f.r) := by
  have := List.pairwise_insertionSort (edgeLe (T := T)) es
  refine this.imp ?_
  intro a b h
  rcases h with h | ⟨h, _⟩
  · exact le_of_lt h
  · exact le_of_eq h

theorem sortEdges_congr {es es' : List (FEdge T)} (h : es.Perm es') : sortEdges es = sortEdges es' := by
  apply List.Perm.eq_of_pairwise (le := edgeLe (T := T)) (fun a b _ _ => edgeLe_antisymm) (List.pairwise_insertionSort _ _) (List.pairwise_insertionSort _ _)
  exact (sortEdges_perm es).trans (h.trans (sortEdges_perm es').symm)

theorem Simple.perm {n : Nat} {es es' : List (FEdge T)} (h : es.Perm es') (hs : Simple n es) : Simple n es' := by
  refine ⟨fun e he => hs.ends e (h.mem_iff.2 he), ?_⟩
  refine (h.pairwise_iff ?_).1 hs.once
  intro a b hab hc
  apply hab
  rcases hc with h | h
  · exact Or.inl ⟨h.1.symm, h.2.symm⟩
  · exact Or.inr ⟨h.2.symm, h.1.symm⟩

theorem ValSpec.perm {n D : Nat} {t0 : T} {es es' : List (FEdge T)} (h : es.Perm es') {u : Finset Nat → Option T} (hv : ValSpec n D t0 es u) : ValSpec n D t0 es' u := by
  intro τ x
  rw [hv τ x]
  have hA : Adj es = Adj es' := by
    funext a b
    apply propext
    unfold Adj
    constructor
    · rintro ⟨e, he, h'⟩; exact ⟨e, h.mem_iff.1 he, h'⟩
    · rintro ⟨e, he, h'⟩; exact ⟨e, h.mem_iff.2 he, h'⟩
  have hset : {r | ∃ e ∈ es, e.s ∈ τ ∧ e.t ∈ τ ∧ e.r = r} = {r | ∃ e ∈ es', e.s ∈ τ ∧ e.t ∈ τ ∧ e.r = r} := by
    ext r
    constructor
    · rintro ⟨e, he, h'⟩; exact ⟨e, h.mem_iff.1 he, h'⟩
    · rintro ⟨e, he, h'⟩; exact ⟨e, h.mem_iff.2 he, h'⟩
  rw [hA, hset]

theorem flagFiltration_spec {edges : List (FEdge T)} {n : Nat} (hs : Simple n edges) (maxdim : Nat) (t0 : T) :
    ∃ Ψ cells u, flagFiltration edges n maxdim t0 = .ok Ψ ∧ Filt.FInv Ψ cells (ofFin u) ∧ ValSpec n (max maxdim 1) t0 edges u ∧ maxdim ≤ Ψ.X.maxdim := by
  obtain ⟨Φ0, h1, h2⟩ := Filt.ofCpx_init_inv (T := T) maxdim
  have hm : Φ0.X.maxdim = maxdim := by
    have : Φ0.X = SCpx.init maxdim := by
      unfold Filt.ofCpx at h1
      rcases hr : Filt.reserveAll (T := T) (SCpx.init maxdim) ((SCpx.init maxdim).maxdim + 1) 0 [] with e | v
      · rw [hr] at h1; cases h1
      · rw [hr] at h1; cases h1; rfl
    rw [this]
    unfold SCpx.maxdim
    rw [(init_inv maxdim).2]; omega
  have h2' : Filt.FInv Φ0 (fun _ => []) (ofFin (fun _ => none : Finset Nat → Option T)) := by
    have : ofFin (fun _ => none : Finset Nat → Option T) = fun _ => none := by
      funext s; unfold ofFin; split <;> rfl
    rw [this]; exact h2
  obtain ⟨Φ1, c1, u1, v1, v2, v3, v4⟩ := vertsFilt_spec t0 n 0 Φ0 _ _ h2' (by intro τ x; simp)
  rw [Nat.zero_add] at v3
  have hperm := sortEdges_perm edges
  obtain ⟨Ψ, c', u', f1, f2, f3, f4⟩ := edgesFilt_spec (maxdim := maxdim) (sortEdges edges) [] (List.replicate n []) Φ1 c1 u1
    ⟨v2, v3.val _, by
      refine ⟨by simp, ?_, ?_⟩
      · intro a
        rw [List.getD_eq_getElem?_getD, List.getElem?_replicate]; split <;> simp
      · intro a x
        have : ¬ Adj ([] : List (FEdge T)) a x := by rintro ⟨e, he, _⟩; simp at he
        rw [List.getD_eq_getElem?_getD, List.getElem?_replicate]
        split <;> simp [this]⟩
    (by rw [List.nil_append]; exact hs.perm hperm.symm) (by rw [List.nil_append]; exact sortEdges_sorted edges)
  rw [List.nil_append] at f3
  refine ⟨Ψ, c', u', ?_, f2, f3.perm hperm, by omega⟩
  unfold flagFiltration
  rw [h1, bind_ok, v1, bind_ok, f1]

/-- the specification of the values, on lists -/
theorem ofFin_val {n D : Nat} {t0 : T} {es : List (FEdge T)} {u : Finset Nat → Option T} (h : ValSpec n D t0 es u) (s : List Nat) (x : T) :
    ofFin u s = some x ↔ IsCliqueList n D (es.map FEdge.ends) s ∧ IsCliqueValue t0 es s x := by
  have hJ : ∀ a b, Joined (es.map FEdge.ends) a b ↔ Adj es a b := by
    intro a b
    unfold Joined Adj FEdge.ends
    simp only [List.mem_map, Prod.mk.injEq]
    constructor
    · rintro (⟨e, he, h⟩ | ⟨e, he, h⟩)
      · exact ⟨e, he, Or.inl h⟩
      · exact ⟨e, he, Or.inr h⟩
    · rintro ⟨e, he, h | h⟩
      · exact Or.inl ⟨e, he, h⟩
      · exact Or.inr ⟨e, he, h⟩
  unfold ofFin
  by_cases hs : s.Pairwise (· < ·)
  · rw [if_pos hs, h s.toFinset x]
    have hcard : s.toFinset.card = s.length := List.toFinset_card_of_nodup (hs.imp (fun h => ne_of_lt h))
    rw [hcard]
    unfold IsCliqueValue
    simp only [List.mem_toFinset]
    constructor
    · rintro ⟨⟨h1, h2, h3, h4⟩, h5⟩
      refine ⟨⟨?_, hs, fun a ha => h2 a (List.mem_toFinset.2 ha), by omega, ?_⟩, h5⟩
      · rintro rfl; simp at h1
      · intro a ha b hb hne
        exact (hJ a b).2 (h4 a (List.mem_toFinset.2 ha) b (List.mem_toFinset.2 hb) hne)
    · rintro ⟨⟨h1, _, h3, h4, h5⟩, h6⟩
      refine ⟨⟨?_, fun a ha => h3 a (List.mem_toFinset.1 ha), by omega, ?_⟩, h6⟩
      · obtain ⟨a, ha⟩ := List.exists_mem_of_ne_nil s h1
        exact ⟨a, List.mem_toFinset.2 ha⟩
      · intro a ha b hb hne
        exact (hJ a b).1 (h5 a (List.mem_toFinset.1 ha) b (List.mem_toFinset.1 hb) hne)
  · rw [if_neg hs]
    constructor
    · intro h; cases h
    · rintro ⟨h, _⟩; exact absurd h.inc hs

theorem simple_of_graph {n : Nat} {es : List (FEdge T)} (h : SimpleGraphOn n (es.map FEdge.ends)) : Simple n es := by
  refine ⟨?_, ?_⟩
  · intro e he
    exact h.ends (FEdge.ends e) (List.mem_map.2 ⟨e, he, rfl⟩)
  · have := h.once
    rw [List.pairwise_map] at this
    refine this.imp ?_
    rintro e f ⟨h1, h2⟩ hc
    rcases hc with hc | hc
    · exact h1 (by unfold FEdge.ends; rw [hc.1, hc.2])
    · exact h2 (by unfold FEdge.ends; rw [hc.1, hc.2]; rfl)

/-! ## Rips -/

theorem mem_ripsRow (pdist : Nat → Nat → T) (rmax : T) (j : Nat) : ∀ (c i : Nat) (e : FEdge T),
    e ∈ ripsRow pdist rmax j c i ↔ i ≤ e.s ∧ e.s < i + c ∧ e.t = j ∧ e.r = pdist e.s j ∧ e.r ≤ rmax := by
  intro c
  induction c with
  | zero => intro i e; simp [ripsRow]; omega
  | succ c ih =>
    intro i e
    unfold ripsRow
    have hcons : e = ⟨i, j, pdist i j⟩ ↔ e.s = i ∧ e.t = j ∧ e.r = pdist i j := by
      cases e; simp
    split
    · rename_i hle
      rw [List.mem_cons, ih, hcons]
      constructor
      · rintro (⟨h1, h2, h3⟩ | ⟨h1, h2, h3⟩)
        · exact ⟨by omega, by omega, h2, by rw [h1]; exact h3, by rw [h3]; exact hle⟩
        · exact ⟨by omega, by omega, h3⟩
      · rintro ⟨h1, h2, h3, h4, h5⟩
        by_cases he : e.s = i
        · exact Or.inl ⟨he, h3, by rw [← he]; exact h4⟩
        · exact Or.inr ⟨by omega, by omega, h3, h4, h5⟩
    · rename_i hle
      rw [ih]
      constructor
      · rintro ⟨h1, h2, h3⟩; exact ⟨by omega, by omega, h3⟩
      · rintro ⟨h1, h2, h3, h4, h5⟩
        refine ⟨?_, by omega, h3, h4, h5⟩
        by_contra hc
        have : e.s = i := by omega
        rw [this] at h4
        rw [h4] at h5
        exact hle h5

theorem mem_ripsLoop (pdist : Nat → Nat → T) (rmax : T) : ∀ (c j : Nat) (e : FEdge T),
    e ∈ ripsLoop pdist rmax c j ↔ j ≤ e.t ∧ e.t < j + c ∧ e.s < e.t ∧ e.r = pdist e.s e.t ∧ e.r ≤ rmax := by
  intro c
  induction c with
  | zero => intro j e; simp [ripsLoop]; omega
  | succ c ih =>
    intro j e
    unfold ripsLoop
    rw [List.mem_append, mem_ripsRow, ih]
    constructor
    · rintro (⟨h1, h2, h3, h4, h5⟩ | ⟨h1, h2, h3⟩)
      · exact ⟨by omega, by omega, by omega, by rw [h3]; exact h4, h5⟩
      · exact ⟨by omega, by omega, h3⟩
    · rintro ⟨h1, h2, h3, h4, h5⟩
      by_cases he : e.t = j
      · exact Or.inl ⟨by omega, by omega, he, by rw [← he]; exact h4, h5⟩
      · exact Or.inr ⟨by omega, by omega, h3, h4, h5⟩

theorem mem_ripsFiltrationEdges (pdist : Nat → Nat → T) (n : Nat) (rmax : T) (e : FEdge T) :
    e ∈ ripsFiltrationEdges pdist n rmax ↔ e.s < e.t ∧ e.t < n ∧ e.r = pdist e.s e.t ∧ e.r ≤ rmax := by
  unfold ripsFiltrationEdges
  rw [mem_ripsLoop]
  constructor
  · rintro ⟨_, h2, h3, h4⟩; exact ⟨h3, by omega, h4⟩
  · rintro ⟨h1, h2, h3⟩; exact ⟨by omega, by omega, h1, h3⟩

theorem ripsRow_pairwise (pdist : Nat → Nat → T) (rmax : T) (j : Nat) : ∀ (c i : Nat), (ripsRow pdist rmax j c i).Pairwise (fun e f => e.s < f.s) := by
  intro c
  induction c with
  | zero => intro i; simp [ripsRow]
  | succ c ih =>
    intro i
    unfold ripsRow
    split
    · rw [List.pairwise_cons]
      refine ⟨?_, ih _⟩
      intro f hf
      have := (mem_ripsRow pdist rmax j c (i + 1) f).1 hf
      show i < f.s
      omega
    · exact ih _

theorem ripsLoop_pairwise (pdist : Nat → Nat → T) (rmax : T) : ∀ (c j : Nat), (ripsLoop pdist rmax c j).Pairwise (fun e f => e.t < f.t ∨ (e.t = f.t ∧ e.s < f.s)) := by
  intro c
  induction c with
  | zero => intro j; simp [ripsLoop]
  | succ c ih =>
    intro j
    unfold ripsLoop
    rw [List.pairwise_append]
    refine ⟨?_, ih _, ?_⟩
    · refine (List.Pairwise.and_mem.1 (ripsRow_pairwise pdist rmax j j 0)).imp ?_
      rintro e f ⟨he, hf, h⟩
      have h1 := (mem_ripsRow pdist rmax j j 0 e).1 he
      have h2 := (mem_ripsRow pdist rmax j j 0 f).1 hf
      exact Or.inr ⟨by omega, h⟩
    · intro e he f hf
      have h1 := (mem_ripsRow pdist rmax j j 0 e).1 he
      have h2 := (mem_ripsLoop pdist rmax c (j + 1) f).1 hf
      exact Or.inl (by omega)

theorem rips_simple (pdist : Nat → Nat → T) (n : Nat) (rmax : T) : Simple n (ripsFiltrationEdges pdist n rmax) := by
  refine ⟨?_, ?_⟩
  · intro e he
    have := (mem_ripsFiltrationEdges pdist n rmax e).1 he
    exact ⟨by omega, by omega, by omega⟩
  · refine (List.Pairwise.and_mem.1 (ripsLoop_pairwise pdist rmax n 0)).imp ?_
    rintro e f ⟨he, hf, h⟩ hc
    have h1 := (mem_ripsFiltrationEdges pdist n rmax e).1 he
    have h2 := (mem_ripsFiltrationEdges pdist n rmax f).1 hf
    rcases hc with hc | hc <;> omega

theorem mem_ripsDataRow (d : Nat → Nat → T) (rmax : T) (i : Nat) : ∀ (c j : Nat) (e : FEdge T),
    e ∈ ripsDataRow d rmax i c j ↔ j ≤ e.t ∧ e.t < j + c ∧ e.s = i ∧ e.r = d i e.t ∧ e.r ≤ rmax := by
  intro c
  induction c with
  | zero => intro i e; simp [ripsDataRow]; omega
  | succ c ih =>
    intro j e
    unfold ripsDataRow
    have hcons : e = ⟨i, j, d i j⟩ ↔ e.s = i ∧ e.t = j ∧ e.r = d i j := by
      cases e; simp
    split
    · rename_i hle
      rw [List.mem_cons, ih, hcons]
      constructor
      · rintro (⟨h1, h2, h3⟩ | ⟨h1, h2, h3⟩)
        · exact ⟨by omega, by omega, h1, by rw [h2]; exact h3, by rw [h3]; exact hle⟩
        · exact ⟨by omega, by omega, h3⟩
      · rintro ⟨h1, h2, h3, h4, h5⟩
        by_cases he : e.t = j
        · exact Or.inl ⟨h3, he, by rw [← he]; exact h4⟩
        · exact Or.inr ⟨by omega, by omega, h3, h4, h5⟩
    · rename_i hle
      rw [ih]
      constructor
      · rintro ⟨h1, h2, h3⟩; exact ⟨by omega, by omega, h3⟩
      · rintro ⟨h1, h2, h3, h4, h5⟩
        refine ⟨?_, by omega, h3, h4, h5⟩
        by_contra hc
        have : e.t = j := by omega
        rw [this] at h4
        rw [h4] at h5
        exact hle h5

theorem mem_ripsDataLoop (d : Nat → Nat → T) (rmax : T) : ∀ (c i : Nat) (e : FEdge T),
    e ∈ ripsDataLoop d rmax c i ↔ i ≤ e.s ∧ e.s < i + c ∧ e.t < e.s ∧ e.r = d e.s e.t ∧ e.r ≤ rmax := by
  intro c
  induction c with
  | zero => intro j e; simp [ripsDataLoop]; omega
  | succ c ih =>
    intro i e
    unfold ripsDataLoop
    rw [List.mem_append, mem_ripsDataRow, ih]
    constructor
    · rintro (⟨h1, h2, h3, h4, h5⟩ | ⟨h1, h2, h3⟩)
      · exact ⟨by omega, by omega, by omega, by rw [h3]; exact h4, h5⟩
      · exact ⟨by omega, by omega, h3⟩
    · rintro ⟨h1, h2, h3, h4, h5⟩
      by_cases he : e.s = i
      · exact Or.inl ⟨by omega, by omega, he, by rw [← he]; exact h4, h5⟩
      · exact Or.inr ⟨by omega, by omega, h3, h4, h5⟩

theorem ripsDataRow_pairwise (d : Nat → Nat → T) (rmax : T) (i : Nat) : ∀ (c j : Nat), (ripsDataRow d rmax i c j).Pairwise (fun e f => e.t < f.t) := by
  intro c
  induction c with
  | zero => intro i; simp [ripsDataRow]
  | succ c ih =>
    intro j
    unfold ripsDataRow
    split
    · rw [List.pairwise_cons]
      refine ⟨?_, ih _⟩
      intro f hf
      have := (mem_ripsDataRow d rmax i c (j + 1) f).1 hf
      show j < f.t
      omega
    · exact ih _

theorem ripsDataLoop_pairwise (d : Nat → Nat → T) (rmax : T) : ∀ (c i : Nat), (ripsDataLoop d rmax c i).Pairwise (fun e f => e.s < f.s ∨ (e.s = f.s ∧ e.t < f.t)) := by
  intro c
  induction c with
  | zero => intro j; simp [ripsDataLoop]
  | succ c ih =>
    intro i
    unfold ripsDataLoop
    rw [List.pairwise_append]
    refine ⟨?_, ih _, ?_⟩
    · refine (List.Pairwise.and_mem.1 (ripsDataRow_pairwise d rmax i i 0)).imp ?_
      rintro e f ⟨he, hf, h⟩
      have h1 := (mem_ripsDataRow d rmax i i 0 e).1 he
      have h2 := (mem_ripsDataRow d rmax i i 0 f).1 hf
      exact Or.inr ⟨by omega, h⟩
    · intro e he f hf
      have h1 := (mem_ripsDataRow d rmax i i 0 e).1 he
      have h2 := (mem_ripsDataLoop d rmax c (i + 1) f).1 hf
      exact Or.inl (by omega)

theorem mem_ripsDataEdges (d : Nat → Nat → T) (n : Nat) (rmax : T) (e : FEdge T) :
    e ∈ ripsDataEdges d n rmax ↔ e.t < e.s ∧ e.s < n ∧ e.r = d e.s e.t ∧ e.r ≤ rmax := by
  unfold ripsDataEdges
  rw [(sortEdges_perm _).mem_iff, mem_ripsDataLoop]
  constructor
  · rintro ⟨_, h2, h3, h4⟩; exact ⟨h3, by omega, h4⟩
  · rintro ⟨h1, h2, h3⟩; exact ⟨by omega, by omega, h1, h3⟩

theorem ripsData_simple (d : Nat → Nat → T) (n : Nat) (rmax : T) : Simple n (ripsDataEdges d n rmax) := by
  unfold ripsDataEdges
  apply Simple.perm (sortEdges_perm _).symm
  have hm : ∀ e ∈ ripsDataLoop d rmax n 0, e.t < e.s ∧ e.s < n := by
    intro e he
    have := (mem_ripsDataLoop d rmax n 0 e).1 he
    exact ⟨this.2.2.1, by omega⟩
  refine ⟨?_, ?_⟩
  · intro e he
    have := hm e he
    exact ⟨by omega, by omega, by omega⟩
  · refine (List.Pairwise.and_mem.1 (ripsDataLoop_pairwise d rmax n 0)).imp ?_
    rintro e f ⟨he, hf, h⟩ hc
    have h1 := hm e he
    have h2 := hm f hf
    rcases hc with hc | hc <;> omega

end filt

/-! ## FlagComplex -/

/-- the simplices with vertex set in `K`, as increasing lists -/
def finSet (K : Set (Finset Nat)) : Set (List Nat) := {s | s.Pairwise (· < ·) ∧ s.toFinset ∈ K}

theorem foldl_legal : ∀ (L : List (List Nat)) (K : Set (Finset Nat)), Legal K L →
    (L.map SCpx.Op.add).foldl SCpx.specStep (finSet K) = finSet (K ∪ setsOf L) := by
  intro L
  induction L with
  | nil => intro K _; rw [setsOf_nil, Set.union_empty]; rfl
  | cons s L ih =>
    intro K h
    obtain ⟨h1, h2, h3, h4⟩ := h
    rw [List.map_cons, List.foldl_cons]
    have hsort := sorted_of_nodup h1
    have hset : (s.mergeSort (· ≤ ·)).toFinset = s.toFinset := by rw [mergeSort_eq]; exact sortV_toFinset s
    have hlen : (s.mergeSort (· ≤ ·)).length = s.length := by rw [mergeSort_eq]; exact sortV_length' s
    have hstep : SCpx.specStep (finSet K) (.add s) = finSet (insert s.toFinset K) := by
      ext w
      show (w ∈ finSet K ∨ (w = s.mergeSort (· ≤ ·) ∧ _)) ↔ _
      constructor
      · rintro (h | ⟨rfl, _⟩)
        · exact ⟨h.1, Set.mem_insert_of_mem _ h.2⟩
        · exact ⟨hsort, by rw [hset]; exact Set.mem_insert _ _⟩
      · rintro ⟨ha, hb | hb⟩
        · right
          refine ⟨toFinset_inj_of_sorted ha hsort (by rw [hb, hset]), ?_⟩
          rw [hlen]
          rcases h3 with h | h
          · exact Or.inl h
          · right
            intro k hk
            have hk' : k < (s.mergeSort (· ≤ ·)).length := by rw [hlen]; exact hk
            refine ⟨hsort.sublist (List.eraseIdx_sublist _ _), ?_⟩
            rw [toFinset_eraseIdx (hsort.imp (fun h => ne_of_lt h)) hk', hset]
            apply h
            have : (s.mergeSort (· ≤ ·))[k] ∈ s.mergeSort (· ≤ ·) := List.getElem_mem _
            rwa [List.mem_mergeSort] at this
        · exact Or.inl ⟨ha, hb⟩
    rw [hstep, ih _ h4, setsOf_cons, Set.insert_union, Set.union_insert]

theorem legal_ne : ∀ (L : List (List Nat)) (K : Set (Finset Nat)), Legal K L → ∀ s ∈ L, s ≠ [] := by
  intro L
  induction L with
  | nil => intro K _ s hs; simp at hs
  | cons a L ihL =>
    intro K hK s hs
    rw [List.mem_cons] at hs
    rcases hs with rfl | hs
    · exact hK.2.1
    · exact ihL _ hK.2.2.2 s hs

theorem runC_append : ∀ {X : SCpx} {a b : List SCpx.Op}, X.run (a ++ b) = (X.run a >>= fun Y => Y.run b) := by
  intro X a
  induction a generalizing X with
  | nil => intro b; rfl
  | cons o os ih =>
    intro b
    show (do let Ψ ← X.step o; Ψ.run (os ++ b) : Res SCpx) = ((do let Ψ ← X.step o; Ψ.run os : Res SCpx) >>= fun Ψ => Ψ.run b)
    rcases hs : X.step o with e | Ψ
    · rfl
    · simp only [bind_ok]; exact ih

theorem loopC_run {f : Nat → SCpx → Res SCpx} {g : Nat → List SCpx.Op} : ∀ (C : List Nat) (X : SCpx), (∀ k ∈ C, ∀ X, f k X = X.run (g k)) →
    loop f C X = X.run (C.flatMap g) := by
  intro C
  induction C with
  | nil => intro X _; rfl
  | cons k C ih =>
    intro X h
    rw [loop, h k (by simp), List.flatMap_cons, runC_append]
    congr 1
    funext Y
    exact ih Y (fun k' hk' => h k' (by simp [hk']))

theorem recCpx_run (nbrs : List (List Nat)) : ∀ (m : Nat) (C P : List Nat) (X : SCpx), (∀ k ∈ C, k < nbrs.length) →
    recCpx nbrs m C P X = X.run ((flagSeq (fun k => nbrs.getD k []) m C P).map SCpx.Op.add) := by
  intro m
  induction m with
  | zero =>
    intro C P X h
    unfold recCpx flagSeq
    rw [loopC_run (g := fun k => [SCpx.Op.add (sortV (P ++ [k]))]) C X]
    · congr 1
      rw [List.map_flatMap]
      rfl
    · intro k hk X
      show (do let r ← X.add (sortV (P ++ [k])); pure r.1 : Res SCpx) = (do let Ψ ← (do let r ← X.add (sortV (P ++ [k])); pure r.1 : Res SCpx); Ψ.run [] : Res SCpx)
      rcases X.add (sortV (P ++ [k])) with e | r <;> rfl
  | succ m ih =>
    intro C P X h
    rw [recCpx, flagSeq]
    rw [loopC_run (g := fun k => SCpx.Op.add (sortV (P ++ [k])) ::
      (flagSeq (fun k => nbrs.getD k []) m (intersectSortedLt k C (nbrs.getD k [])) (sortV (P ++ [k]))).map SCpx.Op.add) C X]
    · congr 1
      rw [List.map_flatMap]
      rfl
    · intro k hk X
      have hr : rd nbrs k = .ok (nbrs.getD k []) := rd_getD _ [] (h k hk)
      show (do let r ← X.add (sortV (P ++ [k])); let nb ← rd nbrs k; recCpx nbrs m (intersectSortedLt k C nb) (sortV (P ++ [k])) r.1 : Res SCpx) =
        (do let Ψ ← (do let r ← X.add (sortV (P ++ [k])); pure r.1 : Res SCpx); Ψ.run _ : Res SCpx)
      rcases X.add (sortV (P ++ [k])) with e | r
      · rfl
      · simp only [bind_ok, pure_ok, hr]
        apply ih
        intro x hx
        have : x ∈ C := by
          have hsub : ∀ (mv : Nat) (a b : List Nat), ∀ x ∈ intersectSortedLt mv a b, x ∈ a := by
            intro mv a b
            fun_induction intersectSortedLt mv a b <;> simp_all
          exact hsub k C _ x hx
        exact h x this

/-- a run of additions on a complex described by vertex sets -/
theorem runC_legal {X : SCpx} {cells : Cells} (h : SCpx.Inv X cells) {K : Set (Finset Nat)} (hK : SCpx.setOf cells = finSet K) {L : List (List Nat)} (hL : Legal K L) :
    ∃ Y cells', X.run (L.map SCpx.Op.add) = .ok Y ∧ SCpx.Inv Y cells' ∧ SCpx.setOf cells' = finSet (K ∪ setsOf L) := by
  obtain ⟨Y, c, h1, h2, _, h4⟩ := run_set (L.map SCpx.Op.add) h (by
    intro o ho
    rw [List.mem_map] at ho
    obtain ⟨s, hs, rfl⟩ := ho
    exact legal_ne L K hL s hs)
  refine ⟨Y, c, h1, h2, ?_⟩
  rw [h4, hK, foldl_legal L K hL]

theorem vertsCpx_spec (D : Nat) : ∀ (c k : Nat) (X : SCpx) (cells : Cells), SCpx.Inv X cells → SCpx.setOf cells = finSet {τ | ∃ a, a < k ∧ τ = {a}} →
    ∃ Y cells', vertsCpx c k X = .ok Y ∧ SCpx.Inv Y cells' ∧ SCpx.setOf cells' = finSet {τ | ∃ a, a < k + c ∧ τ = {a}} := by
  intro c
  induction c with
  | zero => intro k X cells h1 h2; exact ⟨X, cells, rfl, h1, h2⟩
  | succ c ih =>
    intro k X cells h1 h2
    obtain ⟨Y1, c1, r1, r2, r3⟩ := runC_legal h1 h2 (L := [[k]]) ⟨by simp, by simp, Or.inl rfl, trivial⟩
    have hK : ({τ | ∃ a, a < k ∧ τ = {a}} ∪ setsOf [[k]] : Set (Finset Nat)) = {τ | ∃ a, a < k + 1 ∧ τ = {a}} := by
      ext τ
      simp only [Set.mem_union, Set.mem_ofPred_eq, setsOf, List.mem_singleton, exists_eq_left]
      constructor
      · rintro (⟨a, h, e⟩ | e)
        · exact ⟨a, by omega, e⟩
        · exact ⟨k, by omega, by rw [← e]; rfl⟩
      · rintro ⟨a, h, e⟩
        rcases Nat.lt_or_ge a k with h' | h'
        · exact Or.inl ⟨a, h', e⟩
        · right
          have : a = k := by omega
          rw [e, this]; rfl
    rw [hK] at r3
    obtain ⟨Y, c', f1, f2, f3⟩ := ih (k + 1) Y1 c1 r2 r3
    refine ⟨Y, c', ?_, f2, by rw [f3, show k + 1 + c = k + (c + 1) by omega]⟩
    have hr : (do let r ← X.add [k]; pure r.1 : Res SCpx) = .ok Y1 := by
      rw [← r1]
      show _ = (do let Ψ ← (do let r ← X.add [k]; pure r.1 : Res SCpx); Ψ.run [] : Res SCpx)
      rcases X.add [k] with e | r <;> rfl
    show (do let r ← X.add [k]; vertsCpx c (k + 1) r.1 : Res SCpx) = _
    rcases hadd : X.add [k] with e | r
    · rw [hadd] at hr; cases hr
    · rw [hadd] at hr
      simp only [bind_ok, pure_ok] at hr
      cases hr
      simp only [bind_ok, f1]

theorem joined_concat (ps : List (Nat × Nat)) (p : Nat × Nat) : Joined (ps ++ [p]) = addEdge (Joined ps) p.1 p.2 := by
  funext a b
  apply propext
  unfold Joined addEdge
  simp only [List.mem_append, List.mem_singleton]
  constructor
  · rintro ((h | h) | (h | h))
    · exact Or.inl (Or.inl h)
    · exact Or.inr (Or.inl ⟨by rw [← h], by rw [← h]⟩)
    · exact Or.inl (Or.inr h)
    · exact Or.inr (Or.inr ⟨by rw [← h], by rw [← h]⟩)
  · rintro ((h | h) | ⟨rfl, rfl⟩ | ⟨rfl, rfl⟩)
    · exact Or.inl (Or.inl h)
    · exact Or.inr (Or.inl h)
    · exact Or.inl (Or.inr rfl)
    · exact Or.inr (Or.inr rfl)

theorem joined_symm (ps : List (Nat × Nat)) (a b : Nat) : Joined ps a b → Joined ps b a := Or.symm

theorem edgesCpx_spec {n maxdim : Nat} : ∀ (ps2 ps1 : List (Nat × Nat)) (nbrs : List (List Nat)) (X : SCpx) (cells : Cells),
    SCpx.Inv X cells → SCpx.setOf cells = finSet (CliqueSet (Joined ps1) n (max maxdim 1)) → NbrOK n (Joined ps1) nbrs → SimpleGraphOn n (ps1 ++ ps2) →
    ∃ Y cells', edgesCpx maxdim (ps2.flatMap (fun p => [p.1, p.2])) nbrs X = .ok Y ∧ SCpx.Inv Y cells' ∧
      SCpx.setOf cells' = finSet (CliqueSet (Joined (ps1 ++ ps2)) n (max maxdim 1)) := by
  intro ps2
  induction ps2 with
  | nil =>
    intro ps1 nbrs X cells h1 h2 h3 _
    rw [List.append_nil]
    exact ⟨X, cells, rfl, h1, h2⟩
  | cons p ps2 ih =>
    intro ps1 nbrs X cells h1 h2 h3 hs
    obtain ⟨hi, hj, hij⟩ := hs.ends p (by simp)
    have hends1 : ∀ f ∈ ps1, f.1 < n ∧ f.2 < n ∧ f.1 ≠ f.2 := fun f hf => hs.ends f (by simp [hf])
    have hnew : ¬ Joined ps1 p.1 p.2 := by
      rintro (hf | hf)
      · exact ((List.pairwise_append.1 hs.once).2.2 _ hf p (by simp)).1 rfl
      · exact ((List.pairwise_append.1 hs.once).2.2 _ hf p (by simp)).2 rfl
    have hirr : ∀ a, ¬ Joined ps1 a a := by
      rintro a (h | h) <;> exact (hends1 _ h).2.2 rfl
    have hlt : ∀ a b, Joined ps1 a b → a < n ∧ b < n := by
      rintro a b (h | h)
      · exact ⟨(hends1 _ h).1, (hends1 _ h).2.1⟩
      · exact ⟨(hends1 _ h).2.1, (hends1 _ h).1⟩
    obtain ⟨hleg, hmem⟩ := edgeSeq_spec (maxdim := maxdim) (joined_symm ps1) hirr h3.inc h3.mem hlt hi hj hij hnew (spx := [p.1, p.2]) (by simp [hij]) (by simp)
    obtain ⟨nbrs', hn1, hn2⟩ := addNbrs_spec h3 (joined_symm ps1) hi hj hij hnew
    rw [← joined_concat] at hn2
    obtain ⟨Y1, c1, r1, r2, r3⟩ := runC_legal h1 h2 hleg
    have hK : CliqueSet (Joined ps1) n (max maxdim 1) ∪ setsOf (edgeSeq (fun a => nbrs.getD a []) maxdim (intersectSorted (nbrs.getD p.1 []) (nbrs.getD p.2 [])) [p.1, p.2]) =
        CliqueSet (Joined (ps1 ++ [p])) n (max maxdim 1) := by
      ext τ
      rw [joined_concat, cliqueSet_addEdge hij hnew, ← hmem, Set.mem_union, or_comm]
    rw [hK] at r3
    have hcode : (do
        let r ← X.add [p.1, p.2]
        recIfCpx maxdim nbrs (intersectSorted (nbrs.getD p.1 []) (nbrs.getD p.2 [])) [p.1, p.2] r.1 : Res SCpx) = .ok Y1 := by
      rw [← r1]
      show _ = (do let Ψ ← (do let r ← X.add [p.1, p.2]; pure r.1 : Res SCpx); Ψ.run _ : Res SCpx)
      rcases X.add [p.1, p.2] with er | r
      · rfl
      · simp only [bind_ok, pure_ok]
        unfold recIfCpx
        split
        · rename_i hh
          have hh' : (intersectSorted (nbrs.getD p.1 []) (nbrs.getD p.2 [])).isEmpty = false ∧ 1 < maxdim := ⟨hh.1, by omega⟩
          rw [if_pos hh']
          apply recCpx_run
          intro k hk
          have := ((C27_intersect_sorted (h3.inc p.1) (h3.inc p.2)).2 k).1 hk
          have := hlt _ _ ((h3.mem _ _).1 this.1)
          rw [h3.len]; exact this.2
        · rename_i hh
          rw [if_neg (fun h => hh ⟨h.1, by omega⟩)]
          rfl
    obtain ⟨Y, c', f1, f2, f3⟩ := ih (ps1 ++ [p]) nbrs' Y1 c1 r2 r3 hn2 (by rw [List.append_assoc]; exact hs)
    rw [List.append_assoc] at f3
    refine ⟨Y, c', ?_, f2, f3⟩
    have hgd : ∀ k, k < n → rd nbrs k = .ok (nbrs.getD k []) := fun k hk => rd_getD _ [] (by rw [h3.len]; exact hk)
    rw [List.flatMap_cons]
    show (do
      let r ← X.add [p.1, p.2]
      let ni ← rd nbrs p.1
      let nj ← rd nbrs p.2
      let Y ← recIfCpx maxdim nbrs (intersectSorted ni nj) [p.1, p.2] r.1
      let nbrs' ← addNbrs nbrs p.1 p.2
      edgesCpx maxdim (ps2.flatMap (fun p => [p.1, p.2])) nbrs' Y : Res SCpx) = _
    rcases hadd : X.add [p.1, p.2] with er | r
    · rw [hadd] at hcode; cases hcode
    · rw [hadd] at hcode
      simp only [bind_ok] at hcode
      simp only [bind_ok, hgd _ hi, hgd _ hj, hcode, hn1, f1]

theorem flagComplex_spec {ps : List (Nat × Nat)} {n : Nat} (hs : SimpleGraphOn n ps) (maxdim : Nat) :
    ∃ Y cells, flagComplex (ps.flatMap (fun p => [p.1, p.2])) n maxdim = .ok Y ∧ SCpx.Inv Y cells ∧
      SCpx.setOf cells = finSet (CliqueSet (Joined ps) n (max maxdim 1)) := by
  have hlen : (ps.flatMap (fun p => [p.1, p.2])).length = 2 * ps.length := by
    induction ps with
    | nil => rfl
    | cons p ps ih => rw [List.flatMap_cons, List.length_append, ih ⟨fun q hq => hs.ends q (by simp [hq]), (List.pairwise_cons.1 hs.once).2⟩]; simp; omega
  obtain ⟨X1, c1, v1, v2, v3⟩ := vertsCpx_spec (max maxdim 1) n 0 (SCpx.init maxdim) (fun _ => []) (init_inv maxdim).1 (by
    ext s; simp [SCpx.setOf, finSet])
  rw [Nat.zero_add] at v3
  have hK : {τ : Finset Nat | ∃ a, a < n ∧ τ = {a}} = CliqueSet (Joined []) n (max maxdim 1) := by
    ext τ
    constructor
    · rintro ⟨a, ha, rfl⟩
      refine ⟨by simp, by simpa using ha, by simp, ?_⟩
      intro x hx y hy hne
      simp at hx hy; omega
    · rintro ⟨h1, h2, _, h4⟩
      have hcard : τ.card = 1 := by
        have h6 := Finset.card_pos.2 h1
        by_contra hc
        obtain ⟨a, ha, b, hb, hab⟩ := Finset.one_lt_card.1 (show 1 < τ.card by omega)
        rcases h4 a ha b hb hab with h | h <;> simp at h
      obtain ⟨a, rfl⟩ := Finset.card_eq_one.1 hcard
      exact ⟨a, h2 a (by simp), rfl⟩
  rw [hK] at v3
  obtain ⟨Y, c', f1, f2, f3⟩ := edgesCpx_spec (maxdim := maxdim) ps [] (List.replicate n []) X1 c1 v2 v3 (by
      refine ⟨by simp, ?_, ?_⟩
      · intro a
        rw [List.getD_eq_getElem?_getD, List.getElem?_replicate]; split <;> simp
      · intro a x
        have : ¬ Joined [] a x := by rintro (h | h) <;> simp at h
        rw [List.getD_eq_getElem?_getD, List.getElem?_replicate]
        split <;> simp [this]) (by rw [List.nil_append]; exact hs)
  refine ⟨Y, c', ?_, f2, f3⟩
  unfold flagComplex
  rw [if_neg (by rw [hlen]; omega), v1, bind_ok, f1]

theorem finSet_cliques (ps : List (Nat × Nat)) (n D : Nat) : finSet (CliqueSet (Joined ps) n D) = {s | IsCliqueList n D ps s} := by
  ext s
  constructor
  · rintro ⟨hs, h1, h2, h3, h4⟩
    have hcard : s.toFinset.card = s.length := List.toFinset_card_of_nodup (hs.imp (fun h => ne_of_lt h))
    refine ⟨?_, hs, fun a ha => h2 a (List.mem_toFinset.2 ha), by omega, ?_⟩
    · rintro rfl; simp at h1
    · intro a ha b hb hne
      exact h4 a (List.mem_toFinset.2 ha) b (List.mem_toFinset.2 hb) hne
  · intro h
    have hcard : s.toFinset.card = s.length := List.toFinset_card_of_nodup (h.inc.imp (fun h => ne_of_lt h))
    have h4 := h.len
    refine ⟨h.inc, ?_, fun a ha => h.lt a (List.mem_toFinset.1 ha), by omega, ?_⟩
    · obtain ⟨a, ha⟩ := List.exists_mem_of_ne_nil s h.ne
      exact ⟨a, List.mem_toFinset.2 ha⟩
    · intro a ha b hb hne
      exact h.joined a (List.mem_toFinset.1 ha) b (List.mem_toFinset.1 hb) hne

end Flag
end BATS
