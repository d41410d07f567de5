import Verif.Proofs.Witness
import Verif.Proofs.Sublevel
import Verif.Props.Filtration

set_option linter.unusedSectionVars false
set_option linter.unusedVariables false
set_option linter.unusedSimpArgs false

/-! # Proofs about filtrations relative to a cover and about `Filtration::union_add` -/

namespace BATS
namespace Wit
open Lmk BATS.Flag

variable {T : Type} [LinearOrder T] [Zero T]

/-! ### the set of edges -/

/-- strictly increasing -/
def ESorted (S : List (FEdge T)) : Prop := S.Pairwise (fun e f => edgeLe e f ∧ ¬ edgeLe f e)

theorem edgeLe_total (a b : FEdge T) : edgeLe a b ∨ edgeLe b a := Std.Total.total a b

theorem edgeLe_tr {a b c : FEdge T} (h : edgeLe a b) (h' : edgeLe b c) : edgeLe a c := IsTrans.trans a b c h h'

theorem edgeInsert_spec (e : FEdge T) : ∀ (S : List (FEdge T)), ESorted S → ESorted (edgeInsert e S) ∧ ∀ f, f ∈ edgeInsert e S ↔ f = e ∨ f ∈ S := by
  intro S
  induction S with
  | nil => intro _; exact ⟨by simp [edgeInsert, ESorted], by simp [edgeInsert]⟩
  | cons g S ih =>
    intro h
    obtain ⟨h1, h2⟩ := List.pairwise_cons.1 h
    obtain ⟨i1, i2⟩ := ih h2
    rw [edgeInsert]
    by_cases hc : edgeLe e g
    · rw [if_pos hc]
      by_cases hd : edgeLe g e
      · rw [if_pos hd]
        have := edgeLe_antisymm hc hd
        subst this
        exact ⟨h, fun f => by simp⟩
      · rw [if_neg hd]
        refine ⟨List.pairwise_cons.2 ⟨?_, h⟩, fun f => by simp⟩
        intro f hf
        rcases List.mem_cons.1 hf with rfl | hf
        · exact ⟨hc, hd⟩
        · exact ⟨edgeLe_tr hc (h1 f hf).1, fun h' => hd (edgeLe_tr (h1 f hf).1 h')⟩
    · rw [if_neg hc]
      refine ⟨List.pairwise_cons.2 ⟨?_, i1⟩, fun f => ?_⟩
      · intro f hf
        rcases (i2 f).1 hf with rfl | hf
        · exact ⟨(edgeLe_total f g).resolve_left hc, hc⟩
        · exact h1 f hf
      · rw [List.mem_cons, i2, List.mem_cons]
        exact or_left_comm

theorem coverRow_spec {d : Nat → Nat → Res T} {D : Nat → Nat → T} (rmax : T) (i : Nat) : ∀ (js : List Nat) (S : List (FEdge T)), (∀ j ∈ js, d i j = .ok (D i j)) → ESorted S →
    ∃ S', coverRow d rmax i js S = .ok S' ∧ ESorted S' ∧ ∀ e : FEdge T, e ∈ S' ↔ e ∈ S ∨ (e.s = i ∧ e.t ∈ js ∧ e.r = D e.s e.t ∧ e.r < rmax) := by
  intro js
  induction js with
  | nil => intro S _ h; exact ⟨S, rfl, h, fun e => by simp⟩
  | cons j js ih =>
    intro S hd h
    obtain ⟨S1, hS1⟩ : ∃ S1, S1 = if D i j < rmax then edgeInsert ⟨i, j, D i j⟩ S else S := ⟨_, rfl⟩
    have hs1 : ESorted S1 ∧ ∀ e : FEdge T, e ∈ S1 ↔ e ∈ S ∨ (e = ⟨i, j, D i j⟩ ∧ D i j < rmax) := by
      subst hS1
      split
      · rename_i hc
        obtain ⟨q1, q2⟩ := edgeInsert_spec ⟨i, j, D i j⟩ S h
        refine ⟨q1, fun e => ?_⟩
        rw [q2]
        constructor
        · rintro (h | h)
          · exact Or.inr ⟨h, hc⟩
          · exact Or.inl h
        · rintro (h | h)
          · exact Or.inr h
          · exact Or.inl h.1
      · rename_i hc
        exact ⟨h, fun e => ⟨Or.inl, fun h => h.resolve_right (fun h => hc h.2)⟩⟩
    obtain ⟨S', r1, r2, r3⟩ := ih S1 (fun j hj => hd j (by simp [hj])) hs1.1
    refine ⟨S', ?_, r2, fun e => ?_⟩
    · rw [coverRow, hd j (by simp)]
      show coverRow d rmax i js (if D i j < rmax then edgeInsert ⟨i, j, D i j⟩ S else S) = _
      rw [← hS1]; exact r1
    · rw [r3, hs1.2, List.mem_cons]
      constructor
      · rintro ((h | ⟨rfl, h⟩) | ⟨h1, h2, h3⟩)
        · exact Or.inl h
        · exact Or.inr ⟨rfl, Or.inl rfl, rfl, h⟩
        · exact Or.inr ⟨h1, Or.inr h2, h3⟩
      · rintro (h | ⟨h1, h2 | h2, h3, h4⟩)
        · exact Or.inl (Or.inl h)
        · left; right
          obtain ⟨s, t, r⟩ := e
          simp only at h1 h2 h3 h4
          subst h1 h2 h3
          exact ⟨rfl, h4⟩
        · exact Or.inr ⟨h1, h2, h3, h4⟩

theorem coverPairs_spec {d : Nat → Nat → Res T} {D : Nat → Nat → T} (rmax : T) : ∀ (U : List Nat) (S : List (FEdge T)), U.Pairwise (· < ·) →
    (∀ i ∈ U, ∀ j ∈ U, i < j → d i j = .ok (D i j)) → ESorted S →
    ∃ S', coverPairs d rmax U S = .ok S' ∧ ESorted S' ∧ ∀ e : FEdge T, e ∈ S' ↔ e ∈ S ∨ (e.s ∈ U ∧ e.t ∈ U ∧ e.s < e.t ∧ e.r = D e.s e.t ∧ e.r < rmax) := by
  intro U
  induction U with
  | nil => intro S _ _ h; exact ⟨S, rfl, h, fun e => by simp⟩
  | cons i U ih =>
    intro S hU hd h
    obtain ⟨hi, hU'⟩ := List.pairwise_cons.1 hU
    obtain ⟨S1, a1, a2, a3⟩ := coverRow_spec (D := D) rmax i U S (fun j hj => hd i (by simp) j (by simp [hj]) (hi j hj)) h
    obtain ⟨S2, b1, b2, b3⟩ := ih S1 hU' (fun a ha b hb => hd a (by simp [ha]) b (by simp [hb])) a2
    refine ⟨S2, ?_, b2, fun e => ?_⟩
    · rw [coverPairs, a1]; exact b1
    · rw [b3, a3, List.mem_cons, List.mem_cons]
      constructor
      · rintro ((h | ⟨h1, h2, h3⟩) | ⟨h1, h2, h3⟩)
        · exact Or.inl h
        · exact Or.inr ⟨Or.inl h1, Or.inr h2, by rw [h1]; exact hi _ h2, h3⟩
        · exact Or.inr ⟨Or.inr h1, Or.inr h2, h3⟩
      · rintro (h | ⟨h1, h2, h3, h4⟩)
        · exact Or.inl (Or.inl h)
        · rcases h1 with h1 | h1
          · rcases h2 with h2 | h2
            · omega
            · exact Or.inl (Or.inr ⟨h1, h2, h4⟩)
          · rcases h2 with h2 | h2
            · have := hi _ h1; omega
            · exact Or.inr ⟨h1, h2, h3, h4⟩

theorem coverEdges_spec {d : Nat → Nat → Res T} {D : Nat → Nat → T} (rmax : T) : ∀ (cover : List (List Nat)) (S : List (FEdge T)), Nrv.IsCover cover →
    (∀ U ∈ cover, ∀ i ∈ U, ∀ j ∈ U, i < j → d i j = .ok (D i j)) → ESorted S →
    ∃ S', coverEdges d rmax cover S = .ok S' ∧ ESorted S' ∧ ∀ e : FEdge T, e ∈ S' ↔ e ∈ S ∨ (InCommon cover e.s e.t ∧ e.s < e.t ∧ e.r = D e.s e.t ∧ e.r < rmax) := by
  intro cover
  induction cover with
  | nil => intro S _ _ h; exact ⟨S, rfl, h, fun e => by simp [InCommon]⟩
  | cons U cover ih =>
    intro S hc hd h
    obtain ⟨S1, a1, a2, a3⟩ := coverPairs_spec (D := D) rmax U S (hc U (by simp)) (hd U (by simp)) h
    obtain ⟨S2, b1, b2, b3⟩ := ih S1 (fun V hV => hc V (by simp [hV])) (fun V hV => hd V (by simp [hV])) a2
    refine ⟨S2, ?_, b2, fun e => ?_⟩
    · rw [coverEdges, a1]; exact b1
    · rw [b3, a3]
      unfold InCommon
      constructor
      · rintro ((h | ⟨h1, h2, h3⟩) | ⟨⟨V, v1, v2⟩, h3⟩)
        · exact Or.inl h
        · exact Or.inr ⟨⟨U, by simp, h1, h2⟩, h3⟩
        · exact Or.inr ⟨⟨V, by simp [v1], v2⟩, h3⟩
      · rintro (h | ⟨⟨V, v1, v2, v3⟩, h3⟩)
        · exact Or.inl (Or.inl h)
        · rcases List.mem_cons.1 v1 with rfl | v1
          · exact Or.inl (Or.inr ⟨v2, v3, h3⟩)
          · exact Or.inr ⟨⟨V, v1, v2, v3⟩, h3⟩

/-- a list of edges `(a, b, D a b)` with `a < b < n`, each once -/
theorem graph_of_edges {D : Nat → Nat → T} {E : Nat → Nat → Prop} {n : Nat} {es : List (FEdge T)} (hn : es.Nodup)
    (hm : ∀ e : FEdge T, e ∈ es ↔ e.s < e.t ∧ e.t < n ∧ e.r = D e.s e.t ∧ E e.s e.t) :
    SimpleGraphOn n (es.map FEdge.ends) ∧ ∀ a b r, ((⟨a, b, r⟩ : FEdge T) ∈ es ∨ ⟨b, a, r⟩ ∈ es) ∧ a < b ↔ a < b ∧ b < n ∧ r = D a b ∧ E a b := by
  refine ⟨⟨?_, ?_⟩, ?_⟩
  · intro q hq
    obtain ⟨e, he, rfl⟩ := List.mem_map.1 hq
    obtain ⟨h1, h2, _⟩ := (hm e).1 he
    exact ⟨by show e.s < n; omega, h2, by show e.s ≠ e.t; omega⟩
  · rw [List.pairwise_map]
    refine (List.Pairwise.and_mem.1 hn).imp ?_
    rintro e f ⟨he, hf, hne⟩
    obtain ⟨e1, e2, e3, e4⟩ := (hm e).1 he
    obtain ⟨f1, f2, f3, f4⟩ := (hm f).1 hf
    unfold FEdge.ends
    constructor
    · intro h
      simp only [Prod.mk.injEq] at h
      apply hne
      obtain ⟨s, t, r⟩ := e
      obtain ⟨s', t', r'⟩ := f
      simp only at h e3 f3
      obtain ⟨rfl, rfl⟩ := h
      rw [e3, f3]
    · intro h
      simp only [Prod.swap, Prod.mk.injEq] at h
      omega
  · intro a b r
    rw [hm, hm]
    constructor
    · rintro ⟨h | h, hab⟩
      · exact ⟨hab, h.2⟩
      · exact absurd h.1 (by show ¬ b < a; omega)
    · rintro ⟨hab, h⟩
      exact ⟨Or.inl ⟨hab, h⟩, hab⟩

theorem ESorted.nodup {S : List (FEdge T)} (h : ESorted S) : S.Nodup := h.imp (fun h e => by subst e; exact h.2 h.1)

theorem coverFiltration_spec {d : Nat → Nat → Res T} {D : Nat → Nat → T} {rmax : T} {cover : List (List Nat)} {n : Nat} (hc : Nrv.IsCover cover) (hn : ∀ U ∈ cover, ∀ a ∈ U, a < n)
    (hd : ∀ U ∈ cover, ∀ i ∈ U, ∀ j ∈ U, i < j → d i j = .ok (D i j)) (dmax : Nat) :
    ∃ es Ψ cells w, coverEdges d rmax cover [] = .ok es ∧ flagFiltration es n dmax 0 = .ok Ψ ∧ Filt.FInv Ψ cells w ∧ dmax ≤ Ψ.X.maxdim ∧
      ∀ s x, w s = some x ↔ IsFlagSimplex (fun a b => InCommon cover a b ∧ D a b < rmax) n (max dmax 1) s ∧ IsDiam D s x := by
  obtain ⟨es, e1, e2, e3⟩ := coverEdges_spec (D := D) rmax cover [] hc hd (by simp [ESorted])
  obtain ⟨g1, g2⟩ := graph_of_edges (n := n) (D := D) (E := fun a b => InCommon cover a b ∧ D a b < rmax) e2.nodup (by
    intro e
    rw [e3]
    constructor
    · rintro (h | ⟨⟨U, u1, u2, u3⟩, h2, h3, h4⟩)
      · simp at h
      · exact ⟨h2, hn U u1 _ u3, h3, ⟨U, u1, u2, u3⟩, by rw [← h3]; exact h4⟩
    · rintro ⟨h1, h2, h3, h4, h5⟩
      exact Or.inr ⟨h4, h1, h3, by rw [h3]; exact h5⟩)
  obtain ⟨Ψ, cells, w, f1, f2, f3, f4⟩ := flagFiltration_graph (E := fun a b => InCommon cover a b ∧ D a b < rmax) (dist := D) g2 g1 dmax
  exact ⟨es, Ψ, cells, w, e1, f1, f2, f3, f4⟩

/-! ### `union_add` -/

/-- `v2` on `P`, `v1` elsewhere -/
noncomputable def mix (P : Set (List Nat)) (v2 v1 : List Nat → Option T) : List Nat → Option T := by
  classical
  exact fun u => if u ∈ P then v2 u else v1 u

theorem mix_pos {P : Set (List Nat)} {v2 v1 : List Nat → Option T} {u : List Nat} (h : u ∈ P) : mix P v2 v1 u = v2 u := by
  unfold mix; exact if_pos h

theorem mix_neg {P : Set (List Nat)} {v2 v1 : List Nat → Option T} {u : List Nat} (h : u ∉ P) : mix P v2 v1 u = v1 u := by
  unfold mix; exact if_neg h

open Filt in
theorem unionRow_spec {Φ2 : Filt T} {c2 : SCpx.Cells} {v2 : List Nat → Option T} (h2 : FInv Φ2 c2 v2) (hs : ∀ d, ∀ s ∈ c2 d, s.Pairwise (· ≤ ·)) (v1 : List Nat → Option T)
    {dim : Nat} (hdim : dim < Φ2.val.length) : ∀ (n i : Nat) (P : Set (List Nat)) (Φ : Filt T) (c : SCpx.Cells), i + n = (c2 dim).length →
    (∀ s, s ∈ P ↔ (∃ d, d < dim ∧ s ∈ c2 d) ∨ s ∈ (c2 dim).take i) → FInv Φ c (mix P v2 v1) →
    ∃ Ψ c', unionRow Φ2 dim n i Φ = .ok Ψ ∧ FInv Ψ c' (mix {s | ∃ d, d < dim + 1 ∧ s ∈ c2 d} v2 v1) ∧
      Φ.X.maxdim ≤ Ψ.X.maxdim ∧ Ψ.X.maxdim ≤ max Φ.X.maxdim dim := by
  classical
  intro n
  induction n with
  | zero =>
    intro i P Φ c hi hP h
    refine ⟨Φ, c, rfl, ?_, le_refl _, le_max_left _ _⟩
    have : P = {s | ∃ d, d < dim + 1 ∧ s ∈ c2 d} := by
      ext s
      rw [hP, show i = (c2 dim).length by omega, List.take_length]
      constructor
      · rintro (⟨d, d1, d2⟩ | h)
        · exact ⟨d, by omega, d2⟩
        · exact ⟨dim, by omega, h⟩
      · rintro ⟨d, d1, d2⟩
        rcases Nat.lt_or_ge d dim with hl | hl
        · exact Or.inl ⟨d, hl, d2⟩
        · have : d = dim := by omega
          subst this; exact Or.inr d2
    rw [← this]; exact h
  | succ n ih =>
    intro i P Φ c hi hP h
    have hil : i < (c2 dim).length := by omega
    obtain ⟨s, hse⟩ : ∃ s, s = (c2 dim)[i] := ⟨_, rfl⟩
    have hsi : (c2 dim)[i]? = some s := by rw [hse]; exact List.getElem?_eq_getElem hil
    have hsm : s ∈ c2 dim := List.mem_of_getElem? hsi
    have hsl : s.length = dim + 1 := h2.inv.ok.len dim s hsm
    have hne : s ≠ [] := by intro e; rw [e] at hsl; simp at hsl
    -- the value
    obtain ⟨row, hrow⟩ : ∃ row, Φ2.val[dim]? = some row := ⟨_, List.getElem?_eq_getElem hdim⟩
    have hr := h2.row dim
    rw [List.getD_eq_getElem?_getD, hrow, Option.getD_some] at hr
    obtain ⟨t, ht, htv⟩ : ∃ t, row[i]? = some t ∧ v2 s = some t := by
      have h1 := congrArg (fun l : List (Option T) => l[i]?) hr
      simp only [List.getElem?_map, hsi, Option.map_some] at h1
      rcases hri : row[i]? with _ | t
      · rw [hri] at h1; simp at h1
      · rw [hri] at h1
        simp only [Option.map_some, Option.some.injEq] at h1
        exact ⟨t, rfl, h1.symm⟩
    have hsort : SCpx.sortV s = s := by
      have h1 : (SCpx.sortV s).Pairwise (· ≤ ·) := List.pairwise_insertionSort (· ≤ ·) _
      exact (List.perm_insertionSort (· ≤ ·) s).eq_of_pairwise' h1 (hs dim s hsm)
    have hspec : Filt.specAdd (mix P v2 v1) t s = some (fun u => if u = s then some t else mix P v2 v1 u) := by
      unfold Filt.specAdd
      rw [if_pos]
      rcases Nat.eq_zero_or_pos dim with h0 | h0
      · left; omega
      · right
        intro k hk
        obtain ⟨d, rfl⟩ : ∃ d, dim = d + 1 := ⟨dim - 1, by omega⟩
        have hf := h2.inv.ok.closed d s hsm k (by omega)
        rw [mix_pos ((hP _).2 (Or.inl ⟨d, by omega, hf⟩))]
        exact (h2.dom _).2 ((SCpx.mem_setOf (h2.inv.ok.len d _ hf)).2 hf)
    obtain ⟨Ψ, c', j, a1, a2, a3, a4⟩ := (addDirected_inv h t hne).1 _ hspec
    obtain ⟨Ω, c'', b1, b2, b3, b4⟩ := ih (i + 1) (P ∪ {s}) Ψ c' (by omega) (by
      intro u
      rw [Set.mem_union, hP, Set.mem_singleton_iff, List.take_add_one, hsi, List.mem_append]
      simp only [Option.toList_some, List.mem_singleton]
      exact or_assoc) (by
      have : mix (P ∪ {s}) v2 v1 = (fun u => if u = s then some t else mix P v2 v1 u) := by
        funext u
        by_cases hu : u = s
        · rw [if_pos hu, mix_pos (by right; exact hu), hu, htv]
        · rw [if_neg hu]
          by_cases hp : u ∈ P
          · rw [mix_pos hp, mix_pos (Or.inl hp)]
          · rw [mix_neg hp, mix_neg (by rintro (h | h); exact hp h; exact hu h)]
      rw [this]; exact a2)
    refine ⟨Ω, c'', ?_, b2, ?_, ?_⟩
    · rw [unionRow, Filt.getSimplex_eq h2.inv hsi]
      show (rd Φ2.val dim >>= _) = _
      rw [rd_some hrow]
      show (rd row i >>= _) = _
      rw [rd_some ht]
      show (Φ.X.addDirected (SCpx.sortV s) >>= _) = _
      rw [hsort]
      rw [hsl, Nat.add_sub_cancel] at a1
      have hb := congrArg (fun r => (r >>= fun Ψ => unionRow Φ2 dim n (i + 1) Ψ.1 : Res (Filt T))) a1
      simp only [bind_assoc] at hb
      exact hb.trans b1
    · rw [a4] at b3; exact le_trans (le_max_left _ _) b3
    · rw [a4, hsl, Nat.add_sub_cancel] at b4
      exact le_trans b4 (by omega)

open Filt in
theorem unionLoop_spec {Φ2 : Filt T} {c2 : SCpx.Cells} {v2 : List Nat → Option T} (h2 : FInv Φ2 c2 v2) (hs : ∀ d, ∀ s ∈ c2 d, s.Pairwise (· ≤ ·)) (v1 : List Nat → Option T) :
    ∀ (n dim : Nat) (Φ : Filt T) (c : SCpx.Cells), dim + n = Φ2.val.length → FInv Φ c (mix {s | ∃ d, d < dim ∧ s ∈ c2 d} v2 v1) →
    ∃ Ψ c', unionLoop Φ2 n dim Φ = .ok Ψ ∧ FInv Ψ c' (mix {s | ∃ d, d < Φ2.val.length ∧ s ∈ c2 d} v2 v1) ∧
      Φ.X.maxdim ≤ Ψ.X.maxdim ∧ Ψ.X.maxdim ≤ max Φ.X.maxdim (Φ2.val.length - 1) := by
  classical
  intro n
  induction n with
  | zero => intro dim Φ c hd h; rw [show dim = Φ2.val.length by omega] at h; exact ⟨Φ, c, rfl, h, le_refl _, le_max_left _ _⟩
  | succ n ih =>
    intro dim Φ c hd h
    obtain ⟨Ψ, c', a1, a2, a3, a4⟩ := unionRow_spec h2 hs v1 (dim := dim) (by omega) (c2 dim).length 0 {s | ∃ d, d < dim ∧ s ∈ c2 d} Φ c (by omega) (by
      intro s; rw [List.take_zero]; simp) h
    obtain ⟨Ω, c'', b1, b2, b3, b4⟩ := ih (dim + 1) Ψ c' (by omega) a2
    refine ⟨Ω, c'', ?_, b2, le_trans a3 b3, by omega⟩
    have hk : dim < Φ2.X.ncells.length := by
      rcases h2.len with h | ⟨h, _⟩
      · omega
      · rw [h] at hd; simp at hd
    rw [unionLoop]
    unfold SCpx.numCells
    rw [rd_some (h2.inv.dim dim hk).nc]
    show (unionRow Φ2 dim (c2 dim).length 0 Φ >>= _) = _
    rw [a1]; exact b1

open Filt in
theorem unionAdd_spec {Φ Φ2 : Filt T} {c c2 : SCpx.Cells} {v1 v2 : List Nat → Option T} (h : FInv Φ c v1) (h2 : FInv Φ2 c2 v2) (hs : ∀ d, ∀ s ∈ c2 d, s.Pairwise (· ≤ ·)) :
    ∃ Ψ c', unionAdd Φ Φ2 = .ok Ψ ∧ FInv Ψ c' (fun u => (v2 u).or (v1 u)) ∧ Φ.X.maxdim ≤ Ψ.X.maxdim ∧ Ψ.X.maxdim ≤ max Φ.X.maxdim Φ2.X.maxdim := by
  classical
  obtain ⟨Ψ, c', a1, a2, a3, a4⟩ := unionLoop_spec h2 hs v1 Φ2.val.length 0 Φ c (by omega) (by
    have : mix {s | ∃ d, d < 0 ∧ s ∈ c2 d} v2 v1 = v1 := by funext u; exact mix_neg (by rintro ⟨d, hd, _⟩; omega)
    rw [this]; exact h)
  refine ⟨Ψ, c', a1, ?_, a3, ?_⟩
  · have : mix {s | ∃ d, d < Φ2.val.length ∧ s ∈ c2 d} v2 v1 = fun u => (v2 u).or (v1 u) := by
      funext u
      by_cases hu : u ∈ {s | ∃ d, d < Φ2.val.length ∧ s ∈ c2 d}
      · rw [mix_pos hu]
        obtain ⟨d, d1, d2⟩ := hu
        have := (h2.dom u).2 ((SCpx.mem_setOf (h2.inv.ok.len d u d2)).2 d2)
        obtain ⟨x, hx⟩ := Option.ne_none_iff_exists'.1 this
        rw [hx]; rfl
      · rw [mix_neg hu]
        rcases hx : v2 u with _ | x
        · rfl
        · exfalso
          have hm : u ∈ SCpx.setOf c2 := (h2.dom u).1 (by rw [hx]; simp)
          obtain ⟨hne, hm⟩ := hm
          apply hu
          refine ⟨u.length - 1, ?_, hm⟩
          have hlt : u.length - 1 < Φ2.X.ncells.length := by
            by_contra hc
            rw [h2.inv.top _ (by omega)] at hm; simp at hm
          rcases h2.len with h | ⟨h, _, h'⟩
          · omega
          · rw [h'] at hm; simp at hm
    rw [← this]; exact a2
  · refine le_trans a4 ?_
    have : Φ2.val.length - 1 ≤ Φ2.X.maxdim := by
      unfold SCpx.maxdim
      rcases h2.len with h | ⟨h, h', _⟩
      · omega
      · rw [h]; simp
    omega

/-! ### `StrictRipsCoverFiltration` -/

theorem strictRow_spec {d : Nat → Nat → Res T} {D : Nat → Nat → T} (rmax : T) (i : Nat) : ∀ (js : List Nat), js.Nodup → (∀ j ∈ js, d i j = .ok (D i j)) →
    ∃ es, strictRow d rmax i js = .ok es ∧ es.Nodup ∧ ∀ e : FEdge T, e ∈ es ↔ (e.s = i ∧ e.t ∈ js ∧ e.r = D e.s e.t ∧ e.r < rmax) := by
  intro js
  induction js with
  | nil => intro _ _; exact ⟨[], rfl, List.nodup_nil, fun e => by simp⟩
  | cons j js ih =>
    intro hn hd
    obtain ⟨hj, hn'⟩ := List.nodup_cons.1 hn
    obtain ⟨es, r1, r2, r3⟩ := ih hn' (fun j hj => hd j (by simp [hj]))
    refine ⟨if D i j < rmax then ⟨i, j, D i j⟩ :: es else es, ?_, ?_, fun e => ?_⟩
    · rw [strictRow, hd j (by simp)]
      show (strictRow d rmax i js >>= _) = _
      rw [r1]; rfl
    · split
      · refine List.nodup_cons.2 ⟨fun hc => hj ((r3 _).1 hc).2.1, r2⟩
      · exact r2
    · have : e ∈ (if D i j < rmax then (⟨i, j, D i j⟩ : FEdge T) :: es else es) ↔ (e = ⟨i, j, D i j⟩ ∧ D i j < rmax) ∨ e ∈ es := by
        split
        · rename_i hc; rw [List.mem_cons]; simp [hc]
        · rename_i hc; simp [hc]
      rw [this, r3, List.mem_cons]
      constructor
      · rintro (⟨rfl, h⟩ | ⟨h1, h2, h3⟩)
        · exact ⟨rfl, Or.inl rfl, rfl, h⟩
        · exact ⟨h1, Or.inr h2, h3⟩
      · rintro ⟨h1, h2 | h2, h3, h4⟩
        · left
          obtain ⟨s, t, r⟩ := e
          simp only at h1 h2 h3 h4
          subst h1 h2 h3
          exact ⟨rfl, h4⟩
        · exact Or.inr ⟨h1, h2, h3, h4⟩

theorem strictPairs_spec {d : Nat → Nat → Res T} {D : Nat → Nat → T} (rmax : T) : ∀ (U : List Nat), U.Pairwise (· < ·) → (∀ i ∈ U, ∀ j ∈ U, i < j → d i j = .ok (D i j)) →
    ∃ es, strictPairs d rmax U = .ok es ∧ es.Nodup ∧ ∀ e : FEdge T, e ∈ es ↔ (e.s ∈ U ∧ e.t ∈ U ∧ e.s < e.t ∧ e.r = D e.s e.t ∧ e.r < rmax) := by
  intro U
  induction U with
  | nil => intro _ _; exact ⟨[], rfl, List.nodup_nil, fun e => by simp⟩
  | cons i U ih =>
    intro hU hd
    obtain ⟨hi, hU'⟩ := List.pairwise_cons.1 hU
    obtain ⟨S1, a1, a2, a3⟩ := strictRow_spec (D := D) rmax i U (hU'.imp (fun h => ne_of_lt h)) (fun j hj => hd i (by simp) j (by simp [hj]) (hi j hj))
    obtain ⟨S2, b1, b2, b3⟩ := ih hU' (fun a ha b hb => hd a (by simp [ha]) b (by simp [hb]))
    refine ⟨S1 ++ S2, ?_, ?_, fun e => ?_⟩
    · rw [strictPairs, a1]
      show (strictPairs d rmax U >>= _) = _
      rw [b1]; rfl
    · refine List.nodup_append.2 ⟨a2, b2, ?_⟩
      intro e he f hf hef
      subst hef
      have h1 := ((a3 e).1 he).1
      have h2 := ((b3 e).1 hf).1
      have := hi _ h2
      omega
    · rw [List.mem_append, b3, a3, List.mem_cons, List.mem_cons]
      constructor
      · rintro (⟨h1, h2, h3⟩ | ⟨h1, h2, h3⟩)
        · exact ⟨Or.inl h1, Or.inr h2, by rw [h1]; exact hi _ h2, h3⟩
        · exact ⟨Or.inr h1, Or.inr h2, h3⟩
      · rintro ⟨h1, h2, h3, h4⟩
        rcases h1 with h1 | h1
        · rcases h2 with h2 | h2
          · omega
          · exact Or.inl ⟨h1, h2, h4⟩
        · rcases h2 with h2 | h2
          · have := hi _ h1; omega
          · exact Or.inr ⟨h1, h2, h3, h4⟩

theorem strictLoop_spec {dist : Nat → Nat → T} {n : Nat} {rmax : T} {dmax : Nat} : ∀ (cover done : List (List Nat)) (Φ : Filt T) (c : SCpx.Cells) (w : List Nat → Option T),
    Nrv.IsCover cover → (∀ U ∈ cover, ∀ a ∈ U, a < n) → Filt.FInv Φ c w →
    (∀ s x, w s = some x ↔ (∃ U ∈ done, IsFlagSimplex (fun a b => (a ∈ U ∧ b ∈ U) ∧ dist a b < rmax) n (max dmax 1) s) ∧ IsDiam dist s x) →
    ∃ Ψ c' w', strictLoop dist n rmax dmax cover Φ = .ok Ψ ∧ Filt.FInv Ψ c' w' ∧ Φ.X.maxdim ≤ Ψ.X.maxdim ∧
      ∀ s x, w' s = some x ↔ (∃ U ∈ done ++ cover, IsFlagSimplex (fun a b => (a ∈ U ∧ b ∈ U) ∧ dist a b < rmax) n (max dmax 1) s) ∧ IsDiam dist s x := by
  intro cover
  induction cover with
  | nil => intro done Φ c w _ _ h hw; exact ⟨Φ, c, w, rfl, h, le_refl _, by rw [List.append_nil]; exact hw⟩
  | cons U cover ih =>
    intro done Φ c w hc hn h hw
    obtain ⟨es, e1, e2, e3⟩ := strictPairs_spec (d := dataDist dist n) (D := dist) rmax U (hc U (by simp)) (by
      intro i hi j hj _
      unfold dataDist
      rw [if_pos ⟨hn U (by simp) i hi, hn U (by simp) j hj⟩])
    obtain ⟨g1, g2⟩ := graph_of_edges (n := n) (D := dist) (E := fun a b => (a ∈ U ∧ b ∈ U) ∧ dist a b < rmax) e2 (by
      intro e
      rw [e3]
      constructor
      · rintro ⟨h1, h2, h3, h4, h5⟩
        exact ⟨h3, hn U (by simp) _ h2, h4, ⟨h1, h2⟩, by rw [← h4]; exact h5⟩
      · rintro ⟨h1, h2, h3, ⟨h4, h5⟩, h6⟩
        exact ⟨h4, h5, h1, h3, by rw [h3]; exact h6⟩)
    obtain ⟨Φ2, c2, w2, f1, f2, f3, f4⟩ := flagFiltration_graph (E := fun a b => (a ∈ U ∧ b ∈ U) ∧ dist a b < rmax) (dist := dist) g2 g1 dmax
    have hsort : ∀ d, ∀ s ∈ c2 d, s.Pairwise (· ≤ ·) := by
      intro d s hs
      have hmem := (SCpx.mem_setOf (f2.inv.ok.len d s hs)).2 hs
      obtain ⟨x, hx⟩ := Option.ne_none_iff_exists'.1 ((f2.dom s).2 hmem)
      exact ((f4 s x).1 hx).1.inc.imp (fun h => le_of_lt h)
    obtain ⟨Ψ, c', u1, u2, u3, _⟩ := unionAdd_spec h f2 hsort
    obtain ⟨Ω, c'', w', r1, r2, r3, r4⟩ := ih (done ++ [U]) Ψ c' _ (fun V hV => hc V (by simp [hV])) (fun V hV => hn V (by simp [hV])) u2 (by
      intro s x
      rw [Option.or_eq_some_iff]
      constructor
      · rintro (h1 | ⟨h1, h2⟩)
        · obtain ⟨q1, q2⟩ := (f4 s x).1 h1
          exact ⟨⟨U, by simp, q1⟩, q2⟩
        · obtain ⟨⟨V, v1, v2⟩, q2⟩ := (hw s x).1 h2
          exact ⟨⟨V, by simp [v1], v2⟩, q2⟩
      · rintro ⟨⟨V, v1, v2⟩, q2⟩
        rcases List.mem_append.1 v1 with v1 | v1
        · rcases hy : w2 s with _ | y
          · exact Or.inr ⟨rfl, (hw s x).2 ⟨⟨V, v1, v2⟩, q2⟩⟩
          · left
            rw [← hy]
            exact (f4 s x).2 ⟨((f4 s y).1 hy).1, q2⟩
        · rw [List.mem_singleton] at v1
          subst v1
          exact Or.inl ((f4 s x).2 ⟨v2, q2⟩))
    refine ⟨Ω, c'', w', ?_, r2, le_trans u3 r3, ?_⟩
    · rw [strictLoop, e1]
      show (flagFiltration es n dmax 0 >>= _) = _
      rw [f1]
      show (unionAdd Φ Φ2 >>= _) = _
      rw [u1]; exact r1
    · rw [List.append_assoc] at r4; exact r4

end Wit
end BATS
