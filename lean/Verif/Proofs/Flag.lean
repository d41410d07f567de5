import Verif.Proofs.FlagCore
import Verif.Proofs.Filtration
import Verif.Proofs.SimplicialHomology

set_option linter.unusedSectionVars false
set_option linter.unusedVariables false
set_option linter.unusedSimpArgs false

/-! # Flag filtrations and flag complexes contain exactly the cliques -/

namespace BATS
namespace Flag
open Srt SCpx Reduction

/-! ## cliques through a new edge -/

/-- cliques of `A` with vertices below `n` and at most `D + 1` vertices -/
def CliqueSet (A : Nat → Nat → Prop) (n D : Nat) : Set (Finset Nat) :=
  {τ | τ.Nonempty ∧ (∀ a ∈ τ, a < n) ∧ τ.card ≤ D + 1 ∧ IsClique A τ}

/-- `A` with one more edge -/
def addEdge (A : Nat → Nat → Prop) (i j : Nat) : Nat → Nat → Prop := fun a b => A a b ∨ (a = i ∧ b = j) ∨ (a = j ∧ b = i)

/-- the simplices added for one edge -/
def edgeSeq (nb : Nat → List Nat) (maxdim : Nat) (C spx : List Nat) : List (List Nat) :=
  spx :: (if C.isEmpty = false ∧ 1 < maxdim then flagSeq nb (maxdim - 2) C spx else [])

theorem edgeSeq_spec {A : Nat → Nat → Prop} (hsym : ∀ a b, A a b → A b a) (hirr : ∀ a, ¬ A a a) {nb : Nat → List Nat} (hnb : ∀ a, (nb a).Pairwise (· < ·))
    (hA : ∀ a x, x ∈ nb a ↔ A a x) {n maxdim i j : Nat} (hlt : ∀ a b, A a b → a < n ∧ b < n) (hi : i < n) (hj : j < n) (hij : i ≠ j) (hnew : ¬ A i j)
    {spx : List Nat} (hspx : spx.Nodup) (hset : spx.toFinset = {i, j}) :
    Legal (CliqueSet A n (max maxdim 1)) (edgeSeq nb maxdim (intersectSorted (nb i) (nb j)) spx) ∧
      ∀ τ, τ ∈ setsOf (edgeSeq nb maxdim (intersectSorted (nb i) (nb j)) spx) ↔ i ∈ τ ∧ j ∈ τ ∧ τ ∈ CliqueSet (addEdge A i j) n (max maxdim 1) := by
  have hspxmem : ∀ x, x ∈ spx ↔ x = i ∨ x = j := by
    intro x
    rw [← List.mem_toFinset, hset]; simp
  have hlen : spx.length = 2 := by
    have : spx.toFinset.card = spx.length := List.toFinset_card_of_nodup hspx
    rw [← this, hset, Finset.card_pair hij]
  obtain ⟨hCi, hCm⟩ := C27_intersect_sorted (hnb i) (hnb j)
  have hC : ∀ x, x ∈ intersectSorted (nb i) (nb j) ↔ A i x ∧ A j x := by
    intro x; rw [hCm, hA, hA]
  generalize hCC : intersectSorted (nb i) (nb j) = C at hCi hC
  have hsing : ∀ a, a < n → ({a} : Finset Nat) ∈ CliqueSet A n (max maxdim 1) := by
    intro a ha
    refine ⟨by simp, by simpa using ha, by simp, ?_⟩
    intro x hx y hy hne
    simp at hx hy; omega
  have hdisj : ∀ x ∈ C, x ∉ spx := by
    intro x hx
    rw [hspxmem]
    have := (hC x).1 hx
    rintro (rfl | rfl)
    · exact hirr _ this.1
    · exact hirr _ this.2
  -- the tail
  have htail : Legal (insert {i, j} (CliqueSet A n (max maxdim 1))) (if C.isEmpty = false ∧ 1 < maxdim then flagSeq nb (maxdim - 2) C spx else []) ∧
      setsOf (if C.isEmpty = false ∧ 1 < maxdim then flagSeq nb (maxdim - 2) C spx else []) = Fam A {i, j} C (maxdim - 1) := by
    split
    · rename_i hh
      have := flagSeq_spec hsym hirr hnb hA (maxdim - 2) C spx hCi hspx hdisj (insert {i, j} (CliqueSet A n (max maxdim 1))) (by
        rw [hset]
        refine ⟨Set.mem_insert _ _, ?_⟩
        intro S h1 h2 h3 h4 x hx
        right
        have hS : ∀ y ∈ S, A i y ∧ A j y := by
          intro y hy
          have := h1 hy
          rw [List.mem_toFinset, hC] at this
          exact this
        have hcard : (({i, j} ∪ S : Finset Nat).erase x).card ≤ max maxdim 1 + 1 := by
          have h5 : ({i, j} ∪ S : Finset Nat).card ≤ 2 + S.card := le_trans (Finset.card_union_le _ _) (by rw [Finset.card_pair hij])
          have h6 := Finset.card_erase_le (s := ({i, j} ∪ S : Finset Nat)) (a := x)
          have := le_max_left maxdim 1
          omega
        refine ⟨?_, ?_, hcard, ?_⟩
        · obtain ⟨y, hy⟩ := h2
          refine ⟨y, ?_⟩
          rw [Finset.mem_erase, Finset.mem_union]
          refine ⟨?_, Or.inr hy⟩
          rintro rfl
          have := hS y hy
          simp only [Finset.mem_insert, Finset.mem_singleton] at hx
          rcases hx with rfl | rfl
          · exact hirr _ this.1
          · exact hirr _ this.2
        · intro a ha
          rw [Finset.mem_erase, Finset.mem_union] at ha
          simp only [Finset.mem_insert, Finset.mem_singleton] at ha
          rcases ha.2 with (rfl | rfl) | h
          · exact hi
          · exact hj
          · exact (hlt _ _ (hS a h).1).2
        · intro a ha b hb hne
          simp only [Finset.mem_erase, Finset.mem_union, Finset.mem_insert, Finset.mem_singleton] at ha hb hx
          rcases ha with ⟨ha1, (rfl | rfl) | ha2⟩ <;> rcases hb with ⟨hb1, (rfl | rfl) | hb2⟩
          · exact absurd rfl hne
          · rcases hx with rfl | rfl
            · exact absurd rfl ha1
            · exact absurd rfl hb1
          · exact (hS b hb2).1
          · rcases hx with rfl | rfl
            · exact absurd rfl hb1
            · exact absurd rfl ha1
          · exact absurd rfl hne
          · exact (hS b hb2).2
          · exact hsym _ _ (hS a ha2).1
          · exact hsym _ _ (hS a ha2).2
          · exact h3 a ha2 b hb2 hne)
      rw [hset, show maxdim - 2 + 1 = maxdim - 1 by omega] at this
      exact this
    · rename_i hh
      refine ⟨trivial, ?_⟩
      rw [setsOf_nil]
      symm
      by_cases hm : 1 < maxdim
      · have hCe : C = [] := by
          cases C with
          | nil => rfl
          | cons a l => exact absurd ⟨rfl, hm⟩ hh
        rw [hCe, fam_nil]
      · rw [show maxdim - 1 = 0 by omega, fam_zero]
  refine ⟨⟨hspx, by intro e; rw [e] at hlen; simp at hlen, Or.inr ?_, by rw [hset]; exact htail.1⟩, ?_⟩
  · intro x hx
    rw [hset]
    rw [hspxmem] at hx
    rcases hx with rfl | rfl
    · have : ({x, j} : Finset Nat).erase x = {j} := by
        ext y; simp only [Finset.mem_erase, Finset.mem_insert, Finset.mem_singleton]
        constructor
        · rintro ⟨h1, h2 | h2⟩
          · exact absurd h2 h1
          · exact h2
        · rintro rfl; exact ⟨fun e => hij e.symm, Or.inr rfl⟩
      rw [this]; exact hsing j hj
    · have : ({i, x} : Finset Nat).erase x = {i} := by
        ext y; simp only [Finset.mem_erase, Finset.mem_insert, Finset.mem_singleton]
        constructor
        · rintro ⟨h1, h2 | h2⟩
          · exact h2
          · exact absurd h2 h1
        · rintro rfl; exact ⟨hij, Or.inl rfl⟩
      rw [this]; exact hsing i hi
  · intro τ
    unfold edgeSeq
    rw [setsOf_cons, hset, htail.2, Set.mem_insert_iff]
    constructor
    · rintro (rfl | ⟨S, h1, h2, h3, h4, rfl⟩)
      · refine ⟨by simp, by simp, by simp, ?_, ?_, ?_⟩
        · intro a ha
          simp only [Finset.mem_insert, Finset.mem_singleton] at ha
          rcases ha with rfl | rfl <;> assumption
        · rw [Finset.card_pair hij]
          have := le_max_right maxdim 1
          omega
        · intro a ha b hb hne
          simp only [Finset.mem_insert, Finset.mem_singleton] at ha hb
          rcases ha with rfl | rfl <;> rcases hb with rfl | rfl
          · exact absurd rfl hne
          · exact Or.inr (Or.inl ⟨rfl, rfl⟩)
          · exact Or.inr (Or.inr ⟨rfl, rfl⟩)
          · exact absurd rfl hne
      · have hS : ∀ y ∈ S, A i y ∧ A j y := by
          intro y hy
          have := h1 hy
          rw [List.mem_toFinset, hC] at this
          exact this
        refine ⟨by simp, by simp, by simp, ?_, ?_, ?_⟩
        · intro a ha
          simp only [Finset.mem_union, Finset.mem_insert, Finset.mem_singleton] at ha
          rcases ha with (rfl | rfl) | h
          · exact hi
          · exact hj
          · exact (hlt _ _ (hS a h).1).2
        · have h5 : ({i, j} ∪ S : Finset Nat).card ≤ 2 + S.card := le_trans (Finset.card_union_le _ _) (by rw [Finset.card_pair hij])
          have := le_max_left maxdim 1
          have := Finset.card_pos.2 h2
          omega
        · intro a ha b hb hne
          simp only [Finset.mem_union, Finset.mem_insert, Finset.mem_singleton] at ha hb
          rcases ha with (rfl | rfl) | ha2 <;> rcases hb with (rfl | rfl) | hb2
          · exact absurd rfl hne
          · exact Or.inr (Or.inl ⟨rfl, rfl⟩)
          · exact Or.inl (hS b hb2).1
          · exact Or.inr (Or.inr ⟨rfl, rfl⟩)
          · exact absurd rfl hne
          · exact Or.inl (hS b hb2).2
          · exact Or.inl (hsym _ _ (hS a ha2).1)
          · exact Or.inl (hsym _ _ (hS a ha2).2)
          · exact Or.inl (h3 a ha2 b hb2 hne)
    · rintro ⟨h1, h2, h3, h4, h5, h6⟩
      by_cases he : τ = {i, j}
      · exact Or.inl he
      · right
        have hiτ : ∀ a ∈ (τ.erase i).erase j, a ≠ i ∧ a ≠ j ∧ a ∈ τ := by
          intro a ha
          simp only [Finset.mem_erase] at ha
          exact ⟨ha.2.1, ha.1, ha.2.2⟩
        have hAd : ∀ a ∈ τ, ∀ b ∈ τ, a ≠ b → (a ≠ i ∧ a ≠ j) → A a b := by
          intro a ha b hb hne hna
          rcases h6 a ha b hb hne with h | ⟨h, _⟩ | ⟨h, _⟩
          · exact h
          · exact absurd h hna.1
          · exact absurd h hna.2
        have hcard : ((τ.erase i).erase j).card + 2 = τ.card := by
          rw [Finset.card_erase_of_mem (by rw [Finset.mem_erase]; exact ⟨Ne.symm hij, h2⟩), Finset.card_erase_of_mem h1]
          have : 2 ≤ τ.card := by
            have := Finset.card_le_card (show ({i, j} : Finset Nat) ⊆ τ by intro x hx; simp at hx; rcases hx with rfl | rfl <;> assumption)
            rwa [Finset.card_pair hij] at this
          omega
        have heq : τ = {i, j} ∪ (τ.erase i).erase j := by
          ext y
          simp only [Finset.mem_union, Finset.mem_insert, Finset.mem_singleton, Finset.mem_erase]
          constructor
          · intro hy
            by_cases h1 : y = i
            · exact Or.inl (Or.inl h1)
            · by_cases h2 : y = j
              · exact Or.inl (Or.inr h2)
              · exact Or.inr ⟨h2, h1, hy⟩
          · rintro ((rfl | rfl) | h)
            · exact h1
            · exact h2
            · exact h.2.2
        have hne : ((τ.erase i).erase j).Nonempty := by
          rw [Finset.nonempty_iff_ne_empty]
          intro e
          rw [e, Finset.union_empty] at heq
          exact he heq
        refine ⟨(τ.erase i).erase j, ?_, hne, ?_, ?_, heq⟩
        · intro a ha
          obtain ⟨b1, b2, b3⟩ := hiτ a ha
          rw [List.mem_toFinset, hC]
          exact ⟨hsym _ _ (hAd a b3 i h1 b1 ⟨b1, b2⟩), hsym _ _ (hAd a b3 j h2 b2 ⟨b1, b2⟩)⟩
        · intro a ha b hb hne
          obtain ⟨b1, b2, b3⟩ := hiτ a ha
          exact hAd a b3 b (hiτ b hb).2.2 hne ⟨b1, b2⟩
        · have := Finset.card_pos.2 hne
          rcases le_total maxdim 1 with h | h
          · rw [max_eq_right h] at h5; omega
          · rw [max_eq_left h] at h5; omega

/-- the cliques after adding an edge -/
theorem cliqueSet_addEdge {A : Nat → Nat → Prop} {n D i j : Nat} (hij : i ≠ j) (hnew : ¬ A i j) (τ : Finset Nat) :
    τ ∈ CliqueSet (addEdge A i j) n D ↔ (i ∈ τ ∧ j ∈ τ ∧ τ ∈ CliqueSet (addEdge A i j) n D) ∨ τ ∈ CliqueSet A n D := by
  constructor
  · intro h
    by_cases hc : i ∈ τ ∧ j ∈ τ
    · exact Or.inl ⟨hc.1, hc.2, h⟩
    · right
      obtain ⟨h1, h2, h3, h4⟩ := h
      refine ⟨h1, h2, h3, ?_⟩
      intro a ha b hb hne
      rcases h4 a ha b hb hne with h | ⟨rfl, rfl⟩ | ⟨rfl, rfl⟩
      · exact h
      · exact absurd ⟨ha, hb⟩ hc
      · exact absurd ⟨hb, ha⟩ hc
  · rintro (h | h)
    · exact h.2.2
    · obtain ⟨h1, h2, h3, h4⟩ := h
      exact ⟨h1, h2, h3, fun a ha b hb hne => Or.inl (h4 a ha b hb hne)⟩

/-! ## from sequences to calls -/

section filt
variable {T : Type} [Zero T]

theorem loop_run {f : Nat → Filt T → Res (Filt T)} {g : Nat → List (Filt.Op T)} : ∀ (C : List Nat) (Φ : Filt T), (∀ k ∈ C, ∀ Φ, f k Φ = Φ.run (g k)) →
    loop f C Φ = Φ.run (C.flatMap g) := by
  intro C
  induction C with
  | nil => intro Φ _; rfl
  | cons k C ih =>
    intro Φ h
    rw [loop, h k (by simp), List.flatMap_cons, run_append]
    congr 1
    funext Ψ
    exact ih Ψ (fun k' hk' => h k' (by simp [hk']))
where
  run_append : ∀ {Φ : Filt T} {a b : List (Filt.Op T)}, Φ.run (a ++ b) = (Φ.run a >>= fun Ψ => Ψ.run b) := by
    intro Φ a
    induction a generalizing Φ with
    | nil => intro b; rfl
    | cons o os ih =>
      intro b
      show (do let Ψ ← Φ.step o; Ψ.run (os ++ b) : Res (Filt T)) = ((do let Ψ ← Φ.step o; Ψ.run os : Res (Filt T)) >>= fun Ψ => Ψ.run b)
      rcases hs : Φ.step o with e | Ψ
      · rfl
      · simp only [bind_ok]; exact ih

theorem recFilt_run (nbrs : List (List Nat)) (t : T) : ∀ (m : Nat) (C P : List Nat) (Φ : Filt T), (∀ k ∈ C, k < nbrs.length) →
    recFilt nbrs t m C P Φ = Φ.run ((flagSeq (fun k => nbrs.getD k []) m C P).map (Filt.Op.add t)) := by
  intro m
  induction m with
  | zero =>
    intro C P Φ h
    unfold recFilt flagSeq
    rw [loop_run (g := fun k => [Filt.Op.add t (sortV (P ++ [k]))]) C Φ]
    · congr 1
      rw [List.map_flatMap]
      rfl
    · intro k hk Φ
      show _ = (do let Ψ ← Φ.step (.add t (sortV (P ++ [k]))); Ψ.run [] : Res (Filt T))
      show (do let r ← Φ.add t (sortV (P ++ [k])); pure r.1 : Res (Filt T)) = (do let Ψ ← (do let r ← Φ.add t (sortV (P ++ [k])); pure r.1 : Res (Filt T)); Ψ.run [] : Res (Filt T))
      rcases Φ.add t (sortV (P ++ [k])) with e | r <;> rfl
  | succ m ih =>
    intro C P Φ h
    rw [recFilt, flagSeq]
    rw [loop_run (g := fun k => Filt.Op.add t (sortV (P ++ [k])) ::
      (flagSeq (fun k => nbrs.getD k []) m (intersectSortedLt k C (nbrs.getD k [])) (sortV (P ++ [k]))).map (Filt.Op.add t)) C Φ]
    · congr 1
      rw [List.map_flatMap]
      rfl
    · intro k hk Φ
      have hr : rd nbrs k = .ok (nbrs.getD k []) := by
        rw [rd_lt (h k hk), List.getD_eq_getElem?_getD, List.getElem?_eq_getElem (h k hk)]; rfl
      show (do let r ← Φ.add t (sortV (P ++ [k])); let nb ← rd nbrs k; recFilt nbrs t m (intersectSortedLt k C nb) (sortV (P ++ [k])) r.1 : Res (Filt T)) =
        (do let Ψ ← (do let r ← Φ.add t (sortV (P ++ [k])); pure r.1 : Res (Filt T)); Ψ.run _ : Res (Filt T))
      rcases Φ.add t (sortV (P ++ [k])) with e | r
      · rfl
      · simp only [bind_ok, pure_ok, hr]
        apply ih
        intro x hx
        have : x ∈ C := by
          have hsub : ∀ (mv : Nat) (a b : List Nat), ∀ x ∈ intersectSortedLt mv a b, x ∈ a := by
            intro mv a b
            fun_induction intersectSortedLt mv a b <;> simp_all
          exact hsub k C _ x hx
        exact h x this

/-- the partial function on lists given by a partial function on vertex sets -/
def ofFin (u : Finset Nat → Option T) : List Nat → Option T := fun s => if s.Pairwise (· < ·) then u s.toFinset else none

theorem ofFin_sort (u : Finset Nat → Option T) (τ : Finset Nat) : ofFin u (τ.sort (· ≤ ·)) = u τ := by
  unfold ofFin
  rw [if_pos (pairwise_sort_lt τ), Finset.sort_toFinset]

theorem sorted_of_nodup {s : List Nat} (h : s.Nodup) : (s.mergeSort (· ≤ ·)).Pairwise (· < ·) := by
  rw [mergeSort_eq]
  have h1 := List.pairwise_insertionSort (· ≤ ·) s
  have h2 : (sortV s).Nodup := sortV_nodup.2 h
  exact (h1.and h2).imp (fun h => lt_of_le_of_ne h.1 h.2)

open Classical in
theorem specAdd_ofFin (u : Finset Nat → Option T) (t : T) {s : List Nat} (hs : s.Nodup) (hl : s.length = 1 ∨ ∀ x ∈ s, s.toFinset.erase x ∈ {τ | u τ ≠ none}) :
    Filt.specStep (ofFin u) (.add t s) = some (ofFin (fun τ => if τ = s.toFinset then some t else u τ)) := by
  have hsort := sorted_of_nodup hs
  have hset : (s.mergeSort (· ≤ ·)).toFinset = s.toFinset := by rw [mergeSort_eq]; exact sortV_toFinset s
  have hlen : (s.mergeSort (· ≤ ·)).length = s.length := by rw [mergeSort_eq]; exact sortV_length' s
  show Filt.specAdd (ofFin u) t (s.mergeSort (· ≤ ·)) = _
  unfold Filt.specAdd
  rw [if_pos]
  · congr 1
    funext w
    unfold ofFin
    by_cases hw : w.Pairwise (· < ·)
    · rw [if_pos hw, if_pos hw]
      show _ = if w.toFinset = s.toFinset then some t else u w.toFinset
      by_cases e : w = s.mergeSort (· ≤ ·)
      · rw [if_pos e, if_pos (by rw [e, hset])]
      · rw [if_neg e, if_neg]
        intro e'
        exact e (toFinset_inj_of_sorted hw hsort (by rw [e', hset]))
    · rw [if_neg hw, if_neg hw, if_neg]
      rintro rfl
      exact hw hsort
  · rw [hlen]
    rcases hl with h | h
    · exact Or.inl h
    · right
      intro k hk
      have hk' : k < (s.mergeSort (· ≤ ·)).length := by rw [hlen]; exact hk
      unfold ofFin
      rw [if_pos (hsort.sublist (List.eraseIdx_sublist _ _)), toFinset_eraseIdx (hsort.imp (fun h => ne_of_lt h)) hk', hset]
      apply h
      have : (s.mergeSort (· ≤ ·))[k] ∈ s.mergeSort (· ≤ ·) := List.getElem_mem _
      rwa [List.mem_mergeSort] at this

theorem specRun_append : ∀ (a b : List (Filt.Op T)) (v : List Nat → Option T),
    Filt.specRun v (a ++ b) = (Filt.specRun v a).bind (fun w => Filt.specRun w b) := by
  intro a
  induction a with
  | nil => intro b v; rfl
  | cons o os ih =>
    intro b v
    show (Filt.specStep v o).bind _ = ((Filt.specStep v o).bind _).bind _
    rcases Filt.specStep v o with _ | w
    · rfl
    · exact ih b w

open Classical in
theorem specRun_legal (t : T) : ∀ (L : List (List Nat)) (u : Finset Nat → Option T), Legal {τ | u τ ≠ none} L →
    Filt.specRun (ofFin u) (L.map (Filt.Op.add t)) = some (ofFin (fun τ => if τ ∈ setsOf L then some t else u τ)) := by
  intro L
  induction L with
  | nil =>
    intro u _
    show some (ofFin u) = _
    rw [setsOf_nil]; simp
  | cons s L ih =>
    intro u h
    obtain ⟨h1, h2, h3, h4⟩ := h
    show (Filt.specStep (ofFin u) (.add t s)).bind (fun w => Filt.specRun w (L.map (Filt.Op.add t))) = _
    rw [specAdd_ofFin u t h1 h3, Option.bind_some, ih]
    · congr 2
      funext τ
      rw [setsOf_cons]
      by_cases hL : τ ∈ setsOf L
      · rw [if_pos hL, if_pos (Set.mem_insert_of_mem _ hL)]
      · rw [if_neg hL]
        by_cases e : τ = s.toFinset
        · rw [if_pos e, if_pos (by rw [e]; exact Set.mem_insert _ _)]
        · rw [if_neg e, if_neg]
          rintro (h | h)
          · exact e h
          · exact hL h
    · convert h4 using 1
      ext τ
      simp only [Set.mem_ofPred_eq, Set.mem_insert_iff]
      by_cases e : τ = s.toFinset
      · simp [e]
      · simp [e]

/-! ## FlagFiltration -/

variable [LinearOrder T]

/-- adjacency of a list of edges -/
def Adj (es : List (FEdge T)) (a b : Nat) : Prop := ∃ e ∈ es, (e.s = a ∧ e.t = b) ∨ (e.s = b ∧ e.t = a)

theorem adj_symm (es : List (FEdge T)) (a b : Nat) : Adj es a b → Adj es b a := by
  rintro ⟨e, h, h1 | h1⟩
  · exact ⟨e, h, Or.inr h1⟩
  · exact ⟨e, h, Or.inl h1⟩

theorem adj_concat (es : List (FEdge T)) (e : FEdge T) : Adj (es ++ [e]) = addEdge (Adj es) e.s e.t := by
  funext a b
  apply propext
  unfold Adj addEdge
  constructor
  · rintro ⟨f, hf, h⟩
    rw [List.mem_append, List.mem_singleton] at hf
    rcases hf with hf | rfl
    · exact Or.inl ⟨f, hf, h⟩
    · rcases h with ⟨h1, h2⟩ | ⟨h1, h2⟩
      · exact Or.inr (Or.inl ⟨h1.symm, h2.symm⟩)
      · exact Or.inr (Or.inr ⟨h2.symm, h1.symm⟩)
  · rintro (⟨f, hf, h⟩ | ⟨h1, h2⟩ | ⟨h1, h2⟩)
    · exact ⟨f, by simp [hf], h⟩
    · exact ⟨e, by simp, Or.inl ⟨h1.symm, h2.symm⟩⟩
    · exact ⟨e, by simp, Or.inr ⟨h2.symm, h1.symm⟩⟩

/-- admissible edges: distinct ends below `n`, no edge twice in either direction -/
structure Simple (n : Nat) (es : List (FEdge T)) : Prop where
  ends : ∀ e ∈ es, e.s < n ∧ e.t < n ∧ e.s ≠ e.t
  once : es.Pairwise (fun e f => ¬ ((e.s = f.s ∧ e.t = f.t) ∨ (e.s = f.t ∧ e.t = f.s)))

/-- the values of the cliques -/
def ValSpec (n D : Nat) (t0 : T) (es : List (FEdge T)) (u : Finset Nat → Option T) : Prop :=
  ∀ τ x, u τ = some x ↔ τ ∈ CliqueSet (Adj es) n D ∧ (τ.card = 1 → x = t0) ∧
    (2 ≤ τ.card → IsGreatest {r | ∃ e ∈ es, e.s ∈ τ ∧ e.t ∈ τ ∧ e.r = r} x)

/-- every clique has a value -/
theorem exists_val (n D : Nat) (t0 : T) (es : List (FEdge T)) {τ : Finset Nat} (h : τ ∈ CliqueSet (Adj es) n D) :
    ∃ x, (τ.card = 1 → x = t0) ∧ (2 ≤ τ.card → IsGreatest {r | ∃ e ∈ es, e.s ∈ τ ∧ e.t ∈ τ ∧ e.r = r} x) := by
  by_cases h1 : 2 ≤ τ.card
  · have hfin : ({r | ∃ e ∈ es, e.s ∈ τ ∧ e.t ∈ τ ∧ e.r = r} : Set T).Finite := by
      apply Set.Finite.subset (es.map (fun e => e.r)).finite_toSet
      rintro r ⟨e, he, _, _, rfl⟩
      exact List.mem_map.2 ⟨e, he, rfl⟩
    have hne : ({r | ∃ e ∈ es, e.s ∈ τ ∧ e.t ∈ τ ∧ e.r = r} : Set T).Nonempty := by
      obtain ⟨a, ha, b, hb, hab⟩ := Finset.one_lt_card.1 h1
      obtain ⟨e, he, h | h⟩ := h.2.2.2 a ha b hb hab
      · exact ⟨e.r, e, he, by rw [h.1]; exact ha, by rw [h.2]; exact hb, rfl⟩
      · exact ⟨e.r, e, he, by rw [h.1]; exact hb, by rw [h.2]; exact ha, rfl⟩
    obtain ⟨x, hx⟩ := Set.Finite.exists_maximal hfin hne
    refine ⟨x, fun h => by omega, fun _ => ⟨hx.1, ?_⟩⟩
    intro y hy
    rcases le_total y x with h | h
    · exact h
    · exact hx.2 hy h
  · exact ⟨t0, fun _ => rfl, fun h => absurd h h1⟩

theorem ValSpec.dom {n D : Nat} {t0 : T} {es : List (FEdge T)} {u : Finset Nat → Option T} (h : ValSpec n D t0 es u) :
    {τ | u τ ≠ none} = CliqueSet (Adj es) n D := by
  ext τ
  rw [Set.mem_ofPred_eq]
  constructor
  · intro hn
    obtain ⟨x, hx⟩ := Option.ne_none_iff_exists'.1 hn
    exact ((h τ x).1 hx).1
  · intro hc
    obtain ⟨x, hx⟩ := exists_val n D t0 es hc
    rw [(h τ x).2 ⟨hc, hx⟩]; simp

open Classical in
/-- one edge -/
theorem ValSpec.step {n D : Nat} {t0 : T} {es : List (FEdge T)} {u : Finset Nat → Option T} (h : ValSpec n D t0 es u) {e : FEdge T}
    (hne : e.s ≠ e.t) (hnew : ¬ Adj es e.s e.t) (hmax : ∀ f ∈ es, f.r ≤ e.r) (S : Set (Finset Nat))
    (hS : ∀ τ, τ ∈ S ↔ e.s ∈ τ ∧ e.t ∈ τ ∧ τ ∈ CliqueSet (addEdge (Adj es) e.s e.t) n D) :
    ValSpec n D t0 (es ++ [e]) (fun τ => if τ ∈ S then some e.r else u τ) := by
  intro τ x
  rw [adj_concat]
  show (if τ ∈ S then some e.r else u τ) = some x ↔ _
  by_cases hτ : τ ∈ S
  · rw [if_pos hτ]
    obtain ⟨h1, h2, h3⟩ := (hS τ).1 hτ
    have hcard : 2 ≤ τ.card := by
      have := Finset.card_le_card (show ({e.s, e.t} : Finset Nat) ⊆ τ by intro x hx; simp at hx; rcases hx with rfl | rfl <;> assumption)
      rwa [Finset.card_pair hne] at this
    have hg : IsGreatest {r | ∃ f ∈ es ++ [e], f.s ∈ τ ∧ f.t ∈ τ ∧ f.r = r} e.r := by
      refine ⟨⟨e, by simp, h1, h2, rfl⟩, ?_⟩
      rintro r ⟨f, hf, _, _, rfl⟩
      rw [List.mem_append, List.mem_singleton] at hf
      rcases hf with hf | rfl
      · exact hmax f hf
      · exact le_refl _
    constructor
    · intro hx
      cases hx
      exact ⟨h3, fun h => by omega, fun _ => hg⟩
    · rintro ⟨_, _, hx⟩
      rw [(hx hcard).unique hg]
  · rw [if_neg hτ, h τ x]
    have hset : ¬ (e.s ∈ τ ∧ e.t ∈ τ) → {r | ∃ f ∈ es ++ [e], f.s ∈ τ ∧ f.t ∈ τ ∧ f.r = r} = {r | ∃ f ∈ es, f.s ∈ τ ∧ f.t ∈ τ ∧ f.r = r} := by
      intro hc
      ext r
      constructor
      · rintro ⟨f, hf, h1, h2, h3⟩
        rw [List.mem_append, List.mem_singleton] at hf
        rcases hf with hf | rfl
        · exact ⟨f, hf, h1, h2, h3⟩
        · exact absurd ⟨h1, h2⟩ hc
      · rintro ⟨f, hf, h⟩
        exact ⟨f, by simp [hf], h⟩
    rw [cliqueSet_addEdge hne hnew, ← hS]
    by_cases hc : e.s ∈ τ ∧ e.t ∈ τ
    · constructor
      · rintro ⟨h1, _⟩
        exact absurd (h1.2.2.2 _ hc.1 _ hc.2 hne) hnew
      · rintro ⟨h1, _⟩
        rcases h1 with h1 | h1
        · exact absurd h1 hτ
        · exact absurd (h1.2.2.2 _ hc.1 _ hc.2 hne) hnew
    · rw [hset hc]
      constructor
      · rintro ⟨h1, h2⟩; exact ⟨Or.inr h1, h2⟩
      · rintro ⟨h1, h2⟩; exact ⟨h1.resolve_left hτ, h2⟩

/-- the neighbour lists -/
structure NbrOK (n : Nat) (A : Nat → Nat → Prop) (nbrs : List (List Nat)) : Prop where
  len : nbrs.length = n
  inc : ∀ a, (nbrs.getD a []).Pairwise (· < ·)
  mem : ∀ a x, x ∈ nbrs.getD a [] ↔ A a x

theorem getD_set {α : Type} (l : List (List α)) (i : Nat) (v : List α) (hi : i < l.length) (a : Nat) :
    (l.set i v).getD a [] = if a = i then v else l.getD a [] := by
  rw [List.getD_eq_getElem?_getD, List.getD_eq_getElem?_getD, List.getElem?_set]
  by_cases h : i = a
  · subst h; simp [hi]
  · rw [if_neg h, if_neg (Ne.symm h)]

theorem sortV_concat_inc {l : List Nat} (h : l.Pairwise (· < ·)) {x : Nat} (hx : x ∉ l) : (sortV (l ++ [x])).Pairwise (· < ·) := by
  have h1 := List.pairwise_insertionSort (· ≤ ·) (l ++ [x])
  have h2 : (sortV (l ++ [x])).Nodup := by
    rw [sortV_nodup, List.nodup_append]
    refine ⟨h.imp (fun h => ne_of_lt h), by simp, ?_⟩
    intro a ha b hb
    simp at hb; subst hb
    rintro rfl; exact hx ha
  exact (h1.and h2).imp (fun h => lt_of_le_of_ne h.1 h.2)

theorem rd_getD {α : Type} (l : List α) (d : α) {i : Nat} (h : i < l.length) : rd l i = .ok (l.getD i d) := by
  rw [rd_lt h, List.getD_eq_getElem?_getD, List.getElem?_eq_getElem h]; rfl

theorem addNbrs_spec {n : Nat} {A : Nat → Nat → Prop} {nbrs : List (List Nat)} (h : NbrOK n A nbrs) (hsym : ∀ a b, A a b → A b a) {i j : Nat} (hi : i < n) (hj : j < n)
    (hij : i ≠ j) (hnew : ¬ A i j) : ∃ nbrs', addNbrs nbrs i j = .ok nbrs' ∧ NbrOK n (addEdge A i j) nbrs' := by
  have hi' : i < nbrs.length := by rw [h.len]; exact hi
  have hj' : j < nbrs.length := by rw [h.len]; exact hj
  have hgd : ∀ k, k < nbrs.length → rd nbrs k = .ok (nbrs.getD k []) := by
    intro k hk
    rw [rd_lt hk, List.getD_eq_getElem?_getD, List.getElem?_eq_getElem hk]; rfl
  have hj2 : j < (nbrs.set i (sortV (nbrs.getD i [] ++ [j]))).length := by rw [List.length_set]; exact hj'
  have hrd2 : rd (nbrs.set i (sortV (nbrs.getD i [] ++ [j]))) j = .ok (nbrs.getD j []) := by
    rw [rd_getD _ [] hj2, getD_set _ _ _ hi', if_neg (Ne.symm hij)]
  refine ⟨(nbrs.set i (sortV (nbrs.getD i [] ++ [j]))).set j (sortV (nbrs.getD j [] ++ [i])), ?_, ?_⟩
  · unfold addNbrs
    rw [hgd i hi', bind_ok, wr_lt _ hi', bind_ok, hrd2, bind_ok, wr_lt _ hj2]
  · have hval : ∀ a, ((nbrs.set i (sortV (nbrs.getD i [] ++ [j]))).set j (sortV (nbrs.getD j [] ++ [i]))).getD a [] =
        if a = j then sortV (nbrs.getD j [] ++ [i]) else if a = i then sortV (nbrs.getD i [] ++ [j]) else nbrs.getD a [] := by
      intro a
      rw [getD_set _ _ _ hj2, getD_set _ _ _ hi']
    refine ⟨by rw [List.length_set, List.length_set, h.len], ?_, ?_⟩
    · intro a
      rw [hval]
      split
      · exact sortV_concat_inc (h.inc j) (by rw [h.mem]; exact fun hh => hnew (hsym _ _ hh))
      · split
        · exact sortV_concat_inc (h.inc i) (by rw [h.mem]; exact hnew)
        · exact h.inc a
    · intro a x
      rw [hval]
      unfold addEdge
      split
      · rename_i e
        rw [mem_sortV, List.mem_append, List.mem_singleton, h.mem, e]
        constructor
        · rintro (h | h)
          · exact Or.inl h
          · exact Or.inr (Or.inr ⟨rfl, h⟩)
        · rintro (h | h | h)
          · exact Or.inl h
          · exact absurd h.1.symm hij
          · exact Or.inr h.2
      · rename_i e
        split
        · rename_i e'
          rw [mem_sortV, List.mem_append, List.mem_singleton, h.mem, e']
          constructor
          · rintro (h | h)
            · exact Or.inl h
            · exact Or.inr (Or.inl ⟨rfl, h⟩)
          · rintro (h | h | h)
            · exact Or.inl h
            · exact Or.inr h.2
            · exact absurd h.1 hij
        · rename_i e'
          rw [h.mem]
          constructor
          · exact Or.inl
          · rintro (h | h | h)
            · exact h
            · exact absurd h.1 e'
            · exact absurd h.1 e

theorem not_adj_self {n : Nat} {es : List (FEdge T)} (h : ∀ e ∈ es, e.s < n ∧ e.t < n ∧ e.s ≠ e.t) (a : Nat) : ¬ Adj es a a := by
  rintro ⟨e, he, ⟨h1, h2⟩ | ⟨h1, h2⟩⟩ <;> exact (h e he).2.2 (by rw [h1, h2])

theorem adj_lt {n : Nat} {es : List (FEdge T)} (h : ∀ e ∈ es, e.s < n ∧ e.t < n ∧ e.s ≠ e.t) (a b : Nat) : Adj es a b → a < n ∧ b < n := by
  rintro ⟨e, he, ⟨rfl, rfl⟩ | ⟨rfl, rfl⟩⟩
  · exact ⟨(h e he).1, (h e he).2.1⟩
  · exact ⟨(h e he).2.1, (h e he).1⟩

/-- state of the loop over the edges -/
structure LoopInv (n maxdim : Nat) (t0 : T) (es : List (FEdge T)) (nbrs : List (List Nat)) (Φ : Filt T) (cells : Cells) (u : Finset Nat → Option T) : Prop where
  filt : Filt.FInv Φ cells (ofFin u)
  val : ValSpec n (max maxdim 1) t0 es u
  nbr : NbrOK n (Adj es) nbrs

open Classical in
theorem edgesFilt_spec {n maxdim : Nat} {t0 : T} : ∀ (es2 es1 : List (FEdge T)) (nbrs : List (List Nat)) (Φ : Filt T) (cells : Cells) (u : Finset Nat → Option T),
    LoopInv n maxdim t0 es1 nbrs Φ cells u → Simple n (es1 ++ es2) → (es1 ++ es2).Pairwise (fun e f => e.r ≤ f.r) →
    ∃ Ψ cells' u', edgesFilt maxdim es2 nbrs Φ = .ok Ψ ∧ Filt.FInv Ψ cells' (ofFin u') ∧ ValSpec n (max maxdim 1) t0 (es1 ++ es2) u' ∧
      Φ.X.maxdim ≤ Ψ.X.maxdim := by
  intro es2
  induction es2 with
  | nil =>
    intro es1 nbrs Φ cells u h _ _
    rw [List.append_nil]
    exact ⟨Φ, cells, u, rfl, h.filt, h.val, Nat.le_refl _⟩
  | cons e es2 ih =>
    intro es1 nbrs Φ cells u h hs hr
    have he : e ∈ es1 ++ e :: es2 := by simp
    obtain ⟨hi, hj, hij⟩ := hs.ends e he
    have hends1 : ∀ f ∈ es1, f.s < n ∧ f.t < n ∧ f.s ≠ f.t := fun f hf => hs.ends f (by simp [hf])
    have hnew : ¬ Adj es1 e.s e.t := by
      rintro ⟨f, hf, h1 | h1⟩
      · exact (List.pairwise_append.1 hs.once).2.2 f hf e (by simp) (Or.inl h1)
      · exact (List.pairwise_append.1 hs.once).2.2 f hf e (by simp) (Or.inr h1)
    have hmax : ∀ f ∈ es1, f.r ≤ e.r := fun f hf => (List.pairwise_append.1 hr).2.2 f hf e (by simp)
    have hspx : (sortV [e.s, e.t]).Nodup := by rw [sortV_nodup]; simp [hij]
    have hset : (sortV [e.s, e.t]).toFinset = {e.s, e.t} := by rw [sortV_toFinset]; simp
    obtain ⟨hleg, hmem⟩ := edgeSeq_spec (maxdim := maxdim) (adj_symm es1) (not_adj_self hends1) h.nbr.inc h.nbr.mem (adj_lt hends1) hi hj hij hnew hspx hset
    obtain ⟨nbrs', hn1, hn2⟩ := addNbrs_spec h.nbr (adj_symm es1) hi hj hij hnew
    rw [← adj_concat] at hn2
    rw [← h.val.dom] at hleg
    have hspec := specRun_legal e.r _ u hleg
    have hne : ∀ o ∈ (edgeSeq (fun k => nbrs.getD k []) maxdim (intersectSorted (nbrs.getD e.s []) (nbrs.getD e.t [])) (sortV [e.s, e.t])).map (Filt.Op.add e.r),
        o.simplex ≠ [] := by
      intro o ho
      rw [List.mem_map] at ho
      obtain ⟨s, hs', rfl⟩ := ho
      have hnon : ∀ (L : List (List Nat)) (K : Set (Finset Nat)), Legal K L → ∀ s ∈ L, s ≠ [] := by
        intro L
        induction L with
        | nil => intro K _ s hs; simp at hs
        | cons a L ihL =>
          intro K hK s hs
          rw [List.mem_cons] at hs
          rcases hs with rfl | hs
          · exact hK.2.1
          · exact ihL _ hK.2.2.2 s hs
      exact hnon _ _ hleg s hs'
    obtain ⟨Ψ1, c1, r1, r2, r3⟩ := (Filt.run_inv _ h.filt hne).1 _ hspec
    have hv1 := h.val.step hij hnew hmax _ hmem
    have hcode : (do
        let r ← Φ.add e.r (sortV [e.s, e.t])
        recIf maxdim nbrs e.r (intersectSorted (nbrs.getD e.s []) (nbrs.getD e.t [])) (sortV [e.s, e.t]) r.1 : Res (Filt T)) = .ok Ψ1 := by
      rw [← r1]
      show _ = (do let Ψ ← (do let r ← Φ.add e.r (sortV [e.s, e.t]); pure r.1 : Res (Filt T)); Ψ.run _ : Res (Filt T))
      rcases Φ.add e.r (sortV [e.s, e.t]) with er | r
      · rfl
      · simp only [bind_ok, pure_ok]
        unfold recIf
        split
        · apply recFilt_run
          intro k hk
          have := ((C27_intersect_sorted (h.nbr.inc e.s) (h.nbr.inc e.t)).2 k).1 hk
          have := adj_lt hends1 _ _ ((h.nbr.mem _ _).1 this.1)
          rw [h.nbr.len]; exact this.2
        · rfl
    obtain ⟨Ψ, c', u', f1, f2, f3, f4⟩ := ih (es1 ++ [e]) nbrs' Ψ1 c1 _ ⟨r2, hv1, hn2⟩ (by rw [List.append_assoc]; exact hs) (by rw [List.append_assoc]; exact hr)
    rw [List.append_assoc] at f3
    refine ⟨Ψ, c', u', ?_, f2, f3, Nat.le_trans r3 f4⟩
    have hgd : ∀ k, k < n → rd nbrs k = .ok (nbrs.getD k []) := by
      intro k hk
      have hk' : k < nbrs.length := by rw [h.nbr.len]; exact hk
      rw [rd_lt hk', List.getD_eq_getElem?_getD, List.getElem?_eq_getElem hk']; rfl
    show (do
      let r ← Φ.add e.r (sortV [e.s, e.t])
      let ni ← rd nbrs e.s
      let nj ← rd nbrs e.t
      let Ψ ← recIf maxdim nbrs e.r (intersectSorted ni nj) (sortV [e.s, e.t]) r.1
      let nbrs' ← addNbrs nbrs e.s e.t
      edgesFilt maxdim es2 nbrs' Ψ : Res (Filt T)) = _
    rcases hadd : Φ.add e.r (sortV [e.s, e.t]) with er | r
    · rw [hadd] at hcode; cases hcode
    · rw [hadd] at hcode
      simp only [bind_ok] at hcode
      simp only [bind_ok, hgd _ hi, hgd _ hj, hcode, hn1, f1]

end filt

end Flag
end BATS
