import Verif.Proofs.ZZLabel

set_option linter.unusedSectionVars false
set_option linter.unusedSimpArgs false
set_option linter.unusedVariables false

/-! # The sorted events form a valid order -/

namespace BATS
namespace Zigzag
open Matrix Reduction

variable {F : Type} [Field F] [DecidableEq F] {T : Type} [LinearOrder T]

/-- the list `l` of events: no event twice, no exit before the entry of the same cell -/
structure EventsOK (l : List (Event T)) : Prop where
  once : l.Pairwise (fun a b => ¬ (a.dim = b.dim ∧ a.ind = b.ind ∧ a.entry = b.entry))
  first : l.Pairwise (fun a b => ¬ (a.dim = b.dim ∧ a.ind = b.ind ∧ a.entry = false ∧ b.entry = true))

theorem EventsOK.append_left {l r : List (Event T)} (h : EventsOK (l ++ r)) : EventsOK l :=
  ⟨(List.pairwise_append.1 h.once).1, (List.pairwise_append.1 h.first).1⟩

theorem mem_present : ∀ l : List (Event T), EventsOK l → ∀ k j, j ∈ present l k ↔
    (∃ e ∈ l, e.dim = k ∧ e.ind = j ∧ e.entry = true) ∧ ¬ ∃ e ∈ l, e.dim = k ∧ e.ind = j ∧ e.entry = false := by
  intro l
  induction l using List.reverseRecOn with
  | nil => intro _ k j; simp [present]
  | append_singleton l e ih =>
    intro h k j
    have ih' := ih h.append_left k j
    have hp : present (l ++ [e]) k = (if e.dim = k then (if e.entry then insert e.ind (present l k) else (present l k).erase e.ind) else present l k) := by
      unfold present; rw [List.foldl_append]; rfl
    have h1 : ∀ f ∈ l, ¬ (f.dim = e.dim ∧ f.ind = e.ind ∧ f.entry = e.entry) := fun f hf => (List.pairwise_append.1 h.once).2.2 f hf e (by simp)
    have h2 : ∀ f ∈ l, ¬ (f.dim = e.dim ∧ f.ind = e.ind ∧ f.entry = false ∧ e.entry = true) := fun f hf => (List.pairwise_append.1 h.first).2.2 f hf e (by simp)
    rw [hp]
    have hmem : ∀ b : Bool, (∃ f ∈ l ++ [e], f.dim = k ∧ f.ind = j ∧ f.entry = b) ↔ (∃ f ∈ l, f.dim = k ∧ f.ind = j ∧ f.entry = b) ∨ (e.dim = k ∧ e.ind = j ∧ e.entry = b) := by
      intro b
      constructor
      · rintro ⟨f, hf, hx⟩
        rcases List.mem_append.1 hf with hf | hf
        · exact Or.inl ⟨f, hf, hx⟩
        · rw [List.mem_singleton] at hf; subst hf; exact Or.inr hx
      · rintro (⟨f, hf, h⟩ | h)
        · exact ⟨f, List.mem_append_left _ hf, h⟩
        · exact ⟨e, by simp, h⟩
    rw [hmem, hmem]
    by_cases hk : e.dim = k
    · rw [if_pos hk]
      rcases he : e.entry with _ | _
      · rw [if_neg (by simp), Finset.mem_erase, ih']
        constructor
        · rintro ⟨hne, h3, h4⟩
          refine ⟨Or.inl h3, ?_⟩
          rintro (h5 | h5)
          · exact h4 h5
          · exact hne h5.2.1.symm
        · rintro ⟨h3, h4⟩
          have hne : j ≠ e.ind := fun hh => h4 (Or.inr ⟨hk, hh.symm, rfl⟩)
          refine ⟨hne, ?_, fun h5 => h4 (Or.inl h5)⟩
          rcases h3 with h3 | h3
          · exact h3
          · exact absurd h3.2.2 (by simp)
      · rw [if_pos rfl, Finset.mem_insert, ih']
        constructor
        · rintro (rfl | ⟨h3, h4⟩)
          · refine ⟨Or.inr ⟨hk, rfl, rfl⟩, ?_⟩
            rintro (⟨f, hf, h5, h6, h7⟩ | h5)
            · exact h2 f hf ⟨by rw [h5, hk], h6, h7, he⟩
            · exact absurd h5.2.2 (by simp)
          · refine ⟨Or.inl h3, ?_⟩
            rintro (h5 | h5)
            · exact h4 h5
            · exact absurd h5.2.2 (by simp)
        · rintro ⟨h3, h4⟩
          rcases h3 with h3 | h3
          · exact Or.inr ⟨h3, fun h5 => h4 (Or.inl h5)⟩
          · exact Or.inl h3.2.1.symm
    · rw [if_neg hk, ih']
      constructor
      · rintro ⟨h3, h4⟩
        exact ⟨Or.inl h3, by rintro (h5 | h5); exacts [h4 h5, hk h5.1]⟩
      · rintro ⟨h3, h4⟩
        refine ⟨?_, fun h5 => h4 (Or.inl h5)⟩
        rcases h3 with h3 | h3
        · exact h3
        · exact absurd h3.1 hk

/-- what the comparison of events must satisfy -/
structure CmpOK (C : List (CMat F)) (es : List (Event T)) (cmp : Event T → Event T → Bool) : Prop where
  swo : StrictWeakOn cmp es
  val : ∀ a ∈ es, ∀ b ∈ es, a.val < b.val → cmp a b = true
  entry : ∀ a ∈ es, ∀ b ∈ es, a.val = b.val → a.entry = true → b.entry = false → cmp a b = true
  face : ∀ a ∈ es, ∀ b ∈ es, a.val = b.val → a.entry = true → b.entry = true → a.dim + 1 = b.dim → ent C b.dim a.ind b.ind ≠ 0 → cmp a b = true
  last : ∀ a ∈ es, ∀ b ∈ es, a.val = b.val → a.entry = false → b.entry = false → a.dim = b.dim → b.ind < a.ind → cmp a b = true
  coface : ∀ a ∈ es, ∀ b ∈ es, a.val = b.val → a.entry = false → b.entry = false → a.dim = b.dim + 1 → ent C a.dim b.ind a.ind ≠ 0 → cmp a b = true

/-- the events of the copies -/
structure EventsOf (C : List (CMat F)) (lab : Nat → Nat → Copy T) (es : List (Event T)) : Prop where
  mem : ∀ e ∈ es, e.dim < C.length ∧ e.ind < cdim C e.dim ∧ e.val = if e.entry then (lab e.dim e.ind).lo else (lab e.dim e.ind).hi
  all : ∀ k j, j < cdim C k → ∀ b : Bool, ∃ e ∈ es, e.dim = k ∧ e.ind = j ∧ e.entry = b
  once : es.Pairwise (fun a b => ¬ (a.dim = b.dim ∧ a.ind = b.ind ∧ a.entry = b.entry))

theorem EventsOf.perm {C : List (CMat F)} {lab : Nat → Nat → Copy T} {es es' : List (Event T)} (h : EventsOf C lab es) (hp : es'.Perm es) : EventsOf C lab es' :=
  ⟨fun e he => h.mem e (hp.mem_iff.1 he), fun k j hj b => by
    obtain ⟨e, he, h'⟩ := h.all k j hj b
    exact ⟨e, hp.mem_iff.2 he, h'⟩, hp.symm.pairwise h.once (fun hab hc => hab ⟨hc.1.symm, hc.2.1.symm, hc.2.2.symm⟩)⟩

theorem StrictWeakOn.perm {α : Type} {cmp : α → α → Bool} {l l' : List α} (h : StrictWeakOn cmp l) (hp : l'.Perm l) : StrictWeakOn cmp l' :=
  ⟨fun a ha b hb => h.asymm a (hp.mem_iff.1 ha) b (hp.mem_iff.1 hb),
   fun a ha b hb c hc => h.negtrans a (hp.mem_iff.1 ha) b (hp.mem_iff.1 hb) c (hp.mem_iff.1 hc)⟩

theorem CmpOK.perm {C : List (CMat F)} {es es' : List (Event T)} {cmp : Event T → Event T → Bool} (h : CmpOK C es cmp) (hp : es'.Perm es) : CmpOK C es' cmp := by
  have m : ∀ a, a ∈ es' → a ∈ es := fun a => hp.mem_iff.1
  exact ⟨h.swo.perm hp, fun a ha b hb => h.val a (m a ha) b (m b hb), fun a ha b hb => h.entry a (m a ha) b (m b hb), fun a ha b hb => h.face a (m a ha) b (m b hb),
    fun a ha b hb => h.last a (m a ha) b (m b hb), fun a ha b hb => h.coface a (m a ha) b (m b hb)⟩

section
variable {B C : List (CMat F)} {vals : List (List (List (T × T)))} {lab : Nat → Nat → Copy T} {es : List (Event T)} {cmp : Event T → Event T → Bool}

theorem precedes {pre post : List (Event T)} {e f : Event T} (hes : es = pre ++ e :: post) (hs : es.Pairwise (fun a b => cmp b a = false)) (hw : StrictWeakOn cmp es)
    (hf : f ∈ es) (h : cmp f e = true) : f ∈ pre := by
  have he : e ∈ es := by rw [hes]; simp
  rw [hes] at hf hs
  rcases List.mem_append.1 hf with hf' | hf'
  · exact hf'
  · exfalso
    rcases List.mem_cons.1 hf' with rfl | hf''
    · have := hw.asymm f he f he h
      rw [h] at this; cases this
    · have := (List.pairwise_cons.1 (List.pairwise_append.1 hs).2.1).1 f hf''
      rw [h] at this; cases this

theorem not_precedes {pre post : List (Event T)} {e f : Event T} (hes : es = pre ++ e :: post) (hs : es.Pairwise (fun a b => cmp b a = false))
    (h : cmp e f = true) : f ∉ pre := by
  intro hf
  rw [hes] at hs
  have := (List.pairwise_append.1 hs).2.2 f hf e (by simp)
  rw [h] at this; cases this

theorem eventsOK (hl : Labelled B vals C lab) (hv : IsZigzagFiltration B vals) (he : EventsOf C lab es) (hc : CmpOK C es cmp)
    (hs : es.Pairwise (fun a b => cmp b a = false)) : EventsOK es := by
  refine ⟨he.once, ?_⟩
  rw [List.pairwise_iff_getElem] at hs ⊢
  rintro i j hi hj hij ⟨h1, h2, h3, h4⟩
  have hs' := hs i j hi hj hij
  have m1 := he.mem _ (List.getElem_mem hi)
  have m2 := he.mem _ (List.getElem_mem hj)
  rw [h3] at m1
  rw [h4, ← h1, ← h2] at m2
  have hle := hl.le hv m1.2.1
  have e1 : es[i].val = (lab es[i].dim es[i].ind).hi := by simpa using m1.2.2
  have e2 : es[j].val = (lab es[i].dim es[i].ind).lo := by simpa using m2.2.2
  rcases lt_or_eq_of_le (show es[j].val ≤ es[i].val by rw [e1, e2]; exact hle) with h | h
  · rw [hc.val _ (List.getElem_mem hj) _ (List.getElem_mem hi) h] at hs'; cases hs'
  · rw [hc.entry _ (List.getElem_mem hj) _ (List.getElem_mem hi) h h4 h3] at hs'; cases hs'

/-- the sorted events are a valid order -/
theorem isZigzagOrder (hB : ShapesOK B) (hl : Labelled B vals C lab) (hv : IsZigzagFiltration B vals) (hdesc : ∀ k j j', j < j' → j' < cdim C k → (lab k j').hi ≤ (lab k j).hi)
    (he : EventsOf C lab es) (hc : CmpOK C es cmp) (hs : es.Pairwise (fun a b => cmp b a = false)) : IsZigzagOrder C es := by
  intro pre e post hes
  have hee : e ∈ es := by rw [hes]; simp
  obtain ⟨m1, m2, m3⟩ := he.mem e hee
  have hok := eventsOK hl hv he hc hs
  have hokp : EventsOK pre := by rw [hes] at hok; exact hok.append_left
  refine ⟨m1, m2, ?_⟩
  have sub : ∀ f, f ∈ pre → f ∈ es := fun f hf => by rw [hes]; exact List.mem_append_left _ hf
  rcases hb : e.entry with _ | _
  · -- exit
    rw [hb] at m3
    have m3' : e.val = (lab e.dim e.ind).hi := by simpa using m3
    rw [if_neg (by simp)]
    refine ⟨?_, ?_, ?_⟩
    · rw [mem_present pre hokp]
      constructor
      · obtain ⟨f, hf, h1, h2, h3⟩ := he.all e.dim e.ind m2 true
        refine ⟨f, precedes hes hs hc.swo hf ?_, h1, h2, h3⟩
        have := (he.mem f hf).2.2
        rw [h3, h1, h2] at this
        have h4 : f.val = (lab e.dim e.ind).lo := by simpa using this
        rcases lt_or_eq_of_le (show f.val ≤ e.val by rw [h4, m3']; exact hl.le hv m2) with h | h
        · exact hc.val f hf e hee h
        · exact hc.entry f hf e hee h h3 hb
      · rintro ⟨f, hf, h1, h2, h3⟩
        have ho := he.once
        rw [hes] at ho
        exact (List.pairwise_append.1 ho).2.2 f hf e (by simp) ⟨h1, h2, by rw [h3, hb]⟩
    · intro j hj
      by_contra hlt
      push Not at hlt
      obtain ⟨⟨f, hf, h1, h2, h3⟩, hno⟩ := (mem_present pre hokp _ _).1 hj
      have hjlt : j < cdim C e.dim := by have := (he.mem f (sub f hf)).2.1; rw [h1, h2] at this; exact this
      obtain ⟨g, hg, g1, g2, g3⟩ := he.all e.dim j hjlt false
      apply hno
      refine ⟨g, precedes hes hs hc.swo hg ?_, g1, g2, g3⟩
      have hgv : g.val = (lab e.dim j).hi := by
        have := (he.mem g hg).2.2
        rw [g1, g2, g3] at this; simpa using this
      have := hdesc e.dim e.ind j hlt hjlt
      rw [← hgv, ← m3'] at this
      rcases lt_or_eq_of_le this with h | h
      · exact hc.val g hg e hee h
      · exact hc.last g hg e hee h g3 hb g1 (by rw [g2]; exact hlt)
    · intro j hj
      by_contra hne
      obtain ⟨⟨f, hf, h1, h2, h3⟩, hno⟩ := (mem_present pre hokp _ _).1 hj
      have hjlt : j < cdim C (e.dim + 1) := by have := (he.mem f (sub f hf)).2.1; rw [h1, h2] at this; exact this
      obtain ⟨g, hg, g1, g2, g3⟩ := he.all (e.dim + 1) j hjlt false
      apply hno
      refine ⟨g, precedes hes hs hc.swo hg ?_, g1, g2, g3⟩
      have hgv : g.val = (lab (e.dim + 1) j).hi := by
        have := (he.mem g hg).2.2
        rw [g1, g2, g3] at this; simpa using this
      have hcon : Contains (lab e.dim e.ind) (lab (e.dim + 1) j) := by
        by_contra hcon
        rw [hl.ent e.dim e.ind j m2 hjlt, if_neg hcon] at hne; exact hne rfl
      have := hcon.2
      rw [← hgv, ← m3'] at this
      rcases lt_or_eq_of_le this with h | h
      · exact hc.val g hg e hee h
      · exact hc.coface g hg e hee h g3 hb g1 (by rw [g1, g2]; exact hne)
  · -- entry
    rw [hb] at m3
    have m3' : e.val = (lab e.dim e.ind).lo := by simpa using m3
    rw [if_pos rfl]
    refine ⟨?_, ?_⟩
    · rintro f hf ⟨h1, h2⟩
      have ho := hok
      rw [hes] at ho
      rcases h3 : f.entry with _ | _
      · exact (List.pairwise_append.1 ho.first).2.2 f hf e (by simp) ⟨h1, h2, h3, hb⟩
      · exact (List.pairwise_append.1 ho.once).2.2 f hf e (by simp) ⟨h1, h2, by rw [h3, hb]⟩
    · intro k hk i hne
      have m2' : e.ind < cdim C (k + 1) := by rw [← hk]; exact m2
      obtain ⟨hi, _⟩ := ent_row_lt hl.shapes hne
      have hcon : Contains (lab k i) (lab (k + 1) e.ind) := by
        by_contra hcon
        rw [hl.ent k i e.ind hi m2', if_neg hcon] at hne; exact hne rfl
      rw [mem_present pre hokp]
      constructor
      · obtain ⟨f, hf, h1, h2, h3⟩ := he.all k i hi true
        refine ⟨f, precedes hes hs hc.swo hf ?_, h1, h2, h3⟩
        have := (he.mem f hf).2.2
        rw [h3, h1, h2] at this
        have h4 : f.val = (lab k i).lo := by simpa using this
        rcases lt_or_eq_of_le (show f.val ≤ e.val by rw [h4, m3', hk]; exact hcon.1) with h | h
        · exact hc.val f hf e hee h
        · exact hc.face f hf e hee h h3 hb (by rw [h1, hk]) (by rw [hk, h2]; exact hne)
      · rintro ⟨f, hf, h1, h2, h3⟩
        refine not_precedes hes hs ?_ hf
        have := (he.mem f (sub f hf)).2.2
        rw [h3, h1, h2] at this
        have h4 : f.val = (lab k i).hi := by simpa using this
        have h5 : e.val ≤ f.val := by
          rw [h4, m3', hk]
          exact le_trans (hl.le hv m2') hcon.2
        rcases lt_or_eq_of_le h5 with h | h
        · exact hc.val e hee f (sub f hf) h
        · exact hc.entry e hee f (sub f hf) h hb h3

end
end Zigzag
end BATS
