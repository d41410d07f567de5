import Verif.Proofs.FlagTop
import Verif.Spec.Nerve

set_option linter.unusedSectionVars false
set_option linter.unusedVariables false
set_option linter.unusedSimpArgs false

/-! # The order in which `Nerve` enumerates the simplices -/

namespace BATS
namespace Nrv
open Srt SCpx Reduction BATS.Flag

open Classical in
/-- vertices are added in decreasing order below the simplex, as long as `q` holds -/
noncomputable def downSeq (q : Finset Nat → Prop) : Nat → Nat → List Nat → List (List Nat)
  | 0, _, _ => []
  | m + 1, c, P => (List.range c).flatMap (fun k =>
      if q (insert k P.toFinset) then sortV (P ++ [k]) :: downSeq q m k (sortV (P ++ [k])) else [])

/-- `σ ∪ S` for nonempty sets `S` of at most `r` vertices below `c`, with `q (σ ∪ S)` -/
def QFam (q : Finset Nat → Prop) (σ : Finset Nat) (c r : Nat) : Set (Finset Nat) :=
  {τ | ∃ S : Finset Nat, (∀ a ∈ S, a < c) ∧ S.Nonempty ∧ S.card ≤ r ∧ q (σ ∪ S) ∧ τ = σ ∪ S}

/-- `σ` and the faces of the new simplices which drop a vertex of `σ` are present -/
def QReady (q : Finset Nat → Prop) (K : Set (Finset Nat)) (σ : Finset Nat) (c r : Nat) : Prop :=
  (σ = ∅ ∨ σ ∈ K) ∧ ∀ S : Finset Nat, (∀ a ∈ S, a < c) → S.Nonempty → S.card ≤ r → q (σ ∪ S) → ∀ x ∈ σ, (σ ∪ S).erase x ∈ K

theorem qfam_rzero (q : Finset Nat → Prop) (σ : Finset Nat) (c : Nat) : QFam q σ c 0 = ∅ := by
  ext τ
  simp only [QFam, Set.mem_ofPred_eq, Set.mem_empty_iff_false, iff_false]
  rintro ⟨S, _, h2, h3, _⟩
  rw [← Finset.card_pos] at h2
  omega

theorem qfam_czero (q : Finset Nat → Prop) (σ : Finset Nat) (r : Nat) : QFam q σ 0 r = ∅ := by
  ext τ
  simp only [QFam, Set.mem_ofPred_eq, Set.mem_empty_iff_false, iff_false]
  rintro ⟨S, h1, ⟨a, ha⟩, _⟩
  have := h1 a ha
  omega

/-- downward closed -/
def Down (q : Finset Nat → Prop) : Prop := ∀ s t, q t → s ⊆ t → q s

open Classical in
theorem qfam_succ {q : Finset Nat → Prop} (hq : Down q) (σ : Finset Nat) (c r : Nat) :
    QFam q σ (c + 1) (r + 1) = QFam q σ c (r + 1) ∪ (if q (insert c σ) then insert (insert c σ) (QFam q (insert c σ) c r) else ∅) := by
  ext τ
  simp only [Set.mem_union]
  constructor
  · rintro ⟨S, h1, h2, h3, h4, rfl⟩
    by_cases hc : c ∈ S
    · right
      have hqc : q (insert c σ) := hq _ _ h4 (by
        intro x hx; rw [Finset.mem_insert] at hx
        rcases hx with rfl | hx
        · exact Finset.mem_union_right _ hc
        · exact Finset.mem_union_left _ hx)
      rw [if_pos hqc]
      by_cases hS : S = {c}
      · left; rw [hS, Finset.union_comm, ← Finset.insert_eq]
      · right
        have he : insert c σ ∪ S.erase c = σ ∪ S := by
          ext x; simp only [Finset.mem_union, Finset.mem_insert, Finset.mem_erase]
          constructor
          · rintro ((rfl | h) | h)
            · exact Or.inr hc
            · exact Or.inl h
            · exact Or.inr h.2
          · rintro (h | h)
            · exact Or.inl (Or.inr h)
            · by_cases e : x = c
              · exact Or.inl (Or.inl e)
              · exact Or.inr ⟨e, h⟩
        refine ⟨S.erase c, ?_, ?_, ?_, by rw [he]; exact h4, he.symm⟩
        · intro a ha
          rw [Finset.mem_erase] at ha
          have := h1 a ha.2
          omega
        · rw [Finset.nonempty_iff_ne_empty]
          intro e
          rw [Finset.erase_eq_empty_iff] at e
          rcases e with e | e
          · subst e; simp at hc
          · exact hS e
        · rw [Finset.card_erase_of_mem hc]; omega
    · left
      refine ⟨S, ?_, h2, h3, h4, rfl⟩
      intro a ha
      have := h1 a ha
      have : a ≠ c := by rintro rfl; exact hc ha
      omega
  · rintro (⟨S, h1, h2, h3, h4, rfl⟩ | h)
    · exact ⟨S, fun a ha => by have := h1 a ha; omega, h2, h3, h4, rfl⟩
    · by_cases hqc : q (insert c σ)
      · rw [if_pos hqc] at h
        rcases h with rfl | ⟨S, h1, h2, h3, h4, rfl⟩
        · have he : insert c σ = σ ∪ {c} := by rw [Finset.union_comm, ← Finset.insert_eq]
          exact ⟨{c}, by simp, by simp, by simp, by rw [← he]; exact hqc, he⟩
        · have he : insert c σ ∪ S = σ ∪ insert c S := by
            ext x; simp only [Finset.mem_union, Finset.mem_insert]; tauto
          refine ⟨insert c S, ?_, by simp, ?_, by rw [← he]; exact h4, he⟩
          · intro a ha
            rw [Finset.mem_insert] at ha
            rcases ha with rfl | ha
            · omega
            · have := h1 a ha; omega
          · exact le_trans (Finset.card_insert_le _ _) (by omega)
      · rw [if_neg hqc] at h; exact h.elim

open Classical in
theorem downSeq_spec {q : Finset Nat → Prop} (hq : Down q) : ∀ (m c : Nat) (P : List Nat), P.Nodup → (∀ x ∈ P, c ≤ x) → ∀ K : Set (Finset Nat),
    QReady q K P.toFinset c m → Legal K (downSeq q m c P) ∧ setsOf (downSeq q m c P) = QFam q P.toFinset c m := by
  intro m
  induction m with
  | zero => intro c P _ _ K _; exact ⟨trivial, by rw [qfam_rzero]; exact setsOf_nil⟩
  | succ m ih =>
    intro c P hP hlow K hR
    rw [downSeq]
    -- the loop over `k`
    have key : ∀ n, n ≤ c → Legal K ((List.range n).flatMap (fun k =>
        if q (insert k P.toFinset) then sortV (P ++ [k]) :: downSeq q m k (sortV (P ++ [k])) else [])) ∧
        setsOf ((List.range n).flatMap (fun k =>
        if q (insert k P.toFinset) then sortV (P ++ [k]) :: downSeq q m k (sortV (P ++ [k])) else [])) = QFam q P.toFinset n (m + 1) := by
      intro n
      induction n with
      | zero => intro _; exact ⟨trivial, by rw [qfam_czero]; exact setsOf_nil⟩
      | succ n ihn =>
        intro hn
        obtain ⟨l1, l2⟩ := ihn (by omega)
        rw [List.range_succ, List.flatMap_append, List.flatMap_singleton, setsOf_append, l2, qfam_succ hq]
        have hnP : n ∉ P := fun h => by have := hlow n h; omega
        have hset : (sortV (P ++ [n])).toFinset = insert n P.toFinset := by
          rw [sortV_toFinset, List.toFinset_append]
          ext x; simp [or_comm]
        by_cases hqn : q (insert n P.toFinset)
        · rw [if_pos hqn, if_pos hqn]
          have hnd : (sortV (P ++ [n])).Nodup := by
            rw [sortV_nodup, List.nodup_append]
            refine ⟨hP, by simp, ?_⟩
            intro a ha b hb
            simp at hb; subst hb
            rintro rfl; exact hnP ha
          have hR2 : QReady q (insert (insert n P.toFinset) (K ∪ QFam q P.toFinset n (m + 1))) (insert n P.toFinset) n m := by
            refine ⟨Or.inr (Set.mem_insert _ _), ?_⟩
            intro S h1 h2 h3 h4 x hx
            have hnS : n ∉ S := fun h => by have := h1 n h; omega
            right
            by_cases hxP : x ∈ P.toFinset
            · left
              have he : insert n P.toFinset ∪ S = P.toFinset ∪ insert n S := by
                ext y; simp only [Finset.mem_union, Finset.mem_insert]; tauto
              rw [he]
              refine hR.2 _ ?_ (by simp) (le_trans (Finset.card_insert_le _ _) (by omega)) (by rw [← he]; exact h4) x hxP
              intro a ha
              rw [Finset.mem_insert] at ha
              rcases ha with rfl | ha
              · omega
              · have := h1 a ha; omega
            · right
              have hxn : x = n := by
                rw [Finset.mem_insert] at hx; exact hx.resolve_right hxP
              subst hxn
              have he : (insert x P.toFinset ∪ S).erase x = P.toFinset ∪ S := by
                ext y; simp only [Finset.mem_erase, Finset.mem_union, Finset.mem_insert]
                constructor
                · rintro ⟨e, (h | h) | h⟩
                  · exact absurd h e
                  · exact Or.inl h
                  · exact Or.inr h
                · rintro (h | h)
                  · exact ⟨by rintro rfl; exact hxP h, Or.inl (Or.inr h)⟩
                  · exact ⟨by rintro rfl; exact hnS h, Or.inr h⟩
              rw [he]
              refine ⟨S, h1, h2, by omega, hq _ _ h4 ?_, rfl⟩
              intro y hy
              rw [Finset.mem_union] at hy ⊢
              rcases hy with hy | hy
              · left; exact Finset.mem_insert_of_mem hy
              · right; exact hy
          obtain ⟨t1, t2⟩ := ih n (sortV (P ++ [n])) hnd (by
            intro x hx
            rw [mem_sortV, List.mem_append, List.mem_singleton] at hx
            rcases hx with hx | rfl
            · have := hlow x hx; omega
            · exact Nat.le_refl _) _ (by rw [hset]; exact hR2)
          rw [hset] at t2
          refine ⟨?_, by rw [setsOf_cons, hset, t2]⟩
          apply l1.append
          rw [l2]
          refine ⟨hnd, ?_, ?_, by rw [hset]; exact t1⟩
          · intro e
            have := congrArg List.length e
            rw [sortV_length'] at this
            simp at this
          · rcases hR.1 with h0 | h0
            · left
              rw [sortV_length', List.length_append]
              have : P = [] := by rwa [List.toFinset_eq_empty_iff] at h0
              rw [this]; rfl
            · right
              intro x hx
              left
              rw [hset]
              rw [mem_sortV, List.mem_append, List.mem_singleton] at hx
              have he : insert n P.toFinset = P.toFinset ∪ {n} := by rw [Finset.union_comm, ← Finset.insert_eq]
              rcases hx with hx | rfl
              · rw [he]
                exact hR.2 {n} (by simp; omega) (by simp) (by simp) (by rw [← he]; exact hqn) x (List.mem_toFinset.2 hx)
              · rw [Finset.erase_insert (by rw [List.mem_toFinset]; exact hnP)]; exact h0
        · rw [if_neg hqn, if_neg hqn, List.append_nil, setsOf_nil]
          exact ⟨l1, rfl⟩
    exact key c (Nat.le_refl _)

/-! ## The code runs the enumeration -/

/-- the sets with indices in `τ` have a common point, if there are at least two of them -/
def NQ (cover : List (List Nat)) (τ : Finset Nat) : Prop := 2 ≤ τ.card → ∃ x, ∀ a ∈ τ, x ∈ cover.getD a []

theorem down_NQ (cover : List (List Nat)) : Down (NQ cover) := by
  intro s t h hst h2
  obtain ⟨x, hx⟩ := h (le_trans h2 (Finset.card_le_card hst))
  exact ⟨x, fun a ha => hx a (hst ha)⟩

theorem foldl_min_eq {c : Nat} : ∀ (xs : List Nat) (x : Nat), c ≤ x → (∀ y ∈ xs, c ≤ y) → (x = c ∨ c ∈ xs) → xs.foldl min x = c := by
  intro xs
  induction xs with
  | nil => intro x _ _ h; simpa using h
  | cons y ys ih =>
    intro x h1 h2 h3
    rw [List.foldl_cons]
    have hy := h2 y (by simp)
    apply ih
    · omega
    · intro z hz; exact h2 z (by simp [hz])
    · rcases h3 with h3 | h3
      · left; omega
      · rw [List.mem_cons] at h3
        rcases h3 with h3 | h3
        · left; omega
        · right; exact h3

theorem minElem_eq {l : List Nat} {c : Nat} (h1 : c ∈ l) (h2 : ∀ y ∈ l, c ≤ y) : minElem l = .ok c := by
  cases l with
  | nil => simp at h1
  | cons x xs =>
    show Except.ok (xs.foldl min x) = _
    rw [foldl_min_eq xs x (h2 x (by simp)) (fun y hy => h2 y (by simp [hy])) (by
      rw [List.mem_cons] at h1
      rcases h1 with h1 | h1
      · exact Or.inl h1.symm
      · exact Or.inr h1)]

/-- `inter` lists the common points of the sets of `P` -/
def IsInter (cover : List (List Nat)) (P inter : List Nat) : Prop := inter.Pairwise (· < ·) ∧ ∀ x, x ∈ inter ↔ ∀ a ∈ P, x ∈ cover.getD a []

theorem getD_inc {cover : List (List Nat)} (hc : IsCover cover) (k : Nat) : (cover.getD k []).Pairwise (· < ·) := by
  rw [List.getD_eq_getElem?_getD]
  by_cases hk : k < cover.length
  · rw [List.getElem?_eq_getElem hk]; exact hc _ (List.getElem_mem hk)
  · rw [List.getElem?_eq_none (by omega)]; exact List.Pairwise.nil

theorem inter_step {cover : List (List Nat)} (hc : IsCover cover) {P inter : List Nat} (h : IsInter cover P inter) (k : Nat) :
    IsInter cover (P ++ [k]) (intersectSorted (cover.getD k []) inter) := by
  obtain ⟨h1, h2⟩ := C27_intersect_sorted (getD_inc hc k) h.1
  refine ⟨h1, ?_⟩
  intro x
  rw [h2, h.2]
  constructor
  · rintro ⟨e1, e2⟩ a ha
    rw [List.mem_append, List.mem_singleton] at ha
    rcases ha with ha | rfl
    · exact e2 a ha
    · exact e1
  · intro e
    exact ⟨e k (by simp), fun a ha => e a (by simp [ha])⟩

theorem inter_sort {cover : List (List Nat)} {P inter : List Nat} (h : IsInter cover P inter) : IsInter cover (sortV P) inter :=
  ⟨h.1, fun x => by rw [h.2]; simp only [mem_sortV]⟩

theorem inter_NQ {cover : List (List Nat)} {P inter : List Nat} (h : IsInter cover P inter) (hP : 2 ≤ P.toFinset.card) :
    0 < inter.length ↔ NQ cover P.toFinset := by
  rw [List.length_pos_iff_exists_mem]
  unfold NQ
  constructor
  · rintro ⟨x, hx⟩ _
    exact ⟨x, fun a ha => (h.2 x).1 hx a (List.mem_toFinset.1 ha)⟩
  · intro e
    obtain ⟨x, hx⟩ := e hP
    exact ⟨x, (h.2 x).2 (fun a ha => hx a (List.mem_toFinset.2 ha))⟩

theorem card_insert_P {P : List Nat} {k : Nat} (hP : P ≠ []) (hk : k ∉ P) : 2 ≤ (insert k P.toFinset).card := by
  rw [Finset.card_insert_of_notMem (by rw [List.mem_toFinset]; exact hk)]
  have : 0 < P.toFinset.card := by
    rw [Finset.card_pos]
    obtain ⟨a, ha⟩ := List.exists_mem_of_ne_nil P hP
    exact ⟨a, List.mem_toFinset.2 ha⟩
  omega

theorem run_cons_add (X : SCpx) (s : List Nat) (ops : List SCpx.Op) :
    X.run (SCpx.Op.add s :: ops) = (X.add s >>= fun r => r.1.run ops) := by
  show (do let Ψ ← (do let r ← X.add s; pure r.1 : Res SCpx); Ψ.run ops : Res SCpx) = _
  rcases X.add s with e | r <;> rfl

theorem run_nil (X : SCpx) : X.run [] = .ok X := rfl

open Classical in
theorem recNerve_run {cover : List (List Nat)} (hc : IsCover cover) : ∀ (m c : Nat) (P inter : List Nat) (N : SCpx), P.Nodup → c ∈ P → (∀ x ∈ P, c ≤ x) →
    (∀ x ∈ P, x < cover.length) → IsInter cover P inter → recNerve cover m P inter N = N.run ((downSeq (NQ cover) m c P).map SCpx.Op.add) := by
  intro m
  induction m with
  | zero => intro c P inter N _ _ _ _ _; rfl
  | succ m ih =>
    intro c P inter N hP hcP hlow hlt hI
    rw [recNerve, minElem_eq hcP hlow, bind_ok, downSeq, List.map_flatMap]
    apply loopC_run
    intro k hk X
    rw [List.mem_range] at hk
    have hkP : k ∉ P := fun h => by have := hlow k h; omega
    have hkl : k < cover.length := by have := hlt c hcP; omega
    have hne : P ≠ [] := by rintro rfl; simp at hcP
    show (do
      let ck ← rd cover k
      if (intersectSorted ck inter).length > 0 then do
        let r ← X.add (SCpx.sortV (P ++ [k]))
        recNerve cover m (SCpx.sortV (P ++ [k])) (intersectSorted ck inter) r.1
      else .ok X) = _
    rw [Flag.rd_getD cover [] hkl, bind_ok]
    have hI2 := inter_step hc hI k
    have hset : (P ++ [k]).toFinset = insert k P.toFinset := by
      rw [List.toFinset_append]; ext x; simp [or_comm]
    have hnq := inter_NQ hI2 (by rw [hset]; exact card_insert_P hne hkP)
    rw [hset] at hnq
    by_cases hq : NQ cover (insert k P.toFinset)
    · rw [if_pos (hnq.2 hq), if_pos hq, List.map_cons, run_cons_add]
      rcases X.add (sortV (P ++ [k])) with e | r
      · rfl
      · rw [bind_ok, bind_ok]
        apply ih
        · rw [sortV_nodup, List.nodup_append]
          refine ⟨hP, by simp, ?_⟩
          intro a ha b hb
          simp at hb; subst hb
          rintro rfl; exact hkP ha
        · rw [mem_sortV]; simp
        · intro x hx
          rw [mem_sortV, List.mem_append, List.mem_singleton] at hx
          rcases hx with hx | rfl
          · have := hlow x hx; omega
          · exact Nat.le_refl _
        · intro x hx
          rw [mem_sortV, List.mem_append, List.mem_singleton] at hx
          rcases hx with hx | rfl
          · exact hlt x hx
          · exact hkl
        · exact inter_sort hI2
    · rw [if_neg (fun h => hq (hnq.1 h)), if_neg hq]
      rfl

theorem sortV_pair {i j : Nat} (h : j < i) : sortV [i, j] = [j, i] := by
  unfold sortV
  simp [List.insertionSort, List.orderedInsert]
  omega

theorem add_one (X : SCpx) (i : Nat) : sortV ([] ++ [i]) = [i] := rfl

open Classical in
/-- the sequence of additions made by `Nerve` -/
theorem nerve_run {cover : List (List Nat)} (hc : IsCover cover) (dmax : Nat) :
    nerve cover dmax = (SCpx.init dmax).run ((downSeq (NQ cover) (max dmax 1 + 1) cover.length []).map SCpx.Op.add) := by
  unfold nerve
  rw [downSeq, List.map_flatMap]
  apply loopC_run
  intro i hi X
  rw [List.mem_range] at hi
  have hq1 : NQ cover (insert i ([] : List Nat).toFinset) := by
    intro h; simp at h
  rw [if_pos hq1, List.map_cons, run_cons_add]
  show (do let r ← X.add [i]; nerveEdges cover dmax i r.1) = (X.add [i] >>= _)
  rcases X.add [i] with e | r
  · rfl
  · rw [bind_ok, bind_ok]
    show _ = SCpx.run r.1 ((downSeq (NQ cover) (max dmax 1) i [i]).map SCpx.Op.add)
    obtain ⟨m, hm⟩ : ∃ m, max dmax 1 = m + 1 := ⟨max dmax 1 - 1, by omega⟩
    rw [hm, downSeq, List.map_flatMap]
    unfold nerveEdges
    apply loopC_run
    intro j hj Y
    rw [List.mem_range] at hj
    have hji : j ∉ [i] := by simp; omega
    show (do
      let ci ← rd cover i
      let cj ← rd cover j
      if (intersectSorted ci cj).length > 0 then do
        let r ← Y.add [j, i]
        if 1 < dmax then recNerve cover (dmax - 1) [j, i] (intersectSorted ci cj) r.1 else .ok r.1
      else .ok Y) = _
    rw [Flag.rd_getD cover [] hi, bind_ok, Flag.rd_getD cover [] (show j < cover.length by omega), bind_ok]
    have hI : IsInter cover [i, j] (intersectSorted (cover.getD i []) (cover.getD j [])) := by
      obtain ⟨h1, h2⟩ := C27_intersect_sorted (getD_inc hc i) (getD_inc hc j)
      refine ⟨h1, fun x => ?_⟩
      rw [h2]; simp
    have hset : ([i, j] : List Nat).toFinset = insert j ([i] : List Nat).toFinset := by
      ext x; simp [or_comm]
    have hnq := inter_NQ hI (by rw [hset]; exact card_insert_P (by simp) hji)
    rw [hset] at hnq
    have hs : sortV ([i] ++ [j]) = [j, i] := sortV_pair hj
    by_cases hq : NQ cover (insert j ([i] : List Nat).toFinset)
    · rw [if_pos (hnq.2 hq), if_pos hq, List.map_cons, run_cons_add, hs]
      rcases Y.add [j, i] with e | r
      · rfl
      · rw [bind_ok, bind_ok]
        have hI' : IsInter cover [j, i] (intersectSorted (cover.getD i []) (cover.getD j [])) := by
          have := inter_sort hI
          rwa [sortV_pair hj] at this
        by_cases hd : 1 < dmax
        · rw [if_pos hd, show dmax - 1 = m by omega]
          apply recNerve_run hc _ _ _ _ _ _ _ _ _ hI'
          · simp; omega
          · simp
          · intro x hx; simp at hx; omega
          · intro x hx; simp at hx; omega
        · rw [if_neg hd, show m = 0 by omega]
          rfl
    · rw [if_neg (fun h => hq (hnq.1 h)), if_neg hq]
      rfl

/-- the nerve as a set of vertex sets -/
theorem nerve_sets {cover : List (List Nat)} (hc : IsCover cover) (dmax : Nat) :
    Legal ∅ (downSeq (NQ cover) (max dmax 1 + 1) cover.length []) ∧
      setsOf (downSeq (NQ cover) (max dmax 1 + 1) cover.length []) = QFam (NQ cover) ∅ cover.length (max dmax 1 + 1) := by
  have := downSeq_spec (down_NQ cover) (max dmax 1 + 1) cover.length [] (by simp) (by simp) ∅ ⟨Or.inl rfl, by simp⟩
  simpa using this

theorem finSet_nerve (cover : List (List Nat)) (D : Nat) : finSet (QFam (NQ cover) ∅ cover.length (D + 1)) = {s | IsNerveSimplex cover D s} := by
  ext s
  constructor
  · rintro ⟨hs, S, h1, h2, h3, h4, h5⟩
    rw [Finset.empty_union] at h5 h4
    subst h5
    have hcard : s.toFinset.card = s.length := List.toFinset_card_of_nodup (hs.imp (fun h => ne_of_lt h))
    refine ⟨?_, hs, fun a ha => h1 a (List.mem_toFinset.2 ha), by omega, ?_⟩
    · rintro rfl; simp at h2
    · intro h
      obtain ⟨x, hx⟩ := h4 (by omega)
      exact ⟨x, fun a ha => hx a (List.mem_toFinset.2 ha)⟩
  · intro h
    have hcard : s.toFinset.card = s.length := List.toFinset_card_of_nodup (h.inc.imp (fun h => ne_of_lt h))
    have h4 := h.len
    refine ⟨h.inc, s.toFinset, fun a ha => h.lt a (List.mem_toFinset.1 ha), ?_, by omega, ?_, by rw [Finset.empty_union]⟩
    · obtain ⟨a, ha⟩ := List.exists_mem_of_ne_nil s h.ne
      exact ⟨a, List.mem_toFinset.2 ha⟩
    · rw [Finset.empty_union]
      intro h2
      obtain ⟨x, hx⟩ := h.common (by omega)
      exact ⟨x, fun a ha => hx a (List.mem_toFinset.1 ha)⟩

/-- the dimension of a complex after a sequence of additions -/
theorem run_maxdim : ∀ (L : List (List Nat)) {X : SCpx} {cells : Cells}, SCpx.Inv X cells → (∀ s ∈ L, s ≠ []) → ∀ Y, X.run (L.map SCpx.Op.add) = .ok Y →
    X.maxdim ≤ Y.maxdim ∧ ∀ B, X.maxdim ≤ B → (∀ s ∈ L, s.length ≤ B + 1) → Y.maxdim ≤ B := by
  intro L
  induction L with
  | nil => intro X cells h _ Y hY; cases hY; exact ⟨Nat.le_refl _, fun B h _ => h⟩
  | cons s L ih =>
    intro X cells h hne Y hY
    rw [List.map_cons, run_cons_add] at hY
    have hs : sortV s ≠ [] := by
      intro e
      have := congrArg List.length e
      rw [sortV_length'] at this
      exact hne s (by simp) (List.length_eq_zero_iff.1 this)
    obtain ⟨Z, cells', r, h1, h2, h4, _⟩ := addDirected_set h hs
    unfold SCpx.add at hY
    rw [h1, bind_ok] at hY
    obtain ⟨i1, i2⟩ := ih h2 (fun t ht => hne t (by simp [ht])) Y hY
    have hZ : Z.maxdim = max X.maxdim (s.length - 1) := by
      have := h.sizes.ne
      have := h2.sizes.ne
      have hp := List.length_pos_iff.2 hs
      rw [sortV_length'] at hp h4
      unfold maxdim; omega
    refine ⟨by omega, fun B hB hL => i2 B ?_ (fun t ht => hL t (by simp [ht]))⟩
    have := hL s (by simp)
    omega

theorem nerve_spec {cover : List (List Nat)} (hc : IsCover cover) (dmax : Nat) :
    ∃ Y, nerve cover dmax = .ok Y ∧ SCpx.Reachable Y ∧ SCpx.Represents Y {s | IsNerveSimplex cover (max dmax 1) s} ∧ dmax ≤ Y.maxdim ∧ Y.maxdim ≤ max dmax 1 ∧
      (Y.maxdim = dmax ∨ ∃ s, IsNerveSimplex cover 1 s ∧ s.length = 2) := by
  obtain ⟨hl, hs⟩ := nerve_sets hc dmax
  obtain ⟨L, hL⟩ : ∃ L, L = downSeq (NQ cover) (max dmax 1 + 1) cover.length [] := ⟨_, rfl⟩
  rw [← hL] at hl hs
  obtain ⟨i1, i2⟩ := init_inv dmax
  obtain ⟨Y, cells, h1, h2, h3⟩ := runC_legal i1 (K := ∅) (by ext s; simp [SCpx.setOf, finSet]) hl
  rw [Set.empty_union, hs, finSet_nerve] at h3
  have hm : (SCpx.init dmax).maxdim = dmax := by unfold maxdim; rw [i2]; omega
  have hne := legal_ne L _ hl
  obtain ⟨m1, m2⟩ := run_maxdim L i1 hne Y h1
  have hrep := h2.represents
  rw [h3] at hrep
  have hnodup : ∀ s ∈ L, s.Nodup := by
    have : ∀ (L : List (List Nat)) (K : Set (Finset Nat)), Legal K L → ∀ s ∈ L, s.Nodup := by
      intro L
      induction L with
      | nil => intro K _ s hs; simp at hs
      | cons a L ihL =>
        intro K hK s hs
        rw [List.mem_cons] at hs
        rcases hs with rfl | hs
        · exact hK.1
        · exact ihL _ hK.2.2.2 s hs
    exact this L _ hl
  have hlen : ∀ s ∈ L, s.toFinset.card = s.length := fun s h => List.toFinset_card_of_nodup (hnodup s h)
  have hcardL : ∀ s ∈ L, s.toFinset ∈ QFam (NQ cover) ∅ cover.length (max dmax 1 + 1) := by
    intro s h; rw [← hs]; exact ⟨s, h, rfl⟩
  refine ⟨Y, by rw [nerve_run hc, ← hL]; exact h1, ⟨dmax, L.map SCpx.Op.add, ?_, h1⟩, hrep, by omega, ?_, ?_⟩
  · intro o ho
    rw [List.mem_map] at ho
    obtain ⟨s, hs', rfl⟩ := ho
    exact hne s hs'
  · apply m2 _ (by omega)
    intro s h
    obtain ⟨S, _, _, c, _, e⟩ := hcardL s h
    rw [Finset.empty_union] at e
    rw [← e, hlen s h] at c
    exact c
  · by_cases hY : Y.maxdim = dmax
    · exact Or.inl hY
    · right
      by_contra hno
      apply hY
      have : Y.maxdim ≤ dmax := by
        apply m2 _ (by omega)
        intro s h
        obtain ⟨S, c0, c1, c, c2, e⟩ := hcardL s h
        rw [Finset.empty_union] at e c2
        subst e
        rw [hlen s h] at c
        rcases Nat.lt_or_ge dmax 1 with hd | hd
        · have hd : dmax = 0 := by omega
          subst hd
          by_contra hl2
          apply hno
          have hm : (sortV s) ∈ finSet (QFam (NQ cover) ∅ cover.length 2) := by
            refine ⟨?_, ?_⟩
            · have h1 := List.pairwise_insertionSort (· ≤ ·) s
              have h2 : (sortV s).Nodup := by
                rw [sortV_nodup]
                exact hnodup s h
              exact (h1.and h2).imp (fun h => lt_of_le_of_ne h.1 h.2)
            · rw [sortV_toFinset]; exact hcardL s h
          rw [finSet_nerve] at hm
          refine ⟨sortV s, hm, ?_⟩
          rw [sortV_length']
          have : max 0 1 = 1 := rfl
          omega
        · have : max dmax 1 = dmax := by omega
          omega
      omega

end Nrv
end BATS
