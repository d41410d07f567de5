import Verif.Proofs.ZZCmpLex
import Verif.Props.Zigzag

set_option linter.unusedSectionVars false
set_option linter.unusedSimpArgs false
set_option linter.unusedVariables false

/-! # From the barcode of the copies to the barcode of the filtration -/

namespace BATS
namespace Zigzag
open Matrix Reduction

variable {F : Type} [Field F] [DecidableEq F] {T : Type} [LinearOrder T]
variable {B C : List (CMat F)} {vals : List (List (List (T × T)))} {lab : Nat → Nat → Copy T} {es : List (Event T)} {cmp : Event T → Event T → Bool}

/-- the event of a copy as an event of its cell -/
def relab (lab : Nat → Nat → Copy T) (e : Event T) : Event T := { e with ind := (lab e.dim e.ind).orig }

theorem present_snoc (l : List (Event T)) (e : Event T) (k : Nat) :
    present (l ++ [e]) k = (if e.dim = k then (if e.entry then insert e.ind (present l k) else (present l k).erase e.ind) else present l k) := by
  unfold present; rw [List.foldl_append]; rfl

theorem present_relab (hsub : ∀ i, SubCopies C lab (fun k => {j | j ∈ present (es.take i) k})) (hmem : IsZigzagOrder C es) : ∀ (i k c : Nat),
    c ∈ present ((es.map (relab lab)).take i) k ↔ ∃ j ∈ present (es.take i) k, (lab k j).orig = c
  | 0, k, c => by simp [present]
  | i + 1, k, c => by
    have ih := present_relab hsub hmem i k c
    by_cases hi : i < es.length
    · have e1 : es.take (i + 1) = es.take i ++ [es[i]] := by rw [List.take_add_one, List.getElem?_eq_getElem hi]; rfl
      have e2 : (es.map (relab lab)).take (i + 1) = (es.map (relab lab)).take i ++ [relab lab es[i]] := by
        rw [List.take_add_one, List.getElem?_eq_getElem (by rw [List.length_map]; exact hi), List.getElem_map]; rfl
      rw [e1, e2, present_snoc, present_snoc]
      have hdim : (relab lab es[i]).dim = es[i].dim := rfl
      have hent : (relab lab es[i]).entry = es[i].entry := rfl
      have hind : (relab lab es[i]).ind = (lab es[i].dim es[i].ind).orig := rfl
      rw [hdim, hent, hind]
      by_cases hk : es[i].dim = k
      · rw [if_pos hk, if_pos hk, hk]
        rcases he : es[i].entry with _ | _
        · rw [if_neg (by simp), if_neg (by simp)]
          rw [Finset.mem_erase, ih]
          have hst := hmem (es.take i) es[i] (es.drop (i + 1)) (by rw [List.getElem_cons_drop, List.take_append_drop])
          have := hst.2.2
          rw [he] at this
          simp only [Bool.false_eq_true, if_false] at this
          have hin : es[i].ind ∈ present (es.take i) k := by have := this.1; rw [hk] at this; exact this
          constructor
          · rintro ⟨h1, j, h2, h3⟩
            refine ⟨j, Finset.mem_erase.2 ⟨?_, h2⟩, h3⟩
            rintro rfl
            exact h1 h3.symm
          · rintro ⟨j, h2, h3⟩
            rw [Finset.mem_erase] at h2
            refine ⟨?_, j, h2.2, h3⟩
            intro hc
            exact h2.1 ((hsub i).uniq k j _ h2.2 hin (by rw [h3, hc]))
        · rw [if_pos rfl, if_pos rfl, Finset.mem_insert, ih]
          constructor
          · rintro (h | ⟨j, h2, h3⟩)
            · exact ⟨es[i].ind, Finset.mem_insert_self _ _, h.symm⟩
            · exact ⟨j, Finset.mem_insert_of_mem h2, h3⟩
          · rintro ⟨j, h2, h3⟩
            rcases Finset.mem_insert.1 h2 with h | h
            · left; rw [← h3, h]
            · right; exact ⟨j, h, h3⟩
      · rw [if_neg hk, if_neg hk]; exact ih
    · rw [List.take_of_length_le (by rw [List.length_map]; omega), List.take_of_length_le (by omega)]
      rw [List.take_of_length_le (by rw [List.length_map]; omega), List.take_of_length_le (by omega)] at ih
      exact ih

theorem onB_present (hsub : ∀ i, SubCopies C lab (fun k => {j | j ∈ present (es.take i) k})) (ho : IsZigzagOrder C es) (i k : Nat) :
    onB B lab (fun k => {j | j ∈ present (es.take i) k}) k = {c : Fin (cdim B k) | c.val ∈ present ((es.map (relab lab)).take i) k} := by
  ext c
  show (∃ j ∈ present (es.take i) k, (lab k j).orig = c.val) ↔ c.val ∈ present ((es.map (relab lab)).take i) k
  rw [present_relab hsub ho]

/-- interval decompositions can be moved along maps which are injective on the cycles -/
theorem Decomposes.map {V W : Type} [AddCommGroup V] [Module F V] [AddCommGroup W] [Module F W] {Z Wd : Nat → Submodule F V} {dir : Nat → Bool} {N : Nat} {iv : List Bar}
    {v : Nat → Nat → V} (h : Decomposes (F := F) Z Wd dir N iv v) (f : V →ₗ[F] W) (hle : ∀ i, i ≤ N → Wd i ≤ Z i) (hinj : ∀ i, i ≤ N → ∀ x ∈ Z i, f x = 0 → x = 0) :
    Decomposes (F := F) (fun i => (Z i).map f) (fun i => (Wd i).map f) dir N iv (fun i b => f (v i b)) := by
  refine ⟨fun i hi b hb => Submodule.mem_map_of_mem (h.mem i hi b hb), ?_, ?_, ?_, ?_⟩
  · rintro i hi _ ⟨z, hz, rfl⟩
    obtain ⟨c, hc⟩ := h.span i hi z hz
    refine ⟨c, z - ∑ b ∈ alive iv i, c b • v i b, hc, ?_⟩
    rw [map_sub, map_sum]
    simp only [map_smul]
  · intro i hi c hc
    have e : ∑ b ∈ alive iv i, c b • f (v i b) = f (∑ b ∈ alive iv i, c b • v i b) := by rw [map_sum]; simp only [map_smul]
    rw [e] at hc
    obtain ⟨w, hw, hwe⟩ := hc
    have hz : ∑ b ∈ alive iv i, c b • v i b ∈ Z i := Submodule.sum_mem _ (fun b hb => Submodule.smul_mem _ _ (h.mem i hi b hb))
    have : w - ∑ b ∈ alive iv i, c b • v i b = 0 := hinj i hi _ (Submodule.sub_mem _ (hle i hi hw) hz) (by rw [map_sub, hwe, sub_self])
    rw [sub_eq_zero] at this
    exact h.indep i hi c (by rw [← this]; exact hw)
  · intro i hi hd b hb
    refine ⟨_, h.right i hi hd b hb, ?_⟩
    rw [map_sub]
    split <;> simp
  · intro i hi hd b hb
    refine ⟨_, h.left i hi hd b hb, ?_⟩
    rw [map_sub]
    split <;> simp

/-- the barcode of the copies is a barcode of the cells -/
theorem barcode_relab (hl : Labelled B vals C lab) (hB : IsChainComplex B) (h0 : ZeroBdry0 B) (hv : IsZigzagFiltration B vals)
    (hsub : ∀ i, SubCopies C lab (fun k => {j | j ∈ present (es.take i) k})) (ho : IsZigzagOrder C es) {k : Nat} {iv : List Bar} (h : IsZigzagBarcode C es k iv) :
    IsZigzagBarcode B (es.map (relab lab)) k iv := by
  obtain ⟨h1, v, hd⟩ := h
  have hC := hl.isChainComplex hB hv
  refine ⟨by rw [List.length_map]; exact h1, fun i b => proj B C lab k (v i b), ?_⟩
  have hZ : ∀ i, cyclesOn C es k i = cycles C k ⊓ supported (onC C (fun k => {j | j ∈ present (es.take i) k}) k) := fun i => rfl
  have hW : ∀ i, boundariesOn C es k i = (supported (onC C (fun k => {j | j ∈ present (es.take i) k}) (k + 1))).map (bdryUp C k).mulVecLin := fun i => rfl
  have hm := hd.map (proj B C lab k) (fun i _ => by rw [hZ, hW]; exact bound_le_sub (F := F) hC (hsub i) k)
    (fun i _ x hx => by rw [hZ] at hx; exact proj_inj hl (hsub i) (Submodule.mem_inf.1 hx).2)
  have e1 : (fun i => (cyclesOn C es k i).map (proj B C lab k)) = cyclesOn B (es.map (relab lab)) k := by
    funext i
    rw [hZ, map_cycles hl hB.shape h0 hv (hsub i), onB_present hsub ho]; rfl
  have e2 : (fun i => (boundariesOn C es k i).map (proj B C lab k)) = boundariesOn B (es.map (relab lab)) k := by
    funext i
    rw [hW, map_boundaries hl hB.shape hv (hsub i), onB_present hsub ho]; rfl
  have e3 : isEntry (es.map (relab lab)) = isEntry es := by
    funext i
    unfold isEntry
    rw [List.getElem?_map]
    cases es[i]? <;> rfl
  rw [e1, e2] at hm
  rw [e3, List.length_map]
  exact hm

theorem isFiltrationOrder (hl : Labelled B vals C lab) (hB : IsChainComplex B) (hv : IsZigzagFiltration B vals) (he : EventsOf C lab es) (hc : CmpOK C es cmp)
    (hs : es.Pairwise (fun a b => cmp b a = false)) (hsub : ∀ i, SubCopies C lab (fun k => {j | j ∈ present (es.take i) k})) (ho : IsZigzagOrder C es) :
    IsFiltrationOrder B vals (es.map (relab lab)) := by
  refine ⟨?_, ?_, ?_, ?_⟩
  · intro k i x b
    constructor
    · rintro ⟨_, h1, rfl, rfl, rfl, rfl⟩
      obtain ⟨e, h, rfl⟩ := List.mem_map.1 h1
      obtain ⟨m1, m2, m3⟩ := he.mem e h
      exact ⟨_, (hl.mem e.dim e.ind m2).2, m3⟩
    · rintro ⟨v, h1, h2⟩
      have hi : i < cdim B k := by
        by_contra hcon
        unfold intervals at h1
        rw [List.getD_eq_getElem?_getD, List.getElem?_eq_none (by rw [hv.len_eq]; omega)] at h1
        simp at h1
      obtain ⟨j, j1, j2⟩ := hl.surj k i v hi h1
      obtain ⟨e, e1, e2, e3, e4⟩ := he.all k j j1 b
      have m := (he.mem e e1).2.2
      refine ⟨relab lab e, List.mem_map_of_mem e1, e2, ?_, ?_, e4⟩
      · show (lab e.dim e.ind).orig = i
        rw [e2, e3, j2]
      · show e.val = x
        rw [m, h2, e2, e3, e4, j2]
  · rw [List.pairwise_map]
    refine List.Pairwise.imp_of_mem (fun {a b} ha hb hab => ?_) he.once
    rintro ⟨h1, h2, h3, h4⟩
    have h1' : a.dim = b.dim := h1
    have h2' : (lab a.dim a.ind).orig = (lab b.dim b.ind).orig := h2
    have h3' : a.val = b.val := h3
    have h4' : a.entry = b.entry := h4
    obtain ⟨_, ma, va⟩ := he.mem a ha
    obtain ⟨_, mb, vb⟩ := he.mem b hb
    rw [← h1'] at h2' mb vb
    refine hab ⟨h1', ?_, h4'⟩
    have la := hl.le hv ma
    have lb := hl.le hv mb
    rw [h4'] at va
    rcases h : b.entry with _ | _
    · rw [h] at va vb
      simp only [Bool.false_eq_true, if_false] at va vb
      rw [va, vb] at h3'
      exact hl.unique hv ma mb h2' la le_rfl (by rw [h3']; exact lb) (le_of_eq h3')
    · rw [h] at va vb
      simp only [if_true] at va vb
      rw [va, vb] at h3'
      exact hl.unique hv ma mb h2' le_rfl la (le_of_eq h3'.symm) (by rw [h3']; exact lb)
  · rw [List.pairwise_map]
    refine List.Pairwise.imp_of_mem (fun {a b} ha hb hab => ?_) hs
    show a.val < b.val ∨ (a.val = b.val ∧ (a.entry = true ∨ b.entry = false))
    rcases lt_trichotomy a.val b.val with h | h | h
    · exact Or.inl h
    · refine Or.inr ⟨h, ?_⟩
      by_contra hcon
      push Not at hcon
      have h1 : a.entry = false := by simpa using hcon.1
      have h2 : b.entry = true := by simpa using hcon.2
      rw [hc.entry b hb a ha h.symm h2 h1] at hab; cases hab
    · rw [hc.val b hb a ha h] at hab; cases hab
  · intro n k c j hj hne
    rw [present_relab hsub ho] at hj ⊢
    obtain ⟨x, x1, x2⟩ := hj
    have hx := (hsub n).lt (k + 1) x x1
    obtain ⟨a, a1, a2, a3⟩ := hl.face hB.shape hv hx (by rw [x2]; exact hne)
    refine ⟨a, (hsub n).closed k a x x1 a1 ?_, a2⟩
    rw [hl.ent k a x a1 hx, if_pos a3, a2, x2]
    exact hne

/-! ### counting -/

theorem alive_card : ∀ (iv : List Bar) (i : Nat), (alive iv i).card = iv.countP (fun b => decide (b.At i)) := by
  intro iv
  induction iv using List.reverseRecOn with
  | nil => intro i; rfl
  | append_singleton iv b ih =>
    intro i
    have e : alive (iv ++ [b]) i = if b.At i then insert iv.length (alive iv i) else alive iv i := by
      ext x
      have key : ∀ x, x < iv.length → (iv ++ [b]).getD x ⟨0, none⟩ = iv.getD x ⟨0, none⟩ := by
        intro x hx
        rw [List.getD_eq_getElem?_getD, List.getElem?_append_left hx, ← List.getD_eq_getElem?_getD]
      have last : (iv ++ [b]).getD iv.length ⟨0, none⟩ = b := by
        rw [List.getD_eq_getElem?_getD, List.getElem?_append_right (Nat.le_refl _)]; simp
      unfold alive
      rw [List.length_append, List.length_singleton]
      by_cases hb : b.At i
      · rw [if_pos hb, Finset.mem_insert, Finset.mem_filter, Finset.mem_filter, Finset.mem_range, Finset.mem_range]
        constructor
        · rintro ⟨h1, h2⟩
          by_cases hx : x = iv.length
          · exact Or.inl hx
          · have hx' : x < iv.length := by omega
            rw [key x hx'] at h2
            exact Or.inr ⟨hx', h2⟩
        · rintro (rfl | ⟨h1, h2⟩)
          · exact ⟨by omega, by rw [last]; exact hb⟩
          · exact ⟨by omega, by rw [key x h1]; exact h2⟩
      · rw [if_neg hb, Finset.mem_filter, Finset.mem_filter, Finset.mem_range, Finset.mem_range]
        constructor
        · rintro ⟨h1, h2⟩
          by_cases hx : x = iv.length
          · rw [hx, last] at h2; exact absurd h2 hb
          · have hx' : x < iv.length := by omega
            rw [key x hx'] at h2
            exact ⟨hx', h2⟩
        · rintro ⟨h1, h2⟩
          exact ⟨by omega, by rw [key x h1]; exact h2⟩
    rw [e, List.countP_append, ← ih i]
    by_cases hb : b.At i
    · rw [if_pos hb, Finset.card_insert_of_notMem (by unfold alive; simp)]
      simp [hb]
    · rw [if_neg hb]; simp [hb]

/-- reported pairs are alive at `t` iff the bars are alive after the events up to `t` -/
theorem count_alive (hc : CmpOK C es cmp) (hs : es.Pairwise (fun a b => cmp b a = false)) {k : Nat} {iv : List Bar}
    (hiv : ∀ b ∈ iv, b.start < es.length ∧ ∀ s, b.stop = some s → b.start < s ∧ s < es.length) {ps : List (ZPair T)} (h : iv.map (pairOf es k) = ps.map some) (t : T) :
    ps.countP (fun p => decide (p.AliveAt t)) = (alive iv (cutAt es t)).card := by
  have hcut := (take_countP (before t) es (before_pairwise hc hs t)).2
  have hcut' : ∀ s (hs : s < es.length), (before t es[s] = true ↔ s < cutAt es t) := hcut
  rw [alive_card]
  have e1 : ps.countP (fun p => decide (p.AliveAt t)) = (ps.map some).countP (fun o => match o with | some p => decide (ZPair.AliveAt p t) | none => false) := by
    rw [List.countP_map]; rfl
  rw [e1, ← h, List.countP_map]
  refine List.countP_congr (fun b hb => ?_)
  obtain ⟨h1, h2⟩ := hiv b hb
  have hst : es[b.start]? = some es[b.start] := List.getElem?_eq_getElem h1
  have c1 := hcut' b.start h1
  have first : (if es[b.start].entry = true then es[b.start].val ≤ t else es[b.start].val < t) ↔ b.start < cutAt es t := by
    rw [← c1]
    rcases he : es[b.start].entry with _ | _
    · rw [before_exit he]; simp
    · rw [before_entry he]; simp
  rcases hbs : b.stop with _ | s
  · have ep : pairOf es k b = some ⟨k, es[b.start].cind, none, es[b.start].val, none, es[b.start].entry, true⟩ := by
      unfold pairOf; rw [hst, hbs]; rfl
    simp only [Function.comp, ep, decide_eq_true_eq]
    unfold ZPair.AliveAt Bar.At
    simp only [hbs]
    rw [first]
    simp
  · obtain ⟨h3, h4⟩ := h2 s hbs
    have hsp : es[s]? = some es[s] := List.getElem?_eq_getElem h4
    have c2 := hcut' s h4
    have ep : pairOf es k b = some ⟨k, es[b.start].cind, some es[s].cind, es[b.start].val, some es[s].val, es[b.start].entry, es[s].entry⟩ := by
      unfold pairOf; rw [hst, hbs]
      show (do let f ← es[s]?; _) = _
      rw [hsp]; rfl
    have second : (if es[s].entry = true then t < es[s].val else t ≤ es[s].val) ↔ cutAt es t ≤ s := by
      rw [← Nat.not_lt (a := s), ← c2]
      rcases he : es[s].entry with _ | _
      · rw [before_exit he]; simp
      · rw [before_entry he]; simp
    simp only [Function.comp, ep, decide_eq_true_eq]
    unfold ZPair.AliveAt Bar.At
    simp only [hbs, Option.some.injEq, forall_eq']
    rw [first, second]

theorem onB_cut (hl : Labelled B vals C lab) (hv : IsZigzagFiltration B vals) (he : EventsOf C lab es) (hc : CmpOK C es cmp)
    (hs : es.Pairwise (fun a b => cmp b a = false)) (t : T) (k : Nat) :
    onB B lab (fun k => {j | j ∈ present (es.take (cutAt es t)) k}) k = cellsAt B vals k t := by
  ext c
  show (∃ j ∈ present (es.take (cutAt es t)) k, (lab k j).orig = c.val) ↔ ∃ v ∈ intervals vals k c, v.1 ≤ t ∧ t ≤ v.2
  constructor
  · rintro ⟨j, h1, h2⟩
    obtain ⟨a1, a2, a3⟩ := (present_cut hl hv he hc hs t k j).1 h1
    have := (hl.mem k j a1).2
    rw [h2] at this
    exact ⟨_, this, a2, a3⟩
  · rintro ⟨v, h1, h2, h3⟩
    obtain ⟨j, j1, j2⟩ := hl.surj k c v c.2 h1
    exact ⟨j, (present_cut hl hv he hc hs t k j).2 ⟨j1, by rw [j2]; exact ⟨h2, h3⟩⟩, by rw [j2]⟩

/-- everything about one dimension of the barcode -/
theorem dim_spec (hB : IsChainComplex B) (h0 : ZeroBdry0 B) (hl : Labelled B vals C lab) (hv : IsZigzagFiltration B vals) (he : EventsOf C lab es) (hc : CmpOK C es cmp)
    (hs : es.Pairwise (fun a b => cmp b a = false)) (ho : IsZigzagOrder C es) {k : Nat} {iv : List Bar} (h : IsZigzagBarcode C es k iv) {ps : List (ZPair T)}
    (hps : iv.map (pairOf es k) = ps.map some) :
    IsZigzagBarcode B (es.map (relab lab)) k iv ∧ iv.map (pairOf (es.map (relab lab)) k) = ps.map some ∧
      ∀ t, ps.countP (fun p => decide (p.AliveAt t)) = bettiIn B vals k t := by
  have hsub : ∀ i, SubCopies C lab (fun k => {j | j ∈ present (es.take i) k}) := fun i => subCopies_present hl hv he hc hs ho i
  refine ⟨barcode_relab hl hB h0 hv hsub ho h, ?_, fun t => ?_⟩
  · rw [← hps]
    apply List.map_congr_left
    intro b hb
    unfold pairOf
    rw [List.getElem?_map]
    rcases es[b.start]? with _ | e
    · rfl
    · rcases hst : b.stop with _ | s
      · rfl
      · simp only [Option.map_some]
        show (do let f ← (es.map (relab lab))[s]?; _) = (do let f ← es[s]?; _)
        rw [List.getElem?_map]
        rcases es[s]? with _ | f <;> rfl
  · rw [count_alive hc hs h.1 hps t, C61_alive_is_betti (hl.isChainComplex hB hv) ho h (show cutAt es t ≤ es.length from List.countP_le_length)]
    have := betti_copies hl hB h0 hv (hsub (cutAt es t)) k
    rw [onB_cut hl hv he hc hs, onB_cut hl hv he hc hs] at this
    exact this

end Zigzag
end BATS
