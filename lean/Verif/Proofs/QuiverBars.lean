import Verif.Spec.Quiver
import Verif.Spec.Fact
import Verif.Proofs.FactCommute

set_option linter.unusedSectionVars false
set_option linter.unusedVariables false
set_option linter.unusedSimpArgs false

/-! # Reading the bars off a barcode form -/

namespace BATS
namespace Quiver
open Matrix Reduction CMat BATS.Fact

variable {F : Type} [Field F] [DecidableEq F]

/-- bar `i` -/
def bat (bars : List QBar) (i : Nat) : QBar := bars.getD i ⟨0, 0, 0, 0⟩

theorem bat_append_lt {bars : List QBar} {b : QBar} {i : Nat} (h : i < bars.length) : bat (bars ++ [b]) i = bat bars i := by
  unfold bat
  rw [List.getD_eq_getElem?_getD, List.getElem?_append_left h, ← List.getD_eq_getElem?_getD]

theorem bat_append_eq {bars : List QBar} {b : QBar} : bat (bars ++ [b]) bars.length = b := by
  unfold bat
  rw [List.getD_eq_getElem?_getD, List.getElem?_append_right (le_refl _)]; simp

theorem bat_set_self {bars : List QBar} {b : QBar} {i : Nat} (h : i < bars.length) : bat (bars.set i b) i = b := by
  unfold bat; rw [List.getD_eq_getElem?_getD, List.getElem?_set_self h]; rfl

theorem bat_set_ne {bars : List QBar} {b : QBar} {i j : Nat} (h : i ≠ j) : bat (bars.set i b) j = bat bars j := by
  unfold bat; rw [List.getD_eq_getElem?_getD, List.getElem?_set_ne h, ← List.getD_eq_getElem?_getD]

theorem rd_bat {bars : List QBar} {i : Nat} (h : i < bars.length) : rd bars i = .ok (bat bars i) := rd_getD _ h

structure LI (k : Nat) (g : Nat → Option Nat) (p2i : Nat → Option Nat) (bars0 bars : List QBar) (q : Nat → Option Nat) (ι : Nat → Nat) (j : Nat) : Prop where
  len : bars0.length ≤ bars.length
  q : ∀ t, t < j → q t = some (ι t)
  old : ∀ t, t < j → ∀ r, g t = some r → ι t = (p2i r).getD 0 ∧ ι t < bars0.length ∧
    bat bars (ι t) = ⟨(bat bars0 (ι t)).start, (bat bars0 (ι t)).startInd, k + 1, t⟩
  new : ∀ t, t < j → g t = none → bars0.length ≤ ι t ∧ ι t < bars.length ∧ bat bars (ι t) = ⟨k + 1, t, k + 1, t⟩
  surj : ∀ i, bars0.length ≤ i → i < bars.length → ∃ t, t < j ∧ g t = none ∧ ι t = i
  rest : ∀ i, i < bars0.length → (∀ t r, t < j → g t = some r → (p2i r).getD 0 ≠ i) → bat bars i = bat bars0 i

/-- row of the first stored entry of column `j` -/
def piv (cols : List (SVec F)) (j : Nat) : Option Nat := ((cols.getD j []).head?).map Prod.fst

theorem barLoop_spec {k : Nat} {p2i : Nat → Option Nat} {cols : List (SVec F)} {bars0 : List QBar} {n : Nat} (hn : cols.length = n)
    (hlt : ∀ t r, t < n → piv cols t = some r → (p2i r).getD 0 < bars0.length)
    (hinj : ∀ t t' r r', t < n → t' < n → piv cols t = some r → piv cols t' = some r' → (p2i r).getD 0 = (p2i r').getD 0 → t = t') :
    ∀ (cs : List (SVec F)) (j : Nat) (bars : List QBar) (q : Nat → Option Nat) (ι : Nat → Nat), cs = cols.drop j → j ≤ n → LI k (piv cols) p2i bars0 bars q ι j →
      ∃ bars' q' ι', barLoop k p2i j cs bars q = .ok (bars', q') ∧ LI k (piv cols) p2i bars0 bars' q' ι' n := by
  intro cs
  induction cs with
  | nil =>
    intro j bars q ι hcs hj hLI
    have : j = n := by
      have := congrArg List.length hcs
      rw [List.length_nil, List.length_drop] at this; omega
    subst this
    exact ⟨bars, q, ι, rfl, hLI⟩
  | cons c cs ih =>
    intro j bars q ι hcs hj hLI
    have hjn : j < n := by
      by_contra hh
      rw [List.drop_eq_nil_of_le (by omega)] at hcs; cases hcs
    have hc : cols.getD j [] = c := by
      rw [List.getD_eq_getElem?_getD]
      have : (cols.drop j)[0]? = some c := by rw [← hcs]; rfl
      rw [List.getElem?_drop] at this
      rw [Nat.add_zero] at this; rw [this]; rfl
    have hcs' : cs = cols.drop (j + 1) := by
      have := congrArg List.tail hcs
      rw [List.tail_cons, List.tail_drop] at this; exact this
    rcases hh : c.head? with _ | e
    · have hg : piv cols j = none := by unfold piv; rw [hc, hh]; rfl
      rw [barLoop, hh]
      refine ih (j + 1) _ _ (fun t => if t = j then bars.length else ι t) hcs' (by omega) ⟨?_, ?_, ?_, ?_, ?_, ?_⟩
      · have := hLI.len; simp; omega
      · intro t ht
        by_cases htj : t = j
        · subst htj; simp
        · simp only [if_neg htj]; rw [Function.update_of_ne htj]; exact hLI.q t (by omega)
      · intro t ht r hr
        by_cases htj : t = j
        · subst htj; rw [hg] at hr; cases hr
        · simp only [if_neg htj]
          obtain ⟨a, b, c'⟩ := hLI.old t (by omega) r hr
          exact ⟨a, b, by rw [bat_append_lt (by have := hLI.len; omega)]; exact c'⟩
      · intro t ht hr
        by_cases htj : t = j
        · subst htj; simp only [if_pos rfl]
          exact ⟨hLI.len, by simp, bat_append_eq⟩
        · simp only [if_neg htj]
          obtain ⟨a, b, c'⟩ := hLI.new t (by omega) hr
          exact ⟨a, by simp; omega, by rw [bat_append_lt b]; exact c'⟩
      · intro i h1 h2
        rw [List.length_append, List.length_singleton] at h2
        by_cases hi : i = bars.length
        · exact ⟨j, by omega, hg, by simp [hi]⟩
        · obtain ⟨t, a, b, c'⟩ := hLI.surj i h1 (by omega)
          exact ⟨t, by omega, b, by rw [if_neg (by omega : ¬ t = j)]; exact c'⟩
      · intro i hi hr
        rw [bat_append_lt (by have := hLI.len; omega)]
        exact hLI.rest i hi (fun t r ht => hr t r (by omega))
    · have hg : piv cols j = some e.1 := by unfold piv; rw [hc, hh]; rfl
      have hpl := hlt j e.1 hjn hg
      have hpl' : (p2i e.1).getD 0 < bars.length := by have := hLI.len; omega
      have hsame : bat bars ((p2i e.1).getD 0) = bat bars0 ((p2i e.1).getD 0) := by
        refine hLI.rest _ hpl ?_
        intro t r ht hr heq
        have := hinj t j r e.1 (by omega) hjn hr hg heq
        omega
      rw [barLoop, hh]
      simp only [rd_bat hpl', bind_ok, wr_ok _ hpl', hsame]
      refine ih (j + 1) _ _ (fun t => if t = j then (p2i e.1).getD 0 else ι t) hcs' (by omega) ⟨?_, ?_, ?_, ?_, ?_, ?_⟩
      · have := hLI.len; simp; omega
      · intro t ht
        by_cases htj : t = j
        · subst htj; simp
        · simp only [if_neg htj]; rw [Function.update_of_ne htj]; exact hLI.q t (by omega)
      · intro t ht r hr
        by_cases htj : t = j
        · subst htj; rw [hg] at hr; injection hr with hr; subst hr
          simp only [if_true]
          exact ⟨trivial, hpl, by rw [bat_set_self hpl']⟩
        · simp only [if_neg htj]
          obtain ⟨a, b, c'⟩ := hLI.old t (by omega) r hr
          refine ⟨a, b, ?_⟩
          rw [bat_set_ne]
          · exact c'
          · intro heq
            rw [a] at heq
            exact htj (hinj t j r e.1 (by omega) hjn hr hg heq.symm)
      · intro t ht hr
        by_cases htj : t = j
        · subst htj; rw [hg] at hr; cases hr
        · simp only [if_neg htj]
          obtain ⟨a, b, c'⟩ := hLI.new t (by omega) hr
          refine ⟨a, by simpa using b, ?_⟩
          rw [bat_set_ne (by omega)]; exact c'
      · intro i h1 h2
        rw [List.length_set] at h2
        obtain ⟨t, a, b, c'⟩ := hLI.surj i h1 h2
        exact ⟨t, by omega, b, by rw [if_neg (by omega : ¬ t = j)]; exact c'⟩
      · intro i hi hr
        rw [bat_set_ne (hr j e.1 (by omega) hg)]
        exact hLI.rest i hi (fun t r ht => hr t r (by omega))

/-- the state after the edges below `k` have been read: `ℓ q i` is the position of bar `i` at node `q`, `c q i` a scalar -/
structure BI (D : Dgm F) (d : Nat → Nat) (mats : List (CMat F)) (k : Nat) (bars : List QBar) (p2i : Nat → Option Nat) (ℓ : Nat → Nat → Nat)
    (c : Nat → Nat → F) : Prop where
  le : ∀ i, i < bars.length → (bat bars i).start ≤ (bat bars i).stop ∧ (bat bars i).stop ≤ k
  lt : ∀ q, q ≤ k → ∀ i, i < bars.length → (bat bars i).At q → ℓ q i < d q
  surj : ∀ q, q ≤ k → ∀ j, j < d q → ∃ i, i < bars.length ∧ (bat bars i).At q ∧ ℓ q i = j
  inj : ∀ q, q ≤ k → ∀ i i', i < bars.length → i' < bars.length → (bat bars i).At q → (bat bars i').At q → ℓ q i = ℓ q i' → i = i'
  ne : ∀ q i, c q i ≠ 0
  p2i : ∀ j, j < d k → ∃ i, p2i j = some i ∧ i < bars.length ∧ (bat bars i).At k ∧ ℓ k i = j
  edge : ∀ q, q < k → ∀ i, i < bars.length → if left D q then
      (bat bars i).At (q + 1) → ∀ r, r < d q → en (mats.getD q ⟨0, []⟩).cols (ℓ (q + 1) i) r * c (q + 1) i = if (bat bars i).At q ∧ r = ℓ q i then c q i else 0
    else (bat bars i).At q → ∀ r, r < d (q + 1) → en (mats.getD q ⟨0, []⟩).cols (ℓ q i) r * c q i =
      if (bat bars i).At (q + 1) ∧ r = ℓ (q + 1) i then c (q + 1) i else 0
  ends : ∀ i, i < bars.length → (bat bars i).startInd = ℓ (bat bars i).start i ∧ (bat bars i).stopInd = ℓ (bat bars i).stop i

theorem piv_some {m n : Nat} {G : CMat F} (hG : G.Shape m n) (hm : Monomial (G.mat m n)) {j r : Nat} (hj : j < n) (h : piv G.cols j = some r) :
    r < m ∧ en G.cols j r ≠ 0 ∧ ∀ r', r' ≠ r → en G.cols j r' = 0 := by
  obtain ⟨h1, h2⟩ := hG.colsOK.getD j
  unfold piv at h
  rcases hc : G.cols.getD j [] with _ | ⟨⟨r0, v⟩, t⟩
  · rw [hc] at h; cases h
  · rw [hc] at h; injection h with h
    have h : r0 = r := h
    subst h
    have hmem : (r0, v) ∈ G.cols.getD j [] := by rw [hc]; exact List.mem_cons_self
    have hr := h2 _ hmem
    have hne : coef (G.cols.getD j []) r0 ≠ 0 := by rw [coef_of_mem h1.1 hmem]; exact h1.2 _ hmem
    refine ⟨hr, hne, ?_⟩
    intro r' hr'
    by_contra hh
    obtain ⟨w, hw⟩ := exists_mem_of_coef_ne hh
    have := hm.2 ⟨r0, hr⟩ ⟨r', h2 _ hw⟩ ⟨j, hj⟩ hne hh
    rw [Fin.mk.injEq] at this; omega

theorem piv_none {G : List (SVec F)} {j : Nat} (h : piv G j = none) (r : Nat) : en G j r = 0 := by
  unfold piv at h
  rcases hc : G.getD j [] with _ | ⟨p, t⟩
  · unfold en; rw [hc]; rfl
  · rw [hc] at h; cases h

theorem At_old {b : QBar} {k t q : Nat} (h1 : b.start ≤ b.stop) (h2 : b.stop = k) (hq : q ≤ k) :
    (QBar.mk b.start b.startInd (k + 1) t).At q ↔ b.At q := by
  unfold QBar.At; constructor <;> (rintro ⟨a, c⟩; exact ⟨a, by simp at *; omega⟩)

theorem step {D : Dgm F} {d : Nat → Nat} {mats : List (CMat F)} {k : Nat} {bars : List QBar} {p2i : Nat → Option Nat} {ℓ : Nat → Nat → Nat}
    {c : Nat → Nat → F} (h : BI D d mats k bars p2i ℓ c) {G : CMat F} (hG : G.Shape (d k) (d (k + 1))) (hm : Monomial (G.mat (d k) (d (k + 1))))
    (hE : ∀ r j, r < d k → j < d (k + 1) → en G.cols j r = if left D k then en (mats.getD k ⟨0, []⟩).cols j r else en (mats.getD k ⟨0, []⟩).cols r j) :
    ∃ bars' p2i' ℓ' c', barLoop k p2i 0 G.cols bars (fun _ => none) = .ok (bars', p2i') ∧ BI D d mats (k + 1) bars' p2i' ℓ' c' := by
  have hn : G.cols.length = d (k + 1) := hG.ncol
  have hP : ∀ r, r < d k → (p2i r).getD 0 < bars.length ∧ (bat bars ((p2i r).getD 0)).At k ∧ ℓ k ((p2i r).getD 0) = r := by
    intro r hr
    obtain ⟨i, h1, h2, h3, h4⟩ := h.p2i r hr
    rw [h1]; exact ⟨h2, h3, h4⟩
  have hstop : ∀ i, i < bars.length → (bat bars i).At k → (bat bars i).stop = k := by
    intro i hi ha
    have := (h.le i hi).2
    have := ha.2; omega
  obtain ⟨bars', p2i', ι, h1, hLI⟩ := barLoop_spec (k := k) (p2i := p2i) (bars0 := bars) hn
    (fun t r ht hr => (hP r (piv_some hG hm ht hr).1).1)
    (fun t t' r r' ht ht' hr hr' he => by
      obtain ⟨a, b, _⟩ := piv_some hG hm ht hr
      obtain ⟨a', b', _⟩ := piv_some hG hm ht' hr'
      have e : r = r' := by rw [← (hP r a).2.2, he, (hP r' a').2.2]
      subst e
      have := hm.1 ⟨r, a⟩ ⟨t, ht⟩ ⟨t', ht'⟩ b b'
      simpa using this)
    G.cols 0 bars (fun _ => none) (fun _ => 0) rfl (Nat.zero_le _)
    ⟨le_refl _, fun t ht => by omega, fun t ht => by omega, fun t ht => by omega, fun i h1 h2 => by omega, fun i _ _ => rfl⟩
  -- what happens to an old bar
  have hcase : ∀ i, i < bars.length → (bat bars' i = bat bars i ∧ ∀ t r, t < d (k + 1) → piv G.cols t = some r → (p2i r).getD 0 ≠ i) ∨
      ∃ t r, t < d (k + 1) ∧ piv G.cols t = some r ∧ (p2i r).getD 0 = i ∧ ι t = i ∧ (bat bars i).At k ∧ ℓ k i = r ∧
        bat bars' i = ⟨(bat bars i).start, (bat bars i).startInd, k + 1, t⟩ := by
    intro i hi
    by_cases hh : ∀ t r, t < d (k + 1) → piv G.cols t = some r → (p2i r).getD 0 ≠ i
    · exact Or.inl ⟨hLI.rest i hi hh, hh⟩
    · push Not at hh
      obtain ⟨t, r, ht, hr, hi'⟩ := hh
      obtain ⟨a, b, c'⟩ := hLI.old t ht r hr
      have hrd := (piv_some hG hm ht hr).1
      obtain ⟨p1, p2, p3⟩ := hP r hrd
      rw [hi'] at a p2 p3
      rw [a] at c'
      exact Or.inr ⟨t, r, ht, hr, hi', a, p2, p3, c'⟩
  have hnew : ∀ i, bars.length ≤ i → i < bars'.length → ∃ t, t < d (k + 1) ∧ piv G.cols t = none ∧ ι t = i ∧ bat bars' i = ⟨k + 1, t, k + 1, t⟩ := by
    intro i h2 h3
    obtain ⟨t, ht, hg, rfl⟩ := hLI.surj i h2 h3
    exact ⟨t, ht, hg, rfl, (hLI.new t ht hg).2.2⟩
  -- alive at an old node
  have hAt : ∀ q, q ≤ k → ∀ i, i < bars'.length → ((bat bars' i).At q ↔ i < bars.length ∧ (bat bars i).At q) := by
    intro q hq i hi
    by_cases hi' : i < bars.length
    · rcases hcase i hi' with ⟨e, _⟩ | ⟨t, r, _, _, _, _, ha, _, e⟩
      · rw [e]; exact ⟨fun x => ⟨hi', x⟩, fun x => x.2⟩
      · rw [e, At_old (h.le i hi').1 (hstop i hi' ha) hq]; exact ⟨fun x => ⟨hi', x⟩, fun x => x.2⟩
    · obtain ⟨t, _, _, _, e⟩ := hnew i (by omega) hi
      rw [e]; constructor
      · rintro ⟨a, _⟩; simp only at a; omega
      · rintro ⟨a, _⟩; omega
  have hAt1 : ∀ i, i < bars'.length → (bat bars' i).At (k + 1) → ∃ t, t < d (k + 1) ∧ ι t = i ∧ (bat bars' i).stop = k + 1 ∧ (bat bars' i).stopInd = t := by
    intro i hi ha
    by_cases hi' : i < bars.length
    · rcases hcase i hi' with ⟨e, _⟩ | ⟨t, r, ht, _, _, e1, _, _, e⟩
      · rw [e] at ha; have := (h.le i hi').2; have := ha.2; omega
      · exact ⟨t, ht, e1, by rw [e], by rw [e]⟩
    · obtain ⟨t, ht, _, e1, e⟩ := hnew i (by omega) hi
      exact ⟨t, ht, e1, by rw [e], by rw [e]⟩
  have hι : ∀ t, t < d (k + 1) → ι t < bars'.length ∧ (bat bars' (ι t)).At (k + 1) ∧ (bat bars' (ι t)).stopInd = t := by
    intro t ht
    rcases hp : piv G.cols t with _ | r
    · obtain ⟨a, b, e⟩ := hLI.new t ht hp
      exact ⟨b, by rw [e]; exact ⟨le_refl _, le_refl _⟩, by rw [e]⟩
    · obtain ⟨a, b, e⟩ := hLI.old t ht r hp
      have := hLI.len
      refine ⟨by omega, ?_, by rw [e]⟩
      rw [e]
      have := h.le _ b
      exact ⟨by simp only; omega, le_refl _⟩
  let ℓ' : Nat → Nat → Nat := fun q i => if q = k + 1 then (bat bars' i).stopInd else ℓ q i
  let c' : Nat → Nat → F := fun q i => if q = k + 1 then
    (match piv G.cols (bat bars' i).stopInd with
      | none => 1
      | some r => if en G.cols (bat bars' i).stopInd r = 0 then 1 else if left D k then c k i / en G.cols (bat bars' i).stopInd r else c k i * en G.cols (bat bars' i).stopInd r)
    else c q i
  have hℓ : ∀ q, q ≤ k → ∀ i, ℓ' q i = ℓ q i := fun q hq i => by simp only [ℓ']; rw [if_neg (by omega)]
  have hℓ1 : ∀ i, ℓ' (k + 1) i = (bat bars' i).stopInd := fun i => if_pos rfl
  have hc : ∀ q, q ≤ k → ∀ i, c' q i = c q i := fun q hq i => by simp only [c']; rw [if_neg (by omega)]
  have hc1 : ∀ i t r, (bat bars' i).stopInd = t → piv G.cols t = some r → en G.cols t r ≠ 0 → c' (k + 1) i = if left D k then c k i / en G.cols t r else c k i * en G.cols t r := by
    intro i t r e hp hne
    show (if k + 1 = k + 1 then _ else _) = _
    rw [if_pos rfl, e, hp]; exact if_neg hne
  refine ⟨bars', p2i', ℓ', c', h1, ⟨?_, ?_, ?_, ?_, ?_, ?_, ?_, ?_⟩⟩
  · intro i hi
    by_cases hi' : i < bars.length
    · have := h.le i hi'
      rcases hcase i hi' with ⟨e, _⟩ | ⟨t, r, _, _, _, _, ha, _, e⟩
      · rw [e]; omega
      · rw [e]; simp only; omega
    · obtain ⟨t, _, _, _, e⟩ := hnew i (by omega) hi
      rw [e]; simp
  · intro q hq i hi ha
    by_cases hq' : q ≤ k
    · obtain ⟨h2, h3⟩ := (hAt q hq' i hi).1 ha
      rw [hℓ q hq']; exact h.lt q hq' i h2 h3
    · have : q = k + 1 := by omega
      subst this
      obtain ⟨t, ht, _, _, e⟩ := hAt1 i hi ha
      rw [hℓ1, e]; exact ht
  · intro q hq j hj
    by_cases hq' : q ≤ k
    · obtain ⟨i, h2, h3, h4⟩ := h.surj q hq' j hj
      have : i < bars'.length := by have := hLI.len; omega
      exact ⟨i, this, (hAt q hq' i this).2 ⟨h2, h3⟩, by rw [hℓ q hq']; exact h4⟩
    · have : q = k + 1 := by omega
      subst this
      obtain ⟨a, b, e⟩ := hι j hj
      exact ⟨ι j, a, b, by rw [hℓ1, e]⟩
  · intro q hq i i' hi hi' ha ha' he
    by_cases hq' : q ≤ k
    · obtain ⟨h2, h3⟩ := (hAt q hq' i hi).1 ha
      obtain ⟨h2', h3'⟩ := (hAt q hq' i' hi').1 ha'
      rw [hℓ q hq', hℓ q hq'] at he
      exact h.inj q hq' i i' h2 h2' h3 h3' he
    · have : q = k + 1 := by omega
      subst this
      obtain ⟨t, ht, e1, _, e2⟩ := hAt1 i hi ha
      obtain ⟨t', ht', e1', _, e2'⟩ := hAt1 i' hi' ha'
      rw [hℓ1, hℓ1, e2, e2'] at he
      rw [← e1, ← e1', he]
  · intro q i
    simp only [c']
    split
    · split
      · exact one_ne_zero
      · split
        · exact one_ne_zero
        · split
          · exact div_ne_zero (h.ne _ _) (by assumption)
          · exact mul_ne_zero (h.ne _ _) (by assumption)
    · exact h.ne _ _
  · intro j hj
    obtain ⟨a, b, e⟩ := hι j hj
    exact ⟨ι j, hLI.q j hj, a, b, by rw [hℓ1, e]⟩
  · intro q hq i hi
    by_cases hq' : q < k
    · -- an old edge
      by_cases hi' : i < bars.length
      · have key := h.edge q hq' i hi'
        have a1 := hAt q (by omega) i hi
        have a2 := hAt (q + 1) (by omega) i hi
        simp only [hi', true_and] at a1 a2
        simp only [hℓ q (by omega), hℓ (q + 1) (by omega), hc q (by omega), hc (q + 1) (by omega), a1, a2]
        exact key
      · have a1 := hAt q (by omega) i hi
        have a2 := hAt (q + 1) (by omega) i hi
        split
        · intro ha; exact absurd (a2.1 ha).1 hi'
        · intro ha; exact absurd (a1.1 ha).1 hi'
    · have : q = k := by omega
      subst this
      by_cases hi' : i < bars.length
      · rcases hcase i hi' with ⟨e, hno⟩ | ⟨t, r, ht, hp, hpi, hιt, ha, hℓr, e⟩
        · -- the bar ends (or has ended)
          have hna : ¬ (bat bars' i).At (q + 1) := by
            rw [e]; intro ha; have := (h.le i hi').2; have := ha.2; omega
          split
          · intro ha; exact absurd ha hna
          · rename_i hl
            intro ha r hr
            rw [e] at ha
            have hlt := h.lt q (le_refl _) i hi' ha
            rw [if_neg (fun hh => hna hh.1), hℓ q (le_refl _)]
            have hz : en G.cols r (ℓ q i) = 0 := by
              rcases hp : piv G.cols r with _ | r'
              · exact piv_none hp _
              · obtain ⟨b1, b2, b3⟩ := piv_some hG hm hr hp
                refine b3 _ ?_
                intro heq
                refine hno r r' hr hp ?_
                obtain ⟨p1, p2, p3⟩ := hP r' b1
                exact h.inj q (le_refl _) _ _ p1 hi' p2 ha (by rw [p3, heq])
            rw [hE (ℓ q i) r hlt hr, if_neg hl] at hz
            rw [hz, zero_mul]
        · have hlen : i < bars'.length := hi
          obtain ⟨b1, b2, b3⟩ := piv_some hG hm ht hp
          have ha' : (bat bars' i).At q := (hAt q (le_refl _) i hi).2 ⟨hi', ha⟩
          have ha1 : (bat bars' i).At (q + 1) := by rw [← hιt]; exact (hι t ht).2.1
          have e2 : (bat bars' i).stopInd = t := by rw [e]
          have hcc := hc1 i t r e2 hp b2
          split
          · rename_i hl
            intro _ r' hr'
            rw [hℓ1, e2, hcc, if_pos hl, hℓ q (le_refl _), hℓr, hc q (le_refl _)]
            have hh := hE r' t hr' ht
            rw [if_pos hl] at hh
            rw [← hh]
            by_cases hrr : r' = r
            · subst hrr; rw [if_pos ⟨ha', rfl⟩]; field_simp
            · rw [if_neg (fun x => hrr x.2), b3 r' hrr, zero_mul]
          · rename_i hl
            intro _ r' hr'
            rw [hℓ1, e2, hcc, if_neg hl, hℓ q (le_refl _), hℓr, hc q (le_refl _)]
            have hh := hE r r' b1 hr'
            rw [if_neg hl] at hh
            rw [← hh]
            by_cases hrr : r' = t
            · subst hrr; rw [if_pos ⟨ha1, rfl⟩]; ring
            · rw [if_neg (fun x => hrr x.2)]
              have : en G.cols r' r = 0 := by
                by_contra hne
                have := hm.1 ⟨r, b1⟩ ⟨r', hr'⟩ ⟨t, ht⟩ hne b2
                rw [Fin.mk.injEq] at this; exact hrr this
              rw [this, zero_mul]
      · obtain ⟨t, ht, hp, hιt, e⟩ := hnew i (by omega) hi
        have hna : ¬ (bat bars' i).At q := by rw [e]; rintro ⟨a, _⟩; simp only at a; omega
        split
        · rename_i hl
          intro _ r' hr'
          rw [hℓ1, e, if_neg (fun x => hna (by rw [e]; exact x.1))]
          simp only
          have hh := hE r' t hr' ht
          rw [if_pos hl] at hh
          rw [← hh, piv_none hp, zero_mul]
        · intro ha; exact absurd ha hna
  · intro i hi
    by_cases hi' : i < bars.length
    · have hle := h.le i hi'
      rcases hcase i hi' with ⟨e, _⟩ | ⟨t, r, _, _, _, _, ha, _, e⟩
      · rw [e, hℓ _ (by omega), hℓ _ (by omega)]; exact h.ends i hi'
      · refine ⟨?_, ?_⟩
        · rw [e]; simp only; rw [hℓ _ (by omega)]; exact (h.ends i hi').1
        · have : (bat bars' i).stop = k + 1 := by rw [e]
          rw [this, hℓ1]
    · obtain ⟨t, _, _, _, e⟩ := hnew i (by omega) hi
      have e1 : (bat bars' i).stop = k + 1 := by rw [e]
      have e2 : (bat bars' i).start = k + 1 := by rw [e]
      rw [e1, e2, hℓ1]
      exact ⟨by rw [e], rfl⟩

end Quiver
end BATS
