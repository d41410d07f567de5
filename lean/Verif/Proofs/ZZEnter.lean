import Verif.Proofs.ZZInv

set_option linter.unusedSectionVars false
set_option linter.unusedSimpArgs false
set_option linter.unusedVariables false

/-! # Zigzag: the state invariant and entering cells -/

namespace BATS
namespace Zigzag
open Reduction Matrix BATS.Fact CMat
open BATS.Quiver (set_getD_self set_getD_ne)

variable {F : Type} [Field F] [DecidableEq F] {T : Type}

/-! ### positions in sorted lists -/

theorem split_lt (l : List Nat) (hs : l.Pairwise (· < ·)) (q : Nat → Bool) (hq : ∀ a b, a < b → q b = true → q a = true) :
    ∃ a b, l = a ++ b ∧ (l.takeWhile q).length = a.length ∧ (∀ y ∈ a, q y = true) ∧ ∀ y ∈ b, q y = false := by
  refine ⟨l.takeWhile q, l.dropWhile q, (List.takeWhile_append_dropWhile).symm, rfl, fun y hy => by have := List.all_takeWhile (p := q) (l := l); rw [List.all_eq_true] at this; exact this y hy, ?_⟩
  induction l with
  | nil => intro y hy; simp at hy
  | cons x l ih =>
    intro y hy
    rw [List.pairwise_cons] at hs
    by_cases hx : q x = true
    · rw [List.dropWhile_cons_of_pos hx] at hy
      exact ih hs.2 y hy
    · rw [List.dropWhile_cons_of_neg hx] at hy
      rcases List.mem_cons.1 hy with h | h
      · rw [h]; simpa using hx
      · by_contra hh
        exact hx (hq x y (hs.1 y h) (by simpa using hh))

theorem insertIdx_append (a b : List Nat) (x : Nat) : (a ++ b).insertIdx a.length x = a ++ x :: b := by
  induction a with
  | nil => simp
  | cons y a ih => simp [ih]

theorem ins_new {l : List Nat} (hs : l.Pairwise (· < ·)) {x : Nat} (hx : x ∉ l) :
    Ins l (l.insertIdx (l.takeWhile (fun y => y ≤ x)).length x) x (l.takeWhile (fun y => y ≤ x)).length := by
  obtain ⟨a, b, h1, h2, h3, h4⟩ := split_lt l hs (fun y => decide (y ≤ x)) (by intro a b; simp; omega)
  rw [h2]
  refine ⟨by rw [h1]; simp, rfl, ?_⟩
  rw [h1, insertIdx_append]
  rw [h1, List.pairwise_append] at hs
  rw [List.pairwise_append, List.pairwise_cons]
  refine ⟨hs.1, ⟨?_, hs.2.1⟩, ?_⟩
  · intro y hy
    have := h4 y hy
    simp at this; omega
  · intro y hy z hz
    rcases List.mem_cons.1 hz with h | h
    · subst h
      have := h3 y hy
      simp at this
      rcases Nat.lt_or_ge y z with h5 | h5
      · exact h5
      · exact absurd (by rw [h1]; simp [show z = y by omega, hy] : z ∈ l) hx
    · exact hs.2.2 y hy z h

theorem ins_old {l : List Nat} (hs : l.Pairwise (· < ·)) {x : Nat} (hx : x ∈ l) :
    l[(l.takeWhile (fun y => y < x)).length]? = some x ∧ Ins (l.eraseIdx (l.takeWhile (fun y => y < x)).length) l x (l.takeWhile (fun y => y < x)).length := by
  obtain ⟨a, b, h1, h2, h3, h4⟩ := split_lt l hs (fun y => decide (y < x)) (by intro a b; simp; omega)
  rw [h2]
  have hb : ∃ t, b = x :: t := by
    rcases b with _ | ⟨y, t⟩
    · rw [h1] at hx
      have := h3 x (by simpa using hx)
      simp at this
    · refine ⟨t, ?_⟩
      have hy := h4 y (by simp)
      simp at hy
      rw [h1, List.mem_append] at hx
      rcases hx with hx | hx
      · have := h3 x hx; simp at this
      · rcases List.mem_cons.1 hx with hx | hx
        · rw [hx]
        · rw [h1, List.pairwise_append, List.pairwise_cons] at hs
          have := hs.2.1.1 x hx; omega
  obtain ⟨t, rfl⟩ := hb
  refine ⟨by rw [h1]; simp, ?_, ?_, hs⟩
  · rw [List.length_eraseIdx, h1]; simp
  · rw [h1, List.eraseIdx_append_of_length_le (le_refl _), Nat.sub_self, List.eraseIdx_cons_zero, insertIdx_append]

theorem ins_last {l : List Nat} (hs : l.Pairwise (· < ·)) {x : Nat} (hx : x ∈ l) (hmax : ∀ y ∈ l, y ≤ x) : Ins l.dropLast l x l.dropLast.length := by
  have hne : l ≠ [] := by rintro rfl; simp at hx
  have hl := List.dropLast_append_getLast hne
  have hlast : l.getLast hne = x := by
    apply le_antisymm (hmax _ (List.getLast_mem hne))
    rw [← hl, List.mem_append] at hx
    rw [← hl, List.pairwise_append] at hs
    rcases hx with hx | hx
    · exact le_of_lt (hs.2.2 x hx _ (by simp))
    · simp at hx; omega
  refine ⟨le_refl _, ?_, hs⟩
  have := insertIdx_append l.dropLast [] x
  rw [List.append_nil] at this
  rw [this, ← hlast]; exact hl.symm

/-! ### one column enters a level -/

section level
variable {m n : Nat} {D R U : CMat F} {p : P2C} {S : Finset Nat}

theorem Lev.insert (h : Lev m n D R U p S) {x : Nat} (hx : x < n) (hS : x ∉ S) (hR : R.cols.getD x [] = D.cols.getD x []) (hU : U.cols.getD x [] = [(x, 1)]) :
    ColInv D.cols m n (insert x S) R.cols U.cols := by
  have hc := h.col
  refine ⟨hc.lenR, hc.lenU, ?_, hc.okR, hc.okU, ?_, ?_, ?_, ?_⟩
  · intro j hj
    rcases Finset.mem_insert.1 hj with hj | hj
    · rw [hj]; exact hx
    · exact hc.sub j hj
  · intro j hj i
    rcases Finset.mem_insert.1 hj with hj | hj
    · subst hj
      rw [hU, hR, Finset.sum_eq_single j]
      · rw [coef_unit, if_pos rfl, one_mul]
      · intro c _ hcj; rw [coef_unit, if_neg hcj, zero_mul]
      · intro hh; exact absurd (Finset.mem_range.2 hx) hh
    · exact hc.eq j hj i
  · intro j hj
    rcases Finset.mem_insert.1 hj with hj | hj
    · subst hj; rw [hU, coef_unit, if_pos rfl]
    · exact hc.diag j hj
  · intro j hj c hjc
    rcases Finset.mem_insert.1 hj with hj | hj
    · subst hj; rw [hU, coef_unit, if_neg (by omega)]
    · exact hc.upper j hj c hjc
  · intro j hj c hcc
    rcases Finset.mem_insert.1 hj with hj | hj
    · subst hj
      rw [hU, coef_unit] at hcc
      by_cases hcj : c = j
      · rw [hcj]; exact Finset.mem_insert_self _ _
      · rw [if_neg hcj] at hcc; exact absurd rfl hcc
    · exact Finset.mem_insert_of_mem (hc.supp j hj c hcc)

theorem reduceColumn_spec (h : Lev m n D R U p S) {x : Nat} (hx : x < n) (hS : x ∉ S) (hR : R.cols.getD x [] = D.cols.getD x []) (hU : U.cols.getD x [] = [(x, 1)]) :
    ∃ j' R' U' p', reduceColumn x R U p = .ok (j', R', U', p') ∧ RedRes D.cols m n (insert x S) x R.cols U.cols p j' R'.cols U'.cols p' ∧ Lev m n D R' U' p' (insert x S) := by
  have hC := h.insert hx hS hR hU
  obtain ⟨j', R', U', p', h1, h2⟩ := reduceColLoop_spec (R.nrow + 1) (Finset.mem_insert_self x S) hC (p := p) (by rw [Finset.erase_insert hS]; exact h.tab) (by omega) (by
    intro i hi
    have := low_lt (hC.okR.getD x).2 hi
    rw [h.nrowR]; omega)
  refine ⟨j', ⟨R.nrow, R'⟩, ⟨U.nrow, U'⟩, p', ?_, h2, h.shapeD, h.nrowR, h.nrowU, h2.col, h2.tab⟩
  unfold reduceColumn
  rw [h1]; rfl

end level

/-! ### the state -/

def Rk (B : List (CMat F)) (C : RedCpx F) (k : Nat) : CMat F := C.R.getD k ⟨rdim B k, []⟩
def Uk (B : List (CMat F)) (C : RedCpx F) (k : Nat) : CMat F := C.U.getD k ⟨cdim B k, []⟩
def pk (B : List (CMat F)) (C : RedCpx F) (k : Nat) : P2C := C.p2c.getD k (List.replicate (rdim B k) none)

/-- the invariant of the loop after `N` events -/
structure SInv (B : List (CMat F)) (es : List (Event T)) (nb N : Nat) (s : State F T) : Prop where
  lenR : s.red.R.length = B.length
  lenU : s.red.U.length = B.length
  lenp : s.red.p2c.length = B.length
  lenI : s.red.I.length = B.length
  lenb : s.bars.length = nb
  lenm : s.p2i.length = nb
  lenL : s.L.length = nb
  lenP : s.P.length = nb
  lend : s.dir.length = nb
  lev : Lvls B es N (Rk B s.red) (Uk B s.red) (pk B s.red)
  fresh : ∀ k c, c < cdim B k → (∀ f ∈ es.take N, ¬ (f.dim = k ∧ f.ind = c)) →
    (Rk B s.red k).cols.getD c [] = (Dk B k).cols.getD c [] ∧ (Uk B s.red k).cols.getD c [] = [(c, 1)]
  kok : ∀ k, k < nb → KOK B es N k (Rk B s.red k) (Uk B s.red k) (pk B s.red (k + 1)) (s.red.I.getD k []) (s.L.getD k ⟨0, []⟩) (s.P.getD k ⟨0, []⟩) (s.dir.getD k false)
    (s.bars.getD k []) (s.p2i.getD k [])

theorem set_getD_if {α : Type} {l : List α} {i k : Nat} {a z : α} (h : i < l.length) : (l.set i a).getD k z = if k = i then a else l.getD k z := by
  by_cases e : k = i
  · rw [if_pos e, e, set_getD_self h]
  · rw [if_neg e, set_getD_ne (Ne.symm e)]

/-- the components after an arrow in dimension `k`, before the reduction data are changed further -/
def setBars (s : State F T) (h : Nat) (bars' : List (ZPair T)) (m' : AMap) (L' P' : CMat F) (d' : Bool) : State F T :=
  { s with bars := s.bars.set h bars', p2i := s.p2i.set h m', L := s.L.set h L', P := s.P.set h P', dir := s.dir.set h d' }

section
variable {B : List (CMat F)} {es : List (Event T)} {nb N : Nat} {s : State F T}

/-- assembling the invariant after a step which changed the level `q`, the generators of dimension `h` and the bars of dimension `h` -/
theorem SInv.assemble (hs : SInv B es nb N s) (hnb : nb ≤ B.length) {q : Nat} (hq : q < B.length) {R' U' : CMat F} {p' : P2C}
    {red : RedCpx F} (hredR : red.R = s.red.R.set q R') (hredU : red.U = s.red.U.set q U') (hredp : red.p2c = s.red.p2c.set q p')
    {h : Nat} {I' : List Nat} (hredI : red.I = s.red.I.set h I') {bars' : List (ZPair T)} {m' : AMap} {L' P' : CMat F} {d' : Bool}
    (hlev : Lvls B es (N + 1) (Rk B red) (Uk B red) (pk B red))
    (hfresh : ∀ k c, c < cdim B k → (∀ f ∈ es.take (N + 1), ¬ (f.dim = k ∧ f.ind = c)) →
      (Rk B red k).cols.getD c [] = (Dk B k).cols.getD c [] ∧ (Uk B red k).cols.getD c [] = [(c, 1)])
    (hh : h < nb) (hk : KOK B es (N + 1) h (Rk B red h) (Uk B red h) (pk B red (h + 1)) I' L' P' d' bars' m')
    (ho : ∀ k, k < nb → k ≠ h → KOK B es (N + 1) k (Rk B red k) (Uk B red k) (pk B red (k + 1)) (s.red.I.getD k []) (s.L.getD k ⟨0, []⟩) (s.P.getD k ⟨0, []⟩) (s.dir.getD k false)
      (s.bars.getD k []) (s.p2i.getD k [])) :
    SInv B es nb (N + 1) (setBars { s with red := red } h bars' m' L' P' d') := by
  refine ⟨?_, ?_, ?_, ?_, ?_, ?_, ?_, ?_, ?_, hlev, hfresh, ?_⟩
  · show red.R.length = _; rw [hredR, List.length_set]; exact hs.lenR
  · show red.U.length = _; rw [hredU, List.length_set]; exact hs.lenU
  · show red.p2c.length = _; rw [hredp, List.length_set]; exact hs.lenp
  · show red.I.length = _; rw [hredI, List.length_set]; exact hs.lenI
  · show (s.bars.set h bars').length = _; rw [List.length_set]; exact hs.lenb
  · show (s.p2i.set h m').length = _; rw [List.length_set]; exact hs.lenm
  · show (s.L.set h L').length = _; rw [List.length_set]; exact hs.lenL
  · show (s.P.set h P').length = _; rw [List.length_set]; exact hs.lenP
  · show (s.dir.set h d').length = _; rw [List.length_set]; exact hs.lend
  · intro k hkn
    show KOK B es (N + 1) k (Rk B red k) (Uk B red k) (pk B red (k + 1)) (red.I.getD k []) ((s.L.set h L').getD k ⟨0, []⟩) ((s.P.set h P').getD k ⟨0, []⟩) ((s.dir.set h d').getD k false)
      ((s.bars.set h bars').getD k []) ((s.p2i.set h m').getD k [])
    rw [hredI, set_getD_if (by rw [hs.lenI]; omega), set_getD_if (by rw [hs.lenL]; exact hh), set_getD_if (by rw [hs.lenP]; exact hh), set_getD_if (by rw [hs.lend]; exact hh),
      set_getD_if (by rw [hs.lenb]; exact hh), set_getD_if (by rw [hs.lenm]; exact hh)]
    by_cases e : k = h
    · simp only [if_pos e]; subst e; exact hk
    · simp only [if_neg e]; exact ho k hkn e

/-- the same when no bars change -/
theorem SInv.assemble' (hs : SInv B es nb N s) {q : Nat} (hq : q < B.length) {R' U' : CMat F} {p' : P2C}
    {red : RedCpx F} (hredR : red.R = s.red.R.set q R') (hredU : red.U = s.red.U.set q U') (hredp : red.p2c = s.red.p2c.set q p') (hredI : red.I = s.red.I)
    (hlev : Lvls B es (N + 1) (Rk B red) (Uk B red) (pk B red))
    (hfresh : ∀ k c, c < cdim B k → (∀ f ∈ es.take (N + 1), ¬ (f.dim = k ∧ f.ind = c)) →
      (Rk B red k).cols.getD c [] = (Dk B k).cols.getD c [] ∧ (Uk B red k).cols.getD c [] = [(c, 1)])
    (ho : ∀ k, k < nb → KOK B es (N + 1) k (Rk B red k) (Uk B red k) (pk B red (k + 1)) (s.red.I.getD k []) (s.L.getD k ⟨0, []⟩) (s.P.getD k ⟨0, []⟩) (s.dir.getD k false)
      (s.bars.getD k []) (s.p2i.getD k [])) :
    SInv B es nb (N + 1) { s with red := red } := by
  refine ⟨?_, ?_, ?_, ?_, hs.lenb, hs.lenm, hs.lenL, hs.lenP, hs.lend, hlev, hfresh, ?_⟩
  · show red.R.length = _; rw [hredR, List.length_set]; exact hs.lenR
  · show red.U.length = _; rw [hredU, List.length_set]; exact hs.lenU
  · show red.p2c.length = _; rw [hredp, List.length_set]; exact hs.lenp
  · show red.I.length = _; rw [hredI]; exact hs.lenI
  · intro k hkn
    show KOK B es (N + 1) k (Rk B red k) (Uk B red k) (pk B red (k + 1)) (red.I.getD k []) _ _ _ _ _
    rw [hredI]; exact ho k hkn

/-- pivots are positions of cells which are present -/
theorem pivot_present {n n2 : Nat} {D2 R2 U2 : CMat F} {p2 : P2C} {S S2 : Finset Nat} (h2 : Lev n n2 D2 R2 U2 p2 S2) (hcl : Closed D2 S S2) {i : Nat}
    (hi : p2.getD i none ≠ none) : ∃ j ∈ S2, low (R2.cols.getD j []) = some i ∧ i ∈ S := by
  have := (h2.tab.none_iff i).not.1 hi
  push Not at this
  obtain ⟨j, hj, hl⟩ := this
  refine ⟨j, hj, hl, ?_⟩
  have hm := closed_map (F := F) hcl (h2.R_boundary hj)
  have hin := low_lt (h2.col.okR.getD j).2 hl
  by_contra hiS
  have h0 := mem_onS.1 hm ⟨i, hin⟩ hiS
  have hlow := (low_iff (h2.col.okR.getD j).1 i).1 hl
  exact hlow.1 h0

end

end Zigzag
end BATS
