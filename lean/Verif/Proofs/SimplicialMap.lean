import Verif.Model.SimplicialMap
import Verif.Proofs.SignDet
import Verif.Proofs.SimplicialChain
import Verif.Proofs.Induced
import Verif.Props.Permutation
import Verif.Proofs.Sublevel

set_option linter.unusedSectionVars false
set_option linter.unusedSimpArgs false
set_option linter.unusedVariables false

/-! # Simplicial maps -/

namespace BATS
namespace SMap
open Reduction SCpx

theorem isDegenerate_iff : ∀ {t : List Nat}, t.Pairwise (· ≤ ·) → (isDegenerate t = true ↔ ¬ t.Nodup)
  | [], _ => by simp [isDegenerate]
  | [a], _ => by simp [isDegenerate]
  | a :: b :: t, h => by
    rw [isDegenerate]
    have h1 := List.pairwise_cons.1 h
    by_cases hab : b = a
    · rw [if_pos hab]; subst hab; simp
    · rw [if_neg hab, isDegenerate_iff h1.2, not_iff_not, List.nodup_cons (a := a)]
      constructor
      · intro hn
        refine ⟨?_, hn⟩
        intro hm
        rcases List.mem_cons.1 hm with e | hm
        · exact hab e.symm
        · have := (List.pairwise_cons.1 h1.2).1 a hm
          have := h1.1 b (by simp); omega
      · exact fun hn => hn.2

theorem pairwise_lt_of_le {t : List Nat} (h : t.Pairwise (· ≤ ·)) (hn : t.Nodup) : t.Pairwise (· < ·) := by
  exact (List.Pairwise.and h hn).imp (fun ⟨a, b⟩ => lt_of_le_of_ne a b)

/-- `simplex_sign` -/
theorem simplexSign_spec (s : List Nat) {n : Nat} (hlen : s.length = n) :
    ∃ (sg : Int) (t : List Nat), simplexSign s = .ok (sg, t) ∧ t.Perm s ∧ t.Pairwise (· ≤ ·) ∧
      (s.Nodup → t.Pairwise (· < ·) ∧ ∃ σ : Equiv.Perm (Fin n), sg = (Equiv.Perm.sign σ : ℤ) ∧ ∀ i : Fin n, s.getD i 0 = t.getD (σ i) 0) ∧
      (¬ s.Nodup → sg = 0) := by
  subst hlen
  have hp := Perm.stableSortperm_perm s
  have hl := Perm.isPerm_length hp
  obtain ⟨t, t1, t2, t3⟩ := Perm.applyPerm_spec s (Perm.stableSortperm s) (fun x hx => (Perm.isPerm_mem hp).1 hx) hl
  -- the permutation as an equivalence
  have hlt : ∀ i : Fin s.length, i.1 < (Perm.stableSortperm s).length := fun i => by rw [hl]; exact i.2
  let e : Fin s.length → Fin s.length := fun i => ⟨(Perm.stableSortperm s)[i.1]'(hlt i), (Perm.isPerm_mem hp).1 (List.getElem_mem _)⟩
  have hinj : Function.Injective e := by
    intro i j hij
    have h1 : (Perm.stableSortperm s)[i.1]'(hlt i) = (Perm.stableSortperm s)[j.1]'(hlt j) := congrArg Fin.val hij
    exact Fin.ext (((Perm.isPerm_nodup hp).getElem_inj_iff).1 h1)
  let π : Equiv.Perm (Fin s.length) := Equiv.ofBijective e ⟨hinj, Finite.surjective_of_injective hinj⟩
  have hte : ∀ i : Fin s.length, t.getD i 0 = s.getD (π i) 0 := by
    intro i
    have := t3 i.1 _ (List.getElem?_eq_getElem (hlt i))
    rw [List.getD_eq_getElem?_getD, this, List.getD_eq_getElem?_getD]
    rfl
  have hpf : Perm.stableSortperm s = List.ofFn (fun i => ((π i : Fin s.length) : Nat)) := by
    apply List.ext_getElem (by rw [hl, List.length_ofFn])
    intro i h1 h2
    rw [List.getElem_ofFn]; rfl
  have hsign : Perm.permSign (Perm.stableSortperm s) = (Equiv.Perm.sign π : ℤ) := by
    rw [hpf]
    exact C24_perm_sign π (fun i : Fin s.length => (i : Nat)) (fun i j h => h)
  have hperm : t.Perm s := by
    have e1 : t = List.ofFn (fun i : Fin s.length => s[(π i).1]) := by
      apply List.ext_getElem (by rw [t2, List.length_ofFn])
      intro i h1 h2
      rw [List.getElem_ofFn]
      have hi : i < s.length := by omega
      have := t3 i _ (List.getElem?_eq_getElem (hlt ⟨i, hi⟩))
      rw [List.getElem?_eq_getElem h1] at this
      have h3 : s[((π ⟨i, hi⟩ : Fin s.length) : Nat)]? = some s[((π ⟨i, hi⟩ : Fin s.length) : Nat)] := List.getElem?_eq_getElem _
      have h4 : some t[i] = s[((π ⟨i, hi⟩ : Fin s.length) : Nat)]? := this
      rw [h3] at h4
      exact Option.some.inj h4
    have e2 : s = List.ofFn (fun i : Fin s.length => s[i.1]) := by rw [List.ofFn_getElem]
    rw [e1]
    conv_rhs => rw [e2]
    exact Equiv.Perm.ofFn_comp_perm π (fun i : Fin s.length => s[i.1])
  have hle : t.Pairwise (· ≤ ·) := by
    rw [List.pairwise_iff_getElem]
    intro a b ha hb hab
    have ha' : a < (Perm.stableSortperm s).length := by omega
    have hb' : b < (Perm.stableSortperm s).length := by omega
    obtain ⟨u, v, hu, hv, huv⟩ := Perm.stableSortperm_sorted s hab (List.getElem?_eq_getElem ha') (List.getElem?_eq_getElem hb')
    have e1 := t3 a _ (List.getElem?_eq_getElem ha')
    have e2 := t3 b _ (List.getElem?_eq_getElem hb')
    rw [hu, List.getElem?_eq_getElem ha] at e1
    rw [hv, List.getElem?_eq_getElem hb] at e2
    rw [Option.some.inj e1, Option.some.inj e2]
    rcases huv with h | ⟨h, _⟩
    · exact le_of_lt h
    · exact le_of_eq h
  have hnd : t.Nodup ↔ s.Nodup := hperm.nodup_iff
  refine ⟨if isDegenerate t then 0 else Perm.permSign (Perm.stableSortperm s), t, ?_, hperm, hle, ?_, ?_⟩
  · unfold simplexSign
    simp only [t1, bind_ok]; rfl
  · intro hs
    have hd : ¬ isDegenerate t = true := by rw [isDegenerate_iff hle, not_not, hnd]; exact hs
    refine ⟨pairwise_lt_of_le hle (hnd.2 hs), π⁻¹, ?_, ?_⟩
    · rw [if_neg hd, hsign, Equiv.Perm.sign_inv]
    · intro i
      rw [hte (π⁻¹ i)]
      simp
  · intro hs
    rw [if_pos]
    rw [isDegenerate_iff hle, hnd]; exact hs

/-- images of the vertices -/
theorem image_spec (f0 : List Nat) : ∀ (s : List Nat), (∀ x ∈ s, x < f0.length) → image f0 s = .ok (s.map (fun x => f0.getD x 0))
  | [], _ => rfl
  | x :: s, h => by
    rw [image, rd_getD 0 (h x (by simp)), bind_ok, image_spec f0 s (fun y hy => h y (List.mem_cons_of_mem _ hy)), bind_ok]; rfl

/-! ### columns -/

variable {F : Type} [Field F] [DecidableEq F]

/-- an integer vector in the field -/
def castVec (F : Type) [Field F] (c : SVec Int) : SVec F := c.map (fun p => (p.1, (p.2 : F)))

/-- coefficient of the cell `t` in the oriented image `s` -/
def orient (F : Type) [Field F] (n : Nat) (s t : List Nat) : F := if t.Pairwise (· < ·) then dl F n s t else 0

theorem sign_ne_zero {n : Nat} (σ : Equiv.Perm (Fin n)) : (Equiv.Perm.sign σ : ℤ) ≠ 0 := by
  rcases Int.units_eq_one_or (Equiv.Perm.sign σ) with h | h <;> rw [h] <;> decide

theorem sign_cast_ne_zero {n : Nat} (σ : Equiv.Perm (Fin n)) : ((Equiv.Perm.sign σ : ℤ) : F) ≠ 0 := by
  rcases Int.units_eq_one_or (Equiv.Perm.sign σ) with h | h <;> rw [h] <;> simp

theorem exists_eq_of_not_nodup {s : List Nat} {n : Nat} (hlen : s.length = n) (h : ¬ s.Nodup) : ∃ i j : Fin n, i ≠ j ∧ s.getD i 0 = s.getD j 0 := by
  subst hlen
  rw [List.nodup_iff_injective_get, Function.not_injective_iff] at h
  obtain ⟨i, j, hij, hne⟩ := h
  refine ⟨i, j, hne, ?_⟩
  simpa [List.getD_eq_getElem?_getD] using hij

theorem findIdx_cell {Y : SCpx} {cells : Cells} (h : Inv Y cells) {d : Nat} {t : List Nat} (ht : t ∈ cells d) :
    ∃ j, Y.findIdx t = some j ∧ (cells d)[j]? = some t := by
  have hl := h.ok.len d t ht
  obtain ⟨j, hj, e⟩ := List.mem_iff_getElem.1 ht
  have hg : (cells d)[j]? = some t := by rw [List.getElem?_eq_getElem hj, e]
  refine ⟨j, ?_, hg⟩
  have := (h.trie t (by rintro rfl; simp at hl) j).2 (by rw [show t.length - 1 = d by omega]; exact hg)
  exact this

theorem column_spec {Y : SCpx} {cells : Cells} (h : Inv Y cells) {d : Nat} {s : List Nat} (hs : s.length = d + 1)
    (hm : s.Nodup → ∀ t : List Nat, t.Perm s → t.Pairwise (· < ·) → t ∈ cells d) :
    ∃ c, column Y s = .ok c ∧ VecOK (castVec F c) ∧ Below (cells d).length (castVec F c) ∧
      ∀ (j : Nat) (t : List Nat), (cells d)[j]? = some t → coef (castVec F c) j = orient F (d + 1) s t := by
  obtain ⟨sg, t, t1, t2, t3, t4, t5⟩ := simplexSign_spec s hs
  by_cases hn : s.Nodup
  · obtain ⟨t6, σ, h1, h2⟩ := t4 hn
    obtain ⟨j, j1, j2⟩ := findIdx_cell h (hm hn t t2 t6)
    have hne : sg ≠ 0 := by rw [h1]; exact sign_ne_zero σ
    refine ⟨[(j, sg)], ?_, ?_, ?_, ?_⟩
    · unfold column
      rw [t1, bind_ok]
      simp only [ne_eq, hne, not_false_eq_true, if_true, j1]
    · refine ⟨sorted_cons.2 ⟨by simp, sorted_nil⟩, ?_⟩
      intro q hq
      have hq' : q = (j, (sg : F)) := by simpa [castVec] using hq
      rw [hq', h1]; exact sign_cast_ne_zero σ
    · intro q hq
      have hq' : q = (j, (sg : F)) := by simpa [castVec] using hq
      rw [hq']; exact (List.getElem?_eq_some_iff.1 j2).1
    · intro j' t' ht'
      have hc : coef (castVec F [(j, sg)]) j' = if j = j' then (sg : F) else 0 := by
        show (if j = j' then (sg : F) else 0) + 0 = _
        rw [add_zero]
      have hlt' := h.ok.len d t' (List.mem_of_getElem? ht')
      have hlt : t.length = d + 1 := by rw [t2.length_eq, hs]
      rw [hc]
      unfold orient
      by_cases hp : t'.Pairwise (· < ·)
      · rw [if_pos hp]
        subst h1
        have hdl : dl F (d + 1) s t' = ((Equiv.Perm.sign σ : ℤ) : F) * dl F (d + 1) t t' := dl_perm (R := F) σ h2 t'
        rw [hdl, dl_sorted hlt hlt' t6 hp]
        by_cases e : j = j'
        · subst e
          rw [j2] at ht'
          rw [if_pos rfl, if_pos (Option.some.inj ht'), mul_one]
        · rw [if_neg e, if_neg, mul_zero]
          rintro rfl
          obtain ⟨a1, a2⟩ := List.getElem?_eq_some_iff.1 j2
          obtain ⟨b1, b2⟩ := List.getElem?_eq_some_iff.1 ht'
          exact e ((h.ok.nodup d).getElem_inj_iff.1 (a2.trans b2.symm))
      · rw [if_neg hp, if_neg]
        rintro rfl
        rw [j2] at ht'
        rw [← Option.some.inj ht'] at hp
        exact hp t6
  · have h0 := t5 hn
    refine ⟨[], ?_, vecOK_nil, below_nil _, ?_⟩
    · unfold column
      rw [t1, bind_ok]
      simp only [h0, ne_eq, not_true_eq_false, if_false]
    · intro j' t' ht'
      show (0 : F) = _
      unfold orient
      split
      · obtain ⟨i, i', hne, he⟩ := exists_eq_of_not_nodup hs hn
        exact (dl_degenerate (R := F) hne he t').symm
      · rfl

/-- the vertex map sends the simplices of one complex into another: images with distinct vertices are simplices -/
def MapsTo (f0 : List Nat) (cX cY : Cells) : Prop :=
  ∀ d x, x ∈ cX d → (∀ v ∈ x, v < f0.length) ∧
    ((x.map (fun v => f0.getD v 0)).Nodup → ∀ t : List Nat, t.Perm (x.map (fun v => f0.getD v 0)) → t.Pairwise (· < ·) → t ∈ cY d)

theorem columns_spec {X Y : SCpx} {cX cY : Cells} (hX : Inv X cX) (hY : Inv Y cY) {f0 : List Nat} (hf : MapsTo f0 cX cY) {k : Nat} :
    ∀ (n i : Nat), i + n ≤ (cX k).length → ∃ cs, columns X Y f0 k n i = .ok cs ∧ cs.length = n ∧
      ∀ (j : Nat) (x : List Nat), j < n → (cX k)[i + j]? = some x → column Y (x.map (fun v => f0.getD v 0)) = .ok (cs.getD j [])
  | 0, i, _ => ⟨[], rfl, rfl, by intro j x hj; omega⟩
  | n + 1, i, h => by
    obtain ⟨cs, c1, c2, c3⟩ := columns_spec hX hY hf (k := k) n (i + 1) (by omega)
    have hi : i < (cX k).length := by omega
    have hx : (cX k)[i]? = some ((cX k)[i]'hi) := List.getElem?_eq_getElem _
    have hm := hf k _ (List.mem_of_getElem? hx)
    obtain ⟨c, d1, _⟩ := column_spec (F := ℚ) hY (d := k) (s := ((cX k)[i]'hi).map (fun v => f0.getD v 0))
      (by rw [List.length_map]; exact hX.ok.len k _ (List.mem_of_getElem? hx)) hm.2
    refine ⟨c :: cs, ?_, by rw [List.length_cons, c2], ?_⟩
    · rw [columns, Filt.getSimplex_eq hX hx, bind_ok, image_spec f0 _ hm.1, bind_ok, d1, bind_ok, c1, bind_ok]; rfl
    · intro j x hj hjx
      cases j with
      | zero =>
        have : (cX k)[i]? = some x := hjx
        rw [hx] at this
        rw [← Option.some.inj this]; exact d1
      | succ j => exact c3 j x (by omega) (by rw [show i + 1 + j = i + (j + 1) by omega]; exact hjx)

theorem levels_spec {X Y : SCpx} {cX cY : Cells} (hX : Inv X cX) (hY : Inv Y cY) {f0 : List Nat} (hf : MapsTo f0 cX cY)
    (hd : X.ncells.length ≤ Y.ncells.length) :
    ∀ (n k : Nat), k + n ≤ X.ncells.length → ∃ Ms, levels X Y f0 n k = .ok Ms ∧ Ms.length = n ∧
      ∀ j, j < n → ∃ cs, Ms[j]? = some ⟨(cY (k + j)).length, cs⟩ ∧ cs.length = (cX (k + j)).length ∧
        ∀ (i : Nat) (x : List Nat), (cX (k + j))[i]? = some x → column Y (x.map (fun v => f0.getD v 0)) = .ok (cs.getD i [])
  | 0, k, _ => ⟨[], rfl, rfl, by intro j hj; omega⟩
  | n + 1, k, h => by
    obtain ⟨Ms, m1, m2, m3⟩ := levels_spec hX hY hf hd n (k + 1) (by omega)
    obtain ⟨cs, c1, c2, c3⟩ := columns_spec hX hY hf (k := k) (cX k).length 0 (by omega)
    refine ⟨⟨(cY k).length, cs⟩ :: Ms, ?_, by rw [List.length_cons, m2], ?_⟩
    · rw [levels]
      unfold SCpx.numCells
      rw [rd_some (hX.dim k (by omega)).nc, bind_ok, c1, bind_ok, rd_some (hY.dim k (by omega)).nc, bind_ok, m1, bind_ok]; rfl
    · intro j hj
      cases j with
      | zero =>
        refine ⟨cs, rfl, c2, ?_⟩
        intro i x hx
        exact c3 i x (List.getElem?_eq_some_iff.1 hx).1 (by rw [Nat.zero_add]; exact hx)
      | succ j =>
        have := m3 j (by omega)
        rw [show k + 1 + j = k + (j + 1) by omega] at this
        exact this

/-! ### commutation with the boundary -/

/-- the oriented image is plus or minus one sorted simplex, or zero -/
theorem orient_cases (F : Type) [Field F] {n : Nat} {s : List Nat} (hs : s.length = n) :
    (¬ s.Nodup ∧ (∀ t, orient F n s t = 0)) ∨
    (s.Nodup ∧ ∃ (a : List Nat) (σ : Equiv.Perm (Fin n)), a.Perm s ∧ a.length = n ∧ a.Pairwise (· < ·) ∧ (∀ i : Fin n, s.getD i 0 = a.getD (σ i) 0) ∧
      ∀ t : List Nat, t.length = n → orient F n s t = ((Equiv.Perm.sign σ : ℤ) : F) * (if a = t then 1 else 0)) := by
  by_cases hn : s.Nodup
  · right
    obtain ⟨sg, a, _, h2, _, h4, _⟩ := simplexSign_spec s hs
    obtain ⟨h5, σ, _, h6⟩ := h4 hn
    have hl : a.length = n := by rw [h2.length_eq, hs]
    refine ⟨hn, a, σ, h2, hl, h5, h6, ?_⟩
    intro t ht
    unfold orient
    by_cases hp : t.Pairwise (· < ·)
    · rw [if_pos hp, dl_perm σ h6, dl_sorted hl ht h5 hp]
    · rw [if_neg hp, if_neg, mul_zero]
      rintro rfl; exact hp h5
  · left
    refine ⟨hn, fun t => ?_⟩
    unfold orient
    split
    · obtain ⟨i, j, hij, he⟩ := exists_eq_of_not_nodup hs hn
      exact dl_degenerate hij he t
    · rfl

/-- boundary of an oriented image -/
theorem orient_boundary_degenerate (F : Type) [Field F] {n : Nat} {s : List Nat} (t : List Nat) (hs : s.length = n + 1) (hn : ¬ s.Nodup) :
    ∑ k ∈ Finset.range (n + 1), (-1 : F) ^ k * orient F n (s.eraseIdx k) t = 0 := by
  unfold orient
  by_cases hp : t.Pairwise (· < ·)
  · simp only [if_pos hp]
    rw [← gl_eq_sum]
    obtain ⟨i, j, hij, he⟩ := exists_eq_of_not_nodup hs hn
    exact gl_degenerate hij he t
  · simp only [if_neg hp, mul_zero, Finset.sum_const_zero]

theorem orient_boundary (F : Type) [Field F] {n : Nat} {s t a : List Nat} (hs : s.length = n + 1) (ht : t.length = n) (ha : a.length = n + 1)
    (hap : a.Pairwise (· < ·)) (σ : Equiv.Perm (Fin (n + 1))) (hσ : ∀ i : Fin (n + 1), s.getD i 0 = a.getD (σ i) 0) :
    ∑ k ∈ Finset.range (n + 1), (-1 : F) ^ k * orient F n (s.eraseIdx k) t
      = ((Equiv.Perm.sign σ : ℤ) : F) * ∑ k ∈ Finset.range (n + 1), (-1 : F) ^ k * (if a.eraseIdx k = t then 1 else 0) := by
  unfold orient
  have hae : ∀ k, (a.eraseIdx k).Pairwise (· < ·) := fun k => List.Pairwise.sublist (List.eraseIdx_sublist a k) hap
  by_cases hp : t.Pairwise (· < ·)
  · simp only [if_pos hp]
    rw [← gl_eq_sum, gl_perm σ hσ, gl_eq_sum]
    congr 1
    apply Finset.sum_congr rfl
    intro k hk
    rw [Finset.mem_range] at hk
    rw [dl_sorted (by rw [List.length_eraseIdx_of_lt (by omega)]; omega) ht (hae k) hp]
  · simp only [if_neg hp, mul_zero, Finset.sum_const_zero]
    symm
    rw [Finset.sum_eq_zero, mul_zero]
    intro k _
    rw [if_neg, mul_zero]
    rintro rfl; exact hp (hae k)

/-- what is known about the matrices of a simplicial map -/
structure MapOK (f : List (CMat Int)) (Y : SCpx) (f0 : List Nat) (cX cY : Cells) (n : Nat) : Prop where
  len : f.length = n
  level : ∀ k, k < n → ∃ cs, f[k]? = some ⟨(cY k).length, cs⟩ ∧ cs.length = (cX k).length ∧
        ∀ (i : Nat) (x : List Nat), (cX k)[i]? = some x → column Y (x.map (fun v => f0.getD v 0)) = .ok (cs.getD i [])

theorem simplicialMap_spec {X Y : SCpx} {cX cY : Cells} (hX : Inv X cX) (hY : Inv Y cY) {f0 : List Nat} (hf : MapsTo f0 cX cY)
    (hd : X.ncells.length ≤ Y.ncells.length) : ∃ f, simplicialMap X Y f0 = .ok f ∧ MapOK f Y f0 cX cY X.ncells.length := by
  have hne := hX.sizes.ne
  obtain ⟨f, f1, f2, f3⟩ := levels_spec hX hY hf hd X.ncells.length 0 (by omega)
  refine ⟨f, ?_, f2, ?_⟩
  · unfold simplicialMap SCpx.maxdim
    rw [show X.ncells.length - 1 + 1 = X.ncells.length by omega]; exact f1
  · intro k hk
    have := f3 k hk
    rw [Nat.zero_add] at this
    exact this

section comm
variable {X Y : SCpx} {cX cY : Cells} {f0 : List Nat} {f : List (CMat Int)} {BX BY : List (CMat F)}

theorem MapOK.shape (hX : Inv X cX) (hY : Inv Y cY) (hf : MapsTo f0 cX cY) (h : MapOK f Y f0 cX cY X.ncells.length) {k : Nat} (hk : k < X.ncells.length) :
    ((chainMap f : List (CMat F)).getD k ⟨0, []⟩).Shape (cY k).length (cX k).length := by
  obtain ⟨cs, c1, c2, c3⟩ := h.level k hk
  have e : (chainMap f : List (CMat F)).getD k ⟨0, []⟩ = ⟨(cY k).length, cs.map (castVec F)⟩ := by
    unfold chainMap
    rw [List.getD_eq_getElem?_getD, List.getElem?_map, c1]; rfl
  rw [e]
  refine ⟨?_, rfl, by show (cs.map (castVec F)).length = _; rw [List.length_map, c2]⟩
  intro c hc
  have hc' : c ∈ cs.map (castVec F) := hc
  obtain ⟨b, hb, rfl⟩ := List.mem_map.1 hc'
  obtain ⟨i, hi, rfl⟩ := List.mem_iff_getElem.1 hb
  have hi' : i < (cX k).length := by omega
  have hx : (cX k)[i]? = some (cX k)[i] := List.getElem?_eq_getElem hi'
  have hm := hf k _ (List.mem_of_getElem? hx)
  have hcol := c3 i _ hx
  obtain ⟨d, d1, d2, d3, _⟩ := column_spec (F := F) hY (d := k) (s := ((cX k)[i]'hi').map (fun v => f0.getD v 0))
      (by rw [List.length_map]; exact hX.ok.len k _ (List.mem_of_getElem? hx)) hm.2
  rw [hcol] at d1
  injection d1 with d1
  have e2 : cs.getD i [] = cs[i] := by rw [List.getD_eq_getElem?_getD, List.getElem?_eq_getElem hi]; rfl
  rw [← e2, d1]
  exact ⟨d2, d3⟩

theorem MapOK.cmap (hX : Inv X cX) (hY : Inv Y cY) (hf : MapsTo f0 cX cY) (h : MapOK f Y f0 cX cY X.ncells.length)
    {k : Nat} (i : Fin (cdim BY k)) (j : Fin (cdim BX k)) {x t : List Nat} (hx : (cX k)[j.1]? = some x) (ht : (cY k)[i.1]? = some t) :
    cmap (chainMap f) BX BY k i j = orient F (k + 1) (x.map (fun v => f0.getD v 0)) t := by
  have hk : k < X.ncells.length := by
    by_contra hc
    rw [hX.top k (by omega)] at hx; simp at hx
  obtain ⟨cs, c1, c2, c3⟩ := h.level k hk
  have e : (chainMap f : List (CMat F)).getD k ⟨0, []⟩ = ⟨(cY k).length, cs.map (castVec F)⟩ := by
    unfold chainMap
    rw [List.getD_eq_getElem?_getD, List.getElem?_map, c1]; rfl
  have hm := hf k _ (List.mem_of_getElem? hx)
  obtain ⟨d, d1, _, _, d4⟩ := column_spec (F := F) hY (d := k) (s := x.map (fun v => f0.getD v 0))
      (by rw [List.length_map]; exact hX.ok.len k _ (List.mem_of_getElem? hx)) hm.2
  rw [c3 j x hx] at d1
  injection d1 with d1
  rw [← d4 i t ht, ← d1]
  show coef (((chainMap f : List (CMat F)).getD k ⟨0, []⟩).cols.getD j []) i = _
  rw [e]
  show coef ((cs.map (castVec F)).getD j []) i = _
  congr 1
  rw [List.getD_eq_getElem?_getD, List.getElem?_map, List.getD_eq_getElem?_getD]
  rcases cs[j.1]? with _ | c <;> rfl

/-- a cell at an index -/
theorem idxOf_eq_iff {cells : Cells} (h : CellsOK cells) {d i : Nat} {t u : List Nat} (ht : (cells d)[i]? = some t) (hu : u ∈ cells d) :
    (cells d).idxOf u = i ↔ u = t := by
  obtain ⟨hi, e⟩ := List.getElem?_eq_some_iff.1 ht
  constructor
  · intro hx
    subst hx
    rw [← e, List.getElem_idxOf]
  · rintro rfl
    rw [← e]
    exact (h.nodup d).idxOf_getElem i hi

/-- the matrices of a simplicial map commute with the boundary matrices -/
theorem MapOK.comm (hX : Inv X cX) (hY : Inv Y cY) (hf : MapsTo f0 cX cY) (h : MapOK f Y f0 cX cY X.ncells.length)
    (hcX : ∀ k, cdim BX k = (cX k).length) (hcY : ∀ k, cdim BY k = (cY k).length)
    (hbX : ∀ d, d + 1 < X.ncells.length → ∃ M, BX[d + 1]? = some M ∧ BdMat cX d M)
    (hbY : ∀ d, d + 1 < Y.ncells.length → ∃ M, BY[d + 1]? = some M ∧ BdMat cY d M) (k : Nat) :
    bdryUp BY k * BATS.cmap (chainMap f) BX BY (k + 1) = BATS.cmap (chainMap f) BX BY k * bdryUp BX k := by
  ext i j
  rw [Matrix.mul_apply, Matrix.mul_apply]
  have hj : j.1 < (cX (k + 1)).length := by rw [← hcX]; exact j.2
  have hi : i.1 < (cY k).length := by rw [← hcY]; exact i.2
  obtain ⟨x, hx⟩ : ∃ x, (cX (k + 1))[j.1]? = some x := ⟨_, List.getElem?_eq_getElem hj⟩
  obtain ⟨t, ht⟩ : ∃ t, (cY k)[i.1]? = some t := ⟨_, List.getElem?_eq_getElem hi⟩
  have hxm := List.mem_of_getElem? hx
  have htm := List.mem_of_getElem? ht
  have hxl := hX.ok.len _ _ hxm
  have htl := hY.ok.len _ _ htm
  set s := x.map (fun v => f0.getD v 0) with hs
  have hsl : s.length = k + 1 + 1 := by rw [hs, List.length_map]; exact hxl
  -- right-hand side
  have hR : ∑ l, BATS.cmap (chainMap f) BX BY k i l * bdryUp BX k l j =
      (-1 : F) ^ k * ∑ m ∈ Finset.range (k + 1 + 1), (-1 : F) ^ m * orient F (k + 1) (s.eraseIdx m) t := by
    have hup : ∀ l : Fin (cdim BX k), bdryUp BX k l j =
        ∑ m ∈ Finset.range (k + 2), if (cX k).idxOf (x.eraseIdx m) = l then (-1 : F) ^ (k + m) else 0 := fun l => ent_eq hX hbX hx l
    simp only [hup, Finset.mul_sum]
    rw [Finset.sum_comm]
    apply Finset.sum_congr rfl
    intro m hm
    rw [Finset.mem_range] at hm
    have hfm := hX.ok.closed k x hxm m (by omega)
    have hlt : (cX k).idxOf (x.eraseIdx m) < cdim BX k := by rw [hcX]; exact List.idxOf_lt_length_iff.2 hfm
    rw [Finset.sum_eq_single (⟨_, hlt⟩ : Fin (cdim BX k))]
    · have hg : (cX k)[(⟨(cX k).idxOf (x.eraseIdx m), hlt⟩ : Fin (cdim BX k)).1]? = some (x.eraseIdx m) := by
        show (cX k)[(cX k).idxOf (x.eraseIdx m)]? = _
        rw [List.getElem?_eq_getElem (List.idxOf_lt_length_iff.2 hfm), List.getElem_idxOf]
      rw [if_pos rfl, h.cmap hX hY hf i _ hg ht, hs]
      have : (x.eraseIdx m).map (fun v => f0.getD v 0) = (x.map (fun v => f0.getD v 0)).eraseIdx m := by
        rw [List.eraseIdx_map]
      rw [this, pow_add]; ring
    · intro b _ hb
      rw [if_neg (fun e => hb (Fin.ext e.symm)), mul_zero]
    · intro h; exact absurd (Finset.mem_univ _) h
  rw [hR]
  -- left-hand side
  have hc : ∀ l : Fin (cdim BY (k + 1)), ∃ τ, (cY (k + 1))[l.1]? = some τ ∧ τ.length = k + 1 + 1 ∧
      BATS.cmap (chainMap f) BX BY (k + 1) l j = orient F (k + 1 + 1) s τ := by
    intro l
    have hl : l.1 < (cY (k + 1)).length := by rw [← hcY]; exact l.2
    refine ⟨(cY (k + 1))[l.1], List.getElem?_eq_getElem hl, hY.ok.len _ _ (List.getElem_mem _), ?_⟩
    exact h.cmap hX hY hf l j hx (List.getElem?_eq_getElem hl)
  rcases orient_cases F hsl with ⟨hn, h0⟩ | ⟨hn, a, σ, ap, al, as, aσ, ao⟩
  · rw [orient_boundary_degenerate F t hsl hn, mul_zero]
    apply Finset.sum_eq_zero
    intro l _
    obtain ⟨τ, _, _, e⟩ := hc l
    rw [e, h0, mul_zero]
  · rw [orient_boundary F hsl htl al as σ aσ]
    have ham : a ∈ cY (k + 1) := (hf (k + 1) x hxm).2 hn a ap as
    have hlt : (cY (k + 1)).idxOf a < cdim BY (k + 1) := by rw [hcY]; exact List.idxOf_lt_length_iff.2 ham
    have hg : (cY (k + 1))[(cY (k + 1)).idxOf a]? = some a := by
      rw [List.getElem?_eq_getElem (List.idxOf_lt_length_iff.2 ham), List.getElem_idxOf]
    rw [Finset.sum_eq_single (⟨_, hlt⟩ : Fin (cdim BY (k + 1)))]
    · rw [h.cmap hX hY hf _ j hx (by exact hg), ao a al, if_pos rfl, mul_one]
      have hup : bdryUp BY k i ⟨(cY (k + 1)).idxOf a, hlt⟩ =
        ∑ m ∈ Finset.range (k + 2), if (cY k).idxOf (a.eraseIdx m) = i then (-1 : F) ^ (k + m) else 0 := ent_eq hY hbY hg i
      rw [hup, mul_comm, mul_left_comm]
      congr 1
      rw [Finset.mul_sum]
      apply Finset.sum_congr rfl
      intro m hm
      rw [Finset.mem_range] at hm
      have := idxOf_eq_iff hY.ok ht (hY.ok.closed k a ham m (by omega))
      by_cases e : a.eraseIdx m = t
      · rw [if_pos (this.2 e), if_pos e, pow_add, mul_one]
      · rw [if_neg (fun h => e (this.1 h)), if_neg e, mul_zero, mul_zero]
    · intro b _ hb
      obtain ⟨τ, τ1, τ2, e⟩ := hc b
      rw [e, ao τ τ2, if_neg, mul_zero, mul_zero]
      rintro rfl
      apply hb
      apply Fin.ext
      exact ((idxOf_eq_iff hY.ok τ1 ham).2 rfl).symm
    · intro h; exact absurd (Finset.mem_univ _) h

end comm

end SMap
end BATS
