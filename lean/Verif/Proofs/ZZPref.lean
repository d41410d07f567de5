import Verif.Proofs.ZZLevel
import Verif.Proofs.Induced

set_option linter.unusedSectionVars false
set_option linter.unusedSimpArgs false
set_option linter.unusedVariables false

/-! # Zigzag: preferred representatives among the cells which are present -/

namespace BATS
namespace Zigzag
open Reduction Matrix

variable {F : Type} [Field F] [DecidableEq F]

/-- all indices are in `S` -/
def Supp (S : Finset Nat) (x : SVec F) : Prop := ∀ q ∈ x, q.1 ∈ S

theorem supp_of_coef {S : Finset Nat} {x : SVec F} (hx : VecOK x) (h : ∀ i, coef x i ≠ 0 → i ∈ S) : Supp S x := by
  intro q hq
  apply h
  rw [coef_of_mem (k := q.1) (a := q.2) hx.1 hq]; exact hx.2 q hq

theorem supp_putVal {S : Finset Nat} {x : SVec F} (h : Supp S x) (j : Nat) (a : F) : Supp S (SVec.putVal x j a) := by
  intro q hq
  have : q.1 ∈ (SVec.putVal x j a).map Prod.fst := List.mem_map_of_mem hq
  rw [putVal_fst] at this
  obtain ⟨q', hq', e⟩ := List.mem_map.1 this
  rw [← e]; exact h q' hq'

theorem supp_axpyRange {S : Finset Nat} {x y : SVec F} (hx : Supp S x) (hy : Supp S y) (a : F) (f l : Nat) : Supp S (SVec.axpyRange a x f l y) := by
  unfold SVec.axpyRange
  split
  · exact hy
  · simp only
    split
    · exact hy
    · intro q hq
      rcases mem_axpyMerge_fst a y _ q hq with ⟨q', h1, e⟩ | ⟨q', h1, e⟩
      · rw [← e]; exact hy q' h1
      · rw [← e]; exact hx q' (((List.takeWhile_sublist _).trans (List.dropWhile_sublist _)).subset h1)

theorem uSolveLoop_congr {S : Finset Nat} {cols cols' : List (SVec F)} (hr : ∀ j ∈ S, rd cols j = rd cols' j) (hs : ∀ j ∈ S, ∀ c, rd cols' j = .ok c → Supp S c) :
    ∀ (fuel : Nat) (x : SVec F) (bound : Nat), Supp S x → CMat.uSolveLoop cols fuel x bound = CMat.uSolveLoop cols' fuel x bound := by
  intro fuel
  induction fuel with
  | zero => intro x b _; rfl
  | succ fuel ih =>
    intro x bound hx
    rw [CMat.uSolveLoop, CMat.uSolveLoop]
    rcases hl : (x.takeWhile (fun p => decide (p.1 ≤ bound))).getLast? with _ | ⟨j, v⟩
    · rw [hl]
    · have hj : j ∈ S := hx (j, v) ((List.takeWhile_sublist _).subset (List.mem_of_getLast? hl))
      rw [hl]
      simp only []
      rw [hr j hj]
      rcases hc : rd cols' j with e | Uj
      · rfl
      · rw [bind_ok, bind_ok]
        rcases hd : Uj.dropWhile (fun p => decide (p.1 < j)) with _ | ⟨⟨d0, d⟩, t⟩
        · rw [hd]
        · rw [hd]
          simp only []
          rcases hf : CMat.fdiv v d with e | a
          · rfl
          · rw [bind_ok, bind_ok]
            by_cases h0 : j = 0
            · rw [if_pos h0, if_pos h0]
            · rw [if_neg h0, if_neg h0]
              exact ih _ _ (supp_axpyRange (hs j hj Uj hc) (supp_putVal hx j a) _ _ _)

theorem uSolve_congr {S : Finset Nat} {U U' : CMat F} (hlen : U.cols.length = U'.cols.length) (hr : ∀ j ∈ S, rd U.cols j = rd U'.cols j)
    (hs : ∀ j ∈ S, ∀ c, rd U'.cols j = .ok c → Supp S c) {y : SVec F} (hy : Supp S y) : CMat.uSolve U y = CMat.uSolve U' y := by
  unfold CMat.uSolve
  rw [hlen]
  split
  · rfl
  · exact uSolveLoop_congr hr hs _ _ _ hy

theorem prefLoop_congr {C C' : RedCpx F} {k : Nat} {U U' R R' : CMat F} {p : P2C} (hU : rd C.U k = .ok U) (hU' : rd C'.U k = .ok U')
    (h : ∀ i j : Nat, p[i]? = some (some j) → ∃ c, rd R.cols j = .ok c ∧ rd R'.cols j = .ok c ∧ CMat.uSolve U c = CMat.uSolve U' c) :
    ∀ (fuel : Nat) (y : SVec F) (pos : Nat), C.prefLoop k R p fuel y pos = C'.prefLoop k R' p fuel y pos := by
  intro fuel
  induction fuel with
  | zero => intro y pos; cases pos <;> rfl
  | succ fuel ih =>
    intro y pos
    cases pos with
    | zero => rfl
    | succ pos =>
      rw [RedCpx.prefLoop, RedCpx.prefLoop]
      rcases he : rd y pos with e | e
      · rfl
      · rw [bind_ok, bind_ok]
        rcases hp : rd p e.1 with e' | c
        · rfl
        · rw [bind_ok, bind_ok]
          rcases c with _ | j
          · exact ih _ _
          · have hp' : p[e.1]? = some (some j) := by
              unfold rd at hp
              rcases hq : p[e.1]? with _ | q
              · rw [hq] at hp; cases hp
              · rw [hq] at hp; injection hp with hp; rw [hp]
            obtain ⟨c, h1, h2, h3⟩ := h _ _ hp'
            simp only []
            rw [hU, hU', bind_ok, bind_ok, h1, h2, bind_ok, bind_ok, h3]
            rcases hb : CMat.uSolve U' c with e' | b
            · rfl
            · rw [bind_ok, bind_ok]
              rcases hl : SVec.lastnz b with e' | l
              · rfl
              · rw [bind_ok, bind_ok]
                rcases hf : CMat.fdiv e.2 l.2 with e' | a
                · rfl
                · rw [bind_ok, bind_ok]; exact ih _ _

variable {m n n2 : Nat} {D R U D2 R2 U2 : CMat F} {p p2 : P2C} {S S2 : Finset Nat}

theorem Lev.U_supp (h : Lev m n D R U p S) {j : Nat} (hj : j ∈ S) : Supp S (U.cols.getD j []) :=
  supp_of_coef (h.col.okU.getD j).1 (h.col.supp j hj)

/-- `find_preferred_representative` on a generator -/
theorem pref_spec (h1 : Lev m n D R U p S) (h2 : Lev n n2 D2 R2 U2 p2 S2) (hz : D.mat m n * D2.mat n n2 = 0) (hcl : Closed D2 S S2) {C : RedCpx F} {k : Nat}
    (hU : rd C.U k = .ok U) (hR : rd C.R (k + 1) = .ok R2) (hp : rd C.p2c (k + 1) = .ok p2) {i : Nat} (hi : i ∈ S) (hRi : R.cols.getD i [] = []) :
    ∃ v, C.findPreferredRepresentative [(i, 1)] k = .ok v ∧ VecOK v ∧ Below n v ∧
      (∀ c, coef v c ≠ 0 → c ∈ S ∧ R.cols.getD c [] = [] ∧ p2.getD c none = none) ∧
      vecOf n (U.cols.getD i []) - ∑ c ∈ Finset.range n, coef v c • vecOf n (U.cols.getD c []) ∈ (onS F n2 S2).map (D2.mat n n2).mulVecLin := by
  have hin := h1.col.sub i hi
  have hkm : k ≠ C.maxdim := by
    unfold RedCpx.maxdim
    intro e
    have : k + 1 < C.R.length := by
      unfold rd at hR
      rcases hq : C.R[k + 1]? with _ | q
      · rw [hq] at hR; cases hR
      · exact (List.getElem?_eq_some_iff.1 hq).1
    omega
  have hkU : k < C.U.length := by
    unfold rd at hU
    rcases hq : C.U[k]? with _ | q
    · rw [hq] at hU; cases hU
    · exact (List.getElem?_eq_some_iff.1 hq).1
  obtain ⟨C', hC'⟩ : ∃ C' : RedCpx F, C' = { C with U := C.U.set k (maskU S U) } := ⟨_, rfl⟩
  have hU' : rd C'.U k = .ok (maskU S U) := by
    rw [hC']; show rd (C.U.set k (maskU S U)) k = _
    rw [rd_getD ⟨0, []⟩ (by rw [List.length_set]; exact hkU), getD_set_self _ _ hkU]
  set W := (onS F n2 S2).map (D2.mat n n2).mulVecLin with hWdef
  have hWS : W ≤ onS F n S := closed_map hcl
  have hD : PrefData C' k n n2 (maskU S U) (maskR S2 R2) p2 W := by
    refine ⟨hU', h1.shapeU, h1.upper, h2.shapeR, h2.table, ?_⟩
    intro j
    have e : ((maskR S2 R2).mat n n2).col j = vecOf n ((maskR S2 R2).cols.getD j []) := rfl
    rw [e, maskR_getD]
    by_cases hj : j.val ∈ S2
    · rw [if_pos hj]; exact h2.R_boundary hj
    · rw [if_neg hj]; exact W.zero_mem
  obtain ⟨y, g1, g2, g3, g4, g5⟩ := prefLoop_spec hD n [(i, 1)] (cnt [(i, (1 : F))] n) (2 * n + 2) le_rfl (vecOK_unit i) (below_unit hin) rfl
    (by intro q hq hle; have := below_unit (F := F) hin q hq; omega) (by omega)
  have hfind : C.findPreferredRepresentative [(i, 1)] k = .ok y := by
    unfold RedCpx.findPreferredRepresentative
    rw [if_neg hkm, hR, bind_ok, hp, bind_ok, h2.nrowR]
    have e : ([(i, (1 : F))].takeWhile (fun q => decide (q.1 ≤ n))).length = cnt [(i, (1 : F))] n := by
      unfold cnt
      rw [takeWhile_self (p := fun q : Nat × F => decide (q.1 ≤ n)) (by intro q hq; have := below_unit (F := F) hin q hq; simp; omega),
        takeWhile_self (p := fun q : Nat × F => decide (q.1 < n)) (by intro q hq; have := below_unit (F := F) hin q hq; simpa using this)]
    rw [e, prefLoop_congr hU hU' (R' := maskR S2 R2)]
    · exact g1
    · intro i' j hij
      obtain ⟨hj, hl⟩ := (h2.tab.iff i' j).1 hij
      have hjn := h2.col.sub j hj
      refine ⟨R2.cols.getD j [], rd_getD [] (by rw [h2.col.lenR]; exact hjn), ?_, ?_⟩
      · rw [rd_getD [] (by rw [h2.shapeR.ncol]; exact hjn), maskR_getD, if_pos hj]
      · refine uSolve_congr (S := S) ?_ ?_ ?_ ?_
        · rw [h1.col.lenU, h1.shapeU.ncol]
        · intro c hc
          have hcn := h1.col.sub c hc
          rw [rd_getD [] (by rw [h1.col.lenU]; exact hcn), rd_getD [] (by rw [h1.shapeU.ncol]; exact hcn), maskU_getD S U (by rw [h1.col.lenU]; exact hcn), if_pos hc]
        · intro c hc d hd
          have hcn := h1.col.sub c hc
          rw [rd_getD [] (by rw [h1.shapeU.ncol]; exact hcn), maskU_getD S U (by rw [h1.col.lenU]; exact hcn), if_pos hc] at hd
          injection hd with hd
          rw [← hd]; exact h1.U_supp hc
        · refine supp_of_coef (h2.col.okR.getD j).1 (fun c hc => ?_)
          by_contra hcS
          have hcn : c < n := by
            by_contra hh
            exact hc ((h2.col.okR.getD j).2.coef_eq_zero (by omega))
          exact hc (hWS (h2.R_boundary hj) ⟨c, hcn⟩ hcS)
  have ev : (maskU S U).mat n n *ᵥ vecOf n [(i, 1)] = vecOf n (U.cols.getD i []) := by
    have e1 : vecOf n [(i, (1 : F))] = Pi.single ⟨i, hin⟩ 1 := by
      funext c
      show coef [(i, (1 : F))] c = _
      rw [coef_unit, Pi.single_apply]
      by_cases h : c.val = i
      · rw [if_pos h, if_pos (Fin.ext h)]
      · rw [if_neg h, if_neg (fun e => h (congrArg Fin.val e))]
    rw [e1, Matrix.mulVec_single_one]
    show vecOf n ((maskU S U).cols.getD i []) = _
    rw [maskU_getD S U (by rw [h1.col.lenU]; exact hin), if_pos hi]
  rw [ev] at g5
  set w := (maskU S U).mat n n *ᵥ vecOf n y with hw
  have hwS : w ∈ onS F n S := by
    have := (onS F n S).sub_mem (h1.U_onS hi) (hWS g5)
    rwa [sub_sub_cancel] at this
  have hyS : ∀ c : Fin n, c.val ∉ S → coef y c = 0 := by
    intro c hc
    have h0 := hwS c hc
    rw [hw] at h0
    have h0 : ∑ j : Fin n, coef ((maskU S U).cols.getD j []) c * coef y j = 0 := h0
    rw [Finset.sum_eq_single c] at h0
    · rw [maskU_getD S U (by rw [h1.col.lenU]; exact c.2), if_neg hc, coef_unit, if_pos rfl, one_mul] at h0
      exact h0
    · intro j _ hne
      rw [maskU_getD S U (by rw [h1.col.lenU]; exact j.2)]
      by_cases hj : j.val ∈ S
      · rw [if_pos hj]
        have : coef (U.cols.getD j []) c = 0 := by by_contra hh; exact hc (h1.col.supp j hj c hh)
        rw [this, zero_mul]
      · rw [if_neg hj, coef_unit, if_neg (by intro e; exact hne (Fin.ext e.symm)), zero_mul]
    · intro hh; exact absurd (Finset.mem_univ _) hh
  have hker : (maskR S R).mat m n *ᵥ vecOf n y = 0 := by
    rw [← h1.eq, ← mulVec_mulVec, ← hw, mask_mulVec D hwS]
    have e : w = vecOf n (U.cols.getD i []) - (vecOf n (U.cols.getD i []) - w) := by rw [sub_sub_cancel]
    rw [e, mulVec_sub, ← h1.col_boundary hi, hRi]
    obtain ⟨x, _, hx⟩ := g5
    rw [← hx, mulVecLin_apply, mulVec_mulVec, hz, zero_mulVec, sub_zero]; rfl
  have hyR : ∀ c : Fin n, coef y c ≠ 0 → c.val ∈ S ∧ R.cols.getD c [] = [] := by
    intro c hc
    have hcS : c.val ∈ S := by by_contra hh; exact hc (hyS c hh)
    refine ⟨hcS, ?_⟩
    rcases h1.reduced.mulVec_cases (vecOf n y) with ⟨_, h0⟩ | ⟨i', k', _, _, h0⟩
    · have := h0 c hc
      rw [(h1.col.okR.getD c).1.eq_nil_iff]
      intro i'
      by_cases him : i' < m
      · have := congrFun this ⟨i', him⟩
        have e : ((maskR S R).mat m n).col c ⟨i', him⟩ = coef ((maskR S R).cols.getD c []) i' := rfl
        rw [e, maskR_getD, if_pos hcS] at this
        exact this
      · exact (h1.col.okR.getD c).2.coef_eq_zero (by omega)
    · rw [hker] at h0; exact absurd rfl h0.1
  refine ⟨y, hfind, g2, g3, ?_, ?_⟩
  · intro c hc
    have hcn : c < n := by
      by_contra hh
      exact hc (g3.coef_eq_zero (by omega))
    obtain ⟨a, b⟩ := hyR ⟨c, hcn⟩ hc
    refine ⟨a, b, ?_⟩
    obtain ⟨a', ha'⟩ := exists_mem_of_coef_ne hc
    have := g4 _ ha' (Nat.zero_le _)
    rw [List.getD_eq_getElem?_getD, this]; rfl
  · have : ∑ c ∈ Finset.range n, coef y c • vecOf n (U.cols.getD c []) = w := by
      rw [Finset.sum_range, hw]
      funext c
      rw [Finset.sum_apply]
      show _ = ∑ j : Fin n, coef ((maskU S U).cols.getD j []) c * coef y j
      refine Finset.sum_congr rfl (fun j _ => ?_)
      by_cases hj : j.val ∈ S
      · rw [maskU_getD S U (by rw [h1.col.lenU]; exact j.2), if_pos hj]
        exact mul_comm _ _
      · rw [hyS j hj, mul_zero, zero_smul]; rfl
    rw [this]; exact g5

end Zigzag
end BATS
