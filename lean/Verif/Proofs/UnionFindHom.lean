import Verif.Proofs.UnionFind
import Verif.Proofs.PersBetti

set_option linter.unusedSectionVars false
set_option linter.unusedVariables false
set_option linter.unusedSimpArgs false

/-! # The persistent Betti numbers of dimension 0 count components -/

namespace BATS
namespace UF
open Module

variable {F : Type} [Field F] {V E : Type} [Fintype V] [Fintype E] [DecidableEq V] [DecidableEq E]

section abstract
variable (R : V → V → Prop)

open Classical in
/-- sum over the classes -/
noncomputable def classSum : (V → F) →ₗ[F] (Quot R → F) where
  toFun x c := ∑ v, if Quot.mk R v = c then x v else 0
  map_add' x y := by
    funext c
    show (∑ v, if Quot.mk R v = c then (x + y) v else 0) = (∑ v, if Quot.mk R v = c then x v else 0) + (∑ v, if Quot.mk R v = c then y v else 0)
    rw [← Finset.sum_add_distrib]
    apply Finset.sum_congr rfl
    intro v _
    split <;> simp
  map_smul' a x := by
    funext c
    show (∑ v, if Quot.mk R v = c then (a • x) v else 0) = a * (∑ v, if Quot.mk R v = c then x v else 0)
    rw [Finset.mul_sum]
    apply Finset.sum_congr rfl
    intro v _
    split <;> simp

variable {R}

open Classical in
theorem classSum_apply (x : V → F) (c : Quot R) : classSum R x c = ∑ v, if Quot.mk R v = c then x v else 0 := rfl

open Classical in
theorem classSum_single (v : V) : classSum R (Pi.single v (1 : F)) = Pi.single (Quot.mk R v) 1 := by
  funext c
  rw [classSum_apply]
  rw [Finset.sum_eq_single v]
  · rw [Pi.single_eq_same, Pi.single_apply]
    by_cases h : c = Quot.mk R v
    · rw [if_pos h, if_pos h.symm]
    · rw [if_neg h, if_neg (Ne.symm h)]
  · intro w _ hw
    rw [Pi.single_eq_of_ne hw]; split <;> rfl
  · intro h; exact absurd (Finset.mem_univ _) h

theorem single_sub_mem {W : Submodule F (V → F)} (h : ∀ u v, R u v → Pi.single u (1 : F) - Pi.single v 1 ∈ W) {u v : V} (he : Relation.EqvGen R u v) :
    Pi.single u (1 : F) - Pi.single v 1 ∈ W := by
  induction he with
  | rel a b hab => exact h a b hab
  | refl a => rw [sub_self]; exact W.zero_mem
  | symm a b _ ih => rw [← neg_sub]; exact W.neg_mem ih
  | trans a b c _ _ ih1 ih2 => rw [← sub_add_sub_cancel]; exact W.add_mem ih1 ih2

theorem ker_classSum_le {W : Submodule F (V → F)} (h : ∀ u v, R u v → Pi.single u (1 : F) - Pi.single v 1 ∈ W) : LinearMap.ker (classSum (F := F) R) ≤ W := by
  classical
  intro x hx
  rw [LinearMap.mem_ker] at hx
  have hrep : ∀ v : V, Relation.EqvGen R v (Quot.out (Quot.mk R v)) := fun v => Quot.eq.1 (Quot.out_eq (Quot.mk R v)).symm
  have h1 : x = ∑ v, x v • (Pi.single v (1 : F) - Pi.single (Quot.out (Quot.mk R v)) 1) + ∑ v, x v • (Pi.single (Quot.out (Quot.mk R v)) (1 : F) : V → F) := by
    rw [← Finset.sum_add_distrib]
    have : ∀ v, x v • (Pi.single v (1 : F) - Pi.single (Quot.out (Quot.mk R v)) 1) + x v • (Pi.single (Quot.out (Quot.mk R v)) (1 : F) : V → F) = x v • (Pi.single v (1 : F) : V → F) := by
      intro v; rw [← smul_add, sub_add_cancel]
    rw [Finset.sum_congr rfl (fun v _ => this v)]
    funext w
    rw [Finset.sum_apply, Finset.sum_eq_single w]
    · simp
    · intro b _ hb; simp [Pi.single_eq_of_ne (Ne.symm hb)]
    · intro h; exact absurd (Finset.mem_univ _) h
  have h2 : ∑ v, x v • (Pi.single (Quot.out (Quot.mk R v)) (1 : F) : V → F) = 0 := by
    funext w
    rw [Finset.sum_apply]
    show _ = (0 : F)
    by_cases hw : Quot.out (Quot.mk R w) = w
    · have hc := congrFun hx (Quot.mk R w)
      rw [classSum_apply] at hc
      refine Eq.trans ?_ hc
      apply Finset.sum_congr rfl
      intro v _
      by_cases e : Quot.mk R v = Quot.mk R w
      · rw [if_pos e, e, hw]; simp
      · rw [if_neg e]
        have : Quot.out (Quot.mk R v) ≠ w := by
          intro e2
          apply e
          rw [← e2]; exact (Quot.out_eq _).symm
        simp [Pi.single_eq_of_ne (Ne.symm this)]
    · apply Finset.sum_eq_zero
      intro v _
      have : Quot.out (Quot.mk R v) ≠ w := by
        intro e2
        apply hw
        rw [← e2, Quot.out_eq]
      simp [Pi.single_eq_of_ne (Ne.symm this)]
  rw [h1, h2, add_zero]
  apply W.sum_mem
  intro v _
  exact W.smul_mem _ (single_sub_mem h (hrep v))

/-- boundary matrix of a graph: column `e` is `x e` at the first end and `-x e` at the second -/
structure GraphMat (D : Matrix V E F) (a b : E → V) (x : E → F) : Prop where
  ent : ∀ v e, D v e = (if a e = v then x e else 0) + (if b e = v then -x e else 0)
  ne : ∀ e, x e ≠ 0

theorem ker_classSum {D : Matrix V E F} {a b : E → V} {x : E → F} (hD : GraphMat D a b x) (S : Set E) (hR : ∀ u v, R u v ↔ ∃ e ∈ S, a e = u ∧ b e = v) :
    LinearMap.ker (classSum (F := F) R) = (supported S).map D.mulVecLin := by
  classical
  apply le_antisymm
  · apply ker_classSum_le
    intro u v huv
    obtain ⟨e, he, rfl, rfl⟩ := (hR u v).1 huv
    refine ⟨(x e)⁻¹ • Pi.single e 1, ?_, ?_⟩
    · intro i hi
      have : i ≠ e := by rintro rfl; exact hi he
      simp [Pi.single_eq_of_ne this]
    · rw [map_smul, Matrix.mulVecLin_apply, Matrix.mulVec_single_one]
      funext v
      rw [Pi.smul_apply, Pi.sub_apply, Matrix.col_apply, hD.ent, smul_eq_mul, Pi.single_apply, Pi.single_apply]
      have hx := hD.ne e
      by_cases h1 : v = a e
      · by_cases h2 : v = b e
        · rw [if_pos h1.symm, if_pos h2.symm, if_pos h1, if_pos h2]; ring
        · rw [if_pos h1.symm, if_neg (Ne.symm h2), if_pos h1, if_neg h2]; field_simp; ring
      · by_cases h2 : v = b e
        · rw [if_neg (Ne.symm h1), if_pos h2.symm, if_neg h1, if_pos h2]; field_simp; ring
        · rw [if_neg (Ne.symm h1), if_neg (Ne.symm h2), if_neg h1, if_neg h2]; ring
  · rintro y ⟨z, hz, rfl⟩
    rw [LinearMap.mem_ker]
    funext c
    rw [classSum_apply]
    have h1 : ∀ v, (if Quot.mk R v = c then D.mulVecLin z v else 0) = ∑ e, (if Quot.mk R v = c then D v e else 0) * z e := by
      intro v
      rw [Matrix.mulVecLin_apply]
      split
      · rfl
      · simp
    rw [Finset.sum_congr rfl (fun v _ => h1 v), Finset.sum_comm]
    apply Finset.sum_eq_zero
    intro e _
    rw [← Finset.sum_mul]
    by_cases he : e ∈ S
    · have hq : Quot.mk R (a e) = Quot.mk R (b e) := Quot.sound ((hR _ _).2 ⟨e, he, rfl, rfl⟩)
      have : (∑ v, if Quot.mk R v = c then D v e else 0) = 0 := by
        have hv : ∀ v, (if Quot.mk R v = c then D v e else 0) = (if a e = v then (if Quot.mk R (a e) = c then x e else 0) else 0) +
            (if b e = v then (if Quot.mk R (a e) = c then -x e else 0) else 0) := by
          intro v
          rw [hD.ent]
          by_cases h1 : a e = v
          · subst h1
            by_cases h2 : b e = a e
            · simp only [h2, if_true]; split <;> simp
            · simp only [if_neg h2, if_true]; split <;> simp
          · by_cases h2 : b e = v
            · subst h2
              simp only [if_neg h1, if_true, hq]; split <;> simp
            · simp only [if_neg h1, if_neg h2]; split <;> simp
        rw [Finset.sum_congr rfl (fun v _ => hv v), Finset.sum_add_distrib]
        rw [Finset.sum_ite_eq, Finset.sum_ite_eq]
        simp only [Finset.mem_univ, if_true]
        split <;> simp
      rw [this, zero_mul]
    · rw [hz e he, mul_zero]

theorem map_classSum_supported (S : Set V) : (supported (F := F) S).map (classSum R) = supported {c | ∃ v ∈ S, Quot.mk R v = c} := by
  classical
  apply le_antisymm
  · rintro y ⟨x, hx, rfl⟩ c hc
    rw [classSum_apply]
    apply Finset.sum_eq_zero
    intro v _
    split
    · rename_i h
      apply hx
      intro hv
      exact hc ⟨v, hv, h⟩
    · rfl
  · intro y hy
    have : Finite (Quot R) := Finite.of_surjective (Quot.mk R) Quot.mk_surjective
    have : Fintype (Quot R) := Fintype.ofFinite _
    let f : Quot R → V → F := fun c => if h : ∃ v ∈ S, Quot.mk R v = c then Pi.single h.choose 1 else 0
    refine ⟨∑ c, y c • f c, ?_, ?_⟩
    · apply Submodule.sum_mem
      intro c _
      apply Submodule.smul_mem
      show (if h : ∃ v ∈ S, Quot.mk R v = c then (Pi.single h.choose 1 : V → F) else 0) ∈ supported S
      split
      · rename_i h
        intro i hi
        rw [Pi.single_eq_of_ne]
        rintro rfl
        exact hi h.choose_spec.1
      · exact Submodule.zero_mem _
    · rw [map_sum]
      have : ∀ c, classSum R (y c • f c) = y c • Pi.single c 1 := by
        intro c
        rw [map_smul]
        by_cases h : ∃ v ∈ S, Quot.mk R v = c
        · have : f c = Pi.single h.choose 1 := dif_pos h
          rw [this, classSum_single, h.choose_spec.2]
        · rw [hy c h, zero_smul, zero_smul]
      rw [Finset.sum_congr rfl (fun c _ => this c)]
      funext c
      rw [Finset.sum_apply, Finset.sum_eq_single c]
      · simp
      · intro b _ hb; simp [Pi.single_eq_of_ne (Ne.symm hb)]
      · intro h; exact absurd (Finset.mem_univ _) h

/-- rank of a map between quotients when the second subspace is a kernel -/
theorem finrank_range_mapQ {U W : Type} [AddCommGroup U] [Module F U] [AddCommGroup W] [Module F W] {Z1 Z2 B1 B2 : Submodule F U} (hZ : Z1 ≤ Z2)
    (hB : B1.submoduleOf Z1 ≤ (B2.submoduleOf Z2).comap (Submodule.inclusion hZ)) (f : U →ₗ[F] W) (hf : LinearMap.ker f = B2) :
    finrank F (LinearMap.range (Submodule.mapQ _ _ (Submodule.inclusion hZ) hB)) = finrank F (Z1.map f) := by
  let g : (Z2 ⧸ B2.submoduleOf Z2) →ₗ[F] W := (B2.submoduleOf Z2).liftQ (f.comp Z2.subtype) (by
    intro x hx
    rw [LinearMap.mem_ker, LinearMap.comp_apply, ← LinearMap.mem_ker, hf]
    exact hx)
  have hg : Function.Injective g := by
    rw [← LinearMap.ker_eq_bot, Submodule.ker_liftQ_eq_bot]
    intro x hx
    rw [LinearMap.mem_ker, LinearMap.comp_apply, ← LinearMap.mem_ker, hf] at hx
    exact hx
  have hrange : (LinearMap.range (Submodule.mapQ _ _ (Submodule.inclusion hZ) hB)).map g = Z1.map f := by
    ext w
    constructor
    · rintro ⟨_, ⟨q, rfl⟩, rfl⟩
      obtain ⟨x, rfl⟩ := Submodule.Quotient.mk_surjective _ q
      exact ⟨x.1, x.2, rfl⟩
    · rintro ⟨x, hx, rfl⟩
      exact ⟨_, ⟨Submodule.Quotient.mk ⟨x, hx⟩, rfl⟩, rfl⟩
  rw [← hrange]
  exact (LinearEquiv.finrank_eq (Submodule.equivMapOfInjective g hg _))

end abstract

section concrete
variable [DecidableEq F] {T : Type} [LinearOrder T] [Inhabited T]

theorem graph_cols {B : List (CMat F)} (hB : IsChainComplex B) (hl : 2 ≤ B.length) {c : SVec F} (hc : c ∈ (B.getD 1 ⟨0, []⟩).cols) :
    ∀ p ∈ c, p.1 < cdim B 0 := by
  have hs := hB.shape 1 (by omega)
  intro p hp
  have := (hs.ok c hc).2 p hp
  rw [hs.nrow] at this
  exact this

theorem getD_mem' {α : Type} {l : List α} {d : α} {i : Nat} (h : i < l.length) : l.getD i d ∈ l := by
  rw [List.getD_eq_getElem?_getD, List.getElem?_eq_getElem h]; exact List.getElem_mem _

theorem getElem_getD' {α : Type} {l : List α} {d : α} {i : Nat} (h : i < l.length) : l[i] = l.getD i d := by
  rw [List.getD_eq_getElem?_getD, List.getElem?_eq_getElem h]; rfl

theorem persistentBetti_zero {B : List (CMat F)} (hB : IsChainComplex B) (hl : 2 ≤ B.length) (h0 : ZeroBdry0 B) {val : List (List T)} (hv : ValuesFor B val)
    (hg : IsGraphBoundary (B.getD 1 ⟨0, []⟩).cols) {s t : T} (hst : s ≤ t) :
    finrank F (LinearMap.range (persistenceMap B val 0 hst)) =
      componentsHit (cdim B 0) (graphEdges (B.getD 1 ⟨0, []⟩).cols (val.getD 1 [])) (fun v => (val.getD 0 []).getD v default) s t := by
  classical
  have hcols : ∀ e : Fin (cdim B 1), ∃ (i j : Fin (cdim B 0)) (x : F), (B.getD 1 ⟨0, []⟩).cols.getD e [] = [(i.val, x), (j.val, -x)] ∧ x ≠ 0 := by
    intro e
    have hm : (B.getD 1 ⟨0, []⟩).cols.getD e [] ∈ (B.getD 1 ⟨0, []⟩).cols := getD_mem' e.2
    obtain ⟨i, j, x, hx, hne⟩ := hg _ hm
    have hlt := graph_cols hB hl hm
    rw [hx] at hlt
    exact ⟨⟨i, hlt (i, x) (by simp)⟩, ⟨j, hlt (j, -x) (by simp)⟩, x, hx, hne⟩
  choose a b x hx hne using hcols
  have hD : GraphMat (bdryUp B 0) a b x := by
    refine ⟨fun v e => ?_, hne⟩
    show coef ((B.getD 1 ⟨0, []⟩).cols.getD e []) v = _
    rw [hx e]
    simp only [coef, add_zero]
    congr 1
    · by_cases h : a e = v
      · rw [if_pos h, if_pos (by rw [h])]
      · rw [if_neg h, if_neg (fun e' => h (Fin.ext e'))]
    · by_cases h : b e = v
      · rw [if_pos h, if_pos (by rw [h])]
      · rw [if_neg h, if_neg (fun e' => h (Fin.ext e'))]
  have hvl : (val.getD 1 []).length = cdim B 1 := hv.lens 1 (by omega)
  have hvl0 : (val.getD 0 []).length = cdim B 0 := hv.lens 0 (by omega)
  have hR : ∀ u v, linkedAt (cdim B 0) (graphEdges (B.getD 1 ⟨0, []⟩).cols (val.getD 1 [])) t u v ↔ ∃ e ∈ sublevel B val 1 t, a e = u ∧ b e = v := by
    intro u v
    unfold linkedAt graphEdges
    constructor
    · rintro ⟨d, hd, hdt⟩
      rw [List.mem_map] at hd
      obtain ⟨⟨c, d'⟩, hmem, heq⟩ := hd
      simp only [Prod.mk.injEq] at heq
      obtain ⟨e1, e2, rfl⟩ := heq
      obtain ⟨k, hk, hk'⟩ := List.mem_iff_getElem.1 hmem
      rw [List.getElem_zip, Prod.mk.injEq] at hk'
      rw [List.length_zip] at hk
      have hk1 : k < cdim B 1 := by show k < (B.getD 1 ⟨0, []⟩).cols.length; omega
      have hck : (B.getD 1 ⟨0, []⟩).cols.getD k [] = c := (getElem_getD' hk1).symm.trans hk'.1
      have := hx ⟨k, hk1⟩
      rw [hck] at this
      refine ⟨⟨k, hk1⟩, ⟨d', ?_, hdt⟩, ?_, ?_⟩
      · rw [← hk'.2]; exact List.getElem?_eq_getElem _
      · apply Fin.ext; rw [← e1, this]; rfl
      · apply Fin.ext; rw [← e2, this]; rfl
    · rintro ⟨e, ⟨d, hd, hdt⟩, rfl, rfl⟩
      refine ⟨d, ?_, hdt⟩
      rw [List.mem_map]
      refine ⟨((B.getD 1 ⟨0, []⟩).cols.getD e [], d), ?_, ?_⟩
      · rw [List.mem_iff_getElem]
        refine ⟨e, by rw [List.length_zip, hvl]; have := e.2; unfold cdim at *; omega, ?_⟩
        rw [List.getElem_zip, Prod.mk.injEq]
        obtain ⟨h1, h2⟩ := List.getElem?_eq_some_iff.1 hd
        refine ⟨?_, h2⟩
        exact getElem_getD' e.2
      · simp only [hx e]; rfl
  have hker := ker_classSum hD (sublevel B val 1 t) hR
  have hb0 : cyclesAt B val 0 s = supported (sublevel B val 0 s) := by
    unfold cyclesAt cycles
    have : bdry B 0 = 0 := by
      ext i m
      show coef ((B.getD 0 ⟨0, []⟩).cols.getD m []) i = 0
      have hm : (B.getD 0 ⟨0, []⟩).cols.getD m [] ∈ (B.getD 0 ⟨0, []⟩).cols := getD_mem' m.2
      rw [h0 _ hm]; rfl
    rw [this, Matrix.mulVecLin_zero, LinearMap.ker_zero, top_inf_eq]
  have hker' : LinearMap.ker (classSum (F := F) (linkedAt (cdim B 0) (graphEdges (B.getD 1 ⟨0, []⟩).cols (val.getD 1 [])) t)) = boundariesAt B val 0 t := hker
  refine (finrank_range_mapQ (cyclesAt_mono B val 0 hst) (fun _ hx => boundariesAt_mono B val 0 hst hx) _ hker').trans ?_
  rw [hb0, map_classSum_supported]
  have hfin : Finite (Quot (linkedAt (cdim B 0) (graphEdges (B.getD 1 ⟨0, []⟩).cols (val.getD 1 [])) t)) := Finite.of_surjective (Quot.mk _) Quot.mk_surjective
  have := Fintype.ofFinite (Quot (linkedAt (cdim B 0) (graphEdges (B.getD 1 ⟨0, []⟩).cols (val.getD 1 [])) t))
  rw [finrank_supported, ← Nat.card_eq_fintype_card]
  unfold componentsHit
  apply Nat.card_congr
  apply Equiv.subtypeEquivRight
  intro c
  show (∃ v ∈ sublevel B val 0 s, _) ↔ _
  constructor
  · rintro ⟨v, ⟨y, hy, hys⟩, rfl⟩
    refine ⟨v, ?_, rfl⟩
    show (val.getD 0 []).getD v default ≤ s
    rw [List.getD_eq_getElem?_getD (l := val.getD 0 []), hy]; exact hys
  · rintro ⟨v, hvs, rfl⟩
    have hlt : v.val < (val.getD 0 []).length := by rw [hvl0]; exact v.2
    refine ⟨v, ⟨_, List.getElem?_eq_getElem hlt, ?_⟩, rfl⟩
    rw [getElem_getD' (d := default) hlt]
    exact hvs

theorem initPairs_spec (vals0 : List T) : ∀ (n k : Nat), k + n ≤ vals0.length →
    initPairs vals0 n k = .ok ((List.range n).map (fun i => ⟨0, k + i, none, vals0.getD (k + i) default, none⟩)) := by
  intro n
  induction n with
  | zero => intro k _; rfl
  | succ n ih =>
    intro k h
    have hk : k < vals0.length := by omega
    unfold initPairs
    rw [rd_ok hk, bind_ok, ih (k + 1) (by omega), bind_ok, List.range_succ_eq_map, List.map_cons, List.map_map]
    show Except.ok _ = Except.ok _
    congr 2
    · rw [Nat.add_zero, getElem_getD' (d := default) hk]
    · apply List.map_congr_left
      intro i _
      simp only [Function.comp_apply]
      rw [show k + 1 + i = k + i.succ by omega]

theorem readEdges_spec (vals1 : List T) : ∀ (cols : List (SVec F)) (k : Nat), IsGraphBoundary cols → k + cols.length ≤ vals1.length →
    readEdges vals1 cols k = .ok (graphEdges cols (vals1.drop k)) := by
  intro cols
  induction cols with
  | nil => intro k _ _; rfl
  | cons c cols ih =>
    intro k hg hl
    rw [List.length_cons] at hl
    obtain ⟨i, j, x, rfl, _⟩ := hg c (by simp)
    have hk : k < vals1.length := by omega
    unfold readEdges
    simp only [colEnds, bind_ok]
    rw [rd_ok hk, bind_ok, ih (k + 1) (fun c hc => hg c (by simp [hc])) (by omega), bind_ok]
    show Except.ok _ = Except.ok _
    congr 1
    rw [List.drop_eq_getElem_cons hk]
    rfl

theorem inv_init (birth : Nat → T) (N : Nat) : Inv N birth [] ⟨List.range N, (List.range N).map (fun i => ⟨0, i, none, birth i, none⟩), 0⟩ id := by
  refine ⟨forest_range N, ?_, by simp, ?_, ?_, fun x _ => le_refl _⟩
  · intro x y
    constructor
    · intro h
      have : x = y := Fin.ext h
      rw [this]; exact Relation.EqvGen.refl _
    · intro h
      induction h with
      | rel a b hab => obtain ⟨d, hd⟩ := hab; simp at hd
      | refl a => rfl
      | symm a b _ ih => exact ih.symm
      | trans a b c _ _ ih1 ih2 => exact ih1.trans ih2
  · intro x hx
    refine ⟨⟨0, x, none, birth x, none⟩, ?_, rfl, rfl, rfl, by simp, by simp⟩
    simp only
    rw [List.getElem?_map, List.getElem?_range hx]; rfl
  · show 0 + _ = N
    simp

variable {K : Type} [LinearOrder K]

/-- what the loop computes on any list of edges sorted by value -/
theorem loop_result {fl : T → K} (hfl : StrictMono fl) (N : Nat) (birth : Nat → T) (es : List (Nat × Nat × T)) (hes : ∀ e ∈ es, e.1 < N ∧ e.2.1 < N)
    (hsort : es.Pairwise (fun e f => e.2.2 ≤ f.2.2)) :
    ∃ S : State T, loopPairs fl N es 0 ⟨List.range N, (List.range N).map (fun i => ⟨0, i, none, birth i, none⟩), 0⟩ = .ok S ∧
      (∃ ρ, Inv N birth es S ρ) ∧
      ∀ s t, S.pairs.countP (fun q => decide (q.birth ≤ s) && (match q.death with | none => true | some d => decide (t < d))) = componentsHit N es birth s t := by
  obtain ⟨S, ρ, h1, h2, h3⟩ := loopPairs_spec hfl es [] 0 _ _ (inv_init birth N) hes
  refine ⟨S, h1, ⟨ρ, h2⟩, fun s t => ?_⟩
  obtain ⟨a, b, rfl, ha, hb⟩ := split_at t es hsort
  obtain ⟨S', S1, ρ1, g1, g2, g3⟩ := loopPairs_split hfl b (fun e he => hes e (by simp [he])) a [] 0 _ _ (inv_init birth N) (fun e he => hes e (by simp [he]))
  rw [h1] at g1
  cases g1
  exact count_eq g2 ha hb (g3.mono (by rintro x ⟨e, he, rfl⟩; exact hb e he)) s

theorem unionFindPairs_spec {fl : T → K} (hfl : StrictMono fl) {X : FiltCpx T F} (hB : IsChainComplex X.C) (hl : 2 ≤ X.C.length) (hv : ValuesFor X.C X.val)
    (hg : IsGraphBoundary (X.C.getD 1 ⟨0, []⟩).cols) (hsort : (X.val.getD 1 []).Pairwise (· ≤ ·)) :
    ∃ (S : State T) (ρ : Nat → Nat), unionFindPairs fl X = .ok S.pairs ∧
      Inv (cdim X.C 0) (fun v => (X.val.getD 0 []).getD v default) (graphEdges (X.C.getD 1 ⟨0, []⟩).cols (X.val.getD 1 [])) S ρ ∧
      ∀ s t, S.pairs.countP (fun q => decide (q.birth ≤ s) && (match q.death with | none => true | some d => decide (t < d))) =
        componentsHit (cdim X.C 0) (graphEdges (X.C.getD 1 ⟨0, []⟩).cols (X.val.getD 1 [])) (fun v => (X.val.getD 0 []).getD v default) s t := by
  have hs := hB.shape 1 (by omega)
  have hnr : (X.C.getD 1 ⟨0, []⟩).nrow = cdim X.C 0 := hs.nrow
  have hvl : (X.val.getD 1 []).length = (X.C.getD 1 ⟨0, []⟩).cols.length := hv.lens 1 (by omega)
  have hvl0 : (X.val.getD 0 []).length = cdim X.C 0 := hv.lens 0 (by omega)
  have hlen := hv.len
  have hes : ∀ e ∈ graphEdges (X.C.getD 1 ⟨0, []⟩).cols (X.val.getD 1 []), e.1 < cdim X.C 0 ∧ e.2.1 < cdim X.C 0 := by
    intro e he
    unfold graphEdges at he
    rw [List.mem_map] at he
    obtain ⟨⟨c, d⟩, hm, rfl⟩ := he
    have hc := (List.of_mem_zip hm).1
    obtain ⟨i, j, x, rfl, _⟩ := hg c hc
    have := graph_cols hB hl hc
    exact ⟨this (i, x) (by simp), this (j, -x) (by simp)⟩
  have hso : (graphEdges (X.C.getD 1 ⟨0, []⟩).cols (X.val.getD 1 [])).Pairwise (fun e f => e.2.2 ≤ f.2.2) := by
    unfold graphEdges
    rw [List.pairwise_map]
    have : ((X.C.getD 1 ⟨0, []⟩).cols.zip (X.val.getD 1 [])).map Prod.snd = X.val.getD 1 [] := List.map_snd_zip (by rw [hvl])
    rw [← this, List.pairwise_map] at hsort
    exact hsort
  obtain ⟨S, h1, ⟨ρ, h2⟩, h3⟩ := loop_result hfl (cdim X.C 0) (fun v => (X.val.getD 0 []).getD v default) _ hes hso
  refine ⟨S, ρ, ?_, h2, h3⟩
  unfold unionFindPairs
  have r1 : rd X.C 1 = .ok (X.C.getD 1 ⟨0, []⟩) := by rw [rd_ok (by omega)]; rw [getElem_getD']
  have r2 : rd X.val 0 = .ok (X.val.getD 0 []) := by rw [rd_ok (by omega)]; rw [getElem_getD']
  have r3 : rd X.val 1 = .ok (X.val.getD 1 []) := by rw [rd_ok (by omega)]; rw [getElem_getD']
  rw [r1, bind_ok, r2, bind_ok, r3, bind_ok, hnr, initPairs_spec _ _ 0 (by omega), bind_ok,
    readEdges_spec _ _ 0 hg (by omega), bind_ok, List.drop_zero]
  simp only [Nat.zero_add]
  rw [h1]; rfl

end concrete

end UF
end BATS
