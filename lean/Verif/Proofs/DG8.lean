import Verif.Proofs.DG7

set_option linter.unusedSectionVars false
set_option linter.unusedVariables false
set_option linter.unusedSimpArgs false

/-! # Representatives in DG vector spaces -/

namespace BATS
namespace DG
open Reduction Matrix

variable {F : Type} [Field F] [DecidableEq F] {T : Type} [LinearOrder T]

/-- representatives from two consecutive reduced matrices -/
theorem reps_generic {m1 n n2 : Nat} {M1 R1 U : CMat F} {p1 : P2C} {M2 R2 : CMat F} {p2 : P2C} (h1 : LevelOK m1 n M1 R1 p1) (hf : FactorOK m1 n M1 R1 U)
    (h2 : LevelOK n n2 M2 R2 p2) (hz : M1.mat m1 n * M2.mat n n2 = 0) {I : List Nat} (hs : I.Pairwise (· < ·))
    (hI : ∀ j, j ∈ I ↔ j < n ∧ R1.cols.getD j [] = [] ∧ p2.getD j none = none) :
    ∃ rep : Fin I.length → SVec F, (∀ g, rd U.cols (I.get g) = .ok (rep g)) ∧
      (∀ g, VecOK (rep g) ∧ Below n (rep g) ∧ M1.mat m1 n *ᵥ vecOf n (rep g) = 0) ∧
      ∀ z, M1.mat m1 n *ᵥ z = 0 → ∃! c : Fin I.length → F, z - ∑ g, c g • vecOf n (rep g) ∈ LinearMap.range (M2.mat n n2).mulVecLin := by
  have hU := hf.shape
  have hUc : ColsOK n U.cols := by have := hU.ok; rw [CMat.OK, hU.nrow] at this; exact this
  have hidx : ∀ g : Fin I.length, ∃ h : I.get g < n, Essential (M1.mat m1 n) (M2.mat n n2) ⟨I.get g, h⟩ := by
    intro g
    obtain ⟨a, b, c⟩ := (hI (I.get g)).1 (List.getElem_mem g.2)
    exact ⟨a, (h1.col_nil_iff ⟨_, a⟩).1 b, (h2.p2c_none_iff ⟨_, a⟩).1 c⟩
  let e : Fin I.length → Fin n := fun g => ⟨I.get g, (hidx g).1⟩
  have he : Function.Injective e := by
    intro g g' hgg
    have h1 : I[g.val] = I[g'.val] := congrArg Fin.val hgg
    have hnd : I.Nodup := hs.imp (fun h => ne_of_lt h)
    exact Fin.ext ((hnd.getElem_inj_iff).1 h1)
  have hess : ∀ p, Essential (M1.mat m1 n) (M2.mat n n2) p ↔ ∃ g, e g = p := by
    intro p
    constructor
    · intro hp
      have : p.val ∈ I := (hI _).2 ⟨p.2, (h1.col_nil_iff p).2 hp.1, (h2.p2c_none_iff p).2 hp.2⟩
      obtain ⟨g, hg, hgp⟩ := List.mem_iff_getElem.1 this
      exact ⟨⟨g, hg⟩, Fin.ext hgp⟩
    · rintro ⟨g, rfl⟩; exact (hidx g).2
  let rep : Fin I.length → SVec F := fun g => U.cols.getD (I.get g) []
  have hvec : ∀ g, vecOf n (rep g) = (U.mat n n).col (e g) := fun g => rfl
  have hcyc : ∀ g, M1.mat m1 n *ᵥ vecOf n (rep g) = 0 := by
    intro g
    rw [hvec]
    have hR : (R1.mat m1 n).col (e g) = 0 := by
      rw [col_eq_zero_iff]
      intro i hi
      exact (hidx g).2.1 i ((h1.piv i (e g)).1 hi)
    rw [← hR, ← hf.eq]
    rfl
  have hlow : ∀ g, VLow (vecOf n (rep g)) (e g) := by
    intro g
    rw [hvec]
    exact ⟨hf.upper.2 _, fun i hi => hf.upper.1 i _ hi⟩
  refine ⟨rep, fun g => rd_getD [] (by rw [hU.ncol]; exact (hidx g).1), fun g => ⟨(hUc.getD _).1, (hUc.getD _).2, hcyc g⟩, ?_⟩
  intro z hz'
  exact unique_combination (hasRed_of_shape h1.shapeM) (hasRed_of_shape h2.shapeM) hz he hlow hcyc hess z hz'

theorem DGBasis.pref {co : Bool} {e N : Nat} {d : Nat → Nat} {D : List (CMat F)} {X : RedDG F} (h : DGBasis co e N d D X) {k : Nat} (hk : k < N)
    (g : Fin (X.I.getD (idx co k) []).length) {r : SVec F} (hr : rd (X.U.getD (idx co k) ⟨0, []⟩).cols ((X.I.getD (idx co k) []).get g) = .ok r) :
    X.getPreferredRepresentative g.val (idx co k) = .ok r := by
  have hl : idx co k < N + 1 := by cases co <;> simp [idx] <;> omega
  unfold RedDG.getPreferredRepresentative
  rw [rd_getD ⟨0, []⟩ (by rw [h.lenU]; exact hl), bind_ok, rd_getD [] (by rw [h.tab.lenI]; exact hl), bind_ok, rd_ok g.2, bind_ok]
  exact hr

theorem DGTab.hdim_eq {co : Bool} {e N : Nat} {d : Nat → Nat} {D : List (CMat F)} {X : RedDG F} (h : DGTab co e N d D X) {k : Nat} (hk : k < N) :
    X.hdim k = .ok (X.I.getD (idx co k) []).length := by
  unfold RedDG.hdim
  rw [h.deg]
  have : (if DG.deg co = -1 then k else k + 1) = idx co k := by cases co <;> rfl
  rw [this, rd_getD [] (by rw [h.lenI]; cases co <;> simp [idx] <;> omega)]; rfl

theorem DGTab.dim_eq {co : Bool} {e N : Nat} {d : Nat → Nat} {D : List (CMat F)} {X : RedDG F} (h : DGTab co e N d D X) {k : Nat} (hk : k < N) :
    X.dim k = .ok (d k) := by
  unfold RedDG.dim
  rw [h.deg]
  have : (if DG.deg co = -1 then k else k + 1) = idx co k := by cases co <;> rfl
  have hi : idx co k ≤ N := by cases co <;> simp [idx] <;> omega
  rw [this, rd_getD ⟨0, []⟩ (by rw [h.lenR]; omega), bind_ok, pure_ok, (h.lev _ hi).shapeR.ncol]
  cases co <;> rfl

theorem reps_hom {e N : Nat} {d : Nat → Nat} {D : List (CMat F)} {X : RedDG F} (h : DGBasis false e N d D X) {k : Nat} (hk : k < N)
    (hz : fac false e d D k * facUp false d D k = 0) :
    ∃ n, X.hdim k = .ok n ∧ ∃ rep : Fin n → SVec F, (∀ g, X.getPreferredRepresentative g.val k = .ok (rep g)) ∧
      (∀ g, VecOK (rep g) ∧ Below (d k) (rep g) ∧ fac false e d D k *ᵥ vecOf (d k) (rep g) = 0) ∧
      ∀ z, fac false e d D k *ᵥ z = 0 → ∃! c : Fin n → F, z - ∑ g, c g • vecOf (d k) (rep g) ∈ LinearMap.range (facUp false d D k).mulVecLin := by
  obtain ⟨rep, r1, r2, r3⟩ := reps_generic (m1 := rr e d k) (n := d k) (n2 := d (k + 1)) (h.tab.lev k (by omega)) (h.fac k (by omega)) (h.tab.lev (k + 1) (by omega)) hz
    (h.tab.sorted k hk) (h.tab.inds k hk)
  exact ⟨_, h.tab.hdim_eq hk, rep, fun g => h.pref hk g (r1 g), r2, r3⟩

theorem reps_coh {e N : Nat} {d : Nat → Nat} {D : List (CMat F)} {X : RedDG F} (h : DGBasis true e N d D X) {k : Nat} (hk : k < N)
    (hz : fac true e d D k * facUp true d D k = 0) :
    ∃ n, X.hdim k = .ok n ∧ ∃ rep : Fin n → SVec F, (∀ g, X.getPreferredRepresentative g.val (k + 1) = .ok (rep g)) ∧
      (∀ g, VecOK (rep g) ∧ Below (d k) (rep g) ∧ (facUp true d D k)ᵀ *ᵥ vecOf (d k) (rep g) = 0) ∧
      ∀ z, (facUp true d D k)ᵀ *ᵥ z = 0 → ∃! c : Fin n → F, z - ∑ g, c g • vecOf (d k) (rep g) ∈ LinearMap.range (fac true e d D k)ᵀ.mulVecLin := by
  have hz' : (facUp true d D k)ᵀ * (fac true e d D k)ᵀ = 0 := by rw [← Matrix.transpose_mul, hz, Matrix.transpose_zero]
  obtain ⟨rep, r1, r2, r3⟩ := reps_generic (m1 := d (k + 1)) (n := d k) (n2 := rr e d k) (h.tab.lev (k + 1) (by omega)) (h.fac (k + 1) (by omega)) (h.tab.lev k (by omega)) hz'
    (h.tab.sorted k hk) (h.tab.inds k hk)
  exact ⟨_, h.tab.hdim_eq hk, rep, fun g => h.pref hk g (r1 g), r2, r3⟩

/-! ### against the specification -/

/-- `D` holds the differentials of `B` in the given order -/
theorem facUp_id {co : Bool} {e : Nat} {B : List (CMat F)} {D : List (CMat F)} (h : DGSorted co e B (fun _ i => i) D) (k : Nat) :
    facUp co (cdim B) D k = bdryUp B k :=
  h.fac_succ k (f := Equiv.refl _) (fun i => rfl) (g := Equiv.refl _) (fun i => rfl)

theorem mulVec_no_rows {m n : Nat} (hm : m = 0) (M : Matrix (Fin m) (Fin n) F) (x : Fin n → F) : M *ᵥ x = 0 := by
  subst hm; funext i; exact absurd i.2 (Nat.not_lt_zero _)

theorem range_no_cols {m n : Nat} (hn : n = 0) (M : Matrix (Fin m) (Fin n) F) : LinearMap.range M.mulVecLin = ⊥ := by
  subst hn
  rw [LinearMap.range_eq_bot]
  ext i j; exact absurd i.2 (Nat.not_lt_zero _)

theorem fac_ker {co : Bool} {B : List (CMat F)} (h0 : ZeroBdry0 B) {D : List (CMat F)} (h : DGSorted co 0 B (fun _ i => i) D) (k : Nat) (x : Fin (cdim B k) → F) :
    fac co 0 (cdim B) D k *ᵥ x = 0 ↔ x ∈ cycles B k := by
  unfold cycles
  rw [LinearMap.mem_ker, mulVecLin_apply]
  cases k with
  | zero =>
    rw [zeroBdry_zero h0, Matrix.zero_mulVec]
    exact ⟨fun _ => rfl, fun _ => mulVec_no_rows rfl _ _⟩
  | succ k =>
    have e1 : fac co 0 (cdim B) D (k + 1) *ᵥ x = bdryUp B k *ᵥ x := by rw [← facUp_id h k]; rfl
    exact Eq.congr e1 rfl

theorem fac_range {co : Bool} {B : List (CMat F)} (h0 : ZeroBdry0 B) {D : List (CMat F)} (h : DGSorted co 0 B (fun _ i => i) D) (k : Nat) :
    LinearMap.range (fac co 0 (cdim B) D k)ᵀ.mulVecLin = coboundaries B k := by
  unfold coboundaries
  cases k with
  | zero =>
    rw [zeroBdry_zero h0, Matrix.transpose_zero, Matrix.mulVecLin_zero, LinearMap.range_zero]
    exact range_no_cols rfl _
  | succ k =>
    have e1 : LinearMap.range (fac co 0 (cdim B) D (k + 1))ᵀ.mulVecLin = LinearMap.range (bdryUp B k)ᵀ.mulVecLin := by rw [← facUp_id h k]; rfl
    exact e1

theorem fac_ker_aug {co : Bool} {B : List (CMat F)} {D : List (CMat F)} (h : DGSorted co 1 B (fun _ i => i) D) (k : Nat) (x : Fin (cdim B k) → F) :
    fac co 1 (cdim B) D k *ᵥ x = 0 ↔ x ∈ augCycles B k := by
  cases k with
  | zero =>
    have e1 : fac co 1 (cdim B) D 0 = augMat B := by ext i j; exact h.zero i j i.2 j.2
    show _ ↔ x ∈ LinearMap.ker (augMat B).mulVecLin
    rw [LinearMap.mem_ker, mulVecLin_apply, ← e1]
    exact Iff.rfl
  | succ k =>
    show _ ↔ x ∈ cycles B (k + 1)
    unfold cycles
    rw [LinearMap.mem_ker, mulVecLin_apply]
    have e1 : fac co 1 (cdim B) D (k + 1) *ᵥ x = bdryUp B k *ᵥ x := by rw [← facUp_id h k]; rfl
    exact Eq.congr e1 rfl

theorem fac_range_aug {co : Bool} {B : List (CMat F)} {D : List (CMat F)} (h : DGSorted co 1 B (fun _ i => i) D) (k : Nat) :
    LinearMap.range (fac co 1 (cdim B) D k)ᵀ.mulVecLin = augCoboundaries B k := by
  cases k with
  | zero =>
    have e1 : fac co 1 (cdim B) D 0 = augMat B := by ext i j; exact h.zero i j i.2 j.2
    rw [e1]; rfl
  | succ k =>
    have e1 : LinearMap.range (fac co 1 (cdim B) D (k + 1))ᵀ.mulVecLin = LinearMap.range (bdryUp B k)ᵀ.mulVecLin := by rw [← facUp_id h k]; rfl
    exact e1

/-- the reduction of the DG vector space of a complex, with basis -/
theorem dg_basis (v : DGVariant) (hv : v.withBasis) (co b : Bool) {B : List (CMat F)} (hB : IsChainComplex B) (ha : b = true → Augmentable B) :
    ∃ D X, DGVS.ofComplex (deg co) b B = .ok ⟨deg co, D⟩ ∧ v.reduce ⟨deg co, D⟩ = .ok X ∧ DGSorted co (aug b) B (fun _ i => i) D ∧
      DGBasis co (aug b) B.length (cdim B) D X ∧ ∀ k, fac co (aug b) (cdim B) D k * facUp co (cdim B) D k = 0 := by
  obtain ⟨D, h1, h2⟩ := ofComplex_spec co b hB
  have hsq := fun l => h2.sq hB (aug_ok ha) (sigOK_id (cdim B)) l
  obtain ⟨X, x1, x2⟩ := v.basis hv co (one_le_length hB) h2.sh (chain_chainList co h2.sh (fun l _ => hsq l))
  exact ⟨D, X, h1, x1, h2, x2, hsq⟩

theorem dg_tab (v : DGVariant) (co b : Bool) {B : List (CMat F)} (hB : IsChainComplex B) (ha : b = true → Augmentable B) :
    ∃ D X, DGVS.ofComplex (deg co) b B = .ok ⟨deg co, D⟩ ∧ v.reduce ⟨deg co, D⟩ = .ok X ∧ DGSorted co (aug b) B (fun _ i => i) D ∧
      DGTab co (aug b) B.length (cdim B) D X := by
  obtain ⟨D, h1, h2⟩ := ofComplex_spec co b hB
  have hsq := fun l => h2.sq hB (aug_ok ha) (sigOK_id (cdim B)) l
  obtain ⟨X, x1, x2⟩ := v.spec co (one_le_length hB) h2.sh (chain_chainList co h2.sh (fun l _ => hsq l))
  exact ⟨D, X, h1, x1, h2, x2⟩

end DG
end BATS
