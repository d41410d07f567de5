import Verif.Proofs.Pair6

set_option linter.unusedSectionVars false
set_option linter.unusedVariables false
set_option linter.unusedSimpArgs false

/-! # The Mayer-Vietoris boundary induces the connecting homomorphism -/

namespace BATS
open Reduction Matrix Module
namespace SCpx
variable {F : Type} [Field F] [DecidableEq F]

/-- the chain is a combination of the listed cells -/
def OnCells (c : List Nat →₀ F) (l : List (List Nat)) : Prop := ∀ s, c s ≠ 0 → s ∈ l

theorem OnCells.add {c d : List Nat →₀ F} {l} (hc : OnCells c l) (hd : OnCells d l) : OnCells (c + d) l := by
  intro s hs
  by_cases h : c s = 0
  · exact hd s (fun e => hs (by rw [Finsupp.add_apply, h, e, add_zero]))
  · exact hc s h

theorem OnCells.smul {c : List Nat →₀ F} {l} (hc : OnCells c l) (a : F) : OnCells (a • c) l := by
  intro s hs
  exact hc s (fun e => hs (by rw [Finsupp.smul_apply, e, smul_zero]))

theorem OnCells.neg {c : List Nat →₀ F} {l} (hc : OnCells c l) : OnCells (-c) l := by
  intro s hs
  exact hc s (fun e => hs (by rw [Finsupp.neg_apply, e, neg_zero]))

theorem OnCells.sub {c d : List Nat →₀ F} {l} (hc : OnCells c l) (hd : OnCells d l) : OnCells (c - d) l := by
  rw [sub_eq_add_neg]; exact hc.add hd.neg

theorem OnCells.boundary {cells : Cells} (h : CellsOK cells) {k : Nat} {c : List Nat →₀ F} (hc : OnCells c (cells (k + 1))) :
    OnCells (orderedBoundary F c) (cells k) := by
  intro t ht
  have : orderedBoundary F c = ∑ s ∈ c.support, orderedBoundary F (Finsupp.single s (c s)) := by
    conv_lhs => rw [← Finsupp.sum_single c]
    rw [Finsupp.sum, map_sum]
  rw [this, Finsupp.finsetSum_apply] at ht
  obtain ⟨s, hs, h1⟩ := Finset.exists_ne_zero_of_sum_ne_zero ht
  rw [Finsupp.mem_support_iff] at hs
  rw [orderedBoundary_single, Finsupp.finsetSum_apply] at h1
  obtain ⟨l, hl, h2⟩ := Finset.exists_ne_zero_of_sum_ne_zero h1
  rw [Finset.mem_range] at hl
  have hm := hc s hs
  rw [h.len _ _ hm] at hl
  rw [Finsupp.single_apply] at h2
  by_cases e : s.eraseIdx l = t
  · rw [← e]; exact h.closed k s hm l hl
  · rw [if_neg e] at h2; exact absurd rfl h2

theorem onCells_chainFn {X : SCpx} {cells : Cells} (h : Inv X cells) (k : Nat) {n : Nat} (hn : n = (cells k).length) (c : Fin n → F) :
    OnCells (chainFn X k c) (cells k) := by
  intro s hs
  by_contra hc
  exact hs (chainFn_zero h k hn c hc)

theorem filter_of_on {c : List Nat →₀ F} {l : List (List Nat)} (h : OnCells c l) : c.filter (· ∈ l) = c := by
  rw [Finsupp.filter_eq_self_iff]
  intro s hs
  exact h s hs

theorem onCells_filter (c : List Nat →₀ F) (l : List (List Nat)) : OnCells (c.filter (· ∈ l)) l := by
  intro s hs
  by_contra h
  exact hs (Finsupp.filter_apply_neg _ _ h)

section
variable {A B X Y : SCpx} {cA cB cX cY : Cells} {BX BY : List (CMat F)} {k : Nat} {D : Matrix (Fin (cdim BY k)) (Fin (cdim BX (k + 1))) F}

/-- the hypotheses of the Mayer-Vietoris theorems -/
structure MVData (A B X Y : SCpx) (cA cB cX cY : Cells) (BX BY : List (CMat F)) (k : Nat) (D : Matrix (Fin (cdim BY k)) (Fin (cdim BX (k + 1))) F) : Prop where
  a : Inv A cA
  b : Inv B cB
  x : Inv X cX
  y : Inv Y cY
  union : ∀ d s, s ∈ cX d ↔ s ∈ cA d ∨ s ∈ cB d
  inter : ∀ d s, s ∈ cY d ↔ s ∈ cA d ∧ s ∈ cB d
  dx : ∀ d, cdim BX d = (cX d).length
  dy : ∀ d, cdim BY d = (cY d).length
  bx : ∀ d, d + 1 < X.ncells.length → ∃ M, BX[d + 1]? = some M ∧ BdMat cX d M
  by' : ∀ d, d + 1 < Y.ncells.length → ∃ M, BY[d + 1]? = some M ∧ BdMat cY d M
  map : ∀ c, chainFn Y k (D *ᵥ c) = (-1 : F) ^ k • ((orderedBoundary F ((chainFn X (k + 1) c).filter (· ∈ cA (k + 1)))).filter (· ∈ cY k))

variable (h : MVData A B X Y cA cB cX cY BX BY k D)
include h

theorem MVData.rest (z : Fin (cdim BX (k + 1)) → F) : OnCells (chainFn X (k + 1) z - (chainFn X (k + 1) z).filter (· ∈ cA (k + 1))) (cB (k + 1)) := by
  intro s hs
  have hx := onCells_chainFn h.x (k + 1) (h.dx (k + 1)) z
  by_cases hA : s ∈ cA (k + 1)
  · rw [Finsupp.sub_apply, Finsupp.filter_apply_pos _ _ hA, sub_self] at hs; exact absurd rfl hs
  · rw [Finsupp.sub_apply, Finsupp.filter_apply_neg _ _ hA, sub_zero] at hs
    exact ((h.union _ _).1 (hx s hs)).resolve_left hA

theorem bdry_zero_fn {z : Fin (cdim BX (k + 1)) → F} (hz : bdryUp BX k *ᵥ z = 0) : orderedBoundary F (chainFn X (k + 1) z) = 0 := by
  have e := chainFn_bdry h.x h.dx h.bx k z
  rw [hz] at e
  have h0 : chainFn X k (0 : Fin (cdim BX k) → F) = 0 := by
    unfold chainFn
    apply Finset.sum_eq_zero
    intro i _
    rw [Pi.zero_apply, Finsupp.single_zero]
  rw [h0] at e
  exact (smul_eq_zero_iff_right (pow_ne_zero _ (neg_ne_zero.2 one_ne_zero))).1 e.symm

/-- on a cycle nothing is lost by the restriction -/
theorem mv_main {z : Fin (cdim BX (k + 1)) → F} (hz : bdryUp BX k *ᵥ z = 0) :
    chainFn Y k (D *ᵥ z) = (-1 : F) ^ k • orderedBoundary F ((chainFn X (k + 1) z).filter (· ∈ cA (k + 1))) := by
  rw [h.map, filter_of_on]
  intro s hs
  have h1 := OnCells.boundary h.a.ok (onCells_filter (chainFn X (k + 1) z) (cA (k + 1)))
  have h2 := OnCells.boundary h.b.ok (h.rest z)
  rw [map_sub, bdry_zero_fn h hz, zero_sub] at h2
  exact (h.inter _ _).2 ⟨h1 s hs, h2 s (by rw [Finsupp.neg_apply]; exact neg_ne_zero.2 hs)⟩

/-- any decomposition gives the same class -/
theorem mv_conn {z a b : Fin (cdim BX (k + 1)) → F} (hz : bdryUp BX k *ᵥ z = 0) (hab : z = a + b)
    (ha : OnCells (chainFn X (k + 1) a) (cA (k + 1))) (hb : OnCells (chainFn X (k + 1) b) (cB (k + 1))) :
    ∃ u : Fin (cdim BY (k + 1)) → F, chainFn Y k (D *ᵥ z) = chainFn X k (bdryUp BX k *ᵥ a) + chainFn Y k (bdryUp BY k *ᵥ u) := by
  obtain ⟨u, hu⟩ := chainFn_surj (F := F) h.y (k + 1) (h.dy (k + 1)) (f := (chainFn X (k + 1) z).filter (· ∈ cA (k + 1)) - chainFn X (k + 1) a) (by
    intro s hs
    rw [h.inter]
    refine ⟨((onCells_filter _ _).sub ha) s hs, ?_⟩
    have e : (chainFn X (k + 1) z).filter (· ∈ cA (k + 1)) - chainFn X (k + 1) a =
        chainFn X (k + 1) b - (chainFn X (k + 1) z - (chainFn X (k + 1) z).filter (· ∈ cA (k + 1))) := by
      have : chainFn X (k + 1) z = chainFn X (k + 1) a + chainFn X (k + 1) b := by rw [hab, chainFn_add]
      rw [this]; abel
    rw [e] at hs
    exact (hb.sub (h.rest z)) s hs)
  refine ⟨u, ?_⟩
  rw [mv_main h hz, chainFn_bdry h.x h.dx h.bx, chainFn_bdry h.y h.dy h.by', hu, map_sub, ← smul_add]
  congr 1; abel

theorem mv_cycle (h0 : bdry BY 0 = 0) {z : Fin (cdim BX (k + 1)) → F} (hz : bdryUp BX k *ᵥ z = 0) : D *ᵥ z ∈ cycles BY k := by
  unfold cycles
  rw [LinearMap.mem_ker, mulVecLin_apply]
  cases k with
  | zero => rw [h0, zero_mulVec]
  | succ k =>
    show bdryUp BY k *ᵥ (D *ᵥ z) = 0
    apply chainFn_inj h.y k (h.dy k)
    rw [chainFn_bdry h.y h.dy h.by', mv_main h hz, map_smul, orderedBoundary_sq, smul_zero, smul_zero]
    unfold chainFn
    symm
    apply Finset.sum_eq_zero
    intro i _
    rw [Pi.zero_apply, Finsupp.single_zero]

theorem mv_bdry {z : Fin (cdim BX (k + 1)) → F} (hz : z ∈ BATS.boundaries BX (k + 1)) : D *ᵥ z ∈ BATS.boundaries BY k := by
  obtain ⟨w, rfl⟩ := hz
  rw [mulVecLin_apply]
  have hx := onCells_chainFn h.x (k + 2) (h.dx (k + 2)) w
  have hbb : bdryUp BX k *ᵥ (bdryUp BX (k + 1) *ᵥ w) = 0 := by
    apply chainFn_inj h.x k (h.dx k)
    rw [chainFn_bdry h.x h.dx h.bx, chainFn_bdry h.x h.dx h.bx, map_smul, orderedBoundary_sq, smul_zero, smul_zero]
    unfold chainFn
    symm
    apply Finset.sum_eq_zero
    intro i _
    rw [Pi.zero_apply, Finsupp.single_zero]
  obtain ⟨wa, hwa⟩ := chainFn_surj (F := F) h.x (k + 2) (h.dx (k + 2)) (f := (chainFn X (k + 2) w).filter (· ∈ cA (k + 2))) (by
    intro s hs; exact (h.union _ _).2 (Or.inl (onCells_filter _ _ s hs)))
  have hsub : chainFn X (k + 2) (w - wa) = chainFn X (k + 2) w - (chainFn X (k + 2) w).filter (· ∈ cA (k + 2)) := by
    rw [← hwa, sub_eq_add_neg, chainFn_add, ← neg_one_smul F wa, chainFn_smul, neg_one_smul, ← sub_eq_add_neg]
  obtain ⟨u, hu⟩ := mv_conn h (a := bdryUp BX (k + 1) *ᵥ wa) (b := bdryUp BX (k + 1) *ᵥ (w - wa)) hbb (by rw [← mulVec_add]; congr 1; abel)
    (by
      rw [chainFn_bdry h.x h.dx h.bx, hwa]
      exact (OnCells.boundary h.a.ok (onCells_filter _ _)).smul _)
    (by
      rw [chainFn_bdry h.x h.dx h.bx, hsub]
      refine (OnCells.boundary h.b.ok ?_).smul _
      intro s hs
      by_cases hA : s ∈ cA (k + 2)
      · rw [Finsupp.sub_apply, Finsupp.filter_apply_pos _ _ hA, sub_self] at hs; exact absurd rfl hs
      · rw [Finsupp.sub_apply, Finsupp.filter_apply_neg _ _ hA, sub_zero] at hs
        exact ((h.union _ _).1 (hx s hs)).resolve_left hA)
  refine ⟨u, ?_⟩
  rw [mulVecLin_apply]
  apply chainFn_inj h.y k (h.dy k)
  rw [hu]
  have hz : chainFn X k (bdryUp BX k *ᵥ (bdryUp BX (k + 1) *ᵥ wa)) = 0 := by
    rw [chainFn_bdry h.x h.dx h.bx, chainFn_bdry h.x h.dx h.bx, map_smul, orderedBoundary_sq, smul_zero, smul_zero]
  rw [hz, zero_add]

end

end SCpx
end BATS
