import Verif.Proofs.HomBasis
import Verif.Proofs.Examples

set_option linter.unusedSectionVars false
set_option linter.unusedVariables false

/-! # C13–C17: homology of a chain complex (include/homology/basis.hpp)

`IsChainComplex`, `cycles`, `boundaries`, `Homology`, `bettiNumber` are in `Verif/Spec/Homology.lean`. -/

namespace BATS
open Matrix

variable {F : Type} [Field F] [DecidableEq F]

theorem TabOK.hdim {B : List (CMat F)} (hB : IsChainComplex B) {C : RedCpx F} (h : TabOK B C) {k : Nat}
    (hk : k < B.length) : C.hdim k = .ok (bettiNumber B k) := by
  unfold RedCpx.hdim
  rw [rd_getD [] (by rw [h.lenI]; exact hk)]
  simp only [bind_ok, pure_ok]
  rw [h.betti hB hk]

/-- the six constructors of `ReducedChainComplex` with the standard algorithm -/
inductive Variant where
  | standard | noBasis | clearing | clearingBasis | compression | compressionBasis
  deriving DecidableEq

/-- the C++ constructor selected by the flags -/
def Variant.reduce : Variant → List (CMat F) → Res (RedCpx F)
  | .standard => RedCpx.mkStd
  | .noBasis => RedCpx.mkNoBasis
  | .clearing => RedCpx.mkClearing
  | .clearingBasis => RedCpx.mkClearingU
  | .compression => RedCpx.mkCompression
  | .compressionBasis => RedCpx.mkCompressionU

theorem Variant.spec (v : Variant) {B : List (CMat F)} (hB : IsChainComplex B) :
    ∃ C, v.reduce B = .ok C ∧ TabOK B C := by
  obtain ⟨C, C', h1, h2, h3, h4⟩ := mkCompression_both hB
  cases v
  · obtain ⟨C, h, h'⟩ := mkStd_spec hB; exact ⟨C, h, h'.tab⟩
  · exact mkNoBasis_spec hB
  · exact mkClearing_spec hB
  · obtain ⟨C, h, h'⟩ := mkClearingU_spec hB; exact ⟨C, h, h'.tab⟩
  · exact ⟨C', h3, h4⟩
  · exact ⟨C, h1, h2.tab⟩

/-- C13: for every chain complex and every combination of optimisation flags, the reduction returns normally and
`hdim(k)` (= `betti(k)`) is the dimension of `ker d_k / im d_{k+1}`, in every dimension. -/
theorem C13_betti_is_dim_homology (v : Variant) {B : List (CMat F)} (hB : IsChainComplex B) :
    ∃ C, v.reduce B = .ok C ∧ ∀ k, k < B.length → C.hdim k = .ok (Module.finrank F (Homology B k)) := by
  obtain ⟨C, h, ht⟩ := v.spec hB
  exact ⟨C, h, fun k hk => ht.hdim hB hk⟩

/-- C13, in terms of ranks: `hdim(k) + rank d_{k+1} + rank d_k = dim C_k`. -/
theorem C13_euler (v : Variant) {B : List (CMat F)} (hB : IsChainComplex B) :
    ∃ C, v.reduce B = .ok C ∧ ∀ k, k < B.length → ∃ b, C.hdim k = .ok b ∧
      b + (bdryUp B k).rank + (bdry B k).rank = cdim B k := by
  obtain ⟨C, h, ht⟩ := v.spec hB
  refine ⟨C, h, fun k hk => ⟨_, ht.hdim hB hk, ?_⟩⟩
  have := finrank_homology (bdry B k) (bdryUp B k) (hB.sq' k)
  rw [Fintype.card_fin] at this
  exact this

example : IsChainComplex circleQ ∧ (Variant.standard.reduce circleQ).bind (fun C => C.hdim 0) = .ok 1 ∧
    (Variant.standard.reduce circleQ).bind (fun C => C.hdim 1) = .ok 1 ∧
    (Variant.clearing.reduce triangleQ).bind (fun C => C.hdim 1) = .ok 0 :=
  ⟨circleQ_complex, by decide +kernel, by decide +kernel, by decide +kernel⟩

/-- C14: the stored representatives are cycles, and every cycle is homologous to exactly one linear combination of
them. Holds for every constructor that computes a basis. -/
theorem C14_representatives (v : Variant) (hv : v = .standard ∨ v = .clearingBasis ∨ v = .compressionBasis)
    {B : List (CMat F)} (hB : IsChainComplex B) :
    ∃ C, v.reduce B = .ok C ∧ ∀ k, k < B.length →
      ∃ b, C.hdim k = .ok b ∧ ∃ rep : Fin b → SVec F,
        (∀ g, C.getPreferredRepresentative g.val k = .ok (rep g)) ∧
        (∀ g, VecOK (rep g) ∧ Below (cdim B k) (rep g) ∧ vecOf (cdim B k) (rep g) ∈ cycles B k) ∧
        ∀ z ∈ cycles B k, ∃! c : Fin b → F, z - ∑ g, c g • vecOf (cdim B k) (rep g) ∈ boundaries B k := by
  have key : ∃ C, v.reduce B = .ok C ∧ CompBasisOK B C := by
    rcases hv with rfl | rfl | rfl
    · obtain ⟨C, h, h'⟩ := mkStd_spec hB; exact ⟨C, h, h'.comp⟩
    · obtain ⟨C, h, h'⟩ := mkClearingU_spec hB; exact ⟨C, h, h'.comp⟩
    · obtain ⟨C, C', h1, h2, _⟩ := mkCompression_both hB; exact ⟨C, h1, h2⟩
  obtain ⟨C, h, hC⟩ := key
  exact ⟨C, h, fun k hk => ⟨_, hC.tab.hdim hB hk, hC.representatives hB hk⟩⟩

example : IsChainComplex circleQ ∧
    (Variant.standard.reduce circleQ).bind (fun C => C.getPreferredRepresentative 0 1)
      = .ok [(0, 1), (1, -1), (2, 1)] := ⟨circleQ_complex, by decide +kernel⟩

/-- C15: clearing returns the pivot tables, generator indices and Betti numbers of the standard reduction. -/
theorem C15_clearing_same (v : Variant) (hv : v = .clearing ∨ v = .clearingBasis) {B : List (CMat F)}
    (hB : IsChainComplex B) :
    ∃ C S, v.reduce B = .ok C ∧ Variant.standard.reduce B = .ok S ∧ C.p2c = S.p2c ∧ C.I = S.I ∧
      ∀ k, C.hdim k = S.hdim k := by
  obtain ⟨C, h, ht⟩ := v.spec hB
  obtain ⟨S, h', ht'⟩ := Variant.standard.spec hB
  have := ht.unique ht'
  exact ⟨C, S, h, h', this.1, this.2, fun k => by unfold RedCpx.hdim; rw [this.2]⟩

example : IsChainComplex triangleQ ∧ (Variant.clearing.reduce triangleQ).map (·.p2c)
    = .ok [[none], [none, some 0, some 1], [none, none, some 0]] := ⟨triangleQ_complex, by decide +kernel⟩

/-- C16: with clearing and basis tracking, in every dimension `B_k * U_k = R_k` with `U_k` upper triangular with
nonzero diagonal, `R_k` reduced, and the table is the one of `R_k`. -/
theorem C16_clearing_basis {B : List (CMat F)} (hB : IsChainComplex B) :
    ∃ C, RedCpx.mkClearingU B = .ok C ∧ C.U.length = B.length ∧ C.R.length = B.length ∧ ∀ k, k < B.length →
      (C.U.getD k ⟨0, []⟩).Shape (cdim B k) (cdim B k) ∧ (C.R.getD k ⟨0, []⟩).Shape (rdim B k) (cdim B k) ∧
      UpperInv ((C.U.getD k ⟨0, []⟩).mat (cdim B k) (cdim B k)) ∧
      bdry B k * (C.U.getD k ⟨0, []⟩).mat (cdim B k) (cdim B k) = (C.R.getD k ⟨0, []⟩).mat (rdim B k) (cdim B k) ∧
      Reduced ((C.R.getD k ⟨0, []⟩).mat (rdim B k) (cdim B k)) ∧
      IsPivotTable ((C.R.getD k ⟨0, []⟩).mat (rdim B k) (cdim B k)) (C.p2c.getD k []) := by
  obtain ⟨C, h, hb⟩ := mkClearingU_spec hB
  refine ⟨C, h, hb.lenU, hb.tab.lenR, fun k hk => ?_⟩
  have hf := hb.fac k hk
  have hl := hb.tab.lev k hk
  exact ⟨hf.shape, hl.shapeR, hf.upper, hf.eq, hl.table.reduced, hl.table⟩

/-- the cleared column 2 of the edges carries the boundary of the 2-cell as its basis vector -/
example : IsChainComplex triangleQ ∧ (RedCpx.mkClearingU triangleQ).map (fun C => (C.U.getD 1 ⟨0, []⟩).cols)
    = .ok [[(0, 1)], [(1, 1)], [(0, 1), (1, -1), (2, 1)]] := ⟨triangleQ_complex, by decide +kernel⟩

/-- C17: compression returns the pivot tables, generator indices and Betti numbers of the standard reduction. -/
theorem C17_compression_same (v : Variant) (hv : v = .compression ∨ v = .compressionBasis) {B : List (CMat F)}
    (hB : IsChainComplex B) :
    ∃ C S, v.reduce B = .ok C ∧ Variant.standard.reduce B = .ok S ∧ C.p2c = S.p2c ∧ C.I = S.I ∧
      ∀ k, C.hdim k = S.hdim k := by
  obtain ⟨C, h, ht⟩ := v.spec hB
  obtain ⟨S, h', ht'⟩ := Variant.standard.spec hB
  have := ht.unique ht'
  exact ⟨C, S, h, h', this.1, this.2, fun k => by unfold RedCpx.hdim; rw [this.2]⟩

/-- C17 (limit): unlike clearing, compression with basis does not keep `B * U = R`: on the solid triangle the
compressed `R_2` has lost the entries of `B_2 U_2` in the cleared rows. -/
theorem C17_compression_basis_not_factorisation :
    IsChainComplex triangleQ ∧ ∃ C, RedCpx.mkCompressionU triangleQ = .ok C ∧
      bdry triangleQ 2 * (C.U.getD 2 ⟨0, []⟩).mat (cdim triangleQ 2) (cdim triangleQ 2)
        ≠ (C.R.getD 2 ⟨0, []⟩).mat (rdim triangleQ 2) (cdim triangleQ 2) := by
  refine ⟨triangleQ_complex, ?_⟩
  cases h : RedCpx.mkCompressionU triangleQ with
  | error e =>
    have : (RedCpx.mkCompressionU triangleQ).map (fun _ => ()) = .ok () := by decide +kernel
    rw [h] at this; cases this
  | ok C =>
    refine ⟨C, rfl, ?_⟩
    have h2 : (RedCpx.mkCompressionU triangleQ).map (fun C => (C.U.getD 2 ⟨0, []⟩, C.R.getD 2 ⟨0, []⟩))
        = .ok (⟨1, [[(0, 1)]]⟩, ⟨3, [[(2, 1)]]⟩) := by decide +kernel
    rw [h] at h2
    simp only [Except.map, Except.ok.injEq, Prod.mk.injEq] at h2
    rw [h2.1, h2.2]
    decide +kernel

example : IsChainComplex triangleQ ∧ (Variant.compression.reduce triangleQ).map (·.p2c)
    = .ok [[none], [none, some 0, some 1], [none, none, some 0]] := ⟨triangleQ_complex, by decide +kernel⟩

end BATS
