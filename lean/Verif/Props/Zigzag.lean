import Verif.Proofs.ZZMain
import Verif.Proofs.Examples
import Mathlib.LinearAlgebra.FiniteDimensional.Basic
import Mathlib.LinearAlgebra.Dimension.Constructions

set_option linter.unusedSectionVars false
set_option linter.unusedVariables false
set_option linter.unusedSimpArgs false

/-!
# C61: barcodes of zigzag filtrations (include/zigzag/reduction.hpp)

The specification is in `Verif/Spec/Zigzag.lean`: `IsZigzagOrder` (valid sequences of entries and exits of cells), `cyclesOn`, `boundariesOn` (cycles and
boundaries of the complex of the cells present after `i` events), `IsZigzagBarcode` (interval decomposition of the zigzag of the homology groups) and
`pairOf` (the record which reports a bar).
-/

namespace BATS
namespace Zigzag
open Reduction Matrix

variable {F : Type} [Field F] [DecidableEq F] {T : Type}

/-- C61: for every chain complex, every valid order of entries and exits and every `maxdim` such that no cell of dimension above `maxdim + 1` leaves,
the algorithm returns, and in each dimension `k ≤ maxdim` the reported pairs are the bars of an interval decomposition of the zigzag
`H_k(X_0), H_k(X_1), …` -/
theorem C61_zigzag_barcode {B : List (CMat F)} (hB : IsChainComplex B) (h0 : ZeroBdry0 B) {es : List (Event T)} (ho : IsZigzagOrder B es) (maxdim : Nat)
    (hmax : maxdim < B.length) (hdim : ∀ e ∈ es, e.entry = false → e.dim ≤ maxdim + 1) :
    ∃ bars, barcodeReduction B es (some maxdim) = .ok bars ∧ bars.length = maxdim + 1 ∧
      ∀ k, k ≤ maxdim → ∃ iv, IsZigzagBarcode B es k iv ∧ iv.map (pairOf es k) = (bars.getD k []).map some := by
  obtain ⟨s, h1, h2⟩ := loop_spec hB h0 ho (nb := maxdim + 1) (by omega) hdim es.length 0 (initState B (maxdim + 1)) (by omega) (init_spec hB (by omega))
  rw [List.drop_zero] at h1
  refine ⟨s.bars, ?_, h2.lenb, fun k hk => h2.barcode (by omega)⟩
  unfold barcodeReduction
  simp only [h1, bind_ok]; rfl

/-- C61: the same for the default argument `maxdim = -1`, which stands for `C.maxdim() - 1`; no condition on the dimensions is needed -/
theorem C61_default_maxdim {B : List (CMat F)} (hB : IsChainComplex B) (h0 : ZeroBdry0 B) {es : List (Event T)} (ho : IsZigzagOrder B es) :
    ∃ bars, barcodeReduction B es none = .ok bars ∧ bars.length = B.length - 1 ∧
      ∀ k, k + 1 < B.length → ∃ iv, IsZigzagBarcode B es k iv ∧ iv.map (pairOf es k) = (bars.getD k []).map some := by
  have hdim : ∀ e ∈ es, e.entry = false → e.dim ≤ B.length - 1 := by
    intro e he _
    obtain ⟨i, hi, h⟩ := List.mem_iff_getElem.1 he
    have := (stepOK ho (show es[i]? = some e by rw [List.getElem?_eq_getElem hi, h])).1
    omega
  obtain ⟨s, h1, h2⟩ := loop_spec hB h0 ho (nb := B.length - 1) (by omega) hdim es.length 0 (initState B (B.length - 1)) (by omega) (init_spec hB (by omega))
  rw [List.drop_zero] at h1
  refine ⟨s.bars, ?_, h2.lenb, fun k hk => h2.barcode (by omega)⟩
  unfold barcodeReduction
  simp only [h1, bind_ok]; rfl

/-- C61: in an interval decomposition the number of bars alive at time `i` is the dimension of `H_k(X_i)` -/
theorem C61_alive_is_betti {B : List (CMat F)} (hB : IsChainComplex B) {es : List (Event T)} (ho : IsZigzagOrder B es) {k : Nat} {iv : List Bar}
    (h : IsZigzagBarcode B es k iv) {i : Nat} (hi : i ≤ es.length) :
    (alive iv i).card = Module.finrank F (cyclesOn B es k i ⧸ (boundariesOn B es k i).submoduleOf (cyclesOn B es k i)) := by
  classical
  obtain ⟨_, v, hv⟩ := h
  have hle := bound_le_cycles hB ho k i
  let Z := cyclesOn B es k i
  let W := boundariesOn B es k i
  let g : (alive iv i) → Z ⧸ W.submoduleOf Z := fun b => (W.submoduleOf Z).mkQ ⟨v i b, hv.mem i hi b b.2⟩
  have hg : ∀ c : (alive iv i) → F, ∑ b, c b • g b = (W.submoduleOf Z).mkQ ⟨∑ b, c b • v i b, Z.sum_mem (fun b _ => Z.smul_mem _ (hv.mem i hi b b.2))⟩ := by
    intro c
    have : (⟨∑ b, c b • v i b, Z.sum_mem (fun b _ => Z.smul_mem _ (hv.mem i hi b b.2))⟩ : Z) = ∑ b, c b • (⟨v i b, hv.mem i hi b b.2⟩ : Z) := by
      ext; simp
    rw [this, map_sum]
    exact Finset.sum_congr rfl (fun b _ => by rw [map_smul])
  have hsum : ∀ c : Nat → F, ∑ b ∈ alive iv i, c b • v i b = ∑ b : alive iv i, c b • v i b := fun c => (Finset.sum_coe_sort (alive iv i) (fun b => c b • v i b)).symm
  have hli : LinearIndependent F g := by
    rw [Fintype.linearIndependent_iff]
    intro c hc b
    rw [hg, Submodule.mkQ_apply, Submodule.Quotient.mk_eq_zero] at hc
    have hc' : ∑ b : alive iv i, c b • v i b ∈ W := hc
    have := hv.indep i hi (fun x => if hx : x ∈ alive iv i then c ⟨x, hx⟩ else 0) (by
      rw [hsum]
      have : ∑ b : alive iv i, (if hx : (b : Nat) ∈ alive iv i then c ⟨b, hx⟩ else 0) • v i b = ∑ b : alive iv i, c b • v i b :=
        Finset.sum_congr rfl (fun b _ => by rw [dif_pos b.2])
      rw [this]; exact hc') b b.2
    simpa using this
  have hsp : ⊤ ≤ Submodule.span F (Set.range g) := by
    intro y _
    obtain ⟨z, rfl⟩ := Submodule.mkQ_surjective _ y
    obtain ⟨c, hc⟩ := hv.span i hi z z.2
    have : (W.submoduleOf Z).mkQ z = ∑ b : alive iv i, c b • g b := by
      rw [hg (fun b => c b), Submodule.mkQ_apply, Submodule.mkQ_apply, Submodule.Quotient.eq]
      show (z : Fin (cdim B k) → F) - ∑ b : alive iv i, c b • v i b ∈ W
      rw [← hsum]; exact hc
    rw [this]
    exact Submodule.sum_mem _ (fun b _ => Submodule.smul_mem _ _ (Submodule.subset_span ⟨b, rfl⟩))
  have := Module.finrank_eq_card_basis (Module.Basis.mk hli hsp)
  rw [this, Fintype.card_coe]

/-! ### examples -/

/-- a zigzag on the filled triangle: the hollow triangle is built, filled, opened, and one more edge leaves -/
def triZig : List (Event Nat) :=
  [⟨0, 0, 0, 0, true⟩, ⟨0, 1, 1, 1, true⟩, ⟨0, 2, 2, 2, true⟩, ⟨1, 0, 0, 3, true⟩, ⟨1, 1, 1, 4, true⟩, ⟨1, 2, 2, 5, true⟩, ⟨2, 0, 0, 6, true⟩, ⟨2, 0, 0, 7, false⟩, ⟨1, 2, 2, 8, false⟩]

theorem triangleQ_zero' : ZeroBdry0 triangleQ := by unfold ZeroBdry0; decide

theorem triZig_order : IsZigzagOrder triangleQ triZig := order_of_check triangleQ_complex (by decide +kernel)

example : ∃ bars, barcodeReduction triangleQ triZig none = .ok bars ∧ bars.length = 2 ∧
    ∀ k, k + 1 < 3 → ∃ iv, IsZigzagBarcode triangleQ triZig k iv ∧ iv.map (pairOf triZig k) = (bars.getD k []).map some :=
  C61_default_maxdim triangleQ_complex triangleQ_zero' triZig_order

/-- its bars: in dimension 0 one which never ends and two which are killed by edges; in dimension 1 the loop before the triangle enters and the loop after
the triangle has left -/
example : barcodeReduction triangleQ triZig none = .ok [
    [⟨0, 0, none, 0, none, true, true⟩, ⟨0, 1, some 0, 1, some 3, true, true⟩, ⟨0, 2, some 1, 2, some 4, true, true⟩],
    [⟨1, 2, some 0, 5, some 6, true, true⟩, ⟨1, 0, some 2, 7, some 8, false, false⟩]] := by decide +kernel

/-! ### an exit above `maxdim + 1` leaves a stale pivot -/

/-- two triangles with the same boundary -/
def twoTriQ : List (CMat ℚ) :=
  [⟨1, [[], [], []]⟩, ⟨3, [[(0, -1), (1, 1)], [(0, -1), (2, 1)], [(1, -1), (2, 1)]]⟩,
   ⟨3, [[(0, 1), (1, -1), (2, 1)], [(0, 1), (1, -1), (2, 1)]]⟩]

theorem twoTriQ_complex : IsChainComplex twoTriQ := by
  apply isChainComplex_of_bool
  · decide
  · decide +kernel
  · decide +kernel

/-- the first triangle enters and leaves, then the second one enters -/
def twoTriZig : List (Event Nat) :=
  [⟨0, 0, 0, 0, true⟩, ⟨0, 1, 1, 1, true⟩, ⟨0, 2, 2, 2, true⟩, ⟨1, 0, 0, 3, true⟩, ⟨1, 1, 1, 4, true⟩, ⟨1, 2, 2, 5, true⟩,
   ⟨2, 0, 0, 6, true⟩, ⟨2, 0, 0, 7, false⟩, ⟨2, 1, 1, 8, true⟩]

/-- the condition on the dimension of the leaving cells in `C61_zigzag_barcode` is necessary: with `maxdim = 0` the exit of a triangle clears its column
but not the entry of the pivot table (zigzag/reduction.hpp:518-544 is skipped), and the entry of the second triangle reads the last entry of an empty column -/
theorem C61_stale_pivot_above_maxdim : IsChainComplex twoTriQ ∧ ZeroBdry0 twoTriQ ∧ IsZigzagOrder twoTriQ twoTriZig ∧
    (∃ bars, barcodeReduction twoTriQ twoTriZig (some 1) = .ok bars) ∧ barcodeReduction twoTriQ twoTriZig (some 0) = .error .ub := by
  have ho : IsZigzagOrder twoTriQ twoTriZig := order_of_check twoTriQ_complex (by decide +kernel)
  have h0 : ZeroBdry0 twoTriQ := by unfold ZeroBdry0; decide
  refine ⟨twoTriQ_complex, h0, ho, ?_, by decide +kernel⟩
  obtain ⟨bars, h, _⟩ := C61_zigzag_barcode twoTriQ_complex h0 ho 1 (by decide) (by decide)
  exact ⟨bars, h⟩

end Zigzag
end BATS
