import Verif.Model.ZigzagExt
import Verif.Spec.ZigzagExt
import Verif.Proofs.Sublevel
import Verif.Proofs.SimplicialPersistence
import Verif.Proofs.RelativeLin
import Verif.Proofs.ZZCmpLex
import Mathlib.Algebra.Order.Group.Basic
import Mathlib.Tactic.Abel

set_option linter.unusedSectionVars false
set_option linter.unusedVariables false
set_option linter.unusedSimpArgs false

namespace BATS
namespace Zigzag
open Reduction Matrix

section ext
variable {T : Type} [LinearOrder T] [AddCommGroup T] [IsOrderedAddMonoid T]

theorem extremaLoop_spec (f0 : List T) : ∀ (s : List Nat) (mn mx : T), (∀ v ∈ s, v < f0.length) → ∃ a b, extremaLoop f0 s mn mx = .ok (a, b) ∧
    (∀ x, x ≤ a ↔ x ≤ mn ∧ ∀ v ∈ s, x ≤ f0.getD v 0) ∧ (∀ x, b ≤ x ↔ mx ≤ x ∧ ∀ v ∈ s, f0.getD v 0 ≤ x)
  | [], mn, mx, _ => ⟨mn, mx, rfl, by simp, by simp⟩
  | v :: s, mn, mx, h => by
    have hv := h v (by simp)
    obtain ⟨a, b, e, h1, h2⟩ := extremaLoop_spec f0 s (min mn (f0.getD v 0)) (max mx (f0.getD v 0)) (fun w hw => h w (by simp [hw]))
    refine ⟨a, b, ?_, fun x => ?_, fun x => ?_⟩
    · rw [extremaLoop, rd_getD 0 hv, bind_ok]; exact e
    · rw [h1, le_min_iff, List.forall_mem_cons, and_assoc]
    · rw [h2, max_le_iff, List.forall_mem_cons, and_assoc]

/-- entry and removal times of a simplex -/
structure ExtTimes (lo hi : T) (f0 : List T) (eps : T) (s : List Nat) (a b : T) : Prop where
  enter : ∀ t, a ≤ t ↔ lo - eps ≤ t ∧ ∀ v ∈ s, f0.getD v 0 - eps ≤ t
  leave : ∀ t, t ≤ b ↔ t ≤ hi + eps ∧ ∀ v ∈ s, t ≤ f0.getD v 0 + eps

/-- the simplex is accepted -/
def Narrow (lo hi : T) (f0 : List T) (eps : T) (s : List Nat) : Prop :=
  (lo - eps ≤ hi + eps ∧ ∀ v ∈ s, f0.getD v 0 - eps ≤ hi + eps) ∧ ∀ w ∈ s, lo - eps ≤ f0.getD w 0 + eps ∧ ∀ v ∈ s, f0.getD v 0 - eps ≤ f0.getD w 0 + eps

theorem ExtTimes.narrow {lo hi : T} {f0 : List T} {eps : T} {s : List Nat} {a b : T} (h : ExtTimes lo hi f0 eps s a b) : a ≤ b ↔ Narrow lo hi f0 eps s := by
  rw [h.leave, h.enter]
  unfold Narrow
  apply and_congr_right
  intro _
  constructor
  · intro h1 w hw; exact (h.enter _).1 (h1 w hw)
  · intro h1 w hw; exact (h.enter _).2 (h1 w hw)

theorem extendRow_spec {lo hi : T} {f0 : List T} {X : SCpx} {cells : SCpx.Cells} (hI : SCpx.Inv X cells) (hf : ∀ k, ∀ s ∈ cells k, ∀ v ∈ s, v < f0.length) (eps : T) (k : Nat) :
    ∀ n i, i + n = (cells k).length →
      ((∀ s ∈ (cells k).drop i, Narrow lo hi f0 eps s) → ∃ r, extendRow lo hi f0 X eps k n i = .ok r ∧ r.length = n ∧
        ∀ (j : Nat) (s : List Nat), (cells k)[i + j]? = some s → ∃ a b, r[j]? = some [(a, b)] ∧ ExtTimes lo hi f0 eps s a b) ∧
      ((¬ ∀ s ∈ (cells k).drop i, Narrow lo hi f0 eps s) → extendRow lo hi f0 X eps k n i = .error .thrown)
  | 0, i, h => by
    rw [List.drop_eq_nil_of_le (by omega)]
    refine ⟨fun _ => ⟨[], rfl, rfl, ?_⟩, fun hc => absurd (by simp) hc⟩
    intro j s hs
    have := (List.getElem?_eq_some_iff.1 hs).1
    omega
  | n + 1, i, h => by
    have hil : i < (cells k).length := by omega
    have hs : (cells k)[i]? = some (cells k)[i] := List.getElem?_eq_getElem hil
    have hm := List.getElem_mem hil
    obtain ⟨a, b, e1, e2, e3⟩ := extremaLoop_spec f0 (cells k)[i] hi lo (hf k _ hm)
    have hx : ExtTimes lo hi f0 eps (cells k)[i] (b - eps) (a + eps) := by
      constructor
      · intro t
        rw [sub_le_iff_le_add, e3, sub_le_iff_le_add]
        simp only [sub_le_iff_le_add]
      · intro t
        rw [← sub_le_iff_le_add, e2, sub_le_iff_le_add]
        simp only [sub_le_iff_le_add]
    obtain ⟨ih1, ih2⟩ := extendRow_spec (lo := lo) (hi := hi) hI hf eps k n (i + 1) (by omega)
    have hd : (cells k).drop i = (cells k)[i] :: (cells k).drop (i + 1) := List.drop_eq_getElem_cons hil
    rw [hd, List.forall_mem_cons]
    have hun : extendRow lo hi f0 X eps k (n + 1) i = if a + eps < b - eps then .error .thrown else (do
        let r ← extendRow lo hi f0 X eps k n (i + 1)
        pure ([(b - eps, a + eps)] :: r)) := by
      rw [extendRow, Filt.getSimplex_eq hI hs, bind_ok]
      show (extremaLoop f0 (cells k)[i] hi lo >>= _) = _
      rw [e1, bind_ok]
    rw [hun]
    constructor
    · rintro ⟨n1, n2⟩
      obtain ⟨r, r1, r2, r3⟩ := ih1 n2
      refine ⟨[(b - eps, a + eps)] :: r, ?_, by rw [List.length_cons, r2], ?_⟩
      · rw [if_neg (not_lt.2 (hx.narrow.2 n1)), r1, bind_ok]; rfl
      · intro j s hj
        rcases j with _ | j
        · rw [Nat.add_zero, hs] at hj; cases hj
          exact ⟨_, _, rfl, hx⟩
        · exact r3 j s (by rw [show i + 1 + j = i + (j + 1) by omega]; exact hj)
    · intro hc
      by_cases hn : Narrow lo hi f0 eps (cells k)[i]
      · rw [if_neg (not_lt.2 (hx.narrow.2 hn)), ih2 (fun h' => hc ⟨hn, h'⟩)]; rfl
      · rw [if_pos (not_le.1 (fun h' => hn (hx.narrow.1 h')))]

theorem extendLoop_spec {lo hi : T} {f0 : List T} {X : SCpx} {cells : SCpx.Cells} (hI : SCpx.Inv X cells) (hf : ∀ k, ∀ s ∈ cells k, ∀ v ∈ s, v < f0.length) (eps : T) :
    ∀ n k, k + n = X.maxdim + 1 →
      ((∀ d, k ≤ d → ∀ s ∈ cells d, Narrow lo hi f0 eps s) → ∃ r, extendLoop lo hi f0 X eps n k = .ok r ∧ r.length = n ∧
        ∀ d, d < n → ∃ row, r[d]? = some row ∧ row.length = (cells (k + d)).length ∧
          ∀ (j : Nat) (s : List Nat), (cells (k + d))[j]? = some s → ∃ a b, row[j]? = some [(a, b)] ∧ ExtTimes lo hi f0 eps s a b) ∧
      ((¬ ∀ d, k ≤ d → ∀ s ∈ cells d, Narrow lo hi f0 eps s) → extendLoop lo hi f0 X eps n k = .error .thrown)
  | 0, k, h => by
    refine ⟨fun _ => ⟨[], rfl, rfl, by intro d hd; omega⟩, fun hc => absurd ?_ hc⟩
    intro d hd s hs
    rw [hI.top d (by unfold SCpx.maxdim at h; have := hI.sizes.ne; omega)] at hs
    simp at hs
  | n + 1, k, h => by
    obtain ⟨ih1, ih2⟩ := extendLoop_spec (lo := lo) (hi := hi) hI hf eps n (k + 1) (by omega)
    have hk : k < X.ncells.length := by unfold SCpx.maxdim at h; have := hI.sizes.ne; omega
    obtain ⟨r1, r2⟩ := extendRow_spec (lo := lo) (hi := hi) hI hf eps k (cells k).length 0 (by omega)
    rw [List.drop_zero] at r1 r2
    have hun : extendLoop lo hi f0 X eps (n + 1) k = (do
        let row ← extendRow lo hi f0 X eps k (cells k).length 0
        let r ← extendLoop lo hi f0 X eps n (k + 1)
        pure (row :: r)) := by
      rw [extendLoop]
      unfold SCpx.numCells
      rw [rd_some (hI.dim k hk).nc, bind_ok]
    rw [hun]
    constructor
    · intro hn
      obtain ⟨row, a1, a2, a3⟩ := r1 (hn k (le_refl k))
      obtain ⟨r, b1, b2, b3⟩ := ih1 (fun d hd => hn d (by omega))
      refine ⟨row :: r, by rw [a1, bind_ok, b1, bind_ok]; rfl, by rw [List.length_cons, b2], ?_⟩
      intro d hd
      rcases d with _ | d
      · refine ⟨row, rfl, a2, fun j s hj => ?_⟩
        exact a3 j s (by rw [Nat.zero_add]; exact hj)
      · have := b3 d (by omega)
        rw [show k + 1 + d = k + (d + 1) by omega] at this
        exact this
    · intro hc
      by_cases hn : ∀ s ∈ cells k, Narrow lo hi f0 eps s
      · obtain ⟨row, a1, _⟩ := r1 hn
        rw [a1, bind_ok, ih2]
        · rfl
        · intro h'
          apply hc
          intro d hd
          rcases Nat.eq_or_lt_of_le hd with rfl | hlt
          · exact hn
          · exact h' d hlt
      · rw [r2 hn]; rfl

theorem extendZigzag_spec {lo hi : T} {f0 : List T} {X : SCpx} {cells : SCpx.Cells} (hI : SCpx.Inv X cells) (hf : ∀ k, ∀ s ∈ cells k, ∀ v ∈ s, v < f0.length) (eps : T) :
      ((∀ d, ∀ s ∈ cells d, Narrow lo hi f0 eps s) → ∃ vals, extendZigzag lo hi f0 X eps = .ok vals ∧ vals.length = X.maxdim + 1 ∧
        (∀ k, (vals.getD k []).length = (cells k).length) ∧
        ∀ (k j : Nat) (s : List Nat), (cells k)[j]? = some s → ∃ a b, intervals vals k j = [(a, b)] ∧ ExtTimes lo hi f0 eps s a b) ∧
      ((¬ ∀ d, ∀ s ∈ cells d, Narrow lo hi f0 eps s) → extendZigzag lo hi f0 X eps = .error .thrown) := by
  obtain ⟨h1, h2⟩ := extendLoop_spec (lo := lo) (hi := hi) hI hf eps (X.maxdim + 1) 0 (by omega)
  have htop : ∀ k, ¬ k < X.maxdim + 1 → cells k = [] := by
    intro k hk
    apply hI.top
    unfold SCpx.maxdim at hk; have := hI.sizes.ne; omega
  constructor
  · intro hn
    obtain ⟨r, r1, r2, r3⟩ := h1 (fun d _ => hn d)
    refine ⟨r, r1, r2, fun k => ?_, fun k j s hs => ?_⟩
    · by_cases hk : k < X.maxdim + 1
      · obtain ⟨row, e1, e2, _⟩ := r3 k hk
        rw [List.getD_eq_getElem?_getD, e1, Option.getD_some, e2, Nat.zero_add]
      · rw [List.getD_eq_getElem?_getD, List.getElem?_eq_none (by omega), htop k hk]; rfl
    · have hk : k < X.maxdim + 1 := by
        by_contra hk
        rw [htop k hk] at hs; simp at hs
      obtain ⟨row, e1, e2, e3⟩ := r3 k hk
      obtain ⟨a, b, c1, c2⟩ := e3 j s (by rw [Nat.zero_add]; exact hs)
      refine ⟨a, b, ?_, c2⟩
      unfold intervals
      rw [List.getD_eq_getElem?_getD (l := r), e1, Option.getD_some, List.getD_eq_getElem?_getD, c1]; rfl
  · intro hn
    exact h2 (fun h => hn (fun d => h d (Nat.zero_le d)))

end ext

/-! ### `H_k(X_t)` is the homology of the simplicial complex of the present simplices -/

section betti
variable {F : Type} [Field F] [DecidableEq F] {T : Type} [LinearOrder T]

theorem bettiIn_simplicial {X : SCpx} {cells : SCpx.Cells} {B : List (CMat F)} {K0 : Finset (Finset Nat)} (h : SCpx.Inv X cells) (hv : SCpx.VertexSets cells K0)
    (hK0 : IsASC K0) (b0 : B[0]? = some (CMat.zero 1 (cells 0).length)) (b1 : B.length = X.ncells.length)
    (hb : ∀ d, d + 1 < X.ncells.length → ∃ M, B[d + 1]? = some M ∧ SCpx.BdMat cells d M) {vals : List (List (List (T × T)))} (t : T)
    {L : Finset (Finset Nat)} (hL : IsASC L) (hsub : L ⊆ K0)
    (hm : ∀ (k j : Nat) (s : List Nat), (cells k)[j]? = some s → (s.toFinset ∈ L ↔ ∃ v ∈ intervals vals k j, v.1 ≤ t ∧ t ≤ v.2)) (k : Nat) :
    bettiIn B vals k t = simplicialBetti F L k := by
  have hc := SCpx.cdim_eq h b0 b1 hb
  have h0 : bdry B 0 = 0 := by
    ext i j
    refine ent_zero_bdry ?_ _ _
    intro c hc
    rw [List.getD_eq_getElem?_getD, b0, Option.getD_some] at hc
    simp [CMat.zero] at hc; exact hc.2
  have hS : ∀ k (j : Fin (cdim B k)), (SCpx.eqv h hv hc k j).1 ∈ L ↔ j ∈ cellsAt B vals k t := by
    intro k j
    have hj : j.1 < (cells k).length := by rw [← hc]; exact j.2
    rw [SCpx.eqv_val]
    exact hm k j.1 _ (List.getElem?_eq_getElem hj)
  have e1 := SCpx.subE_cycles (F := F) h hv hc h0 hb hsub hL hK0 k _ (hS k)
  have e2 := SCpx.subE_boundaries (F := F) h hv hc hb hsub hL hK0 k _ (hS (k + 1))
  have hinj := SCpx.subE_inj (F := F) h hv hc hsub k
  have f1 : Module.finrank F (simpCycles F L k) = Module.finrank F (cyclesIn B vals k t) := by
    unfold cyclesIn; rw [← e1]
    exact (Submodule.equivMapOfInjective _ hinj _).finrank_eq
  have f2 : Module.finrank F (simpCycles F L k ⊓ simpBoundaries F L k : Submodule F _) = Module.finrank F (cyclesIn B vals k t ⊓ boundariesIn B vals k t : Submodule F _) := by
    unfold boundariesIn cyclesIn; rw [← e2, ← e1, ← Submodule.map_inf _ hinj]
    exact (Submodule.equivMapOfInjective _ hinj _).finrank_eq
  have g1 := Submodule.finrank_quotient_add_finrank ((boundariesIn B vals k t).submoduleOf (cyclesIn B vals k t))
  have g2 := Submodule.finrank_quotient_add_finrank ((simpBoundaries F L k).submoduleOf (simpCycles F L k))
  rw [finrank_submoduleOf] at g1 g2
  show Module.finrank F (cyclesIn B vals k t ⧸ (boundariesIn B vals k t).submoduleOf (cyclesIn B vals k t)) =
    Module.finrank F (simpCycles F L k ⧸ (simpBoundaries F L k).submoduleOf (simpCycles F L k))
  omega

end betti
end Zigzag
end BATS
