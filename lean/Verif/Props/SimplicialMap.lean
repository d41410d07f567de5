import Verif.Proofs.SimplicialMapFun
import Verif.Spec.SimplicialMap
import Verif.Props.Simplicial
import Verif.Props.Induced

set_option linter.unusedSectionVars false
set_option linter.unusedVariables false
set_option linter.unusedSimpArgs false

/-! # C37: simplicial maps (include/complex/simplicial_map.hpp, include/complex/cell_map.hpp, include/util/simplex.hpp,
include/chain/chain_map.hpp)

`Covers`, `Carries`, `Contained` are in `Verif/Spec/SimplicialMap.lean`, `cmap` and `IsChainMap` in `Verif/Spec/Induced.lean`. -/

namespace BATS
open SCpx Reduction SMap

variable {F : Type} [Field F] [DecidableEq F]

namespace SMap

theorem mem_cells {X : SCpx} {cells : Cells} (h : Inv X cells) {d : Nat} {x : List Nat} (hl : x.length = d + 1) :
    x ∈ cells d ↔ ∃ i, X.findIdx x = some i := by
  have hx : x ≠ [] := by rintro rfl; simp at hl
  rw [← mem_setOf hl]
  exact h.represents.found x hx

theorem mem_iff {X : SCpx} {cells : Cells} (h : Inv X cells) {P : Nat → List Nat → Prop} :
    (∀ d x, x ∈ cells d → P d x) ↔ ∀ x, x ≠ [] → (∃ i, X.findIdx x = some i) → P (x.length - 1) x := by
  constructor
  · intro hp x hx hi
    have := List.length_pos_iff.2 hx
    exact hp _ x ((mem_cells h (by omega)).2 hi)
  · intro hp d x hx
    have hl := h.ok.len d x hx
    have := hp x (by rintro rfl; simp at hl) ((mem_cells h hl).1 hx)
    rwa [hl] at this

theorem sorted_eq {s t : List Nat} (hp : t.Perm s) (ht : t.Pairwise (· < ·)) : s.mergeSort (· ≤ ·) = t := by
  have h1 : (s.mergeSort (· ≤ ·)).Perm t := (List.mergeSort_perm s _).trans hp.symm
  apply h1.eq_of_pairwise (le := (· ≤ ·)) (fun a b _ _ => le_antisymm)
  · exact (List.pairwise_mergeSort (le := fun a b => decide (a ≤ b)) (by intro a b c; simp; omega) (by intro a b; simp; omega) s).imp (by simp)
  · exact ht.imp le_of_lt

theorem mapsTo_iff {X Y : SCpx} {cX cY : Cells} (hX : Inv X cX) (hY : Inv Y cY) {f0 : List Nat} :
    MapsTo f0 cX cY ↔ Covers f0 X ∧ Carries f0 X Y := by
  unfold MapsTo
  rw [mem_iff hX]
  have key : ∀ x : List Nat, x ≠ [] → (((img f0 x).Nodup → ∀ t : List Nat, t.Perm (img f0 x) → t.Pairwise (· < ·) → t ∈ cY (x.length - 1)) ↔
      ((img f0 x).Nodup → ∃ j, Y.findIdx ((img f0 x).mergeSort (· ≤ ·)) = some j)) := by
    intro x hx
    have hpos := List.length_pos_iff.2 hx
    apply imp_congr_right
    intro hn
    obtain ⟨a, a1, a2⟩ := exists_sorted_perm hn
    have hl : a.length = x.length - 1 + 1 := by rw [a1.length_eq]; unfold img; rw [List.length_map]; omega
    rw [sorted_eq a1 a2, ← mem_cells hY hl]
    constructor
    · intro h; exact h a a1 a2
    · intro h t t1 t2
      have : t = a := by rw [← sorted_eq a1 a2, sorted_eq t1 t2]
      rw [this]; exact h
  constructor
  · intro h
    exact ⟨fun x hx hi => (h x hx hi).1, fun x hx hi => (key x hx).1 (h x hx hi).2⟩
  · intro h x hx hi
    exact ⟨h.1 x hx hi, (key x hx).2 (h.2 x hx hi)⟩

theorem contained_iff {X Y : SCpx} {cX cY : Cells} (hX : Inv X cX) (hY : Inv Y cY) :
    (∀ d, ∀ x ∈ cX d, x ∈ cY d) ↔ Contained X Y := by
  have := mem_iff hX (P := fun d x => x ∈ cY d)
  constructor
  · intro h x hx hi
    have hpos := List.length_pos_iff.2 hx
    exact (mem_cells hY (by omega)).1 ((this.1 h) x hx hi)
  · intro h
    refine this.2 ?_
    intro x hx hi
    have hpos := List.length_pos_iff.2 hx
    exact (mem_cells hY (by omega)).2 (h x hx hi)

theorem column_exact {Y : SCpx} {cells : Cells} (h : Inv Y cells) {d : Nat} {s : List Nat} (hs : s.length = d + 1)
    {c : SVec Int} (hc : column Y s = .ok c) : (¬ s.Nodup → c = []) ∧
      (s.Nodup → ∃ (t : List Nat) (σ : Equiv.Perm (Fin (d + 1))) (j : Nat), t.Pairwise (· < ·) ∧ (∀ i : Fin (d + 1), s.getD i 0 = t.getD (σ i) 0) ∧
        Y.findIdx t = some j ∧ c = [(j, (Equiv.Perm.sign σ : ℤ))] ∧ t.length = d + 1) := by
  obtain ⟨sg, t, t1, t2, t3, t4, t5⟩ := simplexSign_spec s hs
  unfold column at hc
  rw [t1, bind_ok] at hc
  constructor
  · intro hn
    simp only [t5 hn, ne_eq, not_true_eq_false, if_false] at hc
    injection hc with hc; exact hc.symm
  · intro hn
    obtain ⟨t6, σ, h1, h2⟩ := t4 hn
    have hne : sg ≠ 0 := by rw [h1]; exact sign_ne_zero σ
    simp only [ne_eq, hne, not_false_eq_true, if_true] at hc
    rcases hf : Y.findIdx t with _ | j
    · rw [hf] at hc; cases hc
    · rw [hf] at hc
      injection hc with hc
      exact ⟨t, σ, j, t6, h2, hf, by rw [← hc, h1], by rw [t2.length_eq, hs]⟩

end SMap

/-- C37: for a vertex map which is simplicial, `SimplicialMap(X, Y, f0)` has one matrix for each dimension of `X`; the column of a simplex whose
vertices are identified is empty, and otherwise it has a single entry, at the index of the sorted image, which is the sign of the permutation
that sorts the image. -/
theorem C37_columns {X Y : SCpx} (hX : Reachable X) (hY : Reachable Y) {f0 : List Nat} (hv : Covers f0 X) (hc : Carries f0 X Y)
    (hd : X.maxdim ≤ Y.maxdim) :
    ∃ f, simplicialMap X Y f0 = .ok f ∧ f.length = X.maxdim + 1 ∧ ∀ k, k ≤ X.maxdim → ∃ M n m, f[k]? = some M ∧
      X.numCells k = .ok n ∧ Y.numCells k = .ok m ∧ M.nrow = m ∧ M.cols.length = n ∧ ∀ i, i < n → ∃ x, X.getSimplex k i = .ok x ∧
        (¬ (img f0 x).Nodup → M.cols[i]? = some []) ∧
        ((img f0 x).Nodup → ∃ (t : List Nat) (σ : Equiv.Perm (Fin (k + 1))) (j : Nat), t.length = k + 1 ∧ t.Pairwise (· < ·) ∧
          (∀ a : Fin (k + 1), (img f0 x).getD a 0 = t.getD (σ a) 0) ∧ Y.findIdx t = some j ∧
          M.cols[i]? = some [(j, (Equiv.Perm.sign σ : ℤ))]) := by
  obtain ⟨cX, iX⟩ := hX.inv
  obtain ⟨cY, iY⟩ := hY.inv
  have nX := iX.sizes.ne
  have nY := iY.sizes.ne
  unfold maxdim at *
  obtain ⟨f, f1, f2⟩ := simplicialMap_spec iX iY ((mapsTo_iff iX iY).2 ⟨hv, hc⟩) (by omega)
  refine ⟨f, f1, by rw [f2.len]; omega, ?_⟩
  intro k hk
  obtain ⟨cs, c1, c2, c3⟩ := f2.level k (by omega)
  refine ⟨_, (cX k).length, (cY k).length, c1, ?_, ?_, rfl, c2, ?_⟩
  · unfold numCells; exact rd_some (iX.dim k (by omega)).nc
  · unfold numCells; exact rd_some (iY.dim k (by omega)).nc
  · intro i hi
    have hx : (cX k)[i]? = some ((cX k)[i]'hi) := List.getElem?_eq_getElem _
    refine ⟨_, Filt.getSimplex_eq iX hx, ?_⟩
    have hci : cs[i]? = some (cs.getD i []) := by
      rw [List.getD_eq_getElem?_getD, List.getElem?_eq_getElem (by omega)]; rfl
    have hl : (img f0 ((cX k)[i]'hi)).length = k + 1 := by unfold img; rw [List.length_map]; exact iX.ok.len k _ (List.getElem_mem _)
    obtain ⟨e1, e2⟩ := column_exact iY hl (c3 i _ hx)
    constructor
    · intro hn; show cs[i]? = _; rw [hci, e1 hn]
    · intro hn
      obtain ⟨t, σ, j, q1, q2, q3, q4, q5⟩ := e2 hn
      exact ⟨t, σ, j, q5, q1, q2, q3, by show cs[i]? = _; rw [hci, q4]⟩

namespace SMap

theorem image_ok {f0 : List Nat} : ∀ {x s : List Nat}, image f0 x = .ok s → ∀ v ∈ x, v < f0.length
  | [], _, _, v, hv => by simp at hv
  | a :: x, s, h, v, hv => by
    rw [image] at h
    have ha : a < f0.length := by
      by_contra hc
      have : rd f0 a = .error .ub := by unfold rd; rw [List.getElem?_eq_none (by omega)]
      rw [this] at h; cases h
    rw [rd_getD 0 ha, bind_ok] at h
    rcases hi : image f0 x with e | r
    · rw [hi] at h; cases h
    · rcases List.mem_cons.1 hv with rfl | hv
      · exact ha
      · exact image_ok hi v hv

theorem columns_ok {X Y : SCpx} {cX : Cells} (hX : Inv X cX) {f0 : List Nat} {k : Nat} : ∀ (n i : Nat) (cs : List (SVec Int)), i + n ≤ (cX k).length →
    columns X Y f0 k n i = .ok cs → ∀ (j : Nat) (x : List Nat), i ≤ j → j < i + n → (cX k)[j]? = some x → ∀ v ∈ x, v < f0.length
  | 0, i, _, _, _, j, x, h1, h2, _ => by omega
  | n + 1, i, cs, hl, h, j, x, h1, h2, hx => by
    rw [columns] at h
    have hi : i < (cX k).length := by omega
    have hxi : (cX k)[i]? = some ((cX k)[i]'hi) := List.getElem?_eq_getElem _
    rw [Filt.getSimplex_eq hX hxi, bind_ok] at h
    rcases hm : image f0 ((cX k)[i]'hi) with e | s
    · rw [hm] at h; cases h
    rw [hm, bind_ok] at h
    rcases hc : column Y s with e | c
    · rw [hc] at h; cases h
    rw [hc, bind_ok] at h
    rcases hr : columns X Y f0 k n (i + 1) with e | r
    · rw [hr] at h; cases h
    by_cases hij : i = j
    · subst hij
      rw [hxi] at hx; injection hx with hx; subst hx
      exact image_ok hm
    · exact columns_ok hX n (i + 1) r (by omega) hr j x (by omega) (by omega) hx

theorem levels_ok {X Y : SCpx} {cX : Cells} (hX : Inv X cX) {f0 : List Nat} : ∀ (n k : Nat) (Ms : List (CMat Int)), k + n ≤ X.ncells.length →
    levels X Y f0 n k = .ok Ms → k + n ≤ max k Y.ncells.length ∧ ∀ d, k ≤ d → d < k + n → ∀ x ∈ cX d, ∀ v ∈ x, v < f0.length
  | 0, k, _, _, _ => ⟨by omega, fun d h1 h2 => by omega⟩
  | n + 1, k, Ms, hl, h => by
    rw [levels] at h
    unfold SCpx.numCells at h
    rw [rd_some (hX.dim k (by omega)).nc, bind_ok] at h
    rcases hc : columns X Y f0 k (cX k).length 0 with e | cs
    · rw [hc] at h; cases h
    rw [hc, bind_ok] at h
    have hk : k < Y.ncells.length := by
      by_contra hk
      have : rd Y.ncells k = .error .ub := by unfold rd; rw [List.getElem?_eq_none (by omega)]
      rw [this] at h; cases h
    rw [rd_getD 0 hk, bind_ok] at h
    rcases hr : levels X Y f0 n (k + 1) with e | r
    · rw [hr] at h; cases h
    obtain ⟨q1, q2⟩ := levels_ok hX n (k + 1) r (by omega) hr
    refine ⟨by omega, ?_⟩
    intro d h1 h2 x hx
    by_cases hkd : k = d
    · subst hkd
      obtain ⟨j, hj, e⟩ := List.mem_iff_getElem.1 hx
      exact columns_ok hX _ 0 cs (by omega) hc j x (by omega) (by omega) (by rw [List.getElem?_eq_getElem hj, e])
    · exact q2 d (by omega) (by omega) x hx

end SMap

/-- C37: if some simplex of `X` is sent to distinct vertices which do not span a simplex of `Y`, the call throws. -/
theorem C37_missing {X Y : SCpx} (hX : Reachable X) (hY : Reachable Y) {f0 : List Nat} (hv : Covers f0 X) (hc : ¬ Carries f0 X Y)
    (hd : X.maxdim ≤ Y.maxdim) : simplicialMap X Y f0 = .error .thrown := by
  obtain ⟨cX, iX⟩ := hX.inv
  obtain ⟨cY, iY⟩ := hY.inv
  have nX := iX.sizes.ne
  have nY := iY.sizes.ne
  unfold maxdim at hd
  refine simplicialMap_thrown iX iY ?_ (by omega) (fun h => hc ((mapsTo_iff iX iY).1 h).2)
  exact (mem_iff iX (P := fun _ x => ∀ v ∈ x, v < f0.length)).2 hv

/-- C37: if the source has larger dimension than the target, also a simplicial vertex map makes the constructor read outside the target's
table of sizes. -/
theorem C37_dimension_ub {X Y : SCpx} (hX : Reachable X) (hY : Reachable Y) {f0 : List Nat} (hv : Covers f0 X) (hc : Carries f0 X Y)
    (hd : Y.maxdim < X.maxdim) : simplicialMap X Y f0 = .error .ub := by
  obtain ⟨cX, iX⟩ := hX.inv
  obtain ⟨cY, iY⟩ := hY.inv
  unfold maxdim at hd
  exact simplicialMap_ub iX iY ((mapsTo_iff iX iY).2 ⟨hv, hc⟩) (by omega)

/-- C37: the constructor succeeds exactly for the vertex maps which cover the vertices of `X` and are simplicial, if the target has at least the
dimension of the source. -/
theorem C37_succeeds_iff {X Y : SCpx} (hX : Reachable X) (hY : Reachable Y) {f0 : List Nat} :
    (∃ f, simplicialMap X Y f0 = .ok f) ↔ Covers f0 X ∧ Carries f0 X Y ∧ X.maxdim ≤ Y.maxdim := by
  constructor
  · rintro ⟨f, hf⟩
    obtain ⟨cX, iX⟩ := hX.inv
    obtain ⟨cY, iY⟩ := hY.inv
    have nX := iX.sizes.ne
    have nY := iY.sizes.ne
    have hf' := hf
    unfold simplicialMap maxdim at hf'
    obtain ⟨q1, q2⟩ := levels_ok iX _ 0 f (by omega) hf'
    have hd : X.maxdim ≤ Y.maxdim := by unfold maxdim; omega
    have hv : Covers f0 X := by
      refine (mem_iff iX (P := fun _ x => ∀ v ∈ x, v < f0.length)).1 ?_
      intro d x hx
      have hdl : d < X.ncells.length := by
        by_contra hc
        rw [iX.top d (by omega)] at hx; simp at hx
      exact q2 d (by omega) (by omega) x hx
    refine ⟨hv, ?_, hd⟩
    by_contra hc
    rw [C37_missing hX hY hv hc hd] at hf; cases hf
  · rintro ⟨hv, hc, hd⟩
    obtain ⟨f, hf, _⟩ := C37_columns hX hY hv hc hd
    exact ⟨f, hf⟩

namespace SMap

/-- everything known about the chain complex of a reachable complex -/
theorem cpx_data {X : SCpx} {cX : Cells} (iX : Inv X cX) {BX : List (CMat F)} (hB : X.chainComplex = .ok BX) :
    (∀ k, cdim BX k = (cX k).length) ∧ (∀ d, d + 1 < X.ncells.length → ∃ M, BX[d + 1]? = some M ∧ BdMat cX d M) ∧ BX.length = X.ncells.length ∧
      bdry BX 0 = 0 := by
  obtain ⟨B, h1, h2, h3, h4⟩ := chainComplex_spec (F := F) iX
  rw [hB] at h1; injection h1 with h1
  subst h1
  refine ⟨cdim_eq iX h3 h2 h4, h4, h2, ?_⟩
  ext i j
  show coef ((BX.getD 0 ⟨0, []⟩).cols.getD j []) i = 0
  rw [List.getD_eq_getElem?_getD (l := BX), h3, Option.getD_some]
  show coef ((CMat.zero 1 (cX 0).length : CMat F).cols.getD j []) i = 0
  have : (CMat.zero 1 (cX 0).length : CMat F).cols.getD j [] = [] := by
    unfold CMat.zero
    rw [List.getD_eq_getElem?_getD]
    by_cases hj : j.1 < (cX 0).length
    · rw [List.getElem?_replicate_of_lt hj]; rfl
    · rw [List.getElem?_eq_none (by rw [List.length_replicate]; omega)]; rfl
  rw [this]; rfl

theorem zero_cycles {B : List (CMat F)} (h : bdry B 0 = 0) (z : Fin (cdim B 0) → F) : z ∈ cycles B 0 := by
  unfold cycles
  rw [LinearMap.mem_ker, Matrix.mulVecLin_apply, h, Matrix.zero_mulVec]

end SMap

/-- C37: the matrices of a simplicial map, read over any field, are a chain map between the chain complexes: they commute with the boundary
matrices in every dimension. -/
theorem C37_chain_map {X Y : SCpx} (hX : Reachable X) (hY : Reachable Y) {f0 : List Nat} (hv : Covers f0 X) (hc : Carries f0 X Y)
    (hd : X.maxdim ≤ Y.maxdim) {BX BY : List (CMat F)} (hBX : X.chainComplex = .ok BX) (hBY : Y.chainComplex = .ok BY) :
    ∃ f, simplicialMap X Y f0 = .ok f ∧ IsChainMap (chainMap f : List (CMat F)) BX BY := by
  obtain ⟨cX, iX⟩ := hX.inv
  obtain ⟨cY, iY⟩ := hY.inv
  have nX := iX.sizes.ne
  have nY := iY.sizes.ne
  unfold maxdim at *
  have hm := (mapsTo_iff iX iY).2 ⟨hv, hc⟩
  obtain ⟨f, f1, f2⟩ := simplicialMap_spec iX iY hm (by omega)
  obtain ⟨a1, a2, a3, a4⟩ := cpx_data iX hBX
  obtain ⟨b1, b2, b3, b4⟩ := cpx_data iY hBY
  refine ⟨f, f1, ?_, f2.comm iX iY hm a1 b1 a2 b2, fun z _ => zero_cycles b4 _⟩
  intro k hk _
  refine ⟨by unfold chainMap; rw [List.length_map, f2.len]; omega, ?_⟩
  rw [a1, b1]
  exact f2.shape iX iY hm (by omega)

/-- C37: composition: if `h0` is the composite of the simplicial vertex maps `f0` and `g0` on the vertices of `X`, it is simplicial and its
matrix is the product of the matrices in every dimension. -/
theorem C37_composition {X Y Z : SCpx} (hX : Reachable X) (hY : Reachable Y) (hZ : Reachable Z) {f0 g0 h0 : List Nat}
    (hvf : Covers f0 X) (hcf : Carries f0 X Y) (hvg : Covers g0 Y) (hcg : Carries g0 Y Z) (hvh : Covers h0 X)
    (hh : ∀ x, x ≠ [] → (∃ i, X.findIdx x = some i) → ∀ v ∈ x, h0.getD v 0 = g0.getD (f0.getD v 0) 0)
    (hd : X.maxdim ≤ Y.maxdim) (hd' : Y.maxdim ≤ Z.maxdim)
    {BX BY BZ : List (CMat F)} (hBX : X.chainComplex = .ok BX) (hBY : Y.chainComplex = .ok BY) (hBZ : Z.chainComplex = .ok BZ) :
    ∃ f g h, simplicialMap X Y f0 = .ok f ∧ simplicialMap Y Z g0 = .ok g ∧ simplicialMap X Z h0 = .ok h ∧
      ∀ k, cmap (chainMap h : List (CMat F)) BX BZ k = cmap (chainMap g) BY BZ k * cmap (chainMap f) BX BY k := by
  obtain ⟨cX, iX⟩ := hX.inv
  obtain ⟨cY, iY⟩ := hY.inv
  obtain ⟨cZ, iZ⟩ := hZ.inv
  have nX := iX.sizes.ne
  have nY := iY.sizes.ne
  have nZ := iZ.sizes.ne
  unfold maxdim at *
  have hmf := (mapsTo_iff iX iY).2 ⟨hvf, hcf⟩
  have hmg := (mapsTo_iff iY iZ).2 ⟨hvg, hcg⟩
  have hcomp : Composite h0 f0 g0 cX := by
    refine (mem_iff iX (P := fun _ x => ∀ v ∈ x, v < h0.length ∧ h0.getD v 0 = g0.getD (f0.getD v 0) 0)).2 ?_
    intro x hx hi v hv
    exact ⟨hvh x hx hi v hv, hh x hx hi v hv⟩
  have hmh := hmf.comp hmg hcomp
  obtain ⟨f, f1, f2⟩ := simplicialMap_spec iX iY hmf (by omega)
  obtain ⟨g, g1, g2⟩ := simplicialMap_spec iY iZ hmg (by omega)
  obtain ⟨h, h1, h2⟩ := simplicialMap_spec iX iZ hmh (by omega)
  exact ⟨f, g, h, f1, g1, h1, fun k => MapOK.comp iX iY iZ hmf hmg hcomp f2 g2 h2 (cpx_data iX hBX).1 (cpx_data iY hBY).1 (cpx_data iZ hBZ).1 k⟩

/-- C37: inclusion: if every simplex of `X` is in `Y`, the inclusion sends the `i`-th simplex to the index of the same simplex, with
coefficient 1, and is a chain map. -/
theorem C37_inclusion {X Y : SCpx} (hX : Reachable X) (hY : Reachable Y) (hc : Contained X Y) (hd : X.maxdim ≤ Y.maxdim)
    {BX BY : List (CMat F)} (hBX : X.chainComplex = .ok BX) (hBY : Y.chainComplex = .ok BY) :
    ∃ f, inclusion X Y = .ok f ∧ IsChainMap (chainMap f : List (CMat F)) BX BY ∧
      ∀ k, k ≤ X.maxdim → ∃ M n m, f[k]? = some M ∧ X.numCells k = .ok n ∧ Y.numCells k = .ok m ∧ M.nrow = m ∧ M.cols.length = n ∧
        ∀ i, i < n → ∃ x j, X.getSimplex k i = .ok x ∧ Y.findIdx x = some j ∧ M.cols[i]? = some [(j, 1)] := by
  obtain ⟨cX, iX⟩ := hX.inv
  obtain ⟨cY, iY⟩ := hY.inv
  have nX := iX.sizes.ne
  have nY := iY.sizes.ne
  unfold maxdim at *
  have hs := (contained_iff iX iY).2 hc
  obtain ⟨a1, a2, a3, a4⟩ := cpx_data iX hBX
  obtain ⟨b1, b2, b3, b4⟩ := cpx_data iY hBY
  refine ⟨_, inclusion_spec iX iY hs (by omega), ⟨?_, incMaps_comm iX iY hs a1 b1 a2 b2, fun z _ => zero_cycles b4 _⟩, ?_⟩
  · intro k hk _
    refine ⟨by unfold chainMap incMaps; rw [List.length_map, List.length_map, List.length_range]; omega, ?_⟩
    rw [a1, b1]
    exact incMaps_shape hs (by omega)
  · intro k hk
    refine ⟨⟨(cY k).length, (cX k).map (fun x => [((cY k).idxOf x, 1)])⟩, (cX k).length, (cY k).length, ?_, ?_, ?_, rfl, List.length_map _, ?_⟩
    · unfold incMaps
      rw [List.getElem?_map, List.getElem?_range (by omega)]; rfl
    · unfold numCells; exact rd_some (iX.dim k (by omega)).nc
    · unfold numCells; exact rd_some (iY.dim k (by omega)).nc
    · intro i hi
      have hx : (cX k)[i]? = some ((cX k)[i]'hi) := List.getElem?_eq_getElem _
      obtain ⟨j, j1, j2⟩ := findIdx_cell iY (hs k _ (List.mem_of_getElem? hx))
      refine ⟨_, j, Filt.getSimplex_eq iX hx, j1, ?_⟩
      show ((cX k).map _)[i]? = _
      rw [List.getElem?_map, hx, Option.map_some, (idxOf_eq_iff iY.ok j2 (hs k _ (List.mem_of_getElem? hx))).2 rfl]

/-- C37: an inclusion of complexes one of whose simplices is missing in the target throws. -/
theorem C37_inclusion_missing {X Y : SCpx} (hX : Reachable X) (hY : Reachable Y) (hc : ¬ Contained X Y) (hd : X.maxdim ≤ Y.maxdim) :
    inclusion X Y = .error .thrown := by
  obtain ⟨cX, iX⟩ := hX.inv
  obtain ⟨cY, iY⟩ := hY.inv
  have nX := iX.sizes.ne
  have nY := iY.sizes.ne
  unfold maxdim at hd
  exact inclusion_thrown iX iY (by omega) (fun h => hc ((contained_iff iX iY).1 h))

/-- C37: `identity(X)` is the inclusion of `X` into itself and its chain map is the identity in every dimension. -/
theorem C37_identity {X : SCpx} (hX : Reachable X) {B : List (CMat F)} (hB : X.chainComplex = .ok B) :
    ∃ f, SMap.identity X = .ok f ∧ inclusion X X = .ok f ∧ ∀ k, cmap (chainMap f : List (CMat F)) B B k = 1 := by
  obtain ⟨cX, iX⟩ := hX.inv
  obtain ⟨a1, a2, a3, a4⟩ := cpx_data iX hB
  refine ⟨_, identity_spec iX, inclusion_spec iX iX (fun _ _ h => h) (le_refl _), ?_⟩
  intro k
  ext i j
  have hi : i.1 < (cX k).length := by rw [← a1]; exact i.2
  have hj : j.1 < (cX k).length := by rw [← a1]; exact j.2
  rw [incMaps_cmap iX iX (fun _ _ h => h) i j (List.getElem?_eq_getElem hj) (List.getElem?_eq_getElem hi), Matrix.one_apply]
  by_cases e : i = j
  · subst e; simp
  · rw [if_neg e, if_neg]
    intro h
    exact e (Fin.ext ((iX.ok.nodup k).getElem_inj_iff.1 h.symm))

/-- C37 with C40: functoriality on homology. The induced matrix of a composite simplicial map is the product of the induced matrices. -/
theorem C37_homology (v w u : Variant) (qv : v.withBasis) (qw : w.withBasis) (qu : u.withBasis)
    {X Y Z : SCpx} (hX : Reachable X) (hY : Reachable Y) (hZ : Reachable Z)
    (nX : ∀ s i, s ≠ [] → X.findIdx s = some i → s.Nodup) (nY : ∀ s i, s ≠ [] → Y.findIdx s = some i → s.Nodup)
    (nZ : ∀ s i, s ≠ [] → Z.findIdx s = some i → s.Nodup) {f0 g0 h0 : List Nat}
    (hvf : Covers f0 X) (hcf : Carries f0 X Y) (hvg : Covers g0 Y) (hcg : Carries g0 Y Z) (hvh : Covers h0 X)
    (hh : ∀ x, x ≠ [] → (∃ i, X.findIdx x = some i) → ∀ v ∈ x, h0.getD v 0 = g0.getD (f0.getD v 0) 0)
    (hd : X.maxdim ≤ Y.maxdim) (hd' : Y.maxdim ≤ Z.maxdim)
    {BX BY BZ : List (CMat F)} (hBX : X.chainComplex = .ok BX) (hBY : Y.chainComplex = .ok BY) (hBZ : Z.chainComplex = .ok BZ)
    {C D E : RedCpx F} (hC : v.reduce BX = .ok C) (hD : w.reduce BY = .ok D) (hE : u.reduce BZ = .ok E) {k : Nat} (hk : k ≤ X.maxdim) :
    ∃ f g h M N P, simplicialMap X Y f0 = .ok f ∧ simplicialMap Y Z g0 = .ok g ∧ simplicialMap X Z h0 = .ok h ∧
      inducedMap (chainMap f) C D k = .ok M ∧ inducedMap (chainMap g) D E k = .ok N ∧ CMat.gemm N M = .ok P ∧
      inducedMap (chainMap h) C E k = .ok P := by
  obtain ⟨f, g, h, f1, g1, h1, hcomp⟩ := C37_composition (F := F) hX hY hZ hvf hcf hvg hcg hvh hh hd hd' hBX hBY hBZ
  obtain ⟨f', f1', f2⟩ := C37_chain_map (F := F) hX hY hvf hcf hd hBX hBY
  rw [f1] at f1'; injection f1' with f1'; subst f1'
  obtain ⟨g', g1', g2⟩ := C37_chain_map (F := F) hY hZ hvg hcg hd' hBY hBZ
  rw [g1] at g1'; injection g1' with g1'; subst g1'
  have hch : Carries h0 X Z := by
    by_contra hno
    have := C37_missing hX hZ hvh hno (by omega)
    rw [h1] at this; cases this
  obtain ⟨h', h1', h2⟩ := C37_chain_map (F := F) hX hZ hvh hch (by omega) hBX hBZ
  rw [h1] at h1'; injection h1' with h1'; subst h1'
  have cX : IsChainComplex BX := by
    obtain ⟨B, b1, b2, _⟩ := C20_chain_complex (F := F) hX nX; rw [hBX] at b1; injection b1 with b1; rw [b1]; exact b2
  have cY : IsChainComplex BY := by
    obtain ⟨B, b1, b2, _⟩ := C20_chain_complex (F := F) hY nY; rw [hBY] at b1; injection b1 with b1; rw [b1]; exact b2
  have cZ : IsChainComplex BZ := by
    obtain ⟨B, b1, b2, _⟩ := C20_chain_complex (F := F) hZ nZ; rw [hBZ] at b1; injection b1 with b1; rw [b1]; exact b2
  have lX : BX.length = X.maxdim + 1 := by
    obtain ⟨B, b1, b2, _⟩ := C20_columns (F := F) hX; rw [hBX] at b1; injection b1 with b1; rw [b1]; exact b2
  have lY : BY.length = Y.maxdim + 1 := by
    obtain ⟨B, b1, b2, _⟩ := C20_columns (F := F) hY; rw [hBY] at b1; injection b1 with b1; rw [b1]; exact b2
  have lZ : BZ.length = Z.maxdim + 1 := by
    obtain ⟨B, b1, b2, _⟩ := C20_columns (F := F) hZ; rw [hBZ] at b1; injection b1 with b1; rw [b1]; exact b2
  obtain ⟨M, N, P, p1, p2, p3, p4⟩ := C40_composition v w u qv qw qu cX cY cZ hC hD hE f2 g2 h2.shape hcomp (k := k) (by omega) (by omega) (by omega)
  exact ⟨f, g, h, M, N, P, f1, g1, h1, p1, p2, p3, p4⟩

/-- the hollow triangle and a hollow square, for examples -/
def triOps : List Op := [.addRecursive [0, 1], .addRecursive [1, 2], .addRecursive [0, 2]]
def squareOps : List Op := [.addRecursive [0, 1], .addRecursive [1, 2], .addRecursive [2, 3], .addRecursive [0, 3]]

example : (∀ o ∈ squareOps, o.simplex ≠ []) ∧
    ((SCpx.init 1).run squareOps).bind (fun X => ((SCpx.init 1).run triOps).bind (fun Y => simplicialMap X Y [2, 1, 0, 0]))
      = .ok [⟨3, [[(2, 1)], [(1, 1)], [(0, 1)], [(0, 1)]]⟩, ⟨3, [[(1, -1)], [(0, -1)], [], [(2, -1)]]⟩] ∧
    ((SCpx.init 1).run squareOps).bind (fun X => ((SCpx.init 1).run triOps).bind (fun Y => simplicialMap X Y [0, 1, 2, 3])) = .error .thrown ∧
    ((SCpx.init 1).run triOps).bind (fun X => ((SCpx.init 1).run squareOps).bind (fun Y => inclusion X Y)) = .error .thrown ∧
    ((SCpx.init 1).run triOps).bind (fun X => SMap.identity X) = .ok [⟨3, [[(0, 1)], [(1, 1)], [(2, 1)]]⟩, ⟨3, [[(0, 1)], [(1, 1)], [(2, 1)]]⟩] :=
  ⟨by decide +kernel, by decide +kernel, by decide +kernel, by decide +kernel, by decide +kernel⟩

/-- the hypotheses of the theorems hold for a map of the hollow square onto the hollow triangle which collapses one edge -/
example : ∃ X Y, Reachable X ∧ Reachable Y ∧ (SCpx.init 1).run squareOps = .ok X ∧ (SCpx.init 1).run triOps = .ok Y ∧
    Covers [2, 1, 0, 0] X ∧ Carries [2, 1, 0, 0] X Y ∧ X.maxdim ≤ Y.maxdim ∧ ¬ Carries [0, 1, 2, 3] X Y := by
  obtain ⟨X, hX, _⟩ := C19_history 1 squareOps (by decide +kernel)
  obtain ⟨Y, hY, _⟩ := C19_history 1 triOps (by decide +kernel)
  have rX : Reachable X := ⟨1, squareOps, by decide +kernel, hX⟩
  have rY : Reachable Y := ⟨1, triOps, by decide +kernel, hY⟩
  have h1 : ((SCpx.init 1).run squareOps).bind (fun X => ((SCpx.init 1).run triOps).bind (fun Y => simplicialMap X Y [2, 1, 0, 0]))
      = .ok [⟨3, [[(2, 1)], [(1, 1)], [(0, 1)], [(0, 1)]]⟩, ⟨3, [[(1, -1)], [(0, -1)], [], [(2, -1)]]⟩] := by decide +kernel
  have h2 : ((SCpx.init 1).run squareOps).bind (fun X => ((SCpx.init 1).run triOps).bind (fun Y => simplicialMap X Y [0, 1, 2, 3])) = .error .thrown := by
    decide +kernel
  rw [hX, hY] at h1 h2
  obtain ⟨a, b, c⟩ := (C37_succeeds_iff rX rY).1 ⟨_, h1⟩
  have a' : Covers [0, 1, 2, 3] X := a
  refine ⟨X, Y, rX, rY, hX, hY, a, b, c, ?_⟩
  intro hc
  obtain ⟨f, hf⟩ := (C37_succeeds_iff rX rY).2 ⟨a', hc, c⟩
  have h2' : simplicialMap X Y [0, 1, 2, 3] = .error .thrown := h2
  rw [hf] at h2'; cases h2'

end BATS
