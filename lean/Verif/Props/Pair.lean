import Verif.Proofs.Pair8
import Verif.Proofs.Pair9
import Verif.Props.SimplicialMap
import Verif.Props.Induced

set_option linter.unusedSectionVars false
set_option linter.unusedVariables false
set_option linter.unusedSimpArgs false

/-! # C74: union, intersection and index queries; C75: the chain complex and chain maps of pairs; C76: the Mayer-Vietoris boundary

(include/complex/simplicial_complex.hpp:461-528, include/chain/chain_complex.hpp:42-60, include/chain/chain_map.hpp:34-75,
include/topology/mayer_vietoris.hpp.) `simplices`, `Ordered`, `relativeBetti` are in `Verif/Spec/Pair.lean`, `chainFn`, `ChainOn`,
`orderedBoundary` in `Verif/Spec/MayerVietoris.lean`, `Represents` in `Verif/Spec/Simplicial.lean`. -/

namespace BATS
open SCpx Reduction SMap Matrix

variable {F : Type} [Field F] [DecidableEq F]

/-! ### C74 -/

/-- C74: `simplicial_union(X, Y)` of complexes whose simplices are stored in increasing order returns, and the result has exactly the simplices of `X`
and the simplices of `Y`; all queries agree with that set. -/
theorem C74_union {X Y : SCpx} (hX : Reachable X) (hY : Reachable Y) (oX : Ordered X) (oY : Ordered Y) :
    ∃ Z, simplicialUnion X Y = .ok Z ∧ Reachable Z ∧ Represents Z (simplices X ∪ simplices Y) := by
  obtain ⟨cX, iX⟩ := hX.inv
  obtain ⟨cY, iY⟩ := hY.inv
  obtain ⟨W, cW, w1, w2, _, w4⟩ := addOps_spec iX (oX.cells iX) (init_inv 0).1
  obtain ⟨Z, cZ, z1, z2, _, z4⟩ := addOps_spec iY (oY.cells iY) w2
  have he : SCpx.setOf (fun _ => []) = ∅ := by ext s; simp [SCpx.setOf]
  rw [he, Set.empty_union] at w4
  have hrun : (init 0).run (addOps cX (X.maxdim + 1) 0 ++ addOps cY (Y.maxdim + 1) 0) = .ok Z := by
    rw [Txt.run_append', w1]; exact z1
  refine ⟨Z, by rw [simplicialUnion_eq iX iY]; exact hrun, ⟨0, _, ?_, hrun⟩, ?_⟩
  · intro o ho
    rcases List.mem_append.1 ho with h | h
    · exact addOps_ne iX.ok _ _ o h
    · exact addOps_ne iY.ok _ _ o h
  · rw [simplices_eq iX, simplices_eq iY, ← w4, ← z4]
    exact z2.represents

/-- C74: `X.union_add(Y)` adds the simplices of `Y` (stored in increasing order) to any complex `X`; the simplices of `X` keep their indices. -/
theorem C74_union_add {X Y : SCpx} (hX : Reachable X) (hY : Reachable Y) (oY : Ordered Y) :
    ∃ Z, unionAdd X Y = .ok Z ∧ Reachable Z ∧ Represents Z (simplices X ∪ simplices Y) ∧
      ∀ s i, s ≠ [] → X.findIdx s = some i → Z.findIdx s = some i := by
  obtain ⟨cX, iX⟩ := hX.inv
  obtain ⟨cY, iY⟩ := hY.inv
  obtain ⟨Z, cZ, z1, z2, z3, z4⟩ := addOps_spec iY (oY.cells iY) iX
  refine ⟨Z, by rw [unionAdd_eq iY]; exact z1, hX.run (addOps_ne iY.ok _ _) z1, ?_, ?_⟩
  · rw [simplices_eq iX, simplices_eq iY, ← z4]
    exact z2.represents
  · intro s i hs hi
    have h1 := (iX.trie s hs i).1 hi
    refine (z2.trie s hs i).2 ?_
    obtain ⟨hlt, _⟩ := List.getElem?_eq_some_iff.1 h1
    obtain ⟨t, ht⟩ := z3 (s.length - 1)
    rw [← ht, List.getElem?_append_left hlt]; exact h1

/-- C74: `intersection(X, Y)` returns for any two complexes; the result has exactly the common simplices, and the dimension bound of `X`. -/
theorem C74_intersection {X Y : SCpx} (hX : Reachable X) (hY : Reachable Y) :
    ∃ Z, intersection X Y = .ok Z ∧ Reachable Z ∧ Represents Z (simplices X ∩ simplices Y) ∧ Z.maxdim = X.maxdim := by
  obtain ⟨cX, iX⟩ := hX.inv
  obtain ⟨cY, iY⟩ := hY.inv
  obtain ⟨Z, z1, z2, z3, z4⟩ := intersection_spec iX iY
  refine ⟨Z, z1, z2, ?_, by unfold maxdim; rw [z4]⟩
  have : simplices X ∩ simplices Y = SCpx.setOf (fun d => (cX d).filter (fun s => (Y.findIdx s).isSome)) := by
    rw [simplices_eq iX]
    ext s
    constructor
    · rintro ⟨⟨h1, h2⟩, _, i, hi⟩
      refine ⟨h1, ?_⟩
      show s ∈ (cX (s.length - 1)).filter _
      rw [List.mem_filter, hi]
      exact ⟨h2, rfl⟩
    · rintro ⟨h1, h2⟩
      have h2' : s ∈ (cX (s.length - 1)).filter (fun s => (Y.findIdx s).isSome) := h2
      rw [List.mem_filter, Option.isSome_iff_exists] at h2'
      exact ⟨⟨h1, h2'.1⟩, h1, h2'.2⟩
  rw [this]
  exact z3.represents

/-- C74: `X.get_indices(A, dim)` lists the index in `X` of every simplex of `A` of that dimension, in the order of `A` (absent simplices give `NO_IND`);
it is empty above the dimension bound of `A`. `X.get_indices(A)` lists them for the dimensions `0, .., X.maxdim()`. -/
theorem C74_get_indices (X : SCpx) {A : SCpx} (hA : Reachable A) :
    (∀ d, A.maxdim < d → X.getIndicesDim A d = .ok []) ∧
    (∀ d, d ≤ A.maxdim → ∃ l n, X.getIndicesDim A d = .ok l ∧ A.numCells d = .ok n ∧ l.length = n ∧
      ∀ i, i < n → ∃ s, A.getSimplex d i = .ok s ∧ l[i]? = some (X.findIdx s)) ∧
    ∃ L, X.getIndices A = .ok L ∧ L.length = X.maxdim + 1 ∧ ∀ d, d ≤ X.maxdim → ∃ l, X.getIndicesDim A d = .ok l ∧ L[d]? = some l := by
  obtain ⟨cA, iA⟩ := hA.inv
  have hne := iA.sizes.ne
  refine ⟨?_, ?_, _, getIndices_eq iA, by simp, ?_⟩
  · intro d hd
    unfold getIndicesDim
    rw [if_pos hd]
  · intro d hd
    refine ⟨_, (cA d).length, getIndicesDim_eq iA d, ?_, List.length_map _, ?_⟩
    · unfold numCells
      exact rd_some (iA.dim d (by unfold maxdim at hd; omega)).nc
    · intro i hi
      exact ⟨_, Filt.getSimplex_eq iA (List.getElem?_eq_getElem hi), by rw [List.getElem?_map, List.getElem?_eq_getElem hi]; rfl⟩
  · intro d hd
    exact ⟨_, getIndicesDim_eq iA d, by rw [List.getElem?_map, List.getElem?_range (by omega)]; rfl⟩

/-- C74, exact behaviour: simplices stored in another order (added with `add_directed`) are sorted by the union, so the union of a complex with itself can
differ from it: the directed edge `(1, 0)` becomes the edge `(0, 1)`. -/
theorem C74_directed_sorted : ∃ X Z, (init 1).run [.add [0], .add [1], .addDirected [1, 0]] = .ok X ∧ simplicialUnion X X = .ok Z ∧
    X.findIdx [1, 0] = some 0 ∧ X.findIdx [0, 1] = none ∧ Z.findIdx [1, 0] = none ∧ Z.findIdx [0, 1] = some 0 := by
  obtain ⟨X, hX⟩ : ∃ X, (init 1).run [.add [0], .add [1], .addDirected [1, 0]] = .ok X := by
    exact (run_set _ (init_inv 1).1 (by simp [Op.simplex])).imp (fun X h => h.choose_spec.1)
  have e1 : ((init 1).run [.add [0], .add [1], .addDirected [1, 0]]).map (fun X => (X.findIdx [1, 0], X.findIdx [0, 1])) = .ok (some 0, none) := by decide +kernel
  have e2 : (((init 1).run [.add [0], .add [1], .addDirected [1, 0]]).bind (fun X => simplicialUnion X X)).map (fun Z => (Z.findIdx [1, 0], Z.findIdx [0, 1])) = .ok (none, some 0) := by
    decide +kernel
  rw [hX] at e1 e2
  have e2' : (simplicialUnion X X).map (fun Z => (Z.findIdx [1, 0], Z.findIdx [0, 1])) = .ok (none, some 0) := e2
  have hE : (X.findIdx [1, 0], X.findIdx [0, 1]) = (some 0, none) := Except.ok.inj e1
  injection hE with hE1 hE2
  cases hZ : simplicialUnion X X with
  | error e => rw [hZ] at e2'; cases e2'
  | ok Z =>
    rw [hZ] at e2'
    have hE' : (Z.findIdx [1, 0], Z.findIdx [0, 1]) = (none, some 0) := Except.ok.inj e2'
    injection hE' with h1 h2
    exact ⟨X, Z, hX, hZ, hE1, hE2, h1, h2⟩

/-! ### C75 -/

theorem Pair.sub_cells {X A : SCpx} {cX cA : Cells} (iX : Inv X cX) (iA : Inv A cA) (hs : ∀ s ∈ simplices A, s.length ≤ X.maxdim + 1 → s ∈ simplices X) :
    ∀ k, k < X.ncells.length → ∀ s ∈ cA k, s ∈ cX k := by
  intro k hk s h
  have hl := iA.ok.len k s h
  have := hs s (by rw [simplices_eq iA]; exact (mem_setOf hl).2 h) (by unfold maxdim; omega)
  rw [simplices_eq iX] at this
  exact (mem_setOf hl).1 this

/-- C75: for a complex `X` with increasing simplices and a complex `A` whose simplices of dimension at most `X.maxdim()` belong to `X`, the constructor
`ChainComplex(X, A)` returns a chain complex, and after reduction with any algorithm `hdim(k)` is the relative Betti number of the pair `(K, L)` of abstract
complexes of the stored vertex sets. -/
theorem C75_relative_betti (v : Variant) {X A : SCpx} (hX : Reachable X) (hA : Reachable A) (sX : ∀ s ∈ simplices X, s.Pairwise (· < ·))
    (hs : ∀ s ∈ simplices A, s.length ≤ X.maxdim + 1 → s ∈ simplices X) (K L : Finset (Finset Nat))
    (hK : ∀ σ : Finset Nat, σ ∈ K ↔ σ.sort (· ≤ ·) ∈ simplices X) (hL : ∀ σ : Finset Nat, σ ∈ L ↔ σ.sort (· ≤ ·) ∈ simplices A) :
    ∃ (B : List (CMat F)) (C : RedCpx F), relativeChainComplex X A = .ok B ∧ IsChainComplex B ∧ v.reduce B = .ok C ∧
      ∀ k, k ≤ X.maxdim → C.hdim k = .ok (relativeBetti F K L k) := by
  obtain ⟨cX, iX⟩ := hX.inv
  obtain ⟨cA, iA⟩ := hA.inv
  have hne := iX.sizes.ne
  have hv : VertexSets cX K := ⟨by
    intro d s h
    exact sX s (by rw [simplices_eq iX]; exact (mem_setOf (iX.ok.len d s h)).2 h), by intro σ; rw [hK, simplices_eq iX]⟩
  obtain ⟨B, b1, b2, b3, b4⟩ := relative_betti (F := F) iX iA hv (L := L) (by intro σ _; rw [hL, simplices_eq iA]) (Pair.sub_cells iX iA hs)
  obtain ⟨C, c1, c2⟩ := C13_betti_is_dim_homology v b2
  refine ⟨B, C, b1, b2, c1, ?_⟩
  intro k hk
  rw [c2 k (by unfold maxdim at hk; omega)]
  congr 1
  exact b4 k

/-- C75, exact behaviour: if `A` has a simplex of dimension at most `X.maxdim()` which is not in `X`, the constructor does not return a complex: the index
`NO_IND` is used as a row number, and the vector of complementary indices grows until the allocation throws. -/
theorem C75_not_contained {X A : SCpx} (hX : Reachable X) (hA : Reachable A) (hs : ∃ s ∈ simplices A, s.length ≤ X.maxdim + 1 ∧ s ∉ simplices X) :
    (relativeChainComplex X A : Res (List (CMat F))) = .error .thrown := by
  obtain ⟨cX, iX⟩ := hX.inv
  obtain ⟨cA, iA⟩ := hA.inv
  have hne := iX.sizes.ne
  obtain ⟨s, h1, h2, h3⟩ := hs
  rw [simplices_eq iA] at h1
  rw [simplices_eq iX] at h3
  have hpos := List.length_pos_iff.2 h1.1
  have hl : s.length = s.length - 1 + 1 := by omega
  exact relativeChainComplex_thrown iX iA ⟨s.length - 1, by unfold maxdim at h2; omega, s, (mem_setOf hl).1 h1, fun h => h3 ((mem_setOf hl).2 h)⟩

theorem Pair.getSimplex_lt {X : SCpx} {cX : Cells} (iX : Inv X cX) {k i : Nat} {s : List Nat} (h : X.getSimplex k i = .ok s) : i < (cX k).length := by
  unfold getSimplex at h
  by_cases hk : k < X.spx.length
  · have hk' : k < X.ncells.length := by rw [← iX.sizes.sp]; exact hk
    rw [rd_some (iX.dim k hk').sp, bind_ok, flatten_length_uniform (n := k + 1) (fun l hl => iX.ok.len k l hl)] at h
    by_contra hi
    rw [if_pos] at h
    · cases h
    · have : (cX k).length ≤ i := by omega
      calc (k + 1) * (cX k).length ≤ (k + 1) * i := Nat.mul_le_mul_left _ this
        _ < (k + 1) * (i + 1) := by rw [Nat.mul_succ]; omega
  · have : rd X.spx k = .error .ub := by unfold rd; rw [List.getElem?_eq_none (by omega)]
    rw [this] at h; cases h

theorem Pair.contained_cells {X A : SCpx} {cX cA : Cells} (iX : Inv X cX) (iA : Inv A cA) (hs : Contained A X) : ∀ k, ∀ s ∈ cA k, s ∈ cX k :=
  (contained_iff iA iX).2 hs

/-- C75: maps of pairs. Let `f0` be a vertex map which is simplicial from `X` to `Y` and from `A ⊆ X` to `B ⊆ Y`. Then `ChainMap(f, X, A, Y, B)` of the
simplicial map `f` returns a chain map from the complex of `(X, A)` to the complex of `(Y, B)`; in every dimension its matrix consists of the entries of the
matrix of `f` at the simplices outside `B` (rows) and outside `A` (columns), in increasing order. -/
theorem C75_map_of_pairs {X A Y B : SCpx} (hX : Reachable X) (hA : Reachable A) (hY : Reachable Y) (hB : Reachable B)
    (sX : ∀ s ∈ simplices X, s.Nodup) (sY : ∀ s ∈ simplices Y, s.Nodup) (hAX : Contained A X) (hBY : Contained B Y)
    {f0 : List Nat} (hv : Covers f0 X) (hc : Carries f0 X Y) (hcA : Carries f0 A B) (hd : X.maxdim ≤ Y.maxdim) :
    ∃ (f : List (CMat Int)) (BX BY φ : List (CMat F)) (rows cols : Nat → List Nat), simplicialMap X Y f0 = .ok f ∧
      relativeChainComplex X A = .ok BX ∧ relativeChainComplex Y B = .ok BY ∧ relativeChainMap f X A Y B = .ok φ ∧
      IsChainMap φ BX BY ∧ φ.length = X.maxdim + 1 ∧
      (∀ k, (cols k).Pairwise (· < ·)) ∧ (∀ k i, i ∈ cols k ↔ ∃ s, X.getSimplex k i = .ok s ∧ s ∉ simplices A) ∧
      (∀ k, (rows k).Pairwise (· < ·)) ∧ (∀ k i, i ∈ rows k ↔ ∃ s, Y.getSimplex k i = .ok s ∧ s ∉ simplices B) ∧
      ∀ k, k ≤ X.maxdim → (φ.getD k ⟨0, []⟩).Shape (rows k).length (cols k).length ∧ ∀ i j (hi : i < (rows k).length) (hj : j < (cols k).length),
        ent1 (φ.getD k ⟨0, []⟩) i j = ent1 ((chainMap f).getD k ⟨0, []⟩) (rows k)[i] (cols k)[j] := by
  obtain ⟨cX, iX⟩ := hX.inv
  obtain ⟨cA, iA⟩ := hA.inv
  obtain ⟨cY, iY⟩ := hY.inv
  obtain ⟨cB, iB⟩ := hB.inv
  have nX := iX.sizes.ne
  have nY := iY.sizes.ne
  have hdl : X.ncells.length ≤ Y.ncells.length := by unfold maxdim at hd; omega
  have hmap := (mapsTo_iff iX iY).2 ⟨hv, hc⟩
  have hsA := Pair.contained_cells iX iA hAX
  have hsB := Pair.contained_cells iY iB hBY
  have hvA : Covers f0 A := fun x hx hi => hv x hx (hAX x hx hi)
  have hmapA := (mapsTo_iff iA iB).2 ⟨hvA, hcA⟩
  obtain ⟨BX1, hBX1, _⟩ := chainComplex_spec (F := F) iX
  obtain ⟨BY1, hBY1, _⟩ := chainComplex_spec (F := F) iY
  obtain ⟨f, f1, f2⟩ := simplicialMap_spec iX iY hmap hdl
  obtain ⟨f', f1', hcm⟩ := C37_chain_map (F := F) hX hY hv hc hd hBX1 hBY1
  have : f' = f := by rw [f1] at f1'; exact (Except.ok.inj f1').symm
  subst this
  have memX : ∀ d s, s ∈ cX d → s ∈ simplices X := fun d s h => by rw [simplices_eq iX]; exact (mem_setOf (iX.ok.len d s h)).2 h
  have memY : ∀ d s, s ∈ cY d → s ∈ simplices Y := fun d s h => by rw [simplices_eq iY]; exact (mem_setOf (iY.ok.len d s h)).2 h
  obtain ⟨BX, BY, φ, sX', sY', r1, r2, r3, r4, r5, r6, r7, r8, r9, r10⟩ := relativeChainMap_spec (F := F) iX iA iY iB
    (fun d s h => sX s (memX d s h)) (fun d s h => sY s (memY d s h)) (fun k _ => hsA k) (fun k _ => hsB k) hdl f2.len hBX1 hBY1 hcm (by
      intro k i j hi hj hne hmem
      rw [f2.cmap iX iY hmap i j (List.getElem?_eq_getElem hj) (List.getElem?_eq_getElem hi)] at hne
      have hlen : ((cX k)[j.val].map (fun v => f0.getD v 0)).length = k + 1 := by rw [List.length_map]; exact iX.ok.len k _ (List.getElem_mem _)
      rcases orient_cases F hlen with ⟨_, h0⟩ | ⟨hn, a, σ, ap, al, as, _, ao⟩
      · exact absurd (h0 _) hne
      · rw [ao _ (iY.ok.len k _ (List.getElem_mem _))] at hne
        have : a = (cY k)[i.val] := by
          by_contra hna
          rw [if_neg hna, mul_zero] at hne; exact hne rfl
        rw [← this]
        exact (hmapA k _ hmem).2 hn a ap as)
  have getX : ∀ k i, (∃ h : i < (cX k).length, (cX k)[i] ∉ cA k) ↔ ∃ s, X.getSimplex k i = .ok s ∧ s ∉ simplices A := by
    intro k i
    constructor
    · rintro ⟨h, hn⟩
      refine ⟨_, Filt.getSimplex_eq iX (List.getElem?_eq_getElem h), ?_⟩
      rw [simplices_eq iA]
      exact fun hm => hn ((mem_setOf (iX.ok.len k _ (List.getElem_mem _))).1 hm)
    · rintro ⟨s, h1, h3⟩
      by_cases h : i < (cX k).length
      · refine ⟨h, fun hm => h3 ?_⟩
        rw [Filt.getSimplex_eq iX (List.getElem?_eq_getElem h)] at h1
        have : (cX k)[i] = s := Except.ok.inj h1
        rw [simplices_eq iA, ← this]
        exact (mem_setOf (iX.ok.len k _ (List.getElem_mem _))).2 hm
      · exfalso
        exact h (Pair.getSimplex_lt iX h1)
  have getY : ∀ k i, (∃ h : i < (cY k).length, (cY k)[i] ∉ cB k) ↔ ∃ s, Y.getSimplex k i = .ok s ∧ s ∉ simplices B := by
    intro k i
    constructor
    · rintro ⟨h, hn⟩
      refine ⟨_, Filt.getSimplex_eq iY (List.getElem?_eq_getElem h), ?_⟩
      rw [simplices_eq iB]
      exact fun hm => hn ((mem_setOf (iY.ok.len k _ (List.getElem_mem _))).1 hm)
    · rintro ⟨s, h1, h3⟩
      by_cases h : i < (cY k).length
      · refine ⟨h, fun hm => h3 ?_⟩
        rw [Filt.getSimplex_eq iY (List.getElem?_eq_getElem h)] at h1
        have : (cY k)[i] = s := Except.ok.inj h1
        rw [simplices_eq iB, ← this]
        exact (mem_setOf (iY.ok.len k _ (List.getElem_mem _))).2 hm
      · exfalso
        exact h (Pair.getSimplex_lt iY h1)
  refine ⟨f', BX, BY, φ, sY', sX', f1, r1, r2, r3, r4, by rw [r5]; unfold maxdim; omega, r6, fun k i => (r7 k i).trans (getX k i), r8, fun k i => (r9 k i).trans (getY k i), ?_⟩
  intro k hk
  exact r10 k (by unfold maxdim at hk; omega)

/-- C75: `f.relative_map(inds1, inds2)` for a chain map `f` from `B` to `D` and lists of cells of subcomplexes (`inds2` of `B`, `inds1` of `D`) such that `f`
sends the listed cells of `B` to combinations of listed cells of `D`: the result is a chain map between `B.relative_complex(inds2)` and
`D.relative_complex(inds1)`, whose matrices consist of the entries of `f` at the cells which are not listed. -/
theorem C75_relative_map {B D f : List (CMat F)} {inds1 inds2 : List (List Nat)} (hB : IsChainComplex B) (hD : IsChainComplex D) (hB0 : ZeroBdry0 B) (hD0 : ZeroBdry0 D)
    (hSB : IsSubcomplex B inds2) (hSD : IsSubcomplex D inds1) (hf : IsChainMap f B D) (hl : f.length = B.length) (hd : B.length ≤ D.length)
    (hr : ∀ k (i : Fin (cdim D k)) (j : Fin (cdim B k)), j.val ∈ inds2.getD k [] → cmap f B D k i j ≠ 0 → i.val ∈ inds1.getD k []) :
    ∃ (B' D' φ : List (CMat F)) (cols rows : Nat → List Nat), Cpx.relativeComplex B inds2 = .ok B' ∧ Cpx.relativeComplex D inds1 = .ok D' ∧
      Cpx.relativeMap f inds1 inds2 = .ok φ ∧ IsChainMap φ B' D' ∧ φ.length = f.length ∧
      (∀ k, (cols k).Pairwise (· < ·)) ∧ (∀ k x, x ∈ cols k ↔ x < cdim B k ∧ x ∉ inds2.getD k []) ∧
      (∀ k, (rows k).Pairwise (· < ·)) ∧ (∀ k x, x ∈ rows k ↔ x < cdim D k ∧ x ∉ inds1.getD k []) ∧
      ∀ k, k < f.length → (φ.getD k ⟨0, []⟩).Shape (rows k).length (cols k).length ∧ ∀ i j (hi : i < (rows k).length) (hj : j < (cols k).length),
        ent1 (φ.getD k ⟨0, []⟩) i j = ent1 (f.getD k ⟨0, []⟩) (rows k)[i] (cols k)[j] :=
  relativeMap_spec hB hD hB0 hD0 hSB hSD hf hl hd hr

/-! ### C76 -/

/-- the matrix of `mayer_vietoris_boundary`, read over `F` -/
def mvMatrix (F : Type) [Field F] (M : CMat Int) (m n : Nat) : Matrix (Fin m) (Fin n) F := matOf m n (castMat M : CMat F).cols

theorem Pair.mv_data {A B X Y : SCpx} (hA : Reachable A) (hB : Reachable B) (hX : Reachable X) (hY : Reachable Y)
    (hu : simplices X = simplices A ∪ simplices B) (hi : simplices Y = simplices A ∩ simplices B) {k : Nat} (hkX : k + 1 ≤ X.maxdim) (hkY : k ≤ Y.maxdim)
    {BX BY : List (CMat F)} (hBX : X.chainComplex = .ok BX) (hBY : Y.chainComplex = .ok BY) :
    ∃ cA cB cX cY M, mayerVietoris A X Y k = .ok M ∧ M.nrow = cdim BY k ∧ M.cols.length = cdim BX (k + 1) ∧ bdry BY 0 = 0 ∧
      MVData A B X Y cA cB cX cY BX BY k (mvMatrix F M (cdim BY k) (cdim BX (k + 1))) := by
  obtain ⟨cX, iX⟩ := hX.inv
  obtain ⟨cY, iY⟩ := hY.inv
  obtain ⟨cA, iA⟩ := hA.inv
  obtain ⟨cB, iB⟩ := hB.inv
  have nX := iX.sizes.ne
  have nY := iY.sizes.ne
  obtain ⟨a1, a2, a3, a4⟩ := cpx_data iX hBX
  obtain ⟨b1, b2, b3, b4⟩ := cpx_data iY hBY
  obtain ⟨M, m1, m2, m3, m4⟩ := mayerVietoris_spec (F := F) iA iX iY (k := k) (by unfold maxdim at hkX; omega) (by unfold maxdim at hkY; omega)
  rw [simplices_eq iX, simplices_eq iA, simplices_eq iB] at hu
  rw [simplices_eq iY, simplices_eq iA, simplices_eq iB] at hi
  have hlen : ∀ {cells : Cells} (h : CellsOK cells) (d : Nat) (s : List Nat), s ∈ cells d ↔ s.length = d + 1 ∧ s ∈ SCpx.setOf cells := by
    intro cells h d s
    constructor
    · intro hm
      exact ⟨h.len d s hm, (mem_setOf (h.len d s hm)).2 hm⟩
    · rintro ⟨h1, h2⟩; exact (mem_setOf h1).1 h2
  refine ⟨cA, cB, cX, cY, M, m1, by rw [m2, b1], by rw [m3, a1], b4, ⟨iA, iB, iX, iY, ?_, ?_, a1, b1, a2, b2, m4 _ _ (b1 k) (a1 (k + 1))⟩⟩
  · intro d s
    rw [hlen iX.ok, hlen iA.ok, hlen iB.ok, hu, ← and_or_left]; rfl
  · intro d s
    rw [hlen iY.ok, hlen iA.ok, hlen iB.ok, hi]
    constructor
    · rintro ⟨h1, h2, h3⟩; exact ⟨⟨h1, h2⟩, h1, h3⟩
    · rintro ⟨⟨h1, h2⟩, _, h3⟩; exact ⟨h1, h2, h3⟩

theorem Pair.onCells {A X : SCpx} {cA cX : Cells} (iA : Inv A cA) (iX : Inv X cX) {k n : Nat} (hn : n = (cX k).length) {c : Fin n → F}
    (h : ChainOn A (chainFn X k c)) : OnCells (chainFn X k c) (cA k) := by
  intro s hs
  have h1 := h s hs
  have h2 := onCells_chainFn iX k hn c s hs
  rw [simplices_eq iA] at h1
  exact (mem_setOf (iX.ok.len k s h2)).1 h1

/-- C76: let `X` have the simplices of `A` and `B`, and `Y` the common ones. `mayer_vietoris_boundary(A, X, Y, k)` returns a matrix `C_{k+1}(X) → C_k(Y)` which
sends cycles of `X` to cycles of `Y` and boundaries to boundaries, so it induces a map `H_{k+1}(X) → H_k(Y)`. -/
theorem C76_induces {A B X Y : SCpx} (hA : Reachable A) (hB : Reachable B) (hX : Reachable X) (hY : Reachable Y)
    (hu : simplices X = simplices A ∪ simplices B) (hi : simplices Y = simplices A ∩ simplices B) {k : Nat} (hkX : k + 1 ≤ X.maxdim) (hkY : k ≤ Y.maxdim)
    {BX BY : List (CMat F)} (hBX : X.chainComplex = .ok BX) (hBY : Y.chainComplex = .ok BY) :
    ∃ M, mayerVietoris A X Y k = .ok M ∧ M.nrow = cdim BY k ∧ M.cols.length = cdim BX (k + 1) ∧
      (∀ z ∈ cycles BX (k + 1), mvMatrix F M (cdim BY k) (cdim BX (k + 1)) *ᵥ z ∈ cycles BY k) ∧
      (∀ z ∈ boundaries BX (k + 1), mvMatrix F M (cdim BY k) (cdim BX (k + 1)) *ᵥ z ∈ boundaries BY k) := by
  obtain ⟨cA, cB, cX, cY, M, m1, m2, m3, m4, d⟩ := Pair.mv_data hA hB hX hY hu hi hkX hkY hBX hBY
  exact ⟨M, m1, m2, m3, fun z hz => mv_cycle d m4 hz, fun z hz => mv_bdry d hz⟩

/-- C76: the induced map is the connecting homomorphism: for a cycle `z` of `X` and any way to write `z = a + b` with a chain `a` of `A` and a chain `b` of `B`,
the image of `z` is, as a combination of simplices, the boundary of `a` plus the boundary of a chain of `Y`. -/
theorem C76_connecting {A B X Y : SCpx} (hA : Reachable A) (hB : Reachable B) (hX : Reachable X) (hY : Reachable Y)
    (hu : simplices X = simplices A ∪ simplices B) (hi : simplices Y = simplices A ∩ simplices B) {k : Nat} (hkX : k + 1 ≤ X.maxdim) (hkY : k ≤ Y.maxdim)
    {BX BY : List (CMat F)} (hBX : X.chainComplex = .ok BX) (hBY : Y.chainComplex = .ok BY) :
    ∃ M, mayerVietoris A X Y k = .ok M ∧ ∀ z a b : Fin (cdim BX (k + 1)) → F, z ∈ cycles BX (k + 1) → z = a + b →
      ChainOn A (chainFn X (k + 1) a) → ChainOn B (chainFn X (k + 1) b) →
      ∃ u : Fin (cdim BY (k + 1)) → F, chainFn Y k (mvMatrix F M (cdim BY k) (cdim BX (k + 1)) *ᵥ z) =
        chainFn X k (bdryUp BX k *ᵥ a) + chainFn Y k (bdryUp BY k *ᵥ u) := by
  obtain ⟨cA, cB, cX, cY, M, m1, m2, m3, m4, d⟩ := Pair.mv_data hA hB hX hY hu hi hkX hkY hBX hBY
  refine ⟨M, m1, ?_⟩
  intro z a b hz hab ha hb
  exact mv_conn d hz hab (Pair.onCells d.a d.x (d.dx _) ha) (Pair.onCells d.b d.x (d.dx _) hb)

/-- C76: if the `k`-simplices of `Y` were added in lexicographic order (and the simplices of `X` are increasing), the columns are well-formed sparse vectors. -/
theorem C76_sorted_columns {A X Y : SCpx} (hA : Reachable A) (hX : Reachable X) (hY : Reachable Y) (sX : ∀ s ∈ simplices X, s.Pairwise (· < ·)) {k : Nat}
    (hkX : k + 1 ≤ X.maxdim) (hkY : k ≤ Y.maxdim) (hlex : ∀ s t i j, s.length = k + 1 → t.length = k + 1 → Y.findIdx s = some i → Y.findIdx t = some j → s < t → i < j) :
    ∃ M n m, mayerVietoris A X Y k = .ok M ∧ X.numCells (k + 1) = .ok n ∧ Y.numCells k = .ok m ∧ (castMat M : CMat F).Shape m n := by
  obtain ⟨cX, iX⟩ := hX.inv
  obtain ⟨cY, iY⟩ := hY.inv
  have nX := iX.sizes.ne
  have nY := iY.sizes.ne
  have hk1 : k + 1 < X.ncells.length := by unfold maxdim at hkX; omega
  have hk2 : k < Y.ncells.length := by unfold maxdim at hkY; omega
  refine ⟨⟨(cY k).length, (cX (k + 1)).map (fun s => if (A.findIdx s).isSome then mvFaces Y s (k + 2) (-1) else [])⟩, (cX (k + 1)).length, (cY k).length, ?_, ?_, ?_, ?_⟩
  · unfold mayerVietoris numCells
    rw [rd_some (iX.dim (k + 1) hk1).nc, bind_ok, rd_some (iY.dim k hk2).nc, bind_ok, getSimplices_spec iX hk1]; rfl
  · unfold numCells; exact rd_some (iX.dim (k + 1) hk1).nc
  · unfold numCells; exact rd_some (iY.dim k hk2).nc
  · refine ⟨?_, rfl, by simp [castMat]⟩
    intro c hc
    simp only [castMat, List.map_map, List.mem_map, Function.comp_apply] at hc
    obtain ⟨s, hs, rfl⟩ := hc
    have hlen := iX.ok.len _ s hs
    by_cases hin : (A.findIdx s).isSome = true
    · rw [if_pos hin]
      have hsort := sX s (by rw [simplices_eq iX]; exact (mem_setOf hlen).2 hs)
      have hfl : ∀ l, l < s.length → (s.eraseIdx l).length = k + 1 := by
        intro l hl; rw [List.length_eraseIdx_of_lt hl]; omega
      have hp := mvFaces_sorted (Y := Y) hsort (by
        intro i j a b hij hj e1 e2
        exact hlex _ _ _ _ (hfl j hj) (hfl i (by omega)) e1 e2 (eraseIdx_lex hsort hij hj)) (k + 2) (-1) (by omega)
      refine ⟨⟨?_, ?_⟩, ?_⟩
      · unfold Sorted; rw [List.pairwise_map]; exact hp
      · intro p hp'
        obtain ⟨q, hq, rfl⟩ := List.mem_map.1 hp'
        rcases (mvFaces_mem hq).2 with h | h <;> simp [h]
      · intro p hp'
        obtain ⟨q, hq, rfl⟩ := List.mem_map.1 hp'
        obtain ⟨l, hl, e⟩ := (mvFaces_mem hq).1
        have hne : s.eraseIdx l ≠ [] := by intro e'; have := hfl l (by omega); rw [e'] at this; simp at this
        have := (iY.trie _ hne q.1).1 e
        rw [hfl l (by omega), Nat.add_sub_cancel] at this
        exact (List.getElem?_eq_some_iff.1 this).1
    · rw [if_neg hin]
      exact ⟨⟨List.Pairwise.nil, by intro p hp; simp at hp⟩, by intro p hp; simp at hp⟩

/-- C76, exact behaviour: for other orders the columns are stored unsorted, and a product computed with the matrix is not the product: for the circle with
vertices added in the order 2, 1, 0 the cycle `[0,1] + [1,2] - [0,2]` has image 0, but the sparse product has four entries. -/
theorem C76_unsorted : ∃ X M, (init 1).run [.add [2], .add [1], .add [0], .add [0, 1], .add [1, 2], .add [0, 2]] = .ok X ∧ mayerVietoris X X X 0 = .ok M ∧
    M.cols = [[(2, -1), (1, 1)], [(1, -1), (0, 1)], [(2, -1), (0, 1)]] ∧
    CMat.gemv (castMat M : CMat ℚ) [(0, 1), (1, 1), (2, -1)] = .ok [(1, -1), (0, 1), (0, -1), (1, 1)] ∧
    ∀ i : Fin 3, (mvMatrix ℚ M 3 3 *ᵥ ![1, 1, -1]) i = 0 := by
  obtain ⟨X, hX⟩ : ∃ X, (init 1).run [.add [2], .add [1], .add [0], .add [0, 1], .add [1, 2], .add [0, 2]] = .ok X :=
    (run_set _ (init_inv 1).1 (by simp [Op.simplex])).imp (fun X h => h.choose_spec.1)
  have e1 : (((init 1).run [.add [2], .add [1], .add [0], .add [0, 1], .add [1, 2], .add [0, 2]]).bind (fun X => mayerVietoris X X X 0)).map (fun M => (M.nrow, M.cols)) =
    .ok (3, [[(2, -1), (1, 1)], [(1, -1), (0, 1)], [(2, -1), (0, 1)]]) := by decide +kernel
  rw [hX] at e1
  have e2 : (mayerVietoris X X X 0).map (fun M => (M.nrow, M.cols)) = .ok (3, [[(2, -1), (1, 1)], [(1, -1), (0, 1)], [(2, -1), (0, 1)]]) := e1
  cases hM : mayerVietoris X X X 0 with
  | error e => rw [hM] at e2; cases e2
  | ok M =>
    rw [hM] at e2
    have hE : (M.nrow, M.cols) = (3, [[(2, -1), (1, 1)], [(1, -1), (0, 1)], [(2, -1), (0, 1)]]) := Except.ok.inj e2
    injection hE with h1 h2
    obtain ⟨r, c⟩ := M
    simp only at h1 h2
    subst h1; subst h2
    refine ⟨X, _, hX, hM, rfl, by decide +kernel, ?_⟩
    intro i
    simp only [mvMatrix, castMat, Matrix.mulVec, dotProduct, Fin.sum_univ_three, matOf]
    fin_cases i <;> simp [coef_cons]

/-! ### examples -/

/-- a check of all stored simplices -/
def Pair.check (P : List Nat → Bool) (X : SCpx) : Bool :=
  (List.range (X.maxdim + 1)).all (fun d => match X.getSimplices d with | .ok l => l.all P | .error _ => false)

theorem Pair.check_spec {P : List Nat → Bool} {X : SCpx} (hX : Reachable X) (h : Pair.check P X = true) : ∀ s ∈ simplices X, P s = true := by
  obtain ⟨cX, iX⟩ := hX.inv
  have hne := iX.sizes.ne
  intro s hs
  rw [simplices_eq iX] at hs
  have hm : s ∈ cX (s.length - 1) := hs.2
  have hk : s.length - 1 < X.ncells.length := by
    by_contra hk
    rw [iX.top _ (by omega)] at hm; simp at hm
  have := List.all_eq_true.1 h (s.length - 1) (List.mem_range.2 (by unfold maxdim; omega))
  rw [getSimplices_spec iX hk] at this
  exact List.all_eq_true.1 this s hm

/-- a filled triangle and its boundary -/
def diskOps : List Op := [.addRecursive [0, 1, 2]]
def rimOps : List Op := [.addRecursive [0, 1], .addRecursive [1, 2], .addRecursive [0, 2]]

/-- the hypotheses of `C75_relative_betti` and (for the identity map) of `C75_map_of_pairs` hold for the filled triangle and its boundary; the complex of
the pair has one cell, of dimension 2 -/
example : ∃ X A, Reachable X ∧ Reachable A ∧ (∀ s ∈ simplices X, s.Pairwise (· < ·)) ∧ Contained A X ∧
    (∀ s ∈ simplices A, s.length ≤ X.maxdim + 1 → s ∈ simplices X) ∧ Covers [0, 1, 2] X ∧ Carries [0, 1, 2] X X ∧ Carries [0, 1, 2] A A ∧
    (relativeChainComplex X A : Res (List (CMat ℚ))) = .ok [⟨1, []⟩, ⟨0, []⟩, ⟨0, [[]]⟩] ∧
    ((relativeChainComplex X A : Res (List (CMat ℚ))).bind (fun B => (Variant.standard.reduce B).bind (fun C => C.hdim 2))) = .ok 1 := by
  obtain ⟨X, hX, _⟩ := C19_history 2 diskOps (by decide +kernel)
  obtain ⟨A, hA, _⟩ := C19_history 1 rimOps (by decide +kernel)
  have rX : Reachable X := ⟨2, diskOps, by decide +kernel, hX⟩
  have rA : Reachable A := ⟨1, rimOps, by decide +kernel, hA⟩
  have e1 : ((SCpx.init 2).run diskOps).map (Pair.check (fun s => decide (s.Pairwise (· < ·)))) = .ok true := by decide +kernel
  have e2 : ((SCpx.init 2).run diskOps).bind (fun X => ((SCpx.init 1).run rimOps).map (Pair.check (fun s => (X.findIdx s).isSome && decide (s ≠ [])))) = .ok true := by decide +kernel
  have e3 : ((SCpx.init 2).run diskOps).bind (fun X => simplicialMap X X [0, 1, 2]) = .ok [⟨3, [[(0, 1)], [(1, 1)], [(2, 1)]]⟩, ⟨3, [[(0, 1)], [(1, 1)], [(2, 1)]]⟩, ⟨1, [[(0, 1)]]⟩] := by decide +kernel
  have e4 : ((SCpx.init 1).run rimOps).bind (fun X => simplicialMap X X [0, 1, 2]) = .ok [⟨3, [[(0, 1)], [(1, 1)], [(2, 1)]]⟩, ⟨3, [[(0, 1)], [(1, 1)], [(2, 1)]]⟩] := by decide +kernel
  have e5 : ((SCpx.init 2).run diskOps).bind (fun X => ((SCpx.init 1).run rimOps).bind (fun A => (relativeChainComplex X A : Res (List (CMat ℚ))))) =
    .ok [⟨1, []⟩, ⟨0, []⟩, ⟨0, [[]]⟩] := by decide +kernel
  rw [hX] at e1 e2 e3 e5
  rw [hA] at e2 e4 e5
  have c1 := Pair.check_spec rX (Except.ok.inj e1)
  have c2 := Pair.check_spec rA (Except.ok.inj e2)
  have e5' : (relativeChainComplex X A : Res (List (CMat ℚ))) = .ok [⟨1, []⟩, ⟨0, []⟩, ⟨0, [[]]⟩] := e5
  obtain ⟨a1, a2, _⟩ := (C37_succeeds_iff rX rX).1 ⟨_, e3⟩
  obtain ⟨_, b2, _⟩ := (C37_succeeds_iff rA rA).1 ⟨_, e4⟩
  refine ⟨X, A, rX, rA, fun s hs => by simpa using c1 s hs, ?_, ?_, a1, a2, b2, e5', by rw [e5']; decide +kernel⟩
  · intro s hs hi
    have := c2 s ⟨hs, hi⟩
    rw [Bool.and_eq_true] at this
    exact Option.isSome_iff_exists.1 this.1
  · intro s hs _
    have := c2 s hs
    rw [Bool.and_eq_true] at this
    exact ⟨hs.1, Option.isSome_iff_exists.1 this.1⟩

/-- two arcs of a circle -/
def arcA : List Op := [.add [0], .add [1], .add [2], .add [0, 1], .add [1, 2]]
def arcB : List Op := [.add [0], .add [2], .add [3], .add [0, 3], .add [2, 3]]

/-- the hypotheses of the theorems C74 and C76 hold for two arcs of a circle; the connecting homomorphism sends the fundamental class to the difference of
the common points -/
example : ∃ A B X Y M, Reachable A ∧ Reachable B ∧ Ordered A ∧ Ordered B ∧ simplicialUnion A B = .ok X ∧ intersection A B = .ok Y ∧ Reachable X ∧ Reachable Y ∧
    simplices X = simplices A ∪ simplices B ∧ simplices Y = simplices A ∩ simplices B ∧ 0 + 1 ≤ X.maxdim ∧ 0 ≤ Y.maxdim ∧
    (X.chainComplex : Res (List (CMat ℚ))) = .ok [CMat.zero 1 4, ⟨4, [[(0, -1), (1, 1)], [(1, -1), (2, 1)], [(0, -1), (3, 1)], [(2, -1), (3, 1)]]⟩] ∧
    mayerVietoris A X Y 0 = .ok M ∧ M.nrow = 2 ∧ M.cols = [[(0, -1)], [(1, 1)], [], []] := by
  obtain ⟨A, hA, _⟩ := C19_history 1 arcA (by decide +kernel)
  obtain ⟨B, hB, _⟩ := C19_history 1 arcB (by decide +kernel)
  have rA : Reachable A := ⟨1, arcA, by decide +kernel, hA⟩
  have rB : Reachable B := ⟨1, arcB, by decide +kernel, hB⟩
  have e1 : ((SCpx.init 1).run arcA).map (Pair.check (fun s => decide (s.Pairwise (· ≤ ·)))) = .ok true := by decide +kernel
  have e2 : ((SCpx.init 1).run arcB).map (Pair.check (fun s => decide (s.Pairwise (· ≤ ·)))) = .ok true := by decide +kernel
  have e3 : ((SCpx.init 1).run arcA).bind (fun A => ((SCpx.init 1).run arcB).bind (fun B => (simplicialUnion A B).bind (fun X => (intersection A B).map (fun Y => (X.maxdim, Y.maxdim))))) =
    .ok (1, 1) := by decide +kernel
  have e4 : ((SCpx.init 1).run arcA).bind (fun A => ((SCpx.init 1).run arcB).bind (fun B => (simplicialUnion A B).bind (fun X => (X.chainComplex : Res (List (CMat ℚ)))))) =
    .ok [CMat.zero 1 4, ⟨4, [[(0, -1), (1, 1)], [(1, -1), (2, 1)], [(0, -1), (3, 1)], [(2, -1), (3, 1)]]⟩] := by decide +kernel
  have e5 : ((SCpx.init 1).run arcA).bind (fun A => ((SCpx.init 1).run arcB).bind (fun B => (simplicialUnion A B).bind (fun X => (intersection A B).bind (fun Y =>
    (mayerVietoris A X Y 0).map (fun M => (M.nrow, M.cols)))))) = .ok (2, [[(0, -1)], [(1, 1)], [], []]) := by decide +kernel
  rw [hA] at e1 e3 e4 e5
  rw [hB] at e2 e3 e4 e5
  have c1 := Pair.check_spec rA (Except.ok.inj e1)
  have c2 := Pair.check_spec rB (Except.ok.inj e2)
  have oA : Ordered A := fun s hs hi => by simpa using c1 s ⟨hs, hi⟩
  have oB : Ordered B := fun s hs hi => by simpa using c2 s ⟨hs, hi⟩
  obtain ⟨X, hX, rX, xX⟩ := C74_union rA rB oA oB
  obtain ⟨Y, hY, rY, xY, _⟩ := C74_intersection rA rB
  have rep : ∀ {Z : SCpx} {S : Set (List Nat)}, Represents Z S → simplices Z = S := by
    intro Z S h
    ext s
    constructor
    · rintro ⟨h1, h2⟩; exact (h.found s h1).2 h2
    · intro hs; exact ⟨(h.dim s hs).1, (h.found s (h.dim s hs).1).1 hs⟩
  simp only [Except.bind, hX, hY] at e3 e4 e5
  have hE : (X.maxdim, Y.maxdim) = (1, 1) := Except.ok.inj e3
  injection hE with h1 h2
  cases hM : mayerVietoris A X Y 0 with
  | error e => rw [hM] at e5; cases e5
  | ok M =>
    rw [hM] at e5
    have hE' : (M.nrow, M.cols) = (2, [[(0, -1)], [(1, 1)], [], []]) := Except.ok.inj e5
    injection hE' with m1 m2
    exact ⟨A, B, X, Y, M, rA, rB, oA, oB, hX, hY, rX, rY, rep xX, rep xY, by omega, by omega, e4, hM, m1, m2⟩

/-- the vertices of the hollow triangle -/
def circleVertices : List (List Nat) := [[0, 1, 2], []]

theorem circleVertices_sub : IsSubcomplex circleQ circleVertices := by
  refine ⟨rfl, ?_, ?_, ?_⟩
  · intro k
    match k with
    | 0 => decide
    | 1 => decide
    | k + 2 => intro i hi; simp [circleVertices] at hi
  · intro k
    match k with
    | 0 => decide
    | 1 => decide
    | k + 2 => simp [circleVertices]
  · intro k i j hj _
    match k, i, j, hj with
    | 0, i, j, hj => simp [circleVertices] at hj
    | k + 1, i, j, hj => simp [circleVertices] at hj

/-- the hypotheses of `C75_relative_map` hold for the rotation of the hollow triangle and its vertices -/
example : IsChainComplex circleQ ∧ ZeroBdry0 circleQ ∧ IsSubcomplex circleQ circleVertices ∧ IsChainMap rotationQ circleQ circleQ ∧ rotationQ.length = circleQ.length ∧
    (∀ k (i : Fin (cdim circleQ k)) (j : Fin (cdim circleQ k)), j.val ∈ circleVertices.getD k [] → cmap rotationQ circleQ circleQ k i j ≠ 0 →
      i.val ∈ circleVertices.getD k []) ∧
    Cpx.relativeMap rotationQ circleVertices circleVertices = .ok [⟨0, []⟩, ⟨3, [[(2, 1)], [(0, -1)], [(1, -1)]]⟩] := by
  refine ⟨circleQ_complex, ?_, circleVertices_sub, rotationQ_chainMap, rfl, ?_, by decide +kernel⟩
  · unfold ZeroBdry0; decide
  · intro k i j hj _
    match k, i, j, hj with
    | 0, i, j, _ =>
      have : ∀ i : Fin 3, i.val ∈ circleVertices.getD 0 [] := by decide
      exact this i
    | 1, i, j, hj => simp [circleVertices] at hj
    | k + 2, i, j, hj => simp [circleVertices] at hj

end BATS
