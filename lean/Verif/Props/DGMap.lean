import Verif.Proofs.DGMap3
import Verif.Props.Induced
import Verif.Props.Diagram
import Verif.Props.DGSimplicial

set_option linter.unusedSectionVars false
set_option linter.unusedVariables false
set_option linter.unusedSimpArgs false

/-! # C79: maps and diagrams of differential graded vector spaces (include/dgvs/dgmap.hpp, include/homology/induced_map.hpp, include/multigraph/functors.hpp)

`Degree0`, `augmentedComplex`, `IsDGDiagram`, `RepresentsOnDGHomology` are in `Verif/Spec/DGMap.lean`, `IsHomologyDecomposition` in `Verif/Spec/Diagram.lean`. -/

namespace BATS
open Matrix Reduction DG SMap SCpx Quiver

variable {F : Type} [Field F] [DecidableEq F]

/-- C79: the induced map in degree `-1`. For complexes `A`, `A'` whose boundary in dimension 0 is zero or, for augmented DG vector spaces, the augmentation (so that
homology is reduced homology), and a chain map `f`, the call returns the matrix of the map on homology in the bases of the preferred representatives. -/
theorem C79_induced {v w : DGVariant} (hv : v.withBasis) (hw : w.withBasis) {b b' : Bool} {A A' : List (CMat F)} (hA : IsChainComplex A) (hA' : IsChainComplex A')
    (h0 : Degree0 b A) (h0' : Degree0 b' A') {f : List (CMat F)} (hf : IsChainMap f A A') :
    ∃ V V' X X', DGVS.ofComplex (-1) b A = .ok V ∧ DGVS.ofComplex (-1) b' A' = .ok V' ∧ v.reduce V = .ok X ∧ w.reduce V' = .ok X' ∧
      ∀ k, k < A.length → k < A'.length → ∃ M, dgInducedMap f X X' k = .ok M ∧ RepresentsOnDGHomology M f A A' X X' k := by
  obtain ⟨D, X, y1, y2, y3, y4⟩ := degree0_basis v hv b hA h0
  obtain ⟨D', X', z1, z2, z3, z4⟩ := degree0_basis w hw b' hA' h0'
  refine ⟨_, _, X, X', y1, z1, y2, z2, ?_⟩
  intro k hk hk'
  obtain ⟨M, m1, m2, m3⟩ := inducedMap_spec hA hA' y4 z4 hf hk hk'
  refine ⟨M, by rw [dgInduced_eq hA hA' y3 z3 hk hk' (hf.shape k hk hk'), m1], bettiNumber A k, bettiNumber A' k, fun g => gen (toCpx b A X) k g,
    fun g => gen (toCpx b' A' X') k g, m2, ?_, ?_, ?_, ?_, ?_⟩
  · rw [hdim_eq y3 hk]; exact y4.tab.hdim hA hk
  · rw [hdim_eq z3 hk']; exact z4.tab.hdim hA' hk'
  · intro g; rw [getPref_eq y3 hk]; exact y4.getGen hk (by rw [y4.tab.betti hA hk]; exact g.2)
  · intro g; rw [getPref_eq z3 hk']; exact z4.getGen hk' (by rw [z4.tab.betti hA' hk']; exact g.2)
  · intro z c hz
    exact induced_class hf m3 hz

/-- the row of ones -/
theorem ones_shape (n : Nat) : (⟨1, (List.range n).map (fun _ => [(0, 1)])⟩ : CMat F).Shape 1 n := by
  refine ⟨?_, rfl, by simp⟩
  intro c hc
  simp only [List.mem_map] at hc
  obtain ⟨_, _, rfl⟩ := hc
  refine ⟨⟨List.pairwise_singleton _ _, ?_⟩, ?_⟩
  · intro p hp
    simp only [List.mem_singleton] at hp
    subst hp; exact one_ne_zero
  · intro p hp
    simp only [List.mem_singleton] at hp
    subst hp; exact Nat.zero_lt_one

theorem cdim_augmented (B0 : CMat F) (Bs : List (CMat F)) (k : Nat) : cdim (augmentedComplex (B0 :: Bs)) k = cdim (B0 :: Bs) k := by
  cases k with
  | zero => show ((List.range B0.cols.length).map _).length = B0.cols.length; simp
  | succ k => rfl

theorem ent_augmented (B0 : CMat F) (Bs : List (CMat F)) {j : Nat} (hj : j < B0.cols.length) : ent (augmentedComplex (B0 :: Bs)) 0 0 j = 1 := by
  show coef (((List.range B0.cols.length).map (fun _ => ([(0, 1)] : SVec F))).getD j []) 0 = 1
  rw [getD_map_range hj]
  simp [coef]

/-- C79: with augmentation, the DG vector space of `B` is the DG vector space of the complex in which the boundary in dimension 0 is replaced by the augmentation;
this is a chain complex of the same dimensions if the augmentation vanishes on boundaries. -/
theorem C79_augmented {B : List (CMat F)} (hB : IsChainComplex B) (ha : Augmentable B) :
    DGVS.ofComplex (-1) true (augmentedComplex B) = DGVS.ofComplex (-1) true B ∧ IsChainComplex (augmentedComplex B) ∧ Degree0 true (augmentedComplex B) ∧
      (augmentedComplex B).tail = B.tail ∧ (augmentedComplex B).length = B.length ∧ ∀ k, cdim (augmentedComplex B) k = cdim B k := by
  have hN := one_le_length hB
  cases B with
  | nil => simp at hN
  | cons B0 Bs =>
    refine ⟨?_, ⟨?_, ?_, ?_⟩, ?_, rfl, rfl, cdim_augmented B0 Bs⟩
    · unfold DGVS.ofComplex
      show (if (-1 : Int) = -1 then _ else _) = (if (-1 : Int) = -1 then _ else _)
      rw [if_pos rfl, if_pos rfl]
      simp only [if_true]
      have e1 : ((List.range B0.cols.length).map (fun _ => ([(0, 1)] : SVec F))).length = B0.cols.length := by simp
      cases Bs with
      | nil =>
        show Except.ok _ = Except.ok _
        simp only [List.getLastD_nil, List.length_map, List.length_range, List.tail, cdim, augmentedComplex, List.getD_cons_zero]
      | cons B1 Bs =>
        show Except.ok _ = Except.ok _
        simp only [List.getLastD_cons, List.length_map, List.length_range, List.tail, cdim, augmentedComplex, List.getD_cons_zero]
    · simp [augmentedComplex]
    · intro k hk
      cases k with
      | zero =>
        rw [cdim_augmented]
        exact ones_shape B0.cols.length
      | succ k =>
        have h := hB.shape (k + 1) hk
        have e : rdim (augmentedComplex (B0 :: Bs)) (k + 1) = rdim (B0 :: Bs) (k + 1) := cdim_augmented B0 Bs k
        rw [e]; exact h
    · intro k hk
      cases k with
      | zero =>
        ext i j
        rw [Matrix.mul_apply]
        have h := ha j
        rw [Matrix.zero_apply, ← h]
        refine Fintype.sum_equiv (finCongr (cdim_augmented B0 Bs 0)) _ _ ?_
        intro x
        have : bdry (augmentedComplex (B0 :: Bs)) 0 i x = 1 := by
          have hi : i = (⟨0, Nat.zero_lt_one⟩ : Fin 1) := Subsingleton.elim (α := Fin 1) _ _
          rw [hi]
          exact ent_augmented B0 Bs (lt_of_lt_of_eq x.2 (cdim_augmented B0 Bs 0))
        rw [this, one_mul]
        rfl
      | succ k =>
        cases k with
        | succ k => exact hB.sq (k + 2) hk
        | zero =>
          have h := hB.sq 1 hk
          ext i j
          have := congrFun (congrFun h (Fin.cast (cdim_augmented B0 Bs 0) i)) j
          exact this
    · show (if true = true then _ else _)
      rw [if_pos rfl]
      refine ⟨rfl, fun j hj => ent_augmented B0 Bs ?_⟩
      exact lt_of_lt_of_eq hj (cdim_augmented B0 Bs 0)

/-- C79: a chain map which preserves the sum of the coefficients in dimension 0 is a chain map of the augmented complexes. -/
theorem C79_augmented_map {B B' : List (CMat F)} (hB : IsChainComplex B) (hB' : IsChainComplex B') {f : List (CMat F)} (hf : IsChainMap f B B')
    (hs : ∀ j, ∑ i, cmap f B B' 0 i j = 1) : IsChainMap f (augmentedComplex B) (augmentedComplex B') := by
  have hN := one_le_length hB
  have hN' := one_le_length hB'
  cases B with
  | nil => simp at hN
  | cons B0 Bs =>
  cases B' with
  | nil => simp at hN'
  | cons C0 Cs =>
    refine ⟨?_, ?_, ?_⟩
    · intro k hk hk'
      rw [cdim_augmented, cdim_augmented]
      exact hf.shape k hk hk'
    · intro k
      cases k with
      | succ k => exact hf.comm (k + 1)
      | zero =>
        ext i j
        have h : ∑ x, bdryUp (C0 :: Cs) 0 (Fin.cast (cdim_augmented C0 Cs 0) i) x * cmap f (B0 :: Bs) (C0 :: Cs) 1 x j =
            ∑ x, cmap f (B0 :: Bs) (C0 :: Cs) 0 (Fin.cast (cdim_augmented C0 Cs 0) i) x * bdryUp (B0 :: Bs) 0 x j :=
          congrFun (congrFun (hf.comm 0) (Fin.cast (cdim_augmented C0 Cs 0) i)) j
        refine Eq.trans h (Eq.symm ?_)
        show ∑ x, cmap f (augmentedComplex (B0 :: Bs)) (augmentedComplex (C0 :: Cs)) 0 i x * bdryUp (augmentedComplex (B0 :: Bs)) 0 x j = _
        exact Fintype.sum_equiv (finCongr (cdim_augmented B0 Bs 0)) _ _ (fun x => rfl)
    · intro z hz
      unfold cycles at hz ⊢
      rw [LinearMap.mem_ker, mulVecLin_apply] at hz ⊢
      have h1 : ∀ (i : Fin (rdim (augmentedComplex (B0 :: Bs)) 0)) x, bdry (augmentedComplex (B0 :: Bs)) 0 i x = 1 := by
        intro i x
        have hi : i = (⟨0, Nat.zero_lt_one⟩ : Fin 1) := Subsingleton.elim (α := Fin 1) _ _
        rw [hi]
        exact ent_augmented B0 Bs (lt_of_lt_of_eq x.2 (cdim_augmented B0 Bs 0))
      have h2 : ∀ (i : Fin (rdim (augmentedComplex (C0 :: Cs)) 0)) x, bdry (augmentedComplex (C0 :: Cs)) 0 i x = 1 := by
        intro i x
        have hi : i = (⟨0, Nat.zero_lt_one⟩ : Fin 1) := Subsingleton.elim (α := Fin 1) _ _
        rw [hi]
        exact ent_augmented C0 Cs (lt_of_lt_of_eq x.2 (cdim_augmented C0 Cs 0))
      have h3 := congrFun hz ⟨0, Nat.zero_lt_one⟩
      have h3 : ∑ x, bdry (augmentedComplex (B0 :: Bs)) 0 ⟨0, Nat.zero_lt_one⟩ x * z x = 0 := h3
      simp only [h1, one_mul] at h3
      ext i
      show ∑ x, bdry (augmentedComplex (C0 :: Cs)) 0 i x * (cmap f _ _ 0 *ᵥ z) x = 0
      simp only [h2, one_mul]
      show ∑ x, ∑ y, cmap f _ _ 0 x y * z y = 0
      rw [Finset.sum_comm]
      rw [← h3]
      apply Finset.sum_congr rfl
      intro y _
      rw [← Finset.sum_mul]
      have h4 := hs (Fin.cast (cdim_augmented B0 Bs 0) y)
      have h5 : ∑ x, cmap f (augmentedComplex (B0 :: Bs)) (augmentedComplex (C0 :: Cs)) 0 x y = 1 := by
        rw [← h4]
        exact Fintype.sum_equiv (finCongr (cdim_augmented C0 Cs 0)) _ _ (fun x => rfl)
      rw [h5, one_mul]


/-- C79: functoriality. The identity induces the identity, and a composite induces the product, computed by the library, of the induced matrices. -/
theorem C79_functorial {v w u : DGVariant} (hv : v.withBasis) (hw : w.withBasis) (hu : u.withBasis) {b b' b'' : Bool} {A A' A'' : List (CMat F)} (hA : IsChainComplex A)
    (hA' : IsChainComplex A') (hA'' : IsChainComplex A'') (h0 : Degree0 b A) (h0' : Degree0 b' A') (h0'' : Degree0 b'' A'') {f g gf : List (CMat F)}
    (hf : IsChainMap f A A') (hg : IsChainMap g A' A'') (hs : ∀ k, k < A.length → k < A''.length → k < gf.length ∧ (gf.getD k ⟨0, []⟩).Shape (cdim A'' k) (cdim A k))
    (hgf : ∀ k, cmap gf A A'' k = cmap g A' A'' k * cmap f A A' k) :
    ∃ V V' V'' X X' X'', DGVS.ofComplex (-1) b A = .ok V ∧ DGVS.ofComplex (-1) b' A' = .ok V' ∧ DGVS.ofComplex (-1) b'' A'' = .ok V'' ∧ v.reduce V = .ok X ∧
      w.reduce V' = .ok X' ∧ u.reduce V'' = .ok X'' ∧
      (∀ k, k < A.length → ∃ n, X.hdim k = .ok n ∧ dgInducedMap (identityMap A) X X k = .ok (CMat.identity n)) ∧
      ∀ k, k < A.length → k < A'.length → k < A''.length → ∃ M N P, dgInducedMap f X X' k = .ok M ∧ dgInducedMap g X' X'' k = .ok N ∧ CMat.gemm N M = .ok P ∧
        dgInducedMap gf X X'' k = .ok P := by
  obtain ⟨D, X, y1, y2, y3, h⟩ := degree0_basis v hv b hA h0
  obtain ⟨D', X', z1, z2, z3, h'⟩ := degree0_basis w hw b' hA' h0'
  obtain ⟨D'', X'', w1, w2, w3, h''⟩ := degree0_basis u hu b'' hA'' h0''
  refine ⟨_, _, _, X, X', X'', y1, z1, w1, y2, z2, w2, ?_, ?_⟩
  · intro k hk
    refine ⟨_, by rw [hdim_eq y3 hk]; exact h.tab.hdim hA hk, ?_⟩
    rw [dgInduced_eq hA hA y3 y3 hk hk (identityMap_chainMap.shape k hk hk)]
    exact identity_basis hA h hk
  · intro k hk hk' hk''
    obtain ⟨M, N, P, m1, m2, m3, m4⟩ := composition_basis hA hA' hA'' h h' h'' hf hg hs hgf hk hk' hk''
    exact ⟨M, N, P, by rw [dgInduced_eq hA hA' y3 z3 hk hk' (hf.shape k hk hk'), m1], by rw [dgInduced_eq hA' hA'' z3 w3 hk' hk'' (hg.shape k hk' hk''), m2], m3,
      by rw [dgInduced_eq hA hA'' y3 w3 hk hk'' (hs k hk hk''), m4]⟩

/-! ### maps of spaces -/

theorem levels_length {X Y : SCpx} {f0 : List Nat} : ∀ (n k : Nat) (r : List (CMat Int)), levels X Y f0 n k = .ok r → r.length = n
  | 0, _, r, h => by rw [levels] at h; cases h; rfl
  | n + 1, k, r, h => by
    rw [levels] at h
    obtain ⟨nx, _, h⟩ := bind_ok_iff.1 h
    obtain ⟨cs, _, h⟩ := bind_ok_iff.1 h
    obtain ⟨ny, _, h⟩ := bind_ok_iff.1 h
    obtain ⟨r', h1, h⟩ := bind_ok_iff.1 h
    cases h
    rw [List.length_cons, levels_length n (k + 1) r' h1]

theorem incLevels_length {X Y : SCpx} : ∀ (n k : Nat) (r : List (CMat Int)), incLevels X Y n k = .ok r → r.length = n
  | 0, _, r, h => by rw [incLevels] at h; cases h; rfl
  | n + 1, k, r, h => by
    rw [incLevels] at h
    obtain ⟨nx, _, h⟩ := bind_ok_iff.1 h
    obtain ⟨cs, _, h⟩ := bind_ok_iff.1 h
    obtain ⟨ny, _, h⟩ := bind_ok_iff.1 h
    obtain ⟨r', h1, h⟩ := bind_ok_iff.1 h
    cases h
    rw [List.length_cons, incLevels_length n (k + 1) r' h1]

theorem spaceMap_data {X Y : SCpx} (hX : Reachable X) (hY : Reachable Y) {f : List (CMat Int)} (hf : IsSpaceMap X Y f)
    {BX BY : List (CMat F)} (hBX : X.chainComplex = .ok BX) (hBY : Y.chainComplex = .ok BY) :
    IsChainMap (chainMap f : List (CMat F)) BX BY ∧ f.length = X.maxdim + 1 ∧ X.maxdim ≤ Y.maxdim := by
  rcases hf with ⟨f0, hf⟩ | ⟨hd, hf⟩
  · obtain ⟨h1, h2, h3⟩ := (C37_succeeds_iff hX hY).1 ⟨f, hf⟩
    obtain ⟨f', f1, f2⟩ := C37_chain_map (F := F) hX hY h1 h2 h3 hBX hBY
    rw [hf] at f1; cases f1
    exact ⟨f2, levels_length _ _ _ hf, h3⟩
  · have hc : Contained X Y := by
      by_contra hn
      rw [C37_inclusion_missing hX hY hn hd] at hf; cases hf
    obtain ⟨f', f1, f2, _⟩ := C37_inclusion (F := F) hX hY hc hd hBX hBY
    rw [hf] at f1; cases f1
    exact ⟨f2, incLevels_length _ _ _ hf, hd⟩

theorem cpx_length {X : SCpx} (hX : Reachable X) {B : List (CMat F)} (hB : X.chainComplex = .ok B) : B.length = X.maxdim + 1 := by
  obtain ⟨cells, hI⟩ := hX.inv
  obtain ⟨B', h1, h2, _⟩ := chainComplex_spec (F := F) hI
  rw [hB] at h1; cases h1
  have := hI.sizes.ne
  unfold SCpx.maxdim
  omega

/-- C79: `DGLinearMap(f, degree)` for a simplicial map or inclusion: the chain map in degree `-1`; in degree `+1` the transposes, which form a cochain map in the
opposite direction; an error for other degrees. -/
theorem C79_map {X Y : SCpx} (hX : Reachable X) (hY : Reachable Y) {f : List (CMat Int)} (hf : IsSpaceMap X Y f)
    {BX BY : List (CMat F)} (hBX : X.chainComplex = .ok BX) (hBY : Y.chainComplex = .ok BY) :
    (dgLinearMap F f (-1) = .ok (chainMap f) ∧ IsChainMap (chainMap f : List (CMat F)) BX BY) ∧
    (∀ deg : Int, deg ≠ -1 → deg ≠ 1 → dgLinearMap F f deg = .error .thrown) ∧
    ∃ ts, dgLinearMap F f 1 = .ok ts ∧ ts.length = X.maxdim + 1 ∧
      (∀ k, k ≤ X.maxdim → (ts.getD k ⟨0, []⟩).Shape (cdim BX k) (cdim BY k) ∧ (ts.getD k ⟨0, []⟩).mat (cdim BX k) (cdim BY k) = (cmap (chainMap f) BX BY k)ᵀ) ∧
      ∀ k, k + 1 ≤ X.maxdim → (bdryUp BX k)ᵀ * (ts.getD k ⟨0, []⟩).mat (cdim BX k) (cdim BY k) =
        (ts.getD (k + 1) ⟨0, []⟩).mat (cdim BX (k + 1)) (cdim BY (k + 1)) * (bdryUp BY k)ᵀ := by
  obtain ⟨hc, hl, hd⟩ := spaceMap_data hX hY hf hBX hBY
  have lX := cpx_length hX hBX
  have lY := cpx_length hY hBY
  have hlen : (chainMap f : List (CMat F)).length = X.maxdim + 1 := by unfold chainMap; rw [List.length_map, hl]
  have hsh : ∀ k, k ≤ X.maxdim → ((chainMap f : List (CMat F)).getD k ⟨0, []⟩).Shape (cdim BY k) (cdim BX k) :=
    fun k hk => (hc.shape k (by omega) (by omega)).2
  obtain ⟨ts, t1, t2, t3⟩ := transposeAll_spec (chainMap f : List (CMat F)) (by
    intro M hM
    obtain ⟨k, hk, rfl⟩ := List.getElem_of_mem hM
    have := (hsh k (by omega)).ok
    rwa [List.getD_eq_getElem?_getD, List.getElem?_eq_getElem hk] at this)
  have key : ∀ k, k ≤ X.maxdim → (ts.getD k ⟨0, []⟩).Shape (cdim BX k) (cdim BY k) ∧ (ts.getD k ⟨0, []⟩).mat (cdim BX k) (cdim BY k) = (cmap (chainMap f) BX BY k)ᵀ := by
    intro k hk
    obtain ⟨q1, q2⟩ := t3 k (by omega)
    have hs := hsh k hk
    rw [hs.nrow, hs.ncol] at q1 q2
    refine ⟨q1, ?_⟩
    ext i j
    exact q2 j i j.2 i.2
  refine ⟨⟨by unfold dgLinearMap; rw [if_pos rfl], hc⟩, ?_, ts, ?_, by rw [t2, hlen], key, ?_⟩
  · intro deg h1 h2
    unfold dgLinearMap
    rw [if_neg h1, if_neg h2]
  · unfold dgLinearMap
    rw [if_neg (by decide), if_pos rfl]
    exact t1
  · intro k hk
    rw [(key k (by omega)).2, (key (k + 1) hk).2, ← Matrix.transpose_mul, ← Matrix.transpose_mul, hc.comm k]

/-! ### diagrams -/

theorem dgLinearFunctor_iff {sc : Schedule} {D : Diagram SCpx (List (CMat Int))} (hs : sc.For D) (hl : D.elist.length = D.edata.length) {deg : Int}
    {TD : Diagram (DGVS F) (List (CMat F))} :
    dgLinearFunctor F sc D deg = .ok TD ↔ ∃ Vs Ms, List.Forall₂ (fun X V => ∃ B : List (CMat F), X.chainComplex = .ok B ∧ DGVS.ofComplex deg false B = .ok V) D.node Vs ∧
      List.Forall₂ (fun f g => dgLinearMap F f deg = .ok g) D.edata Ms ∧ TD = ⟨Vs, Ms, if deg = -1 then D.elist else D.elist.map Prod.swap⟩ := by
  have key : ∀ (X : SCpx) (V : DGVS F), (do let B ← X.chainComplex; DGVS.ofComplex deg false B) = .ok V ↔
      ∃ B : List (CMat F), X.chainComplex = .ok B ∧ DGVS.ofComplex deg false B = .ok V := fun X V => bind_ok_iff
  obtain ⟨E, hE⟩ : ∃ E : Diagram SCpx (List (CMat Int)), E = (if deg = -1 then D else { D with elist := D.elist.map Prod.swap }) := ⟨_, rfl⟩
  have he1 : E.edata = D.edata := by rw [hE]; split <;> rfl
  have he2 : E.elist = if deg = -1 then D.elist else D.elist.map Prod.swap := by rw [hE]; split <;> rfl
  have he3 : E.elist.length = E.edata.length := by rw [he1, he2]; split <;> simp [hl]
  have hsE : sc.edges.Perm (List.range E.edata.length) := by rw [he1]; exact hs.2
  unfold dgLinearFunctor
  rw [← hE, bind_ok_iff, ← he2]
  constructor
  · rintro ⟨T, h1, h2⟩
    obtain ⟨Vs, b1, rfl⟩ := (nodeLoop_iff hs.1 (by simp [Diagram.init])).1 h1
    obtain ⟨ys, y1, y2, rfl⟩ := (edgeLoop_iff hsE he3 (by simp [Diagram.init, he1]) (by simp [Diagram.init, he1])).1 h2
    refine ⟨Vs, ys, b1.imp (fun X V h => (key X V).1 h), ?_, rfl⟩
    rw [← he1, List.forall₂_iff_get]
    refine ⟨y1.symm, ?_⟩
    intro j hj hj'
    obtain ⟨y, e1, e2⟩ := y2 j _ _ (List.getElem?_eq_getElem (by omega)) (List.getElem?_eq_getElem hj)
    rw [List.getElem?_eq_getElem hj'] at e1; cases e1
    exact e2
  · rintro ⟨Vs, Ms, b1, b2, rfl⟩
    refine ⟨_, (nodeLoop_iff hs.1 (by simp [Diagram.init])).2 ⟨Vs, b1.imp (fun X V h => (key X V).2 h), rfl⟩, ?_⟩
    refine (edgeLoop_iff hsE he3 (by simp [Diagram.init, he1]) (by simp [Diagram.init, he1])).2 ⟨Ms, by rw [he1]; exact b2.length_eq.symm, ?_, rfl⟩
    intro j st x h1 h2
    rw [he1] at h2
    obtain ⟨y, y1, y2⟩ := forall2_get b2 h2
    exact ⟨y, y1, y2⟩

/-- C79: the results of the functors do not depend on the schedules of the parallel loops. -/
theorem C79_schedule {sc sc' : Schedule} :
    (∀ {D : Diagram SCpx (List (CMat Int))}, sc.For D → sc'.For D → D.elist.length = D.edata.length → ∀ (deg : Int) (TD : Diagram (DGVS F) (List (CMat F))),
      (dgLinearFunctor F sc D deg = .ok TD ↔ dgLinearFunctor F sc' D deg = .ok TD)) ∧
    (∀ {D : Diagram (DGVS F) (List (CMat F))}, sc.For D → sc'.For D → D.elist.length = D.edata.length → ∀ k HD,
      (dgHom sc D k = .ok HD ↔ dgHom sc' D k = .ok HD)) ∧
    (∀ {D : Diagram (DGVS F) (List (CMat F))}, sc.For D → sc'.For D → D.elist.length = D.edata.length → ∀ topd HD,
      (dgHomAll sc D topd = .ok HD ↔ dgHomAll sc' D topd = .ok HD)) := by
  refine ⟨?_, ?_, ?_⟩
  · intro D h h' hl deg TD
    rw [dgLinearFunctor_iff h hl, dgLinearFunctor_iff h' hl]
  · intro D h h' hl k HD
    unfold dgHom
    rw [loops_iff (g := fun f C C' => dgInducedMap f C C' k) h hl, loops_iff (g := fun f C C' => dgInducedMap f C C' k) h' hl]
  · intro D h h' hl topd HD
    unfold dgHomAll
    rw [bind_ok_iff, bind_ok_iff]
    apply exists_congr
    intro C0
    apply and_congr_right
    intro _
    obtain ⟨m, hm⟩ : ∃ m, m = (if topd then C0.diff.length - 1 else C0.diff.length - 2) := ⟨_, rfl⟩
    rw [← hm]
    by_cases h0 : m = 0
    · rw [if_pos h0, if_pos h0]
    · rw [if_neg h0, if_neg h0]
      rw [loops_iff (g := fun f C C' => dgInducedMaps f C C' m 0) h hl, loops_iff (g := fun f C C' => dgInducedMaps f C C' m 0) h' hl]

/-- C79: `DGLinearFunctor(D, degree)` for a diagram of simplicial complexes: the nodes are the DG vector spaces of the complexes, the data on the edges the linear
maps of the degree; the edges are reversed for degree `+1`. -/
theorem C79_functor {D : Diagram SCpx (List (CMat Int))} (hD : IsSpaceDiagram D) {sc : Schedule} (hs : sc.For D) {deg : Int} (hdeg : deg = -1 ∨ deg = 1) :
    ∃ TD : Diagram (DGVS F) (List (CMat F)), dgLinearFunctor F sc D deg = .ok TD ∧
      List.Forall₂ (fun X V => ∃ B : List (CMat F), X.chainComplex = .ok B ∧ IsChainComplex B ∧ DGVS.ofComplex deg false B = .ok V) D.node TD.node ∧
      List.Forall₂ (fun f g => dgLinearMap F f deg = .ok g) D.edata TD.edata ∧
      TD.elist = if deg = -1 then D.elist else D.elist.map Prod.swap := by
  have hcc : ∀ X ∈ D.node, ∃ B : List (CMat F), X.chainComplex = .ok B ∧ IsChainComplex B := by
    intro X hX
    obtain ⟨B, h, h', _⟩ := C20_chain_complex (F := F) (hD.node X hX).1 (fun s i h1 h2 => ((hD.node X hX).2 s i h1 h2).imp (fun h => ne_of_lt h))
    exact ⟨B, h, h'⟩
  obtain ⟨Vs, hV⟩ := forall2_exists (l := D.node) (R := fun X V => ∃ B : List (CMat F), X.chainComplex = .ok B ∧ IsChainComplex B ∧ DGVS.ofComplex deg false B = .ok V) (by
    intro X hX
    obtain ⟨B, h1, h2⟩ := hcc X hX
    rcases hdeg with rfl | rfl
    · obtain ⟨V, v1, _⟩ := ofComplex_spec false false h2
      exact ⟨_, B, h1, h2, v1⟩
    · obtain ⟨V, v1, _⟩ := ofComplex_spec true false h2
      exact ⟨_, B, h1, h2, v1⟩)
  obtain ⟨Ms, hM⟩ := forall2_exists (l := D.edata) (R := fun f g => dgLinearMap F f deg = .ok g) (by
    intro f hf
    obtain ⟨j, hj, rfl⟩ := List.getElem_of_mem hf
    have hel := hD.edges.len
    obtain ⟨X, Y, x1, y1, hfm⟩ := hD.edges.edge j _ _ (List.getElem?_eq_getElem (by omega)) (List.getElem?_eq_getElem hj)
    obtain ⟨BX, bx, _⟩ := hcc X (List.mem_of_getElem? x1)
    obtain ⟨BY, by1, _⟩ := hcc Y (List.mem_of_getElem? y1)
    obtain ⟨⟨q1, _⟩, _, ts, q2, _⟩ := C79_map (F := F) (hD.node X (List.mem_of_getElem? x1)).1 (hD.node Y (List.mem_of_getElem? y1)).1 hfm bx by1
    rcases hdeg with rfl | rfl
    · exact ⟨_, q1⟩
    · exact ⟨_, q2⟩)
  exact ⟨⟨Vs, Ms, _⟩, (dgLinearFunctor_iff hs hD.edges.len).2 ⟨Vs, Ms, hV.imp (fun X V ⟨B, h1, h2, h3⟩ => ⟨B, h1, h3⟩), hM, rfl⟩, hV, hM, rfl⟩

/-- C79: in degree `-1` the result is the diagram of DG vector spaces over the diagram of chain complexes made by `Chain(D)`. -/
theorem C79_functor_chain {D : Diagram SCpx (List (CMat Int))} (hD : IsSpaceDiagram D) {sc : Schedule} (hs : sc.For D) :
    ∃ (CD : Diagram (List (CMat F)) (List (CMat F))) (TD : Diagram (DGVS F) (List (CMat F))), chainFunctor F sc D = .ok CD ∧ dgLinearFunctor F sc D (-1) = .ok TD ∧
      IsDGDiagram false CD TD := by
  obtain ⟨CD, c1, c2, c3, c4, c5⟩ := C65_chain_functor (F := F) hD hs
  obtain ⟨TD, t1, t2, t3, t4⟩ := C79_functor (F := F) hD hs (deg := -1) (Or.inl rfl)
  rw [if_pos rfl] at t4
  have hz : ∀ (X : SCpx) (B : List (CMat F)), SCpx.Reachable X → X.chainComplex = .ok B → ZeroBdry0 B := by
    intro X B hX hB
    obtain ⟨cells, hI⟩ := hX.inv
    obtain ⟨B', h1, _, h3, _⟩ := chainComplex_spec (F := F) hI
    rw [hB] at h1; cases h1
    exact zeroBdry_simplicial h3
  have hlen := c4.length_eq
  refine ⟨CD, TD, c1, t1, c5, ?_, ?_, ?_, by rw [t4, c2]⟩
  · intro B hB
    obtain ⟨i, hi, rfl⟩ := List.getElem_of_mem hB
    obtain ⟨B', b1, b2⟩ := forall2_get c4 (i := i) (List.getElem?_eq_getElem (by omega))
    rw [List.getElem?_eq_getElem hi] at b1
    have b1' := Option.some.inj b1
    rw [← b1'] at b2
    exact hz _ _ (hD.node _ (List.getElem_mem (by omega : i < D.node.length))).1 b2
  · rw [List.forall₂_iff_get]
    have hl2 := t2.length_eq
    refine ⟨by omega, ?_⟩
    intro i h1 h2
    obtain ⟨B', b1, b2⟩ := forall2_get c4 (i := i) (List.getElem?_eq_getElem (by omega))
    obtain ⟨V', v1, B'', v2, _, v3⟩ := forall2_get t2 (i := i) (List.getElem?_eq_getElem (by omega))
    rw [List.getElem?_eq_getElem h1] at b1
    rw [List.getElem?_eq_getElem h2] at v1
    have b1' := Option.some.inj b1
    have v1' := Option.some.inj v1
    have e : B' = B'' := by rw [b2] at v2; exact Except.ok.inj v2
    show DGVS.ofComplex (-1) false (CD.node[i]) = .ok (TD.node[i])
    rw [b1', v1', e]; exact v3
  · rw [c3]
    apply List.ext_getElem?
    intro j
    have hl3 := t3.length_eq
    by_cases hj : j < D.edata.length
    · obtain ⟨g, g1, g2⟩ := forall2_get t3 (i := j) (List.getElem?_eq_getElem hj)
      rw [g1, List.getElem?_map, List.getElem?_eq_getElem hj]
      unfold dgLinearMap at g2
      rw [if_pos rfl] at g2
      cases g2; rfl
    · rw [List.getElem?_eq_none (by omega), List.getElem?_eq_none (by simp; omega)]

/-- C79: `Hom(D, k)` for a diagram of DG vector spaces of degree `-1`, augmented or not: the nodes are the reduced DG vector spaces, and the matrix on each edge
represents the map on the (reduced) homology. -/
theorem C79_hom {b : Bool} {A : Diagram (List (CMat F)) (List (CMat F))} {D : Diagram (DGVS F) (List (CMat F))} (hD : IsDGDiagram b A D) {sc : Schedule} (hs : sc.For D)
    {k : Nat} (hk : ∀ B ∈ A.node, k < B.length) :
    ∃ HD, dgHom sc D k = .ok HD ∧ HD.elist = D.elist ∧ List.Forall₂ (fun V X => RedDG.mkStd V = .ok X) D.node HD.node ∧ HD.edata.length = D.edata.length ∧
      ∀ (j s t : Nat) (f : List (CMat F)), D.elist[j]? = some (s, t) → D.edata[j]? = some f → ∃ M B B' X X', HD.edata[j]? = some M ∧ A.node[s]? = some B ∧
        A.node[t]? = some B' ∧ HD.node[s]? = some X ∧ HD.node[t]? = some X' ∧ RepresentsOnDGHomology M f B B' X X' k := by
  obtain ⟨Xs, hX⟩ := reduced_nodes hD
  obtain ⟨Ms, h1, h2⟩ := dgHom_data hD hX hk
  have hel : D.elist.length = D.edata.length := by rw [hD.elist, hD.edata]; exact hD.chain.edges.len
  refine ⟨⟨Xs, Ms, D.elist⟩, (loops_iff (g := fun f C C' => dgInducedMap f C C' k) hs hel).2 ⟨Xs, Ms, hX, by rw [hD.edata]; exact h1.len, h2, rfl⟩, rfl, hX,
    by rw [hD.edata]; exact h1.len, ?_⟩
  intro j s t f e1 e2
  obtain ⟨M, X, X', m1, x1, x2, m2⟩ := h2 j _ f e1 e2
  rw [hD.elist] at e1
  rw [hD.edata] at e2
  obtain ⟨B, B', b1, b2, hf⟩ := hD.chain.edges.edge j _ f e1 e2
  obtain ⟨V, Y, v1, y1, v2, y2, _⟩ := reduced_cpx hD hX b1
  obtain ⟨V', Y', v1', y1', v2', y2', _⟩ := reduced_cpx hD hX b2
  rw [x1] at y1; cases y1
  rw [x2] at y1'; cases y1'
  have hm := List.mem_of_getElem? b1
  have hm' := List.mem_of_getElem? b2
  obtain ⟨W, W', Z, Z', w1, w2, z1, z2, hZ⟩ := C79_induced (v := DGVariant.standard) (w := DGVariant.standard) (Or.inl rfl) (Or.inl rfl) (hD.chain.node _ hm)
    (hD.chain.node _ hm') (hD.zero _ hm) (hD.zero _ hm') hf
  rw [v2] at w1; cases w1
  rw [v2'] at w2; cases w2
  have q1 := y2.symm.trans z1
  have q2 := y2'.symm.trans z2
  cases q1; cases q2
  obtain ⟨M', n1, n2⟩ := hZ k (hk _ hm) (hk _ hm')
  rw [m2] at n1; cases n1
  exact ⟨M, B, B', X, X', m1, b1, b2, x1, x2, n2⟩

/-- C79: the barcode of `Hom(D, k)` for a zigzag of DG vector spaces of degree `-1` is an interval decomposition of the zigzag of (reduced) homology groups. -/
theorem C79_barcode {b : Bool} {A : Diagram (List (CMat F)) (List (CMat F))} {D : Diagram (DGVS F) (List (CMat F))} (hD : IsDGDiagram b A D) (hl : A.IsLine)
    {sc : Schedule} (hs : sc.For D) {k : Nat} (hk : ∀ B ∈ A.node, k < B.length) (a : Algo) :
    ∃ HD bars, dgHom sc D k = .ok HD ∧ barcode HD.toDgm k a = .ok (bars.map fun b => ⟨k, b.startInd, some b.stopInd, b.start, some b.stop⟩) ∧
      IsHomologyDecomposition A k bars := by
  obtain ⟨Xs, hX⟩ := reduced_nodes hD
  obtain ⟨Ms, h1, h2⟩ := dgHom_data hD hX hk
  have hel : D.elist.length = D.edata.length := by rw [hD.elist, hD.edata]; exact hD.chain.edges.len
  obtain ⟨bars, b1, _, b2⟩ := C55_decomposition (hom_isZigzag hD.chain hl h1 hk) k a
  refine ⟨⟨Xs, Ms, D.elist⟩, bars, (loops_iff (g := fun f C C' => dgInducedMap f C C' k) hs hel).2 ⟨Xs, Ms, hX, by rw [hD.edata]; exact h1.len, h2, rfl⟩, ?_,
    homology_decomposition hD.chain hl h1 hk b1⟩
  rw [hD.elist]
  exact b2

theorem dgInducedMaps_spec {f : List (CMat F)} {C C' : RedDG F} {M : Nat → CMat F} : ∀ (n k : Nat), (∀ j, k ≤ j → j < k + n → dgInducedMap f C C' j = .ok (M j)) →
    dgInducedMaps f C C' n k = .ok ((List.range' k n).map M)
  | 0, k, _ => rfl
  | n + 1, k, h => by
    rw [dgInducedMaps, h k (by omega) (by omega), bind_ok, dgInducedMaps_spec n (k + 1) (fun j h1 h2 => h j (by omega) (by omega)), bind_ok]
    rfl

theorem ofComplex_length {b : Bool} {B : List (CMat F)} {V : DGVS F} (h : DGVS.ofComplex (-1) b B = .ok V) : V.diff.length = B.length + 1 := by
  cases B with
  | nil => cases h
  | cons B0 Bs =>
    unfold DGVS.ofComplex at h
    have h : (if (-1 : Int) = -1 then _ else _) = Except.ok V := h
    rw [if_pos rfl] at h
    cases h
    simp

/-- C79: `Hom(D, topd)` computes all dimensions of the first DG vector space (without the top one unless `topd`), and its barcodes are, dimension after dimension,
interval decompositions of the zigzags of (reduced) homology groups. -/
theorem C79_all_dimensions {b : Bool} {A : Diagram (List (CMat F)) (List (CMat F))} {D : Diagram (DGVS F) (List (CMat F))} (hD : IsDGDiagram b A D) (hl : A.IsLine)
    {sc : Schedule} (hs : sc.For D) {topd : Bool} {m : Nat} (hm : m = if topd then (A.cpx 0).length else (A.cpx 0).length - 1) (h0 : m ≠ 0)
    (hk : ∀ B ∈ A.node, m ≤ B.length) (a : Algo) :
    ∃ (HD : Diagram (RedDG F) (List (CMat F))) (bars : Nat → List QBar), dgHomAll sc D topd = .ok HD ∧
      barcodeAll HD.toDgmVec a = .ok ((List.range m).flatMap (fun k => (bars k).map fun b => ⟨k, b.startInd, some b.stopInd, b.start, some b.stop⟩)) ∧
      ∀ k, k < m → IsHomologyDecomposition A k (bars k) := by
  have hnodes := hl.nodes
  obtain ⟨Xs, hX⟩ := reduced_nodes hD
  have hone : ∀ k, k < m → ∃ Ms, HomData A (List.zipWith (toCpx b) A.node Xs) k Ms ∧
      (∀ (j : Nat) (st : Nat × Nat) (f : List (CMat F)), D.elist[j]? = some st → D.edata[j]? = some f →
        ∃ M X X', Ms[j]? = some M ∧ Xs[st.1]? = some X ∧ Xs[st.2]? = some X' ∧ dgInducedMap f X X' k = .ok M) :=
    fun k hkm => dgHom_data hD hX (fun B hB => by have := hk B hB; omega)
  choose! M h1 h2 using hone
  have hel : D.elist.length = D.edata.length := by rw [hD.elist, hD.edata]; exact hD.chain.edges.len
  obtain ⟨Ms, hMs⟩ : ∃ Ms, Ms = (List.range D.edata.length).map (fun j => (List.range m).map (fun k => (M k).getD j ⟨0, []⟩)) := ⟨_, rfl⟩
  have hMlen : Ms.length = D.edata.length := by rw [hMs]; simp
  have hget : ∀ j, j < D.edata.length → Ms[j]? = some ((List.range m).map (fun k => (M k).getD j ⟨0, []⟩)) := by
    intro j hj
    rw [hMs, List.getElem?_map, List.getElem?_range hj]; rfl
  have hmap : ∀ k, k < m → Ms.map (fun l => l.getD k ⟨0, []⟩) = M k := by
    intro k hkm
    apply List.ext_getElem?
    intro j
    have hlk := (h1 k hkm).len
    rw [← hD.edata] at hlk
    by_cases hj : j < D.edata.length
    · rw [List.getElem?_map, hget j hj]
      show some (((List.range m).map (fun k => (M k).getD j ⟨0, []⟩)).getD k ⟨0, []⟩) = _
      rw [getD_map_range hkm, List.getD_eq_getElem?_getD, List.getElem?_eq_getElem (by omega)]; rfl
    · rw [List.getElem?_eq_none (by simp; omega), List.getElem?_eq_none (by omega)]
  have hz : ∀ k, k < m → IsZigzag (homDgm A (Ms.map (fun l => l.getD k ⟨0, []⟩))) (homDims A k) := by
    intro k hkm
    rw [hmap k hkm]
    exact hom_isZigzag hD.chain hl (h1 k hkm) (fun B hB => by have := hk B hB; omega)
  have hne : Ms ≠ [] := by
    intro h; rw [h] at hMlen
    have : A.edata.length = 0 := by rw [← hD.edata]; exact hMlen.symm
    exact hl.ne (List.length_eq_zero_iff.1 this)
  have hlenM : ∀ l ∈ Ms, l.length = m := by
    intro l hlm
    rw [hMs] at hlm
    obtain ⟨j, _, rfl⟩ := List.mem_map.1 hlm
    simp
  obtain ⟨bars, b1, b2⟩ := C55_all_dimensions (D := ⟨A.elist, Ms⟩) (d := fun k => homDims A k) (N := m) hne hlenM hz a
  refine ⟨⟨Xs, Ms, D.elist⟩, bars, ?_, by rw [hD.elist]; exact b2, ?_⟩
  · obtain ⟨V, v1, v2⟩ := forall2_get hD.node (cpx_get A (show 0 < A.node.length by omega))
    have hlen := ofComplex_length v2
    unfold dgHomAll
    rw [rd_some v1, bind_ok]
    have hm' : (if topd then V.diff.length - 1 else V.diff.length - 2) = m := by
      rw [hm, hlen]; rfl
    show (if (if topd then V.diff.length - 1 else V.diff.length - 2) = 0 then _ else _) = _
    rw [hm', if_neg h0]
    refine (loops_iff (g := fun f C C' => dgInducedMaps f C C' m 0) hs hel).2 ⟨Xs, Ms, hX, hMlen, ?_, rfl⟩
    intro j st f e1 e2
    have hj := (List.getElem?_eq_some_iff.1 e2).1
    obtain ⟨M0, X, X', _, x1, x2, _⟩ := h2 0 (by omega) j st f e1 e2
    refine ⟨_, X, X', hget j hj, x1, x2, ?_⟩
    rw [dgInducedMaps_spec (M := fun k => (M k).getD j ⟨0, []⟩) m 0 ?_, List.range_eq_range']
    intro k _ hkm
    obtain ⟨M1, Y, Y', q1, y1, y2, q2⟩ := h2 k (by omega) j st f e1 e2
    rw [x1] at y1; cases y1
    rw [x2] at y2; cases y2
    rw [q2, List.getD_eq_getElem?_getD, q1]; rfl
  · intro k hkm
    refine homology_decomposition hD.chain hl (h1 k hkm) (fun B hB => by have := hk B hB; omega) ?_
    have := b1 k hkm
    rw [← hmap k hkm]
    exact this

/-- C79, from spaces to barcodes in degree `-1`: for a zigzag of simplicial complexes, `DGLinearFunctor`, `Hom` and `barcode` give an interval decomposition of the
zigzag of homology groups of the complexes made by `Chain(D)`. -/
theorem C79_spaces {D : Diagram SCpx (List (CMat Int))} (hD : IsSpaceDiagram D) (hl : D.IsLine) {sc : Schedule} (hs : sc.For D) {k : Nat}
    (hk : ∀ X ∈ D.node, k ≤ X.maxdim) (a : Algo) :
    ∃ (CD : Diagram (List (CMat F)) (List (CMat F))) (TD : Diagram (DGVS F) (List (CMat F))) (HD : Diagram (RedDG F) (CMat F)) (bars : List QBar),
      chainFunctor F sc D = .ok CD ∧ dgLinearFunctor F sc D (-1) = .ok TD ∧ dgHom sc TD k = .ok HD ∧
      barcode HD.toDgm k a = .ok (bars.map fun b => ⟨k, b.startInd, some b.stopInd, b.start, some b.stop⟩) ∧
      IsHomologyDecomposition CD k bars := by
  obtain ⟨CD, TD, c1, t1, hDG⟩ := C79_functor_chain (F := F) hD hs
  obtain ⟨CD', c1', c2, c3, c4, c5⟩ := C65_chain_functor (F := F) hD hs
  rw [c1] at c1'; cases c1'
  have hlen := c4.length_eq
  have hlC : CD.IsLine := by
    refine ⟨?_, ?_, ?_, ?_⟩
    · rw [c3]; intro h; exact hl.ne (List.map_eq_nil_iff.1 h)
    · rw [← hlen, c3, List.length_map]; exact hl.nodes
    · rw [c2, c3, List.length_map]; exact hl.len
    · rw [c2, c3, List.length_map]; exact hl.ends
  have hsT : sc.For TD := by
    constructor
    · rw [← hDG.node.length_eq, ← hlen]; exact hs.1
    · rw [hDG.edata, c3, List.length_map]; exact hs.2
  have hkC : ∀ B ∈ CD.node, k < B.length := by
    intro B hB
    obtain ⟨i, hi, rfl⟩ := List.getElem_of_mem hB
    obtain ⟨B', b1, b2⟩ := forall2_get c4 (i := i) (List.getElem?_eq_getElem (by omega))
    rw [List.getElem?_eq_getElem hi] at b1
    have b1' := Option.some.inj b1
    rw [b1', cpx_length (hD.node _ (List.getElem_mem (by omega : i < D.node.length))).1 b2]
    have := hk _ (List.getElem_mem (by omega : i < D.node.length))
    omega
  obtain ⟨HD, bars, h1, h2, h3⟩ := C79_barcode hDG hlC hsT hkC a
  exact ⟨CD, TD, HD, bars, c1, t1, h1, h2, h3⟩

/-- C79: `chain_preferred_representative` of a DG vector space of degree `-1` with basis: it is canonical as in C39. -/
theorem C79_preferred {v : DGVariant} (hv : v.withBasis) {b : Bool} {A : List (CMat F)} (hA : IsChainComplex A) (h0 : Degree0 b A) :
    ∃ V X, DGVS.ofComplex (-1) b A = .ok V ∧ v.reduce V = .ok X ∧
      ∀ (k : Nat) (c : SVec F), k < A.length → VecOK c → Below (cdim A k) c →
        ∃ r, X.chainPreferredRepresentative c k = .ok r ∧ VecOK r ∧ Below (cdim A k) r ∧
          vecOf (cdim A k) c - vecOf (cdim A k) r ∈ boundaries A k ∧
          (r = [] ↔ vecOf (cdim A k) c ∈ boundaries A k) ∧
          X.chainPreferredRepresentative r k = .ok r ∧
          ∀ c', VecOK c' → Below (cdim A k) c' →
            (X.chainPreferredRepresentative c' k = .ok r ↔ vecOf (cdim A k) c - vecOf (cdim A k) c' ∈ boundaries A k) := by
  obtain ⟨D, X, y1, y2, y3, y4⟩ := degree0_basis v hv b hA h0
  refine ⟨_, X, y1, y2, fun k c hk hc hb => ?_⟩
  have heq : ∀ c, VecOK c → Below (cdim A k) c → X.chainPreferredRepresentative c k = (toCpx b A X).chainPreferredRepresentative c k := by
    intro c hc hb
    have hd : X.degree = -1 := y3.tab.deg
    have ho : X.offset k = k := by unfold RedDG.offset; rw [if_pos hd]
    have hU : rd X.U k = .ok (X.U.getD k ⟨0, []⟩) := rd_getD _ (by rw [y3.lenU]; omega)
    have hU1 : rd (toCpx b A X).U k = .ok (X.U.getD k ⟨0, []⟩) := rd_map_range hk _
    have hfac := y3.fac k (by omega)
    obtain ⟨x, x1, x2, x3, x4⟩ := uSolve_spec (n := cdim A k) hfac.shape hfac.upper hc hb
    unfold RedDG.chainPreferredRepresentative RedCpx.chainPreferredRepresentative RedCpx.toHomBasis RedCpx.fromHomBasis RedDG.findPreferredRepresentative
    rw [hU, hU1, bind_ok, bind_ok, x1, bind_ok, bind_ok, ho, findPref_eq hA y3 hk x2 x3]
  obtain ⟨r, r1, r2, r3, r4, r5, r6, r7⟩ := canonical_of_basis hA y4 hk hc hb
  refine ⟨r, by rw [heq c hc hb, r1], r2, r3, r4, r5, by rw [heq r r2 r3, r6], fun c' h1 h2 => ?_⟩
  rw [heq c' h1 h2]; exact r7 c' h1 h2

/-- C79: `induced_map` of DG vector spaces of different degrees throws. -/
theorem C79_degrees (f : List (CMat F)) (X X' : RedDG F) (k : Nat) (h : X.degree ≠ X'.degree) : dgInducedMap f X X' k = .error .thrown := by
  unfold dgInducedMap
  rw [if_pos h]

/-! ### examples -/

/-- two circles and the rotation, as a diagram -/
def rotationDiagram : Diagram (List (CMat ℚ)) (List (CMat ℚ)) := ⟨[circleQ, circleQ], [rotationQ], [(1, 0)]⟩

theorem rotationDiagram_ok : IsChainDiagram rotationDiagram ∧ rotationDiagram.IsLine := by
  refine ⟨⟨?_, rfl, ?_⟩, ⟨by simp [rotationDiagram], rfl, rfl, ?_⟩⟩
  · intro B hB
    have : B = circleQ := by simpa [rotationDiagram] using hB
    rw [this]; exact circleQ_complex
  · intro j st f h1 h2
    have hj : j = 0 := by
      have := (List.getElem?_eq_some_iff.1 h1).1
      simp [rotationDiagram] at this
      exact this
    subst hj
    cases h1; cases h2
    exact ⟨circleQ, circleQ, rfl, rfl, rotationQ_chainMap⟩
  · intro k hk
    have : k = 0 := by simp [rotationDiagram] at hk; exact hk
    subst this
    left; rfl

/-- the hypotheses of the theorems about diagrams are met -/
example : ∃ D, IsDGDiagram false rotationDiagram D ∧ rotationDiagram.IsLine ∧ Schedule.For ⟨[1, 0], [0]⟩ D ∧ (∀ B ∈ rotationDiagram.node, 1 < B.length) ∧
    (dgHom ⟨[1, 0], [0]⟩ D 1).bind (fun HD => .ok HD.edata) = .ok [⟨1, [[(0, 1)]]⟩] := by
  refine ⟨⟨[⟨-1, [⟨0, [[], [], []]⟩, circleQ.getD 1 ⟨0, []⟩, ⟨3, []⟩]⟩, ⟨-1, [⟨0, [[], [], []]⟩, circleQ.getD 1 ⟨0, []⟩, ⟨3, []⟩]⟩], [rotationQ], [(1, 0)]⟩, ⟨rotationDiagram_ok.1, ?_,
    .cons (by decide +kernel) (.cons (by decide +kernel) .nil), rfl, rfl⟩, rotationDiagram_ok.2, ⟨by decide, by decide⟩, ?_, by decide +kernel⟩
  · intro B hB
    have : B = circleQ := by simpa [rotationDiagram] using hB
    rw [this]; exact circleQ_zero
  · intro B hB
    have : B = circleQ := by simpa [rotationDiagram] using hB
    rw [this]; decide

example : ∃ D : Diagram SCpx (List (CMat Int)), IsSpaceDiagram D ∧ D.IsLine ∧ Schedule.For ⟨[2, 0, 1], [1, 0]⟩ D ∧ ∀ X ∈ D.node, 1 ≤ X.maxdim := by
  obtain ⟨D, h1, h2, _, h3, _, _, h4, _⟩ := zigzag_of_spaces
  exact ⟨D, h1, h2, h4, fun X hX => by rw [h3 X hX]⟩

/-- the augmented complex and the rotation of the circle -/
example : IsChainComplex circleQ ∧ Augmentable circleQ ∧ IsChainMap rotationQ circleQ circleQ ∧ (∀ j : Fin 3, ∑ i : Fin 3, cmap rotationQ circleQ circleQ 0 i j = 1) ∧
    ((DGVS.ofComplex (-1) true circleQ).bind fun V => (RedDG.mkStd V).bind fun X => dgInducedMap rotationQ X X 0) = .ok ⟨0, []⟩ ∧
    ((DGVS.ofComplex (-1) true circleQ).bind fun V => (RedDG.mkStd V).bind fun X => dgInducedMap rotationQ X X 1) = .ok ⟨1, [[(0, 1)]]⟩ :=
  ⟨circleQ_complex, circleQ_aug, rotationQ_chainMap, by decide +kernel, by decide +kernel, by decide +kernel⟩

/-- the transposes of the rotation: the linear map of degree `+1` -/
def rotationT : List (CMat ℚ) := [⟨3, [[(2, 1)], [(0, 1)], [(1, 1)]]⟩, ⟨3, [[(1, -1)], [(2, -1)], [(0, 1)]]⟩]

/-- C79: in degree `+1` induced maps are wrong: `find_preferred_representative` looks up the pivots of the wrong coboundary matrix. The rotation of the circle is an
automorphism (its cube is the identity), so that it induces an isomorphism on cohomology; on the one-dimensional `H^1` the call returns the zero matrix. -/
theorem C79_cohomology_wrong :
    DGVS.transposeAll rotationQ = .ok rotationT ∧
    (∀ k, k < 2 → cmap rotationQ circleQ circleQ k * cmap rotationQ circleQ circleQ k * cmap rotationQ circleQ circleQ k = 1) ∧
    ((DGVS.ofComplex 1 false circleQ).bind fun V => (RedDG.mkStd V).bind fun X => X.hdim 1) = .ok 1 ∧
    ((DGVS.ofComplex 1 false circleQ).bind fun V => (RedDG.mkStd V).bind fun X => dgInducedMap rotationT X X 1) = .ok ⟨1, [[]]⟩ := by
  refine ⟨by decide +kernel, ?_, by decide +kernel, by decide +kernel⟩
  intro k hk
  interval_cases k <;> decide +kernel

/-- C79: in degree `+1`, `chain_preferred_representative` is not canonical: the coboundary of a vertex of the circle is returned unchanged, although it represents zero
(`find_preferred_representative` looks up the pivots of the next coboundary matrix, here an empty one), and in degree 0 the basis of the wrong space is used. -/
theorem C79_preferred_cohomology_wrong :
    ((DGVS.ofComplex 1 false circleQ).bind fun V => .ok (V.diff.getD 1 ⟨0, []⟩).cols) = .ok [[(0, -1), (1, -1)], [(0, 1), (2, -1)], [(1, 1), (2, 1)]] ∧
    ((DGVS.ofComplex 1 false circleQ).bind fun V => (RedDG.mkStd V).bind fun X => X.chainPreferredRepresentative [(0, -1), (1, -1)] 1) = .ok [(0, -1), (1, -1)] ∧
    ((DGVS.ofComplex 1 false circleQ).bind fun V => (RedDG.mkStd V).bind fun X => X.findPreferredRepresentative [(2, 1)] 0) = .ok [(2, 1)] ∧
    ((DGVS.ofComplex 1 false circleQ).bind fun V => (RedDG.mkStd V).bind fun X => X.chainPreferredRepresentative [(0, 1)] 0) = .error .ub := by
  refine ⟨by decide +kernel, by decide +kernel, by decide +kernel, by decide +kernel⟩

end BATS
