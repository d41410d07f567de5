import Verif.Proofs.SimplicialMap

set_option linter.unusedSectionVars false
set_option linter.unusedSimpArgs false
set_option linter.unusedVariables false

/-! # Simplicial maps: composition, inclusion, identity, failure -/

namespace BATS
namespace SMap
open Reduction SCpx

variable {F : Type} [Field F] [DecidableEq F]

section comp
variable {X Y Z : SCpx} {cX cY cZ : Cells} {f0 g0 h0 : List Nat} {f g h : List (CMat Int)} {BX BY BZ : List (CMat F)}

/-- `h0` is the composite of the vertex maps on the vertices of `X` -/
def Composite (h0 f0 g0 : List Nat) (cX : Cells) : Prop :=
  ∀ d x, x ∈ cX d → ∀ v ∈ x, v < h0.length ∧ h0.getD v 0 = g0.getD (f0.getD v 0) 0

theorem Composite.map (hc : Composite h0 f0 g0 cX) {d : Nat} {x : List Nat} (hx : x ∈ cX d) :
    x.map (fun v => h0.getD v 0) = (x.map (fun v => f0.getD v 0)).map (fun v => g0.getD v 0) := by
  rw [List.map_map]
  apply List.map_congr_left
  intro v hv
  exact (hc d x hx v hv).2

theorem exists_sorted_perm {s : List Nat} (hn : s.Nodup) : ∃ a : List Nat, a.Perm s ∧ a.Pairwise (· < ·) := by
  obtain ⟨sg, a, _, h2, _, h4, _⟩ := simplexSign_spec s rfl
  exact ⟨a, h2, (h4 hn).1⟩

theorem MapsTo.comp (hf : MapsTo f0 cX cY) (hg : MapsTo g0 cY cZ) (hc : Composite h0 f0 g0 cX) : MapsTo h0 cX cZ := by
  intro d x hx
  refine ⟨fun v hv => (hc d x hx v hv).1, ?_⟩
  intro hn t htp hts
  rw [hc.map hx] at hn htp
  have hn' := List.Nodup.of_map _ hn
  obtain ⟨a, a1, a2⟩ := exists_sorted_perm hn'
  have ha := (hf d x hx).2 hn' a a1 a2
  have hp := a1.map (fun v => g0.getD v 0)
  exact (hg d a ha).2 (hp.nodup_iff.2 hn) t (htp.trans hp.symm) hts

theorem getD_map' (s : List Nat) (φ : Nat → Nat) {i : Nat} (hi : i < s.length) : (s.map φ).getD i 0 = φ (s.getD i 0) := by
  rw [List.getD_eq_getElem?_getD, List.getElem?_map, List.getD_eq_getElem?_getD, List.getElem?_eq_getElem hi]; rfl

/-- composition of simplicial maps is the product of their matrices -/
theorem MapOK.comp (hX : Inv X cX) (hY : Inv Y cY) (hZ : Inv Z cZ) (hf : MapsTo f0 cX cY) (hg : MapsTo g0 cY cZ) (hc : Composite h0 f0 g0 cX)
    (kf : MapOK f Y f0 cX cY X.ncells.length) (kg : MapOK g Z g0 cY cZ Y.ncells.length) (kh : MapOK h Z h0 cX cZ X.ncells.length)
    (hcX : ∀ k, cdim BX k = (cX k).length) (hcY : ∀ k, cdim BY k = (cY k).length) (hcZ : ∀ k, cdim BZ k = (cZ k).length) (k : Nat) :
    BATS.cmap (chainMap h) BX BZ k = BATS.cmap (chainMap g) BY BZ k * BATS.cmap (chainMap f) BX BY k := by
  ext i j
  rw [Matrix.mul_apply]
  have hj : j.1 < (cX k).length := by rw [← hcX]; exact j.2
  have hi : i.1 < (cZ k).length := by rw [← hcZ]; exact i.2
  obtain ⟨x, hx⟩ : ∃ x, (cX k)[j.1]? = some x := ⟨_, List.getElem?_eq_getElem hj⟩
  obtain ⟨t, ht⟩ : ∃ t, (cZ k)[i.1]? = some t := ⟨_, List.getElem?_eq_getElem hi⟩
  have hxm := List.mem_of_getElem? hx
  have htm := List.mem_of_getElem? ht
  have hxl := hX.ok.len _ _ hxm
  have htl := hZ.ok.len _ _ htm
  rw [kh.cmap hX hZ (hf.comp hg hc) i j hx ht, hc.map hxm]
  set s := x.map (fun v => f0.getD v 0) with hs
  have hsl : s.length = k + 1 := by rw [hs, List.length_map]; exact hxl
  have hcc : ∀ l : Fin (cdim BY k), ∃ τ, (cY k)[l.1]? = some τ ∧ τ.length = k + 1 ∧ BATS.cmap (chainMap f) BX BY k l j = orient F (k + 1) s τ := by
    intro l
    have hl : l.1 < (cY k).length := by rw [← hcY]; exact l.2
    refine ⟨(cY k)[l.1], List.getElem?_eq_getElem hl, hY.ok.len _ _ (List.getElem_mem _), ?_⟩
    exact kf.cmap hX hY hf l j hx (List.getElem?_eq_getElem hl)
  rcases orient_cases F hsl with ⟨hn, h0⟩ | ⟨hn, a, σ, ap, al, as, aσ, ao⟩
  · rw [Finset.sum_eq_zero]
    · have hn2 : ¬ (s.map (fun v => g0.getD v 0)).Nodup := fun hh => hn (List.Nodup.of_map _ hh)
      rcases orient_cases F (show (s.map (fun v => g0.getD v 0)).length = k + 1 by rw [List.length_map]; exact hsl) with ⟨_, h0'⟩ | ⟨hh, _⟩
      · exact h0' t
      · exact absurd hh hn2
    · intro l _
      obtain ⟨τ, _, _, e⟩ := hcc l
      rw [e, h0, mul_zero]
  · have ham : a ∈ cY k := (hf k x hxm).2 hn a ap as
    have hlt : (cY k).idxOf a < cdim BY k := by rw [hcY]; exact List.idxOf_lt_length_iff.2 ham
    have hgt : (cY k)[(cY k).idxOf a]? = some a := by
      rw [List.getElem?_eq_getElem (List.idxOf_lt_length_iff.2 ham), List.getElem_idxOf]
    rw [Finset.sum_eq_single (⟨_, hlt⟩ : Fin (cdim BY k))]
    · rw [kf.cmap hX hY hf _ j hx (by exact hgt), ao a al, if_pos rfl, mul_one, kg.cmap hY hZ hg i _ (by exact hgt) ht]
      unfold orient
      by_cases hp : t.Pairwise (· < ·)
      · rw [if_pos hp, if_pos hp, mul_comm]
        apply dl_perm σ
        intro m
        clear_value s
        have e1 := getD_map' s (fun v => g0.getD v 0) (i := m.1) (by rw [hsl]; exact m.2)
        have e2 := getD_map' a (fun v => g0.getD v 0) (i := (σ m).1) (by rw [al]; exact (σ m).2)
        rw [e1, e2, aσ m]
      · rw [if_neg hp, if_neg hp, zero_mul]
    · intro b _ hb
      obtain ⟨τ, τ1, τ2, e⟩ := hcc b
      rw [e, ao τ τ2, if_neg, mul_zero, mul_zero]
      rintro rfl
      apply hb
      apply Fin.ext
      exact ((idxOf_eq_iff hY.ok τ1 ham).2 rfl).symm
    · intro h; exact absurd (Finset.mem_univ _) h

end comp

/-! ### failure -/

section fail
variable {X Y : SCpx} {cX cY : Cells} {f0 : List Nat}

theorem column_thrown (h : Inv Y cY) {d : Nat} {s : List Nat} (hs : s.length = d + 1) (hn : s.Nodup)
    (hm : ∃ t : List Nat, t.Perm s ∧ t.Pairwise (· < ·) ∧ t ∉ cY d) : column Y s = .error .thrown := by
  obtain ⟨sg, t, t1, t2, t3, t4, t5⟩ := simplexSign_spec s hs
  obtain ⟨t6, σ, h1, h2⟩ := t4 hn
  obtain ⟨t', p1, p2, p3⟩ := hm
  have e : t' = t := by
    apply (p1.trans t2.symm).eq_of_pairwise (le := (· ≤ ·)) (fun a b _ _ => le_antisymm) (p2.imp le_of_lt) (t6.imp le_of_lt)
  subst e
  have hne : sg ≠ 0 := by rw [h1]; exact sign_ne_zero σ
  have hfi : Y.findIdx t' = none := by
    rcases hfi : Y.findIdx t' with _ | j
    · rfl
    · exfalso
      have hl : t'.length = d + 1 := by rw [p1.length_eq, hs]
      have := (h.trie t' (by rintro rfl; simp at hl) j).1 hfi
      rw [show t'.length - 1 = d by omega] at this
      exact p3 (List.mem_of_getElem? this)
  unfold column
  rw [t1, bind_ok]
  simp only [ne_eq, hne, not_false_eq_true, if_true, hfi]

/-- the simplex is sent into `Y` -/
def Goes (f0 : List Nat) (cY : Cells) (d : Nat) (x : List Nat) : Prop :=
  (x.map (fun v => f0.getD v 0)).Nodup → ∀ t : List Nat, t.Perm (x.map (fun v => f0.getD v 0)) → t.Pairwise (· < ·) → t ∈ cY d

theorem columns_thrown (hX : Inv X cX) (hY : Inv Y cY) {k : Nat} (hv : ∀ x ∈ cX k, ∀ v ∈ x, v < f0.length) :
    ∀ (n i : Nat), i + n ≤ (cX k).length → (∃ (j : Nat) (x : List Nat), i ≤ j ∧ j < i + n ∧ (cX k)[j]? = some x ∧ ¬ Goes f0 cY k x) →
      columns X Y f0 k n i = .error .thrown
  | 0, i, _, ⟨j, x, h1, h2, _⟩ => by omega
  | n + 1, i, h, ⟨j, x, h1, h2, h3, h4⟩ => by
    have hi : i < (cX k).length := by omega
    have hx : (cX k)[i]? = some ((cX k)[i]'hi) := List.getElem?_eq_getElem _
    have hl : (((cX k)[i]'hi).map (fun v => f0.getD v 0)).length = k + 1 := by
      rw [List.length_map]; exact hX.ok.len k _ (List.mem_of_getElem? hx)
    rw [columns, Filt.getSimplex_eq hX hx, bind_ok, image_spec f0 _ (hv _ (List.mem_of_getElem? hx)), bind_ok]
    by_cases hg : Goes f0 cY k ((cX k)[i]'hi)
    · obtain ⟨c, d1, _⟩ := column_spec (F := ℚ) hY hl hg
      have hij : i ≠ j := by
        rintro rfl
        rw [hx] at h3
        exact h4 (Option.some.inj h3 ▸ hg)
      rw [d1, bind_ok, columns_thrown hX hY hv n (i + 1) (by omega) ⟨j, x, by omega, by omega, h3, h4⟩]; rfl
    · unfold Goes at hg
      push Not at hg
      obtain ⟨hn, t, ht1, ht2, ht3⟩ := hg
      rw [column_thrown hY hl hn ⟨t, ht1, ht2, ht3⟩]; rfl

theorem levels_thrown (hX : Inv X cX) (hY : Inv Y cY) (hv : ∀ d, ∀ x ∈ cX d, ∀ v ∈ x, v < f0.length) (hd : X.ncells.length ≤ Y.ncells.length) :
    ∀ (n k : Nat), k + n ≤ X.ncells.length → (∃ d x, k ≤ d ∧ d < k + n ∧ x ∈ cX d ∧ ¬ Goes f0 cY d x) → levels X Y f0 n k = .error .thrown
  | 0, k, _, ⟨d, x, h1, h2, _⟩ => by omega
  | n + 1, k, h, ⟨d, x, h1, h2, h3, h4⟩ => by
    rw [levels]
    unfold SCpx.numCells
    rw [rd_some (hX.dim k (by omega)).nc, bind_ok]
    by_cases hg : ∀ x ∈ cX k, Goes f0 cY k x
    · have hkd : k ≠ d := by rintro rfl; exact h4 (hg x h3)
      have hc : ∃ cs, columns X Y f0 k (cX k).length 0 = .ok cs := by
        have : ∀ (n i : Nat), i + n ≤ (cX k).length → ∃ cs, columns X Y f0 k n i = .ok cs := by
          intro n
          induction n with
          | zero => intro i _; exact ⟨[], rfl⟩
          | succ n ih =>
            intro i hi
            obtain ⟨cs, hcs⟩ := ih (i + 1) (by omega)
            have hi' : i < (cX k).length := by omega
            have hx : (cX k)[i]? = some ((cX k)[i]'hi') := List.getElem?_eq_getElem _
            have hl : (((cX k)[i]'hi').map (fun v => f0.getD v 0)).length = k + 1 := by
              rw [List.length_map]; exact hX.ok.len k _ (List.mem_of_getElem? hx)
            obtain ⟨c, d1, _⟩ := column_spec (F := ℚ) hY hl (hg _ (List.mem_of_getElem? hx))
            refine ⟨c :: cs, ?_⟩
            rw [columns, Filt.getSimplex_eq hX hx, bind_ok, image_spec f0 _ (hv k _ (List.mem_of_getElem? hx)), bind_ok, d1, bind_ok, hcs, bind_ok]; rfl
        exact this _ 0 (by omega)
      obtain ⟨cs, hcs⟩ := hc
      rw [hcs, bind_ok, rd_some (hY.dim k (by omega)).nc, bind_ok,
        levels_thrown hX hY hv hd n (k + 1) (by omega) ⟨d, x, by omega, by omega, h3, h4⟩]; rfl
    · push Not at hg
      obtain ⟨x', hx', hg'⟩ := hg
      obtain ⟨j, hj, e⟩ := List.mem_iff_getElem.1 hx'
      rw [columns_thrown hX hY (hv k) _ 0 (by omega) ⟨j, x', by omega, by omega, by rw [List.getElem?_eq_getElem hj, e], hg'⟩]; rfl

theorem simplicialMap_thrown (hX : Inv X cX) (hY : Inv Y cY) (hv : ∀ d, ∀ x ∈ cX d, ∀ v ∈ x, v < f0.length) (hd : X.ncells.length ≤ Y.ncells.length)
    (hm : ¬ MapsTo f0 cX cY) : simplicialMap X Y f0 = .error .thrown := by
  have hne := hX.sizes.ne
  have hex : ∃ d x, x ∈ cX d ∧ ¬ Goes f0 cY d x := by
    by_contra hc
    push Not at hc
    exact hm (fun d x hx => ⟨hv d x hx, hc d x hx⟩)
  obtain ⟨d, x, hx, hg⟩ := hex
  have hdl : d < X.ncells.length := by
    by_contra hc
    rw [hX.top d (by omega)] at hx; simp at hx
  unfold simplicialMap SCpx.maxdim
  exact levels_thrown hX hY hv hd _ 0 (by omega) ⟨d, x, by omega, by omega, hx, hg⟩

/-- a source with more dimensions than the target -/
theorem simplicialMap_ub (hX : Inv X cX) (hY : Inv Y cY) (hf : MapsTo f0 cX cY) (hd : Y.ncells.length < X.ncells.length) :
    simplicialMap X Y f0 = .error .ub := by
  have key : ∀ (n k : Nat), k + n = X.ncells.length → k ≤ Y.ncells.length → levels X Y f0 n k = .error .ub := by
    intro n
    induction n with
    | zero => intro k h1 h2; omega
    | succ n ih =>
      intro k h1 h2
      obtain ⟨cs, c1, _⟩ := columns_spec hX hY hf (k := k) (cX k).length 0 (by omega)
      rw [levels]
      unfold SCpx.numCells
      rw [rd_some (hX.dim k (by omega)).nc, bind_ok, c1, bind_ok]
      by_cases hk : k < Y.ncells.length
      · rw [rd_some (hY.dim k hk).nc, bind_ok, ih (k + 1) (by omega) (by omega)]; rfl
      · have : rd Y.ncells k = .error .ub := by unfold rd; rw [List.getElem?_eq_none (by omega)]
        rw [this]; rfl
  have hne := hX.sizes.ne
  unfold simplicialMap SCpx.maxdim
  exact key _ 0 (by omega) (by omega)

end fail

/-! ### inclusions and the identity -/

section inc
variable {X Y : SCpx} {cX cY : Cells}

theorem incColumns_spec (hX : Inv X cX) (hY : Inv Y cY) {k : Nat} (hs : ∀ x ∈ cX k, x ∈ cY k) :
    ∀ (n i : Nat), i + n ≤ (cX k).length →
      incColumns X Y k n i = .ok ((((cX k).drop i).take n).map (fun x => [((cY k).idxOf x, 1)]))
  | 0, i, _ => by rw [incColumns, List.take_zero]; rfl
  | n + 1, i, h => by
    have hi : i < (cX k).length := by omega
    have hx : (cX k)[i]? = some ((cX k)[i]'hi) := List.getElem?_eq_getElem _
    obtain ⟨j, j1, j2⟩ := findIdx_cell hY (hs _ (List.mem_of_getElem? hx))
    rw [incColumns, Filt.getSimplex_eq hX hx, bind_ok]
    simp only [j1]
    rw [incColumns_spec hX hY hs n (i + 1) (by omega), bind_ok, List.drop_eq_getElem_cons hi, List.take_succ_cons, List.map_cons]
    rw [(idxOf_eq_iff hY.ok j2 (hs _ (List.mem_of_getElem? hx))).2 rfl]; rfl

theorem incLevels_spec (hX : Inv X cX) (hY : Inv Y cY) (hs : ∀ d, ∀ x ∈ cX d, x ∈ cY d) (hd : X.ncells.length ≤ Y.ncells.length) :
    ∀ (n k : Nat), k + n ≤ X.ncells.length →
      incLevels X Y n k = .ok ((List.range n).map (fun j => (⟨(cY (k + j)).length, (cX (k + j)).map (fun x => [((cY (k + j)).idxOf x, 1)])⟩ : CMat Int)))
  | 0, k, _ => rfl
  | n + 1, k, h => by
    rw [incLevels]
    unfold SCpx.numCells
    rw [rd_some (hX.dim k (by omega)).nc, bind_ok, incColumns_spec hX hY (hs k) _ 0 (by omega), bind_ok, rd_some (hY.dim k (by omega)).nc, bind_ok,
      incLevels_spec hX hY hs hd n (k + 1) (by omega), bind_ok]
    rw [List.range_succ_eq_map, List.map_cons, List.map_map, List.drop_zero, List.take_length]
    show Except.ok _ = Except.ok _
    congr 2
    apply List.map_congr_left
    intro j _
    simp only [Function.comp]
    rw [show k + 1 + j = k + j.succ by omega]

/-- the matrices of an inclusion -/
def incMaps (cX cY : Cells) (n : Nat) : List (CMat Int) :=
  (List.range n).map (fun k => (⟨(cY k).length, (cX k).map (fun x => [((cY k).idxOf x, 1)])⟩ : CMat Int))

theorem inclusion_spec (hX : Inv X cX) (hY : Inv Y cY) (hs : ∀ d, ∀ x ∈ cX d, x ∈ cY d) (hd : X.ncells.length ≤ Y.ncells.length) :
    inclusion X Y = .ok (incMaps cX cY X.ncells.length) := by
  have hne := hX.sizes.ne
  unfold inclusion SCpx.maxdim
  rw [show X.ncells.length - 1 + 1 = X.ncells.length by omega, incLevels_spec hX hY hs hd _ 0 (by omega)]
  unfold incMaps
  congr 1
  apply List.map_congr_left
  intro k _
  rw [Nat.zero_add]

theorem identityLevels_spec (hX : Inv X cX) : ∀ (n k : Nat), k + n ≤ X.ncells.length →
      identityLevels X n k = .ok ((List.range n).map (fun j => (⟨(cX (k + j)).length, (cX (k + j)).map (fun x => [((cX (k + j)).idxOf x, 1)])⟩ : CMat Int)))
  | 0, k, _ => rfl
  | n + 1, k, h => by
    rw [identityLevels]
    unfold SCpx.numCells
    rw [rd_some (hX.dim k (by omega)).nc, bind_ok, identityLevels_spec hX n (k + 1) (by omega), bind_ok]
    rw [List.range_succ_eq_map, List.map_cons, List.map_map]
    show Except.ok _ = Except.ok _
    congr 2
    · congr 1
      apply List.ext_getElem (by simp)
      intro i h1 h2
      simp only [List.getElem_map, List.getElem_range, Nat.add_zero]
      rw [(hX.ok.nodup k).idxOf_getElem]
    · apply List.map_congr_left
      intro j _
      simp only [Function.comp]
      rw [show k + 1 + j = k + j.succ by omega]

/-- the identity is the inclusion of a complex into itself -/
theorem identity_spec (hX : Inv X cX) : identity X = .ok (incMaps cX cX X.ncells.length) := by
  have hne := hX.sizes.ne
  unfold identity SCpx.maxdim
  rw [show X.ncells.length - 1 + 1 = X.ncells.length by omega, identityLevels_spec hX _ 0 (by omega)]
  unfold incMaps
  congr 1
  apply List.map_congr_left
  intro k _
  rw [Nat.zero_add]

theorem incMaps_getD {n k : Nat} (hk : k < n) :
    (chainMap (incMaps cX cY n) : List (CMat F)).getD k ⟨0, []⟩ = ⟨(cY k).length, (cX k).map (fun x => [((cY k).idxOf x, (1 : F))])⟩ := by
  unfold chainMap incMaps
  rw [List.getD_eq_getElem?_getD, List.getElem?_map, List.getElem?_map, List.getElem?_range hk]
  show (⟨(cY k).length, ((cX k).map (fun x => [((cY k).idxOf x, (1 : Int))])).map (castVec F)⟩ : CMat F) = _
  rw [List.map_map]
  congr 1
  apply List.map_congr_left
  intro x _
  simp [castVec]

theorem incMaps_shape (hs : ∀ d, ∀ x ∈ cX d, x ∈ cY d) {n k : Nat} (hk : k < n) :
    ((chainMap (incMaps cX cY n) : List (CMat F)).getD k ⟨0, []⟩).Shape (cY k).length (cX k).length := by
  rw [incMaps_getD hk]
  refine ⟨?_, rfl, List.length_map _⟩
  intro c hc
  obtain ⟨x, hx, rfl⟩ := List.mem_map.1 hc
  refine ⟨⟨sorted_cons.2 ⟨by simp, sorted_nil⟩, ?_⟩, ?_⟩
  · intro q hq
    rw [List.mem_singleton] at hq
    rw [hq]; exact one_ne_zero
  · intro q hq
    rw [List.mem_singleton] at hq
    rw [hq]; exact List.idxOf_lt_length_iff.2 (hs k x hx)

variable {BX BY : List (CMat F)}

theorem incMaps_cmap (hX : Inv X cX) (hY : Inv Y cY) (hs : ∀ d, ∀ x ∈ cX d, x ∈ cY d) {k : Nat} (i : Fin (cdim BY k)) (j : Fin (cdim BX k))
    {x t : List Nat} (hx : (cX k)[j.1]? = some x) (ht : (cY k)[i.1]? = some t) :
    BATS.cmap (chainMap (incMaps cX cY X.ncells.length)) BX BY k i j = if x = t then 1 else 0 := by
  have hk : k < X.ncells.length := by
    by_contra hc
    rw [hX.top k (by omega)] at hx; simp at hx
  show coef (((chainMap (incMaps cX cY X.ncells.length) : List (CMat F)).getD k ⟨0, []⟩).cols.getD j []) i = _
  rw [incMaps_getD hk]
  show coef (((cX k).map (fun x => [((cY k).idxOf x, (1 : F))])).getD j []) i = _
  rw [List.getD_eq_getElem?_getD, List.getElem?_map, hx]
  show (if (cY k).idxOf x = i.1 then (1 : F) else 0) + 0 = _
  rw [add_zero]
  have := idxOf_eq_iff hY.ok ht (hs k x (List.mem_of_getElem? hx))
  by_cases e : x = t
  · rw [if_pos e, if_pos (this.2 e)]
  · rw [if_neg e, if_neg (fun h => e (this.1 h))]

/-- inclusions commute with the boundary matrices -/
theorem incMaps_comm (hX : Inv X cX) (hY : Inv Y cY) (hs : ∀ d, ∀ x ∈ cX d, x ∈ cY d)
    (hcX : ∀ k, cdim BX k = (cX k).length) (hcY : ∀ k, cdim BY k = (cY k).length)
    (hbX : ∀ d, d + 1 < X.ncells.length → ∃ M, BX[d + 1]? = some M ∧ BdMat cX d M)
    (hbY : ∀ d, d + 1 < Y.ncells.length → ∃ M, BY[d + 1]? = some M ∧ BdMat cY d M) (k : Nat) :
    bdryUp BY k * BATS.cmap (chainMap (incMaps cX cY X.ncells.length)) BX BY (k + 1)
      = BATS.cmap (chainMap (incMaps cX cY X.ncells.length)) BX BY k * bdryUp BX k := by
  ext i j
  rw [Matrix.mul_apply, Matrix.mul_apply]
  have hj : j.1 < (cX (k + 1)).length := by rw [← hcX]; exact j.2
  have hi : i.1 < (cY k).length := by rw [← hcY]; exact i.2
  obtain ⟨x, hx⟩ : ∃ x, (cX (k + 1))[j.1]? = some x := ⟨_, List.getElem?_eq_getElem hj⟩
  obtain ⟨t, ht⟩ : ∃ t, (cY k)[i.1]? = some t := ⟨_, List.getElem?_eq_getElem hi⟩
  have hxm := List.mem_of_getElem? hx
  have htm := List.mem_of_getElem? ht
  have hxY := hs _ x hxm
  have hR : ∑ l, BATS.cmap (chainMap (incMaps cX cY X.ncells.length)) BX BY k i l * bdryUp BX k l j =
      ∑ m ∈ Finset.range (k + 2), (-1 : F) ^ (k + m) * (if x.eraseIdx m = t then 1 else 0) := by
    have hup : ∀ l : Fin (cdim BX k), bdryUp BX k l j =
        ∑ m ∈ Finset.range (k + 2), if (cX k).idxOf (x.eraseIdx m) = l then (-1 : F) ^ (k + m) else 0 := fun l => ent_eq hX hbX hx l
    simp only [hup, Finset.mul_sum]
    rw [Finset.sum_comm]
    apply Finset.sum_congr rfl
    intro m hm
    rw [Finset.mem_range] at hm
    have hfm := hX.ok.closed k x hxm m (by omega)
    have hlt : (cX k).idxOf (x.eraseIdx m) < cdim BX k := by rw [hcX]; exact List.idxOf_lt_length_iff.2 hfm
    rw [Finset.sum_eq_single (⟨_, hlt⟩ : Fin (cdim BX k))]
    · have hg : (cX k)[(⟨(cX k).idxOf (x.eraseIdx m), hlt⟩ : Fin (cdim BX k)).1]? = some (x.eraseIdx m) := by
        show (cX k)[(cX k).idxOf (x.eraseIdx m)]? = _
        rw [List.getElem?_eq_getElem (List.idxOf_lt_length_iff.2 hfm), List.getElem_idxOf]
      rw [if_pos rfl, incMaps_cmap hX hY hs i _ hg ht, mul_comm]
    · intro b _ hb
      rw [if_neg (fun e => hb (Fin.ext e.symm)), mul_zero]
    · intro h; exact absurd (Finset.mem_univ _) h
  rw [hR]
  have hlt : (cY (k + 1)).idxOf x < cdim BY (k + 1) := by rw [hcY]; exact List.idxOf_lt_length_iff.2 hxY
  have hg : (cY (k + 1))[(cY (k + 1)).idxOf x]? = some x := by
    rw [List.getElem?_eq_getElem (List.idxOf_lt_length_iff.2 hxY), List.getElem_idxOf]
  rw [Finset.sum_eq_single (⟨_, hlt⟩ : Fin (cdim BY (k + 1)))]
  · rw [incMaps_cmap hX hY hs _ j hx (by exact hg), if_pos rfl, mul_one]
    have hup : bdryUp BY k i ⟨(cY (k + 1)).idxOf x, hlt⟩ =
        ∑ m ∈ Finset.range (k + 2), if (cY k).idxOf (x.eraseIdx m) = i then (-1 : F) ^ (k + m) else 0 := ent_eq hY hbY hg i
    rw [hup]
    apply Finset.sum_congr rfl
    intro m hm
    rw [Finset.mem_range] at hm
    have := idxOf_eq_iff hY.ok ht (hY.ok.closed k x hxY m (by omega))
    by_cases e : x.eraseIdx m = t
    · rw [if_pos (this.2 e), if_pos e, mul_one]
    · rw [if_neg (fun h => e (this.1 h)), if_neg e, mul_zero]
  · intro b _ hb
    have hbl : b.1 < (cY (k + 1)).length := by rw [← hcY]; exact b.2
    rw [incMaps_cmap hX hY hs b j hx (List.getElem?_eq_getElem hbl), if_neg, mul_zero]
    intro e
    apply hb
    apply Fin.ext
    exact ((idxOf_eq_iff hY.ok (List.getElem?_eq_getElem hbl) hxY).2 e).symm
  · intro h; exact absurd (Finset.mem_univ _) h

theorem incColumns_thrown (hX : Inv X cX) (hY : Inv Y cY) {k : Nat} :
    ∀ (n i : Nat), i + n ≤ (cX k).length → (∃ (j : Nat) (x : List Nat), i ≤ j ∧ j < i + n ∧ (cX k)[j]? = some x ∧ x ∉ cY k) →
      incColumns X Y k n i = .error .thrown
  | 0, i, _, ⟨j, x, h1, h2, _⟩ => by omega
  | n + 1, i, h, ⟨j, x, h1, h2, h3, h4⟩ => by
    have hi : i < (cX k).length := by omega
    have hx : (cX k)[i]? = some ((cX k)[i]'hi) := List.getElem?_eq_getElem _
    have hl : ((cX k)[i]'hi).length = k + 1 := hX.ok.len k _ (List.mem_of_getElem? hx)
    rw [incColumns, Filt.getSimplex_eq hX hx, bind_ok]
    rcases hf : Y.findIdx ((cX k)[i]'hi) with _ | m
    · rfl
    · have := (hY.trie ((cX k)[i]'hi) (by intro e; rw [e] at hl; simp at hl) m).1 hf
      rw [hl] at this
      have hij : i ≠ j := by
        rintro rfl
        rw [hx] at h3
        rw [← Option.some.inj h3] at h4
        exact h4 (List.mem_of_getElem? this)
      simp only []
      rw [incColumns_thrown hX hY n (i + 1) (by omega) ⟨j, x, by omega, by omega, h3, h4⟩]; rfl

theorem incLevels_thrown (hX : Inv X cX) (hY : Inv Y cY) (hd : X.ncells.length ≤ Y.ncells.length) :
    ∀ (n k : Nat), k + n ≤ X.ncells.length → (∃ d x, k ≤ d ∧ d < k + n ∧ x ∈ cX d ∧ x ∉ cY d) → incLevels X Y n k = .error .thrown
  | 0, k, _, ⟨d, x, h1, h2, _⟩ => by omega
  | n + 1, k, h, ⟨d, x, h1, h2, h3, h4⟩ => by
    rw [incLevels]
    unfold SCpx.numCells
    rw [rd_some (hX.dim k (by omega)).nc, bind_ok]
    by_cases hg : ∀ x ∈ cX k, x ∈ cY k
    · have hkd : k ≠ d := by rintro rfl; exact h4 (hg x h3)
      rw [incColumns_spec hX hY hg _ 0 (by omega), bind_ok, rd_some (hY.dim k (by omega)).nc, bind_ok,
        incLevels_thrown hX hY hd n (k + 1) (by omega) ⟨d, x, by omega, by omega, h3, h4⟩]; rfl
    · push Not at hg
      obtain ⟨x', hx', hg'⟩ := hg
      obtain ⟨j, hj, e⟩ := List.mem_iff_getElem.1 hx'
      rw [incColumns_thrown hX hY _ 0 (by omega) ⟨j, x', by omega, by omega, by rw [List.getElem?_eq_getElem hj, e], hg'⟩]; rfl

theorem inclusion_thrown (hX : Inv X cX) (hY : Inv Y cY) (hd : X.ncells.length ≤ Y.ncells.length) (hm : ¬ ∀ d, ∀ x ∈ cX d, x ∈ cY d) :
    inclusion X Y = .error .thrown := by
  push Not at hm
  obtain ⟨d, x, hx, hy⟩ := hm
  have hne := hX.sizes.ne
  have hdl : d < X.ncells.length := by
    by_contra hc
    rw [hX.top d (by omega)] at hx; simp at hx
  unfold inclusion SCpx.maxdim
  exact incLevels_thrown hX hY hd _ 0 (by omega) ⟨d, x, by omega, by omega, hx, hy⟩

end inc

end SMap
end BATS
