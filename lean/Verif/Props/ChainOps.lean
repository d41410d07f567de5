import Verif.Proofs.FiltUpdateComplex
import Verif.Proofs.Examples
import Verif.Props.Update

set_option linter.unusedSectionVars false

/-!
# C30 (continued), C45: changing the order of the cells of a chain complex

`IsPermOf n p`: the list `p` is a permutation of `0, .., n - 1`. `ent B k i j` is the entry in row `i`, column `j` of the `k`-th boundary matrix.
-/

namespace BATS
open Reduction Matrix

variable {F : Type} [Field F] [DecidableEq F] {T : Type} [LinearOrder T]

/-- C30: `permute_basis(perms)` moves cell `i` of dimension `k` to position `perms[k][i]`; the result is a chain complex with the same
dimensions and Betti numbers -/
theorem C30_permute_basis {B : List (CMat F)} (hB : IsChainComplex B) (h2 : 2 ≤ B.length) (h0 : ZeroBdry0 B) {ps : List (List Nat)}
    (hl : ps.length = B.length) (hp : ∀ k, k < B.length → IsPermOf (cdim B k) (ps.getD k [])) :
    ∃ B', Cpx.permuteBasis B ps = .ok B' ∧ IsChainComplex B' ∧ B'.length = B.length ∧ (∀ k, cdim B' k = cdim B k) ∧
      (∀ k, bettiNumber B' k = bettiNumber B k) ∧
      ∀ k i j x y : Nat, k + 1 < B.length → (ps.getD k [])[i]? = some x → (ps.getD (k + 1) [])[j]? = some y → ent B' (k + 1) x y = ent B (k + 1) i j := by
  obtain ⟨B', h1, hr⟩ := permuteBasis_spec h2 hB.shape h0 hl hp
  refine ⟨B', h1, hr.complex hB, hr.same.len, hr.same.cdim, hr.betti_eq hB, ?_⟩
  intro k i j x y hk hi hj
  have hx := (Perm.isPerm_mem (hp k (by omega))).1 (List.mem_of_getElem? hi)
  have hy := (Perm.isPerm_mem (hp (k + 1) hk)).1 (List.mem_of_getElem? hj)
  rw [hr.succ k x y hk hx hy, idxOf_of_getElem? (Perm.isPerm_nodup (hp k (by omega))) hi, idxOf_of_getElem? (Perm.isPerm_nodup (hp (k + 1) hk)) hj]

/-- C30: `ipermute_basis(perms)` is the inverse: position `i` of dimension `k` receives cell `perms[k][i]` -/
theorem C30_ipermute_basis {B : List (CMat F)} (hB : IsChainComplex B) (h2 : 2 ≤ B.length) (h0 : ZeroBdry0 B) {ps : List (List Nat)}
    (hl : ps.length = B.length) (hp : ∀ k, k < B.length → IsPermOf (cdim B k) (ps.getD k [])) :
    ∃ B', Cpx.ipermuteBasis B ps = .ok B' ∧ IsChainComplex B' ∧ B'.length = B.length ∧ (∀ k, cdim B' k = cdim B k) ∧
      (∀ k, bettiNumber B' k = bettiNumber B k) ∧
      (∀ k i j x y : Nat, k + 1 < B.length → (ps.getD k [])[i]? = some x → (ps.getD (k + 1) [])[j]? = some y →
        ent B' (k + 1) i j = ent B (k + 1) x y) ∧ Cpx.permuteBasis B' ps = .ok B := by
  obtain ⟨B', h1, hr⟩ := ipermuteBasis_spec h2 hB.shape h0 hl hp
  have hent : ∀ k i j x y : Nat, k + 1 < B.length → (ps.getD k [])[i]? = some x → (ps.getD (k + 1) [])[j]? = some y →
        ent B' (k + 1) i j = ent B (k + 1) x y := by
    intro k i j x y hk hi hj
    have hil : i < (ps.getD k []).length := (List.getElem?_eq_some_iff.1 hi).1
    have hjl : j < (ps.getD (k + 1) []).length := (List.getElem?_eq_some_iff.1 hj).1
    rw [Perm.isPerm_length (hp k (by omega))] at hil
    rw [Perm.isPerm_length (hp (k + 1) hk)] at hjl
    rw [hr.succ k i j hk hil hjl]
    rw [List.getD_eq_getElem?_getD, hi, List.getD_eq_getElem?_getD (l := ps.getD (k + 1) []), hj]; rfl
  refine ⟨B', h1, hr.complex hB, hr.same.len, hr.same.cdim, hr.betti_eq hB, hent, ?_⟩
  have hB' := hr.complex hB
  have hB0 := hr.zeroBdry h0
  obtain ⟨B'', g1, gr⟩ := permuteBasis_spec (by rw [hr.same.len]; exact h2) hB'.shape hB0 (ps := ps) (by rw [hr.same.len, hl])
    (fun k hk => by rw [hr.same.cdim]; exact hp k (by rw [← hr.same.len]; exact hk))
  rw [g1]
  congr 1
  have hlen : B''.length = B.length := by rw [gr.same.len, hr.same.len]
  apply List.ext_getElem hlen
  intro k hk1 hk2
  have s1 := gr.same.ok hB'.shape k hk1
  have s2 := hB.shape k hk2
  have ecd : ∀ l, cdim B'' l = cdim B l := fun l => by rw [gr.same.cdim, hr.same.cdim]
  have erd : ∀ l, rdim B'' l = rdim B l := fun l => by rw [gr.same.rdim gr.ne, hr.same.rdim hr.ne]
  rw [ecd, erd] at s1
  have e1 : B''.getD k ⟨0, []⟩ = B''[k] := getD_eq_get _ hk1
  have e2 : B.getD k ⟨0, []⟩ = B[k] := getD_eq_get _ hk2
  rw [← e1, ← e2]
  apply CMat.Shape.ext s1 s2
  ext i j
  show ent B'' k i j = ent B k i j
  obtain ⟨i, hi⟩ := i
  obtain ⟨j, hj⟩ := j
  show ent B'' k i j = ent B k i j
  cases k with
  | zero => rw [ent_zero_bdry (gr.zeroBdry hB0), ent_zero_bdry h0]
  | succ k =>
    have hi' : i < cdim B k := hi
    have hmi := (Perm.isPerm_mem (hp k (by omega))).2 hi'
    have hmj := (Perm.isPerm_mem (hp (k + 1) hk2)).2 hj
    rw [gr.succ k i j (by rw [hr.same.len]; exact hk2) (by rw [hr.same.cdim]; exact hi') (by rw [hr.same.cdim]; exact hj)]
    apply hent k _ _ _ _ hk2
    · rw [List.getElem?_eq_getElem (List.idxOf_lt_length_iff.2 hmi)]; simp
    · rw [List.getElem?_eq_getElem (List.idxOf_lt_length_iff.2 hmj)]; simp

/-! ### C45: `FilteredChainComplex::update_filtration` -/

/-- with the cells of one dimension listed in the order `old` before and supposed to be listed in the order `new` after the update:
cell `a` is the cell `old[y]`, where `y` is the position of the cell `old[i]` in `new` -/
def HeldAfterUpdate (old new : List Nat) (i a : Nat) : Prop := ∃ y c : Nat, old[i]? = some c ∧ new[y]? = some c ∧ old[y]? = some a

/-- C45: `update_filtration(newval)` records the new values and the new order, but stores the boundary matrices in a different order: position `i`
holds the cell described by `HeldAfterUpdate` instead of the `i`-th cell of the new order. The result is a chain complex with the right Betti numbers. -/
theorem C45_update_filtration {B : List (CMat F)} (hB : IsChainComplex B) (h2 : 2 ≤ B.length) (h0 : ZeroBdry0 B) {val newval : List (List T)}
    (hv : ValuesFor B val) (hv' : ValuesFor B newval) :
    ∃ X X' Y, FiltCpx.ofFiltration val B = .ok X ∧ X.updateFiltration newval = .ok X' ∧ FiltCpx.ofFiltration newval B = .ok Y ∧
      X'.val = newval ∧ X'.perm = Y.perm ∧ IsChainComplex X'.C ∧ (∀ k, bettiNumber X'.C k = bettiNumber B k) ∧
      (∀ k i, k < B.length → i < cdim B k → ∃ a, HeldAfterUpdate (X.perm.getD k []) (Y.perm.getD k []) i a) ∧
      ∀ k i j a b, k + 1 < B.length → HeldAfterUpdate (X.perm.getD k []) (Y.perm.getD k []) i a →
        HeldAfterUpdate (X.perm.getD (k + 1) []) (Y.perm.getD (k + 1) []) j b → ent X'.C (k + 1) i j = ent B (k + 1) a b := by
  obtain ⟨X, X', Y, hX, hX', hY, e1, e2, pX, pY, hr, hr', τ, hτ, hτ2⟩ := filtUpdate_spec hB h2 h0 hv hv'
  have hpX : ∀ k, k < B.length → IsPermOf (cdim B k) (X.perm.getD k []) := by
    intro k hk
    rw [pX, filtrationSortperm_getD, ← hv.lens k hk]
    exact Perm.stableSortperm_perm _
  have hpY : ∀ k, k < B.length → IsPermOf (cdim B k) (Y.perm.getD k []) := by
    intro k hk
    rw [pY, filtrationSortperm_getD, ← hv'.lens k hk]
    exact Perm.stableSortperm_perm _
  have hget : ∀ {p : List Nat} {n i : Nat}, IsPermOf n p → i < n → p[i]? = some (p.getD i 0) := by
    intro p n i hp hi
    exact getD_getElem? 0 (by rw [Perm.isPerm_length hp]; exact hi)
  refine ⟨X, X', Y, hX, hX', hY, e1, e2, hτ.complex (hr.complex hB), fun k => (hτ.betti_eq (hr.complex hB) k).trans (hr.betti_eq hB k), ?_, ?_⟩
  · intro k i hk hi
    obtain ⟨t1, t2⟩ := hτ2 k i hk hi
    exact ⟨_, τ k i, _, hget (hpX k hk) hi, by rw [← t2]; exact hget (hpY k hk) t1, hget (hpX k hk) t1⟩
  · have key : ∀ k i a, k < B.length → HeldAfterUpdate (X.perm.getD k []) (Y.perm.getD k []) i a →
        i < cdim B k ∧ τ k i < cdim B k ∧ (X.perm.getD k []).getD (τ k i) 0 = a := by
      rintro k i a hk ⟨y, c, g1, g2, g3⟩
      have hi : i < cdim B k := by
        rw [← Perm.isPerm_length (hpX k hk)]; exact (List.getElem?_eq_some_iff.1 g1).1
      have hy : y < cdim B k := by
        rw [← Perm.isPerm_length (hpX k hk)]; exact (List.getElem?_eq_some_iff.1 g3).1
      obtain ⟨t1, t2⟩ := hτ2 k i hk hi
      have : τ k i = y := by
        apply getD_inj _ _ (hpY k hk) _ _ t1 hy
        rw [t2, List.getD_eq_getElem?_getD, g1, List.getD_eq_getElem?_getD, g2]
      refine ⟨hi, t1, ?_⟩
      rw [this, List.getD_eq_getElem?_getD, g3]; rfl
    intro k i j a b hk hi hj
    obtain ⟨i1, i2, i3⟩ := key k i a (by omega) hi
    obtain ⟨j1, j2, j3⟩ := key (k + 1) j b hk hj
    rw [hτ.succ k i j (by rw [hr.same.len]; exact hk) (by rw [hr.same.cdim]; exact i1) (by rw [hr.same.cdim]; exact j1),
      hr.succ k _ _ hk i2 j2, i3, j3]

/-- C45: so the update agrees with building the filtered complex from scratch whenever the change of order is its own inverse, for instance
when two cells are exchanged -/
theorem C45_correct_if_involution {B : List (CMat F)} (hB : IsChainComplex B) (h2 : 2 ≤ B.length) (h0 : ZeroBdry0 B) {val newval : List (List T)}
    (hv : ValuesFor B val) (hv' : ValuesFor B newval) :
    ∃ X X' Y, FiltCpx.ofFiltration val B = .ok X ∧ X.updateFiltration newval = .ok X' ∧ FiltCpx.ofFiltration newval B = .ok Y ∧
      ((∀ k i a, k < B.length → (Y.perm.getD k [])[i]? = some a → HeldAfterUpdate (X.perm.getD k []) (Y.perm.getD k []) i a) → X' = Y) := by
  obtain ⟨X, X', Y, hX, hX', hY, e1, e2, pX, pY, hr, hr', τ, hτ, hτ2⟩ := filtUpdate_spec hB h2 h0 hv hv'
  obtain ⟨X1, X1', Y1, gX, gX', gY, -, -, -, -, g3, g4⟩ := C45_update_filtration hB h2 h0 hv hv'
  rw [hX] at gX; cases gX
  rw [hX'] at gX'; cases gX'
  rw [hY] at gY; cases gY
  refine ⟨X, X', Y, hX, hX', hY, ?_⟩
  intro hinv
  obtain ⟨Y', hY', v1, v2, -⟩ := ofFiltration_spec hB h2 h0 hv'
  rw [hY] at hY'; cases hY'
  have hpY : ∀ k, k < B.length → IsPermOf (cdim B k) (Y.perm.getD k []) := by
    intro k hk
    rw [pY, filtrationSortperm_getD, ← hv'.lens k hk]
    exact Perm.stableSortperm_perm _
  have hCC : X'.C = Y.C := by
    have hlen : X'.C.length = Y.C.length := by rw [hτ.same.len, hr.same.len, hr'.same.len]
    apply List.ext_getElem hlen
    intro k hk1 hk2
    have hkB : k < B.length := by rw [← hr'.same.len]; exact hk2
    have s1 := hτ.same.ok (hr.same.ok hB.shape) k hk1
    have s2 := hr'.same.ok hB.shape k hk2
    rw [hτ.same.cdim, hτ.same.rdim hτ.ne, hr.same.cdim, hr.same.rdim hr.ne] at s1
    rw [hr'.same.cdim, hr'.same.rdim hr'.ne] at s2
    have q1 : X'.C.getD k ⟨0, []⟩ = X'.C[k] := getD_eq_get _ hk1
    have q2 : Y.C.getD k ⟨0, []⟩ = Y.C[k] := getD_eq_get _ hk2
    rw [← q1, ← q2]
    apply CMat.Shape.ext s1 s2
    ext i j
    obtain ⟨i, hi⟩ := i
    obtain ⟨j, hj⟩ := j
    show ent X'.C k i j = ent Y.C k i j
    cases k with
    | zero => rw [ent_zero_bdry (hτ.zeroBdry (hr.zeroBdry h0)), ent_zero_bdry (hr'.zeroBdry h0)]
    | succ k =>
      have hi' : i < cdim B k := hi
      have yi := getD_getElem? (l := Y.perm.getD k []) 0 (i := i) (by rw [Perm.isPerm_length (hpY k (by omega))]; exact hi')
      have yj := getD_getElem? (l := Y.perm.getD (k + 1) []) 0 (i := j) (by rw [Perm.isPerm_length (hpY (k + 1) hkB)]; exact hj)
      rw [g4 k i j _ _ hkB (hinv k i _ (by omega) yi) (hinv (k + 1) j _ hkB yj), hr'.succ k i j hkB hi' hj]
  obtain ⟨a, b, c⟩ := X'
  obtain ⟨a', b', c'⟩ := Y
  simp only at e1 e2 hCC v1
  rw [e1, e2, hCC, v1]

/-- the path `1 - 0 - 2` -/
def vPathQ : List (CMat ℚ) := [⟨1, [[], [], []]⟩, ⟨3, [[(0, -1), (2, 1)], [(0, -1), (1, 1)]]⟩]

theorem vPathQ_complex : IsChainComplex vPathQ := by
  refine ⟨by decide, ?_, ?_⟩
  · intro k hk
    have hk : k < 2 := hk
    interval_cases k
    · exact ⟨by decide +kernel, rfl, rfl⟩
    · exact ⟨by decide +kernel, rfl, rfl⟩
  · intro k hk
    have hk : k + 1 < 2 := hk
    have : k = 0 := by omega
    subst this
    ext i j
    have : ∀ (i : Fin 1) (j : Fin 2), (bdry vPathQ 0 * bdryUp vPathQ 0) i j = 0 := by decide +kernel
    exact this i j

/-- C45 (witness): after cycling the values of three vertices, the updated complex is not the one built from scratch, and its bars are wrong:
the vertices of values 1 and 2 die at 7 and 5 instead of 5 and 7 -/
theorem C45_wrong_direction :
    IsChainComplex vPathQ ∧ ZeroBdry0 vPathQ ∧ ValuesFor vPathQ [[0, 1, 2], [5, 7]] ∧ ValuesFor vPathQ [[1, 2, 0], [5, 7]] ∧
    IsFiltration vPathQ [[1, 2, 0], [5, 7]] ∧
    ((FiltCpx.ofFiltration [[0, 1, 2], [5, 7]] vPathQ).bind (fun X => (X.updateFiltration [[1, 2, 0], [5, 7]]).bind
      (fun X' => (RedFiltCpx.mk' X' Variant.standard.reduce).bind (fun R => R.persistencePairs 0 false)))) =
        .ok [⟨0, 2, none, 0, none⟩, ⟨0, 0, some 1, 1, some 7⟩, ⟨0, 1, some 0, 2, some 5⟩] ∧
    ((FiltCpx.ofFiltration [[1, 2, 0], [5, 7]] vPathQ).bind
      (fun X' => (RedFiltCpx.mk' X' Variant.standard.reduce).bind (fun R => R.persistencePairs 0 false))) =
        .ok [⟨0, 2, none, 0, none⟩, ⟨0, 0, some 0, 1, some 5⟩, ⟨0, 1, some 1, 2, some 7⟩] := by
  have hval : ∀ v : List (List Nat), v.length = 2 → (v.getD 0 []).length = 3 → (v.getD 1 []).length = 2 → ValuesFor vPathQ v := by
    intro v h1 h2 h3
    refine ⟨h1, ?_⟩
    intro k hk
    have hk : k < 2 := hk
    interval_cases k
    · exact h2
    · exact h3
  refine ⟨vPathQ_complex, by unfold ZeroBdry0; decide +kernel, hval _ rfl rfl rfl, hval _ rfl rfl rfl, ?_, by decide +kernel, by decide +kernel⟩
  intro k i j v w hne hv hw
  cases k with
  | zero =>
    have h1 := List.mem_of_getElem? hv
    have h2 := List.mem_of_getElem? hw
    simp at h1 h2
    omega
  | succ k => simp at hw

end BATS
