import Verif.Proofs.QuiverDQ2
import Verif.Proofs.QuiverRank
import Verif.Proofs.Examples

set_option linter.unusedSectionVars false
set_option linter.unusedVariables false
set_option linter.unusedSimpArgs false

/-! # C55: barcodes of zigzag diagrams (include/quiver/sparse.hpp)

`IsZigzag`, `IsDecomposition`, `zrank`, `composite` are in `Verif/Spec/Quiver.lean`. -/

namespace BATS
open Matrix Reduction CMat BATS.Fact Quiver

variable {F : Type} [Field F] [DecidableEq F]

private theorem form_spec {D : Dgm F} {d : Nat → Nat} (hD : IsZigzag D d) (a : Algo) :
    ∃ mats, a.form D = .ok mats ∧ FormOK D d mats ∧ ∃ N, IsIso D d mats N := by
  cases a with
  | divideConquer n => exact formDivideConquer_spec hD n
  | leftward => exact formRightleft_spec hD
  | rightward => exact formLeftright_spec hD

/-- C55: `barcode(dgm, hdim, flag)` with any of the three algorithms: the pairs are the bars of an interval decomposition of the diagram (a basis at
every node, permuted by the arrows up to 0, each bar being the run of one basis vector); the pairs carry the dimension, the two end nodes and
indices below the dimensions of the spaces at the two ends. -/
theorem C55_decomposition {D : Dgm F} {d : Nat → Nat} (hD : IsZigzag D d) (hdim : Nat) (a : Algo) :
    ∃ bars, IsDecomposition D d bars ∧ (∀ b ∈ bars, b.startInd < d b.start ∧ b.stopInd < d b.stop) ∧
      barcode D hdim a = .ok (bars.map fun b => ⟨hdim, b.startInd, some b.stopInd, b.start, some b.stop⟩) := by
  obtain ⟨mats, m1, m2, N, m3⟩ := form_spec hD a
  obtain ⟨bars, p2i, ℓ, c, b1, b2⟩ := barsFromForm_spec hD m2
  refine ⟨bars, decomposition m3 b2, ?_, ?_⟩
  · intro b hb
    obtain ⟨i, hi, rfl⟩ := List.getElem_of_mem hb
    have e : bat bars i = bars[i] := bat_get ⟨i, hi⟩
    have hle := b2.le i hi
    obtain ⟨e1, e2⟩ := b2.ends i hi
    have l1 := b2.lt _ (by omega) i hi (show (bat bars i).At (bat bars i).start from ⟨le_refl _, hle.1⟩)
    have l2 := b2.lt _ hle.2 i hi (show (bat bars i).At (bat bars i).stop from ⟨hle.1, le_refl _⟩)
    rw [← e1] at l1; rw [← e2] at l2
    rw [e] at l1 l2
    exact ⟨l1, l2⟩
  · unfold barcode
    rw [m1, bind_ok, b1, bind_ok]; rfl

/-- C55: the number of pairs that are alive on all nodes `b, …, e` is the rank of the diagram between `b` and `e`. -/
theorem C55_rank {D : Dgm F} {d : Nat → Nat} (hD : IsZigzag D d) (hdim : Nat) (a : Algo) :
    ∃ pairs, barcode D hdim a = .ok pairs ∧ ∀ b e, b ≤ e → e ≤ D.edata.length →
      (pairs.filter (fun p => decide (p.birth ≤ b ∧ ∃ t ∈ p.death, e ≤ t))).length = zrank D d b e := by
  obtain ⟨bars, h1, _, h2⟩ := C55_decomposition hD hdim a
  refine ⟨_, h2, fun b e hbe he => ?_⟩
  rw [List.filter_map, List.length_map, ← h1.count hbe he]
  congr 1
  apply List.filter_congr
  intro q _
  simp

/-- C55: the number of pairs alive at node `k` is the dimension of the space there; every pair has its death not before its birth and at most the
last node. -/
theorem C55_alive {D : Dgm F} {d : Nat → Nat} (hD : IsZigzag D d) (hdim : Nat) (a : Algo) :
    ∃ pairs, barcode D hdim a = .ok pairs ∧ (∀ p ∈ pairs, p.dim = hdim ∧ ∃ t, p.death = some t ∧ p.birth ≤ t ∧ t ≤ D.edata.length) ∧
      ∀ k, k ≤ D.edata.length → (pairs.filter (fun p => decide (p.birth ≤ k ∧ ∃ t ∈ p.death, k ≤ t))).length = d k := by
  obtain ⟨bars, h1, _, h2⟩ := C55_decomposition hD hdim a
  refine ⟨_, h2, ?_, fun k hk => ?_⟩
  · intro p hp
    obtain ⟨b, hb, rfl⟩ := List.mem_map.1 hp
    exact ⟨rfl, b.stop, rfl, h1.1 b hb⟩
  · rw [List.filter_map, List.length_map, ← h1.alive hk]
    congr 1
    apply List.filter_congr
    intro q _
    show decide (q.start ≤ k ∧ ∃ t ∈ some q.stop, k ≤ t) = decide (q.start ≤ k ∧ k ≤ q.stop)
    simp

/-- C55: the barcode does not depend on the algorithm (nor on the number of threads, `nlevels`): the lists of (birth, death) are permutations of each
other. More generally they agree with every interval decomposition of the diagram. -/
theorem C55_unique {D : Dgm F} {d : Nat → Nat} (hD : IsZigzag D d) (hdim : Nat) (a : Algo) {bars : List QBar} (hb : IsDecomposition D d bars) :
    ∃ pairs, barcode D hdim a = .ok pairs ∧ (pairs.map (fun p => (p.birth, p.death))).Perm (bars.map (fun b => (b.start, some b.stop))) := by
  obtain ⟨bars', h1, _, h2⟩ := C55_decomposition hD hdim a
  refine ⟨_, h2, ?_⟩
  have := (h1.unique hb).map (fun x => (x.1, some x.2))
  rw [List.map_map, List.map_map] at this
  rw [List.map_map]; exact this

theorem C55_algorithms_agree {D : Dgm F} {d : Nat → Nat} (hD : IsZigzag D d) (hdim : Nat) (a a' : Algo) :
    ∃ pairs pairs', barcode D hdim a = .ok pairs ∧ barcode D hdim a' = .ok pairs' ∧
      (pairs.map (fun p => (p.birth, p.death))).Perm (pairs'.map (fun p => (p.birth, p.death))) := by
  obtain ⟨bars, h1, _, h2⟩ := C55_decomposition hD hdim a'
  obtain ⟨pairs, p1, p2⟩ := C55_unique hD hdim a h1
  refine ⟨pairs, _, p1, h2, ?_⟩
  rw [List.map_map]; exact p2

/-- C55: if all arrows between the nodes `b` and `e` point to the right, the number of pairs alive on `b, …, e` is the rank of the product of the
matrices, as for ordinary persistence. -/
theorem C55_right_arrows {D : Dgm F} {d : Nat → Nat} (hD : IsZigzag D d) (hdim : Nat) (a : Algo) :
    ∃ pairs, barcode D hdim a = .ok pairs ∧ ∀ b e, b ≤ e → e ≤ D.edata.length → (∀ k, b ≤ k → k < e → left D k = false) →
      (pairs.filter (fun p => decide (p.birth ≤ b ∧ ∃ t ∈ p.death, e ≤ t))).length = (composite D d b e).rank := by
  obtain ⟨pairs, p1, p2⟩ := C55_rank hD hdim a
  exact ⟨pairs, p1, fun b e hbe he hr => by rw [p2 b e hbe he, zrank_right hbe hr]⟩

private theorem mapM_rd {D : DgmVec F} {k n : Nat} (hn : ∀ l ∈ D.edata, l.length = n) (hk : k < n) :
    extractDimension D k = .ok ⟨D.elist, D.edata.map (fun l => l.getD k ⟨0, []⟩)⟩ := by
  have : D.edata.mapM (fun l => rd l k) = (.ok (D.edata.map (fun l => l.getD k ⟨0, []⟩)) : Res _) := by
    generalize D.edata = E at hn
    induction E with
    | nil => rfl
    | cons l E ih =>
      rw [List.mapM_cons, rd_getD ⟨0, []⟩ (by rw [hn l (by simp)]; exact hk), bind_ok, ih (fun x hx => hn x (by simp [hx])), bind_ok]
      rfl
  unfold extractDimension
  rw [this]; rfl

private theorem dims_spec {D : DgmVec F} {d : Nat → Nat → Nat} {N : Nat} (hn : ∀ l ∈ D.edata, l.length = N)
    (hD : ∀ k, k < N → IsZigzag ⟨D.elist, D.edata.map (fun l => l.getD k ⟨0, []⟩)⟩ (d k)) (a : Algo) : ∀ n k, k + n = N →
    ∃ bars : Nat → List QBar, (∀ j, k ≤ j → j < N → IsDecomposition ⟨D.elist, D.edata.map (fun l => l.getD j ⟨0, []⟩)⟩ (d j) (bars j)) ∧
      barcodeDims D a n k = .ok ((List.range' k n).flatMap (fun j => (bars j).map fun b => ⟨j, b.startInd, some b.stopInd, b.start, some b.stop⟩))
  | 0, k, hk => ⟨fun _ => [], fun j h1 h2 => by omega, rfl⟩
  | n + 1, k, hk => by
    obtain ⟨bars, b1, b2⟩ := dims_spec hn hD a n (k + 1) (by omega)
    obtain ⟨bk, c1, _, c2⟩ := C55_decomposition (hD k (by omega)) k a
    refine ⟨Function.update bars k bk, ?_, ?_⟩
    · intro j h1 h2
      by_cases hj : j = k
      · subst hj; rw [Function.update_self]; exact c1
      · rw [Function.update_of_ne hj]; exact b1 j (by omega) h2
    · rw [barcodeDims, mapM_rd hn (by omega : k < N), bind_ok, c2, bind_ok, b2, bind_ok, List.range'_succ, List.flatMap_cons, Function.update_self]
      show Except.ok _ = Except.ok _
      congr 2
      apply List.flatMap_congr
      intro j hj
      rw [Function.update_of_ne (by have := List.mem_range'_1.1 hj; omega)]

/-- C55: `barcode(dgm, flag)` for a diagram which carries `N` matrices (one per dimension) on every edge: the pairs are, dimension after dimension, the
bars of an interval decomposition of the diagram in that dimension. -/
theorem C55_all_dimensions {D : DgmVec F} {d : Nat → Nat → Nat} {N : Nat} (hne : D.edata ≠ []) (hn : ∀ l ∈ D.edata, l.length = N)
    (hD : ∀ k, k < N → IsZigzag ⟨D.elist, D.edata.map (fun l => l.getD k ⟨0, []⟩)⟩ (d k)) (a : Algo) :
    ∃ bars : Nat → List QBar, (∀ k, k < N → IsDecomposition ⟨D.elist, D.edata.map (fun l => l.getD k ⟨0, []⟩)⟩ (d k) (bars k)) ∧
      barcodeAll D a = .ok ((List.range N).flatMap (fun k => (bars k).map fun b => ⟨k, b.startInd, some b.stopInd, b.start, some b.stop⟩)) := by
  obtain ⟨bars, b1, b2⟩ := dims_spec hn hD a N 0 (by omega)
  refine ⟨bars, fun k hk => b1 k (by omega) hk, ?_⟩
  have h0 : 0 < D.edata.length := List.length_pos_iff.2 hne
  unfold barcodeAll
  rw [rd_getD [] h0, bind_ok, List.range_eq_range']
  rw [show (D.edata.getD 0 []).length = N from hn _ (by
    rw [List.getD_eq_getElem?_getD, List.getElem?_eq_getElem h0]; exact List.getElem_mem h0)]
  exact b2

/-- C55: without edges all barcode functions read out of bounds. -/
theorem C55_no_edges (hdim : Nat) (a : Algo) : barcode (⟨[], []⟩ : Dgm F) hdim a = .error .ub ∧ barcodeAll (⟨[], []⟩ : DgmVec F) a = .error .ub := by
  refine ⟨?_, rfl⟩
  cases a with
  | divideConquer n =>
    have : formDivideConquer (⟨[], []⟩ : Dgm F) n = formLeftright ⟨[], []⟩ := by
      unfold formDivideConquer
      exact if_pos (Or.inl (by simp))
    show (formDivideConquer (⟨[], []⟩ : Dgm F) n >>= _) = _
    rw [this]; rfl
  | leftward => rfl
  | rightward => rfl

/-! ### A diagram with six edges in both directions: `F² ← F² → F¹ ← F² → F² → F² ← F¹` -/

def zigExample : Dgm ℚ :=
  ⟨[(1, 0), (1, 2), (3, 2), (3, 4), (4, 5), (6, 5)],
   [⟨2, [[(0, 1), (1, 2)], [(0, 2), (1, 4)]]⟩, ⟨1, [[(0, 3)], [(0, 1)]]⟩, ⟨1, [[(0, 1)], [(0, 1)]]⟩, ⟨2, [[(0, 1)], [(0, 1), (1, 1)]]⟩,
    ⟨2, [[(1, 1)], [(0, 1)]]⟩, ⟨2, [[(0, 1), (1, 1)]]⟩]⟩

def zigDims : Nat → Nat := fun k => [2, 2, 1, 2, 2, 2, 1].getD k 0

theorem zigExample_isZigzag : IsZigzag zigExample zigDims := by
  refine ⟨by simp [zigExample], rfl, ?_, ?_⟩
  · intro k hk
    have hk : k < 6 := hk
    interval_cases k <;> decide
  · intro k hk
    have hk : k < 6 := hk
    interval_cases k
    all_goals first
      | (rw [if_pos (by decide)]; exact ⟨by decide +kernel, rfl, rfl⟩)
      | (rw [if_neg (by decide)]; exact ⟨by decide +kernel, rfl, rfl⟩)

/-- the three algorithms on the example -/
example : (barcode zigExample 1 (.divideConquer 2)).map (fun l => l.map (fun p => (p.birth, p.death))) =
    .ok [(0, some 1), (0, some 0), (1, some 6), (3, some 5)] := by decide +kernel
example : (barcode zigExample 1 .leftward).map (fun l => l.map (fun p => (p.birth, p.death))) =
    .ok [(0, some 1), (0, some 0), (1, some 6), (3, some 5)] := by decide +kernel
example : (barcode zigExample 1 .rightward).map (fun l => l.map (fun p => (p.birth, p.death))) =
    .ok [(0, some 1), (0, some 0), (1, some 6), (3, some 5)] := by decide +kernel

end BATS
