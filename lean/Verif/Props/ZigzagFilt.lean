import Verif.Proofs.ZZFilt
import Verif.Proofs.ZZSort
import Verif.Props.Simplicial

set_option linter.unusedSectionVars false
set_option linter.unusedVariables false
set_option linter.unusedSimpArgs false

/-!
# C62: barcodes of zigzag filtrations of cell complexes (include/zigzag/zigzag_filtration.hpp)

The specification is in `Verif/Spec/ZigzagFilt.lean`. `S` ranges over all implementations of `std::sort`.
-/

namespace BATS
namespace Zigzag
open Reduction Matrix

variable {F : Type} [Field F] [DecidableEq F] {T : Type} [LinearOrder T]

/-- what a user expects of the list `bars` of the pairs of the dimensions `0, …, n-1`: there is an order of the entries and exits such that the pairs of each
dimension are the bars of an interval decomposition of the zigzag of homology groups, and at any time `t` the number of pairs alive at `t` is the Betti number
of `X_t`. The index reported for a cell is its index in the complex for events of its first interval. -/
structure IsFiltrationBarcode (B : List (CMat F)) (vals : List (List (List (T × T)))) (n : Nat) (bars : List (List (ZPair T))) : Prop where
  len : bars.length = n
  order : ∃ es : List (Event T), IsFiltrationOrder B vals es ∧
    (∀ e ∈ es, ∀ v, (intervals vals e.dim e.ind).head? = some v → (e.val = if e.entry then v.1 else v.2) → e.cind = e.ind) ∧
    ∀ k, k < n → ∃ iv, IsZigzagBarcode B es k iv ∧ iv.map (pairOf es k) = (bars.getD k []).map some
  betti : ∀ k, k < n → ∀ t, (bars.getD k []).countP (fun p => decide (p.AliveAt t)) = bettiIn B vals k t

theorem barcode_of_prepared {B C : List (CMat F)} {vals : List (List (List (T × T)))} {lab : Nat → Nat → Copy T} {es : List (Event T)} {cmp : Event T → Event T → Bool}
    (hB : IsChainComplex B) (h0 : ZeroBdry0 B) (hv : IsZigzagFiltration B vals) (hl : Labelled B vals C lab) (he : EventsOf C lab es) (hc : CmpOK C es cmp)
    (hs : es.Pairwise (fun a b => cmp b a = false)) (hdesc : ∀ k j j', j < j' → j' < cdim C k → (lab k j').hi ≤ (lab k j).hi)
    (hcind : ∀ e ∈ es, (cpOf (vals.getD e.dim []))[e.cind]? = some (lab e.dim e.ind)) {maxdim : Option Nat}
    (hm : ∀ m, maxdim = some m → m < B.length ∧ ∀ k, m + 1 < k → cdim B k = 0) :
    ∃ bars, barcodeReduction C es maxdim = .ok bars ∧ IsFiltrationBarcode B vals (ndims B maxdim) bars := by
  have ho := isZigzagOrder hB.shape hl hv hdesc he hc hs
  have hC := hl.isChainComplex hB hv
  have hsub : ∀ i, SubCopies C lab (fun k => {j | j ∈ present (es.take i) k}) := fun i => subCopies_present hl hv he hc hs ho i
  have hcind' : ∀ e ∈ es.map (relab lab), ∀ v, (intervals vals e.dim e.ind).head? = some v → (e.val = if e.entry then v.1 else v.2) → e.cind = e.ind := by
    intro e' h' v hv1 hv2
    obtain ⟨e, h, rfl⟩ := List.mem_map.1 h'
    have hv1' : (intervals vals e.dim (lab e.dim e.ind).orig).head? = some v := hv1
    have hv2' : e.val = if e.entry then v.1 else v.2 := hv2
    show e.cind = (lab e.dim e.ind).orig
    obtain ⟨_, m2, m3⟩ := he.mem e h
    have hne : ∀ l ∈ vals.getD e.dim [], l ≠ [] := getD_mem_vals (P := fun vk => ∀ l ∈ vk, l ≠ []) hv.all_ne (by simp)
    have hnd : (cpOf (vals.getD e.dim [])).Nodup := nodup_cpOf (getD_mem_vals (P := fun vk => ∀ l ∈ vk, l.Nodup) hv.all_nodup (by simp))
    have hmem := (hl.mem e.dim e.ind m2).2
    have hle := hl.le hv m2
    have hlv := hv.le e.dim _ v (List.mem_of_mem_head? hv1')
    have hveq : ((lab e.dim e.ind).lo, (lab e.dim e.ind).hi) = v := by
      rw [m3] at hv2'
      rcases hb : e.entry with _ | _
      · rw [hb] at hv2'
        simp only [Bool.false_eq_true, if_false] at hv2'
        exact interval_unique (hv.disjoint e.dim _) hmem (List.mem_of_mem_head? hv1') (t := v.2) (by rw [← hv2']; exact hle) (by rw [← hv2']) hlv le_rfl
      · rw [hb] at hv2'
        simp only [if_true] at hv2'
        exact interval_unique (hv.disjoint e.dim _) hmem (List.mem_of_mem_head? hv1') (t := v.1) (by rw [← hv2']) (by rw [← hv2']; exact hle) le_rfl hlv
    have h1 := cpOf_first hne hv1'
    have h2 := hcind e h
    have h3 : lab e.dim e.ind = ⟨(lab e.dim e.ind).orig, v.1, v.2⟩ := by rw [← hveq]
    rw [h3] at h2
    obtain ⟨l1, g1⟩ := List.getElem?_eq_some_iff.1 h1
    obtain ⟨l2, g2⟩ := List.getElem?_eq_some_iff.1 h2
    exact (List.Nodup.getElem_inj_iff hnd).1 (g2.trans g1.symm)
  have fin : ∀ (n : Nat) (bars : List (List (ZPair T))), bars.length = n → (∀ k, k < n → ∃ iv, IsZigzagBarcode C es k iv ∧ iv.map (pairOf es k) = (bars.getD k []).map some) →
      IsFiltrationBarcode B vals n bars := by
    intro n bars hn hb
    refine ⟨hn, ⟨es.map (relab lab), isFiltrationOrder hl hB hv he hc hs hsub ho, hcind', fun k hk => ?_⟩, fun k hk t => ?_⟩
    · obtain ⟨iv, i1, i2⟩ := hb k hk
      obtain ⟨d1, d2, _⟩ := dim_spec hB h0 hl hv he hc hs ho i1 i2
      exact ⟨iv, d1, d2⟩
    · obtain ⟨iv, i1, i2⟩ := hb k hk
      exact (dim_spec hB h0 hl hv he hc hs ho i1 i2).2.2 t
  rcases maxdim with _ | m
  · obtain ⟨bars, b1, b2, b3⟩ := C61_default_maxdim hC hl.zero ho
    rw [hl.len] at b2 b3
    exact ⟨bars, b1, fin _ bars b2 (fun k hk => b3 k (by simp only [ndims] at hk; omega))⟩
  · obtain ⟨m1, m2⟩ := hm m rfl
    obtain ⟨bars, b1, b2, b3⟩ := C61_zigzag_barcode hC hl.zero ho m (by rw [hl.len]; exact m1) (by
      intro e hee _
      by_contra hcon
      have := (hl.mem e.dim e.ind (he.mem e hee).2.1).1
      rw [m2 e.dim (by omega)] at this; omega)
    exact ⟨bars, b1, fin _ bars b2 (fun k hk => b3 k (by simp only [ndims] at hk; omega))⟩

/-- C62: for every chain complex with at least two dimensions, every zigzag filtration of the treatable kind, and the default `maxdim` or one above which
only cells of dimension `maxdim + 1` exist, `barcode` returns the barcode of the filtration -/
theorem C62_barcode (S : StdSort) (d : T) {B : List (CMat F)} {vals : List (List (List (T × T)))} (hB : IsChainComplex B) (h0 : ZeroBdry0 B) (h2 : 2 ≤ B.length)
    (hv : Treatable B vals) {maxdim : Option Nat} (hm : ∀ m, maxdim = some m → m < B.length ∧ ∀ k, m + 1 < k → cdim B k = 0) :
    ∃ bars, barcode S d B vals maxdim = .ok bars ∧ IsFiltrationBarcode B vals (ndims B maxdim) bars := by
  obtain ⟨C, lab, es, cmp, p1, p2, p3, p4, p5, p6, p7⟩ := prepareWith_spec S d (cmpCell := cmpCellPlain) (cmpEvent := cmpEventPlain) hB h0 h2 hv
    (fun k _ => (cmpCellPlain_sw k (fun _ => True)).on (fun _ _ => trivial))
    (fun k _ a _ b _ h => by unfold cmpCellPlain at h; simpa using h)
    (fun C lab es _ _ _ => cmpEventPlain_ok)
  obtain ⟨bars, b1, b2⟩ := barcode_of_prepared hB h0 hv.toIsZigzagFiltration p2 p3 p4 p5 p6 p7 hm
  refine ⟨bars, ?_, b2⟩
  unfold barcode prepare
  rw [p1, bind_ok]; exact b1

theorem barcode_simplicial_inv (S : StdSort) (d : T) {X : SCpx} {cells : SCpx.Cells} (hI : SCpx.Inv X cells) (hsort : ∀ d s, s ∈ cells d → s.Pairwise (· < ·)) (h1 : 1 ≤ X.maxdim) :
    ∃ B : List (CMat F), X.chainComplex = .ok B ∧ B.length = X.maxdim + 1 ∧ ∀ vals : List (List (List (T × T))), Treatable B vals →
      ∀ maxdim : Option Nat, (∀ m, maxdim = some m → m < B.length ∧ ∀ k, m + 1 < k → cdim B k = 0) →
      ∃ bars, barcodeSimplicial F S d X vals maxdim = .ok bars ∧ IsFiltrationBarcode B vals (ndims B maxdim) bars := by
  obtain ⟨B, b1, hB, h0, b2, hD⟩ := simplexData (F := F) hI hsort
  refine ⟨B, b1, b2, fun vals hv maxdim hm => ?_⟩
  have horig : ∀ k, ∀ a ∈ cpOf (vals.getD k []), a.orig < cdim B k := by
    intro k a ha
    have := (mem_cpOf.1 ha).1
    rw [hv.toIsZigzagFiltration.len_eq k] at this; exact this
  obtain ⟨C, lab, es, cmp, p1, p2, p3, p4, p5, p6, p7⟩ := prepareWith_spec S d (cmpCell := cmpCellLex X.spx) (cmpEvent := cmpEventLex X.spx) hB h0 (by omega) hv
    (fun k _ => (hD.cmpCell_sw k).on (horig k))
    (fun k _ a ha b hb h => (hD.cmpCell_desc (horig k a ha) (horig k b hb) h).1)
    (fun C lab es hl hd hord => hD.cmpEvent_ok hl hd hord)
  obtain ⟨bars, c1, c2⟩ := barcode_of_prepared hB h0 hv.toIsZigzagFiltration p2 p3 p4 p5 p6 p7 hm
  refine ⟨bars, ?_, c2⟩
  · unfold barcodeSimplicial prepareSimplicial
    rw [b1, bind_ok, p1, bind_ok]; exact c1

/-- C62: the same for a simplicial complex, whose simplices have increasing vertices, and the lexicographic processing order -/
theorem C62_barcode_simplicial (S : StdSort) (d : T) {X : SCpx} (hX : SCpx.Reachable X) (hs : ∀ s i, s ≠ [] → X.findIdx s = some i → s.Pairwise (· < ·)) (h1 : 1 ≤ X.maxdim) :
    ∃ B : List (CMat F), X.chainComplex = .ok B ∧ B.length = X.maxdim + 1 ∧ ∀ vals : List (List (List (T × T))), Treatable B vals →
      ∀ maxdim : Option Nat, (∀ m, maxdim = some m → m < B.length ∧ ∀ k, m + 1 < k → cdim B k = 0) →
      ∃ bars, barcodeSimplicial F S d X vals maxdim = .ok bars ∧ IsFiltrationBarcode B vals (ndims B maxdim) bars := by
  obtain ⟨cells, hI⟩ := hX.inv
  have hsort : ∀ d s, s ∈ cells d → s.Pairwise (· < ·) := by
    intro d s hm
    have hl := hI.ok.len d s hm
    have hs' := (SCpx.mem_setOf hl).2 hm
    obtain ⟨i, hi⟩ := (hI.represents.found s hs'.1).1 hs'
    exact hs s i hs'.1 hi
  exact barcode_simplicial_inv S d hI hsort h1

/-- C62: filtrations with one interval per cell are of the treatable kind -/
theorem C62_single_interval {B : List (CMat F)} {vals : List (List (List (T × T)))} (hv : IsZigzagFiltration B vals) (h1 : SingleIntervals vals) : Treatable B vals := by
  have hint : ∀ k i, intervals vals k i = [] ∨ ∃ v, intervals vals k i = [v] := by
    intro k i
    by_cases hi : i < cdim B k
    · right
      have hk : k < vals.length := by
        by_contra hc
        rw [cdim_of_ge (by rw [← hv.len]; omega)] at hi; omega
      have hi' : i < vals[k].length := by
        have := hv.len_eq k
        rw [List.getD_eq_getElem?_getD, List.getElem?_eq_getElem hk] at this
        rw [show vals[k].length = cdim B k from this]; exact hi
      have hl := h1 _ (List.getElem_mem hk) _ (List.getElem_mem hi')
      have e : intervals vals k i = vals[k][i] := by
        unfold intervals
        rw [List.getD_eq_getElem?_getD (l := vals), List.getElem?_eq_getElem hk, Option.getD_some, List.getD_eq_getElem?_getD, List.getElem?_eq_getElem hi']; rfl
      rw [e]
      exact List.length_eq_one_iff.1 hl
    · left
      unfold intervals
      rw [List.getD_eq_getElem?_getD, List.getElem?_eq_none (by rw [hv.len_eq]; omega)]; rfl
  refine { hv with first := ?_, strict := ?_ }
  · intro k i j he v hvh
    have hm : v ∈ intervals vals (k + 1) j := List.mem_of_mem_head? hvh
    obtain ⟨w, hw, h2⟩ := hv.closed k i j he v hm
    rcases hint k i with h | ⟨u, h⟩
    · rw [h] at hw; cases hw
    · rw [h, List.mem_singleton] at hw
      subst hw
      exact ⟨w, by rw [h]; rfl, h2⟩
  · intro k i v hvt
    rcases hint k i with h | ⟨u, h⟩ <;> rw [h] at hvt <;> simp at hvt

/-- C62: complexes built by any history of `add` / `add_recursive` with distinct vertices have simplices with increasing vertices -/
theorem C62_simplicial_history (S : StdSort) (d : T) (m : Nat) (ops : List SCpx.Op) (ho : ∀ o ∈ ops, PlainOp o) {X : SCpx} (hX : (SCpx.init m).run ops = .ok X)
    (h1 : 1 ≤ X.maxdim) :
    ∃ B : List (CMat F), X.chainComplex = .ok B ∧ B.length = X.maxdim + 1 ∧ ∀ vals : List (List (List (T × T))), Treatable B vals →
      ∀ maxdim : Option Nat, (∀ m, maxdim = some m → m < B.length ∧ ∀ k, m + 1 < k → cdim B k = 0) →
      ∃ bars, barcodeSimplicial F S d X vals maxdim = .ok bars ∧ IsFiltrationBarcode B vals (ndims B maxdim) bars := by
  refine C62_barcode_simplicial S d ⟨m, ops, fun o h => (ho o h).ne, hX⟩ ?_ h1
  obtain ⟨Y, cells, e1, e2, _, e4⟩ := SCpx.run_set ops (SCpx.init_inv m).1 (fun o h => (ho o h).ne)
  rw [hX] at e1; cases e1
  have he : SCpx.setOf (fun _ => []) = ∅ := by
    ext s; simp [SCpx.setOf]
  rw [he] at e4
  intro s i hne hi
  have hm := (e2.represents.found s hne).2 ⟨i, hi⟩
  rw [e4] at hm
  exact specRun_sorted ops ∅ ho (by intro s hs; exact hs.elim) s hm

/-! ### examples -/

/-- a test for `IsZigzagFiltration` -/
def checkFilt (B : List (CMat F)) (vals : List (List (List (T × T)))) : Bool :=
  decide (vals.length = B.length) &&
  (List.range B.length).all (fun k => decide ((vals.getD k []).length = cdim B k)) &&
  vals.all (fun vk => vk.all (fun l => decide (l ≠ []) && l.all (fun v => decide (v.1 ≤ v.2)) && decide (l.Pairwise (fun v w => v.2 < w.1)))) &&
  (List.range B.length).all (fun k => (List.range (cdim B (k + 1))).all (fun j => (List.range (cdim B k)).all (fun i => decide (ent B (k + 1) i j = 0) ||
    (intervals vals (k + 1) j).all (fun v => (intervals vals k i).any (fun w => decide (w.1 ≤ v.1 ∧ v.2 ≤ w.2))))))

theorem mem_intervals {vals : List (List (List (T × T)))} {k i : Nat} (h : intervals vals k i ≠ []) : ∃ vk ∈ vals, intervals vals k i ∈ vk := by
  unfold intervals at *
  by_cases hk : k < vals.length
  · rw [List.getD_eq_getElem?_getD (l := vals), List.getElem?_eq_getElem hk] at *
    refine ⟨vals[k], List.getElem_mem hk, ?_⟩
    by_cases hi : i < (vals[k]).length
    · rw [List.getD_eq_getElem?_getD, Option.getD_some, List.getElem?_eq_getElem hi]
      exact List.getElem_mem hi
    · exfalso; apply h
      rw [List.getD_eq_getElem?_getD, Option.getD_some, List.getElem?_eq_none (by omega)]; rfl
  · exfalso; apply h
    rw [List.getD_eq_getElem?_getD (l := vals), List.getElem?_eq_none (by omega)]; rfl

theorem ent_bounds {B : List (CMat F)} (hB : IsChainComplex B) {k i j : Nat} (h : ent B (k + 1) i j ≠ 0) : k + 1 < B.length ∧ i < cdim B k ∧ j < cdim B (k + 1) := by
  have hk : k + 1 < B.length := by
    by_contra hc
    apply h
    unfold ent
    rw [List.getD_eq_getElem?_getD (l := B), List.getElem?_eq_none (by omega)]; rfl
  refine ⟨hk, ?_, ?_⟩
  · by_contra hc
    apply h
    have hsh := (hB.shape (k + 1) hk).colsOK.getD j
    exact hsh.2.coef_eq_zero (by show cdim B k ≤ i; omega)
  · by_contra hc
    apply h
    unfold ent
    rw [List.getD_eq_getElem?_getD (l := (B.getD (k + 1) ⟨0, []⟩).cols), List.getElem?_eq_none (by unfold cdim at hc; omega)]; rfl

theorem filt_of_check {B : List (CMat F)} (hB : IsChainComplex B) {vals : List (List (List (T × T)))} (h : checkFilt B vals = true) : IsZigzagFiltration B vals := by
  unfold checkFilt at h
  simp only [Bool.and_eq_true, decide_eq_true_eq, List.all_eq_true, List.mem_range, Bool.or_eq_true, List.any_eq_true] at h
  obtain ⟨⟨⟨h1, h2⟩, h3⟩, h4⟩ := h
  refine ⟨h1, h2, ?_, ?_, ?_, ?_⟩
  · intro k i hi hne
    have hk : k < vals.length := by
      by_contra hc
      rw [cdim_of_ge (by omega)] at hi; omega
    have hk2 := h2 k (by omega)
    have hg : vals.getD k [] = vals[k] := by rw [List.getD_eq_getElem?_getD, List.getElem?_eq_getElem hk]; rfl
    rw [hg] at hk2
    have := (h3 _ (List.getElem_mem hk) _ (List.getElem_mem (hk2 ▸ hi))).1.1
    apply this
    unfold intervals at hne
    rw [hg, List.getD_eq_getElem?_getD, List.getElem?_eq_getElem (hk2 ▸ hi)] at hne
    exact hne
  · intro k i v hv
    obtain ⟨vk, m1, m2⟩ := mem_intervals (List.ne_nil_of_mem hv)
    exact (h3 vk m1 _ m2).1.2 v hv
  · intro k i
    by_cases hne : intervals vals k i = []
    · rw [hne]; exact List.Pairwise.nil
    · obtain ⟨vk, m1, m2⟩ := mem_intervals hne
      exact (h3 vk m1 _ m2).2
  · intro k i j he v hv
    obtain ⟨b1, b2, b3⟩ := ent_bounds hB he
    rcases h4 k (by omega) j b3 i b2 with h | h
    · exact absurd h he
    · exact h v hv

/-- a test for the further conditions of `Treatable` -/
def checkFirst (B : List (CMat F)) (vals : List (List (List (T × T)))) : Bool :=
  vals.all (fun vk => vk.all (fun l => l.tail.all (fun v => decide (v.1 < v.2)))) &&
  (List.range B.length).all (fun k => (List.range (cdim B (k + 1))).all (fun j => (List.range (cdim B k)).all (fun i => decide (ent B (k + 1) i j = 0) ||
    (intervals vals (k + 1) j).head?.all (fun v => (intervals vals k i).head?.any (fun w => decide (w.1 ≤ v.1 ∧ v.2 ≤ w.2))))))

theorem treatable_of_check {B : List (CMat F)} (hB : IsChainComplex B) {vals : List (List (List (T × T)))} (h : (checkFilt B vals && checkFirst B vals) = true) : Treatable B vals := by
  rw [Bool.and_eq_true] at h
  obtain ⟨h1, h2⟩ := h
  unfold checkFirst at h2
  simp only [Bool.and_eq_true, List.all_eq_true, List.mem_range, Bool.or_eq_true, decide_eq_true_eq] at h2
  refine { filt_of_check hB h1 with first := ?_, strict := ?_ }
  · intro k i j he v hv
    obtain ⟨b1, b2, b3⟩ := ent_bounds hB he
    rcases h2.2 k (by omega) j b3 i b2 with h | h
    · exact absurd h he
    · rw [hv] at h
      rcases hw : (intervals vals k i).head? with _ | w
      · rw [hw] at h; simp at h
      · rw [hw] at h; exact ⟨w, rfl, by simpa using h⟩
  · intro k i v hv
    obtain ⟨vk, m1, m2⟩ := mem_intervals (vals := vals) (k := k) (i := i) (by rintro h; rw [h] at hv; simp at hv)
    exact h2.1 vk m1 _ m2 v hv

/-- a filtration of the filled triangle: the edge `12` (and with it the triangle) is present twice -/
def triVals : List (List (List (Nat × Nat))) :=
  [[[(0, 20)], [(0, 20)], [(1, 20)]], [[(1, 19)], [(2, 18)], [(3, 8), (10, 15)]], [[(4, 6), (11, 13)]]]

theorem triVals_treatable : Treatable triangleQ triVals := treatable_of_check triangleQ_complex (by decide +kernel)

example : ∃ bars, barcode insertionStdSort 0 triangleQ triVals none = .ok bars ∧ IsFiltrationBarcode triangleQ triVals 2 bars :=
  C62_barcode insertionStdSort 0 triangleQ_complex triangleQ_zero' (by decide) triVals_treatable (by intro m h; cases h)

/-- its pairs: three components merge into one, which breaks up when the edges leave; each presence of the edge `12` gives a loop which is filled and opened
again. The events of the second presence report the index of the copy: 3 for the edge (there are 3 edges), 1 for the triangle (there is 1 triangle) -/
theorem C62_copy_index : barcode insertionStdSort 0 triangleQ triVals none = .ok [
    [⟨0, 0, some 0, 0, some 20, true, false⟩, ⟨0, 1, some 0, 0, some 1, true, true⟩, ⟨0, 2, some 1, 1, some 2, true, true⟩,
      ⟨0, 1, some 2, 18, some 20, false, false⟩, ⟨0, 0, some 1, 19, some 20, false, false⟩],
    [⟨1, 2, some 0, 3, some 4, true, true⟩, ⟨1, 0, some 2, 6, some 8, false, false⟩, ⟨1, 3, some 1, 10, some 11, true, true⟩,
      ⟨1, 1, some 3, 13, some 15, false, false⟩]] := by decide +kernel

/-- the simplicial complex of a filled triangle -/
example : ∃ X, (SCpx.init 0).run [.addRecursive [0, 1, 2]] = .ok X ∧ ∃ bars, barcodeSimplicial ℚ insertionStdSort 0 X triVals none = .ok bars ∧
    ∃ B : List (CMat ℚ), X.chainComplex = .ok B ∧ IsFiltrationBarcode B triVals 2 bars := by
  have ho : ∀ o ∈ [SCpx.Op.addRecursive [0, 1, 2]], PlainOp o := by
    intro o h; rw [List.mem_singleton] at h; subst h; exact ⟨by decide, by decide⟩
  obtain ⟨X, cells, e1, e2, _, e4⟩ := SCpx.run_set [.addRecursive [0, 1, 2]] (SCpx.init_inv 0).1 (fun o h => (ho o h).ne)
  have hc : ((SCpx.init 0).run [.addRecursive [0, 1, 2]]).bind (fun X => (X.chainComplex : Res (List (CMat ℚ)))) = .ok [⟨1, [[], [], []]⟩,
      ⟨3, [[(0, -1), (1, 1)], [(0, -1), (2, 1)], [(1, -1), (2, 1)]]⟩, ⟨3, [[(0, -1), (1, 1), (2, -1)]]⟩] := by decide +kernel
  have hm : ((SCpx.init 0).run [.addRecursive [0, 1, 2]]).map (fun X => X.maxdim) = .ok 2 := by decide +kernel
  rw [e1] at hc hm
  have hm' : X.maxdim = 2 := by injection hm
  obtain ⟨B, b1, b2, b3⟩ := C62_simplicial_history (F := ℚ) insertionStdSort 0 0 _ ho e1 (by omega)
  have hc' : (X.chainComplex : Res (List (CMat ℚ))) = .ok [⟨1, [[], [], []]⟩, ⟨3, [[(0, -1), (1, 1)], [(0, -1), (2, 1)], [(1, -1), (2, 1)]]⟩, ⟨3, [[(0, -1), (1, 1), (2, -1)]]⟩] := hc
  rw [b1] at hc'
  injection hc' with hc'
  have hB : IsChainComplex B := by
    rw [hc']
    apply isChainComplex_of_bool
    · decide
    · decide +kernel
    · decide +kernel
  obtain ⟨bars, c1, c2⟩ := b3 triVals (treatable_of_check hB (by rw [hc']; decide +kernel)) none (by intro m h; cases h)
  refine ⟨X, e1, bars, c1, B, b1, ?_⟩
  rw [hc'] at c2 ⊢; exact c2

/-! ### the conditions of `Treatable` are necessary -/

/-- an edge -/
def edgeQ : List (CMat ℚ) := [⟨1, [[], []]⟩, ⟨2, [[(0, -1), (1, 1)]]⟩]

theorem edgeQ_complex : IsChainComplex edgeQ := by
  apply isChainComplex_of_bool
  · decide
  · decide +kernel
  · decide +kernel

/-- the second vertex is present twice and the edge enters during its second presence -/
def lateEdge : List (List (List (Nat × Nat))) := [[[(0, 10)], [(0, 1), (4, 10)]], [[(5, 7)]]]

/-- the column of the first copy of a cell is not redirected to the copies of its faces (zigzag_filtration.hpp:241-262 only corrects the columns of further
intervals): the edge of this zigzag filtration keeps pointing to the first copy of the vertex, which has left, and the reduction is undefined behaviour -/
theorem C62_first_interval_not_redirected : IsChainComplex edgeQ ∧ ZeroBdry0 edgeQ ∧ IsZigzagFiltration edgeQ lateEdge ∧
    barcode insertionStdSort 0 edgeQ lateEdge none = .error .ub :=
  ⟨edgeQ_complex, by unfold ZeroBdry0; decide, filt_of_check edgeQ_complex (by decide +kernel), by decide +kernel⟩

/-- the edge is present again at the moment when the second vertex leaves -/
def pointEdge : List (List (List (Nat × Nat))) := [[[(0, 10)], [(0, 1), (3, 5), (6, 9)]], [[(0, 1), (5, 5)]]]

/-- further intervals which are single points are redirected to the wrong copy of a face (the test of zigzag_filtration.hpp:204 is strict) -/
theorem C62_point_interval_wrong_copy : IsChainComplex edgeQ ∧ ZeroBdry0 edgeQ ∧ IsZigzagFiltration edgeQ pointEdge ∧
    barcode insertionStdSort 0 edgeQ pointEdge none = .error .thrown :=
  ⟨edgeQ_complex, by unfold ZeroBdry0; decide, filt_of_check edgeQ_complex (by decide +kernel), by decide +kernel⟩

end Zigzag
end BATS
