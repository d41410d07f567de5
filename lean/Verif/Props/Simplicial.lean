import Verif.Proofs.SimplicialHomology
import Verif.Props.Homology

set_option linter.unusedSectionVars false
set_option linter.unusedVariables false
set_option linter.unusedSimpArgs false

/-! # C19, C20, C51: simplicial complexes (include/complex/simplicial_complex.hpp, include/chain/chain_complex.hpp)

`Op`, `run` are histories of the calls `add`, `add_directed`, `add_recursive`, `add_directed_recursive`; `specStep`, `specRun`,
`Represents`, `simplicialBetti` are in `Verif/Spec/Simplicial.lean`. `Reachable X`: `X` results from a history of calls with
nonempty simplices on a new complex. -/

namespace BATS
open SCpx Reduction

variable {F : Type} [Field F] [DecidableEq F]

/-- C19: any history of calls with nonempty simplices succeeds, and the queries on the result describe exactly the set of
simplices computed by the specification: `find_idx` finds the members and only them, each is stored exactly once. -/
theorem C19_history (m : Nat) (ops : List Op) (ho : ∀ o ∈ ops, o.simplex ≠ []) :
    ∃ X, (SCpx.init m).run ops = .ok X ∧ Represents X (specRun ops) := by
  obtain ⟨X, cells, h1, h2, _, h4⟩ := run_set ops (init_inv m).1 ho
  refine ⟨X, h1, ?_⟩
  have := h2.represents
  rw [h4] at this
  have he : SCpx.setOf (fun _ => []) = ∅ := by
    ext s; simp [SCpx.setOf]
  rw [he] at this
  exact this

/-- C19: the complex is closed under faces: every nonempty subsequence of a stored simplex is stored. -/
theorem C19_closed {X : SCpx} (h : Reachable X) {s t : List Nat} (hs : s ≠ []) (ht : t ≠ []) (hst : t.Sublist s) {i : Nat}
    (hi : X.findIdx s = some i) : ∃ j, X.findIdx t = some j := by
  obtain ⟨cells, hI⟩ := h.inv
  have hm := (hI.trie.isSome hs).1 (by unfold findIdx at hi; rw [hi]; rfl)
  have := hI.ok.sublist _ _ s t hm hst ht rfl
  exact ⟨_, hI.trie.get hI.ok ht this⟩

/-- C19: positions never change: whatever calls follow, a stored simplex keeps its index. -/
theorem C19_stable {X Y : SCpx} (h : Reachable X) (ops : List Op) (ho : ∀ o ∈ ops, o.simplex ≠ []) (hY : X.run ops = .ok Y)
    {s : List Nat} (hs : s ≠ []) {i : Nat} (hi : X.findIdx s = some i) : Y.findIdx s = some i := by
  obtain ⟨cells, hI⟩ := h.inv
  obtain ⟨Y', cells', h1, h2, h3, _⟩ := run_set ops hI ho
  rw [hY] at h1; cases h1
  have := (hI.trie s hs i).1 hi
  refine (h2.trie s hs i).2 ?_
  obtain ⟨r, hr⟩ := h3 (s.length - 1)
  rw [← hr, List.getElem?_append_left (List.getElem?_eq_some_iff.1 this).1]
  exact this

/-- C19: `add_directed` (and `add`, which sorts first) returns the index under which `find_idx` finds the simplex afterwards. It
reports `NO_IND` exactly when the simplex is new, is not a vertex and one of its faces is missing; then the answers of `find_idx`,
`ncells` and `get_simplex` are what they were. `maxdim()` is raised to the dimension of the simplex in all cases. -/
theorem C19_add_result {X : SCpx} (h : Reachable X) {s : List Nat} (hs : s ≠ []) :
    ∃ Y r, X.addDirected s = .ok (Y, r) ∧ Reachable Y ∧ r = Y.findIdx s ∧ Y.maxdim = max X.maxdim (s.length - 1) ∧
      (r = none ↔ X.findIdx s = none ∧ s.length ≠ 1 ∧ ∃ k, k < s.length ∧ X.findIdx (s.eraseIdx k) = none) ∧
      (r = none ∨ (∃ i, X.findIdx s = some i) → (∀ t, t ≠ [] → Y.findIdx t = X.findIdx t) ∧
        ∀ d, d ≤ X.maxdim → Y.numCells d = X.numCells d ∧ ∀ i n, X.numCells d = .ok n → i < n → Y.getSimplex d i = X.getSimplex d i) := by
  obtain ⟨cells, hI⟩ := h.inv
  obtain ⟨Y, cells', r, h1, h2, h3, h4, h5, h6, h7, h8⟩ := addDirected_set hI hs
  have hR : Reachable Y := by
    obtain ⟨m, ops, ho, e⟩ := h
    refine ⟨m, ops ++ [.addDirected s], ?_, ?_⟩
    · intro o hm
      rw [List.mem_append, List.mem_singleton] at hm
      rcases hm with hm | rfl
      · exact ho o hm
      · exact hs
    · have key : ∀ (ops : List Op) (A : SCpx) (B : SCpx) (o : Op), run A ops = .ok B → run A (ops ++ [o]) = step B o := by
        intro ops
        induction ops with
        | nil => intro A B o e; cases e; show (do let Y ← A.step o; run Y [] : Res SCpx) = A.step o; cases A.step o <;> rfl
        | cons p ps ih =>
          intro A B o e
          simp only [run] at e
          cases hp : A.step p with
          | error x => rw [hp] at e; cases e
          | ok C =>
            rw [hp, bind_ok] at e
            show (do let Y ← A.step p; run Y (ps ++ [o]) : Res SCpx) = _
            rw [hp, bind_ok, ih C B o e]
      rw [key ops _ X _ e]
      show (do let r ← X.addDirected s; pure r.1 : Res SCpx) = _
      rw [h1]; rfl
  have hXne := hI.sizes.ne
  have hYne := h2.sizes.ne
  have hpos := List.length_pos_iff.2 hs
  have hfx : ∀ t, t ≠ [] → (X.findIdx t = none ↔ t ∉ SCpx.setOf cells) := by
    intro t ht
    rw [hI.represents.found t ht]
    cases X.findIdx t <;> simp
  have hmono : ∀ t, t ≠ [] → (Y.findIdx t = none ↔ t ∉ SCpx.setOf cells') := by
    intro t ht
    rw [h2.represents.found t ht]
    cases Y.findIdx t <;> simp
  refine ⟨Y, r, h1, hR, h6, by unfold maxdim; omega, ?_, ?_⟩
  · rw [h6, hmono s hs, h5, hfx s hs]
    unfold specAdd
    rw [Set.mem_ofPred_eq]
    have hface : s.length ≠ 1 → ∀ k, k < s.length → (X.findIdx (s.eraseIdx k) = none ↔ s.eraseIdx k ∉ SCpx.setOf cells) := by
      intro h1 k hk
      apply hfx
      intro e
      have := List.length_eraseIdx_of_lt hk
      rw [e] at this
      simp at this; omega
    constructor
    · intro hc
      push Not at hc
      obtain ⟨a, b⟩ := hc
      obtain ⟨b1, k, b2, b3⟩ := b rfl
      exact ⟨a, b1, k, b2, (hface b1 k b2).2 b3⟩
    · rintro ⟨a, b, k, hk, e⟩ (hc | ⟨_, hc | hc⟩)
      · exact a hc
      · exact b hc
      · exact (hface b k hk).1 e (hc k hk)
  · intro hr
    have hce : cells' = cells := by
      rcases hr with hr | ⟨i, hi⟩
      · exact h7 hr
      · exact h8 ((hI.represents.found s hs).2 ⟨i, hi⟩)
    subst hce
    refine ⟨?_, ?_⟩
    · intro t ht
      unfold findIdx
      cases hx : X.trie.get? t with
      | none =>
        have := (hfx t ht).1 hx
        exact (hmono t ht).2 this
      | some i => exact (h2.trie t ht i).2 ((hI.trie t ht i).1 hx)
    · intro d hd
      have d1 := hI.dim d (by unfold maxdim at hd; omega)
      have d2 := h2.dim d (by unfold maxdim at hd; omega)
      refine ⟨?_, ?_⟩
      · unfold numCells; rw [rd_some d1.nc, rd_some d2.nc]
      · intro i n _ _
        unfold getSimplex
        rw [rd_some d1.sp, rd_some d2.sp]

/-- C19: `add_directed_recursive` (and `add_recursive`, which sorts first) ends with the simplex and all its faces stored; the
last returned pair is the dimension and index of the simplex. If it was already there, this is the only pair and nothing else
changes; otherwise the returned pairs list, in each dimension, exactly the indices of the newly stored simplices, in order. -/
theorem C19_recursive_result {X : SCpx} (h : Reachable X) {s : List Nat} (hs : s ≠ []) :
    ∃ Y r i, X.addDirectedRecursive s = .ok (Y, r) ∧ Y.findIdx s = some i ∧ r.getLast? = some (s.length - 1, i) ∧
      (∀ t, t ≠ [] → ((∃ j, Y.findIdx t = some j) ↔ (∃ j, X.findIdx t = some j) ∨ t.Sublist s)) ∧
      ((∃ j, X.findIdx s = some j) → r = [(s.length - 1, i)]) ∧
      (X.findIdx s = none → ∀ d, d ≤ Y.maxdim → ∃ n n', (if d ≤ X.maxdim then X.numCells d else .ok 0) = .ok n ∧ Y.numCells d = .ok n' ∧
        n ≤ n' ∧ (r.filter (fun p => p.1 = d)).map Prod.snd = List.range' n (n' - n)) := by
  obtain ⟨cells, hI⟩ := h.inv
  obtain ⟨Y, cells', r, h1, h2, h3, h4, h5, h6, ⟨i, h7⟩, h8, h9⟩ := addDirectedRecursive_set hI hs
  rw [h7] at h6
  refine ⟨Y, r, i, h1, h7, h6, ?_, ?_, ?_⟩
  · intro t ht
    rw [← h2.represents.found t ht, ← hI.represents.found t ht, h5]
    unfold specAddRec
    rw [Set.mem_ofPred_eq]
    simp [ht]
  · intro hm
    obtain ⟨_, p, rfl⟩ := h8 ((hI.represents.found s hs).2 hm)
    simpa using h6
  · intro hn d hd
    have hnm : s ∉ SCpx.setOf cells := by
      rw [hI.represents.found s hs, hn]; simp
    have hXne := hI.sizes.ne
    have hYne := h2.sizes.ne
    have d2 := h2.dim d (by unfold maxdim at hd; omega)
    refine ⟨(cells d).length, (cells' d).length, ?_, rd_some d2.nc, (h4 d).length_le, h9 hnm d⟩
    split
    · rename_i hx
      exact rd_some (hI.dim d (by unfold maxdim at hx; omega)).nc
    · rename_i hx
      rw [hI.top d (by unfold maxdim at hx; omega)]; rfl

/-- C19: the empty simplex is rejected with an exception (`std::length_error` from the wrapped-around size). -/
theorem C19_empty (X : SCpx) : X.add [] = .error .thrown ∧ X.addDirected [] = .error .thrown ∧
    X.addRecursive [] = .error .thrown ∧ X.addDirectedRecursive [] = .error .thrown := ⟨rfl, rfl, rfl, rfl⟩

/-- a history in which an edge is refused because vertex 7 is missing, and then a triangle is added recursively -/
example : ((SCpx.init 1).run [.add [3], .add [3, 7], .addRecursive [7, 3, 5]]).map
      (fun X => (X.findIdx [3], X.findIdx [3, 7], X.findIdx [3, 5, 7], X.findIdx [7, 3], X.ncells)) =
    .ok (some 0, some 1, some 0, none, [3, 3, 1]) := by decide +kernel

/-- C20: for every reachable complex the chain complex is built without error; its sizes are the cell counts, the boundary of
dimension 0 is zero, and the column of a simplex `s` with `d+2` vertices is the signed sum of its faces: dropping vertex number
`k` contributes `(-1)^(d+k)` in the row of that face. -/
theorem C20_columns {X : SCpx} (h : Reachable X) :
    ∃ B : List (CMat F), X.chainComplex = .ok B ∧ B.length = X.maxdim + 1 ∧ ZeroBdry0 B ∧
      (∀ d, d ≤ X.maxdim → X.numCells d = .ok (cdim B d)) ∧
      ∀ (s : List Nat) (d j : Nat), s.length = d + 2 → X.findIdx s = some j →
        ∀ i, ent B (d + 1) i j = ∑ k ∈ Finset.range (d + 2), if X.findIdx (s.eraseIdx k) = some i then (-1 : F) ^ (d + k) else 0 := by
  obtain ⟨cells, hI⟩ := h.inv
  obtain ⟨B, h1, h2, h3, h4⟩ := chainComplex_spec (F := F) hI
  have hne := hI.sizes.ne
  refine ⟨B, h1, by rw [h2]; unfold maxdim; omega, ?_, ?_, ?_⟩
  · intro c hc
    rw [List.getD_eq_getElem?_getD, h3, Option.getD_some] at hc
    simp [CMat.zero] at hc; exact hc.2
  · intro d hd
    rw [cdim_eq hI h3 h2 h4]
    exact rd_some (hI.dim d (by unfold maxdim at hd; omega)).nc
  · intro s d j hl hj i
    have hs : s ≠ [] := by intro e; rw [e] at hl; simp at hl
    have hg := (hI.trie s hs j).1 hj
    rw [hl, show d + 2 - 1 = d + 1 by omega] at hg
    rw [ent_eq hI h4 hg]
    apply Finset.sum_congr rfl
    intro k hk
    rw [Finset.mem_range] at hk
    have hm := hI.ok.closed d s (List.mem_of_getElem? hg) k hk
    have hll : (s.eraseIdx k).length = d + 1 := by rw [List.length_eraseIdx_of_lt (by omega)]; omega
    have hne' : s.eraseIdx k ≠ [] := by intro e; rw [e] at hll; simp at hll
    have hf : X.findIdx (s.eraseIdx k) = some ((cells d).idxOf (s.eraseIdx k)) := by
      have := hI.trie.get hI.ok hne' (by rw [hll]; exact hm)
      rw [hll] at this; exact this
    rw [hf]
    simp only [Option.some.injEq]

/-- C20: consecutive boundary maps compose to zero, in every dimension, over every field, for every history (directed and
degenerate simplices included). -/
theorem C20_square_zero {X : SCpx} (h : Reachable X) :
    ∃ B : List (CMat F), X.chainComplex = .ok B ∧ ∀ k, bdry B k * bdryUp B k = 0 := by
  obtain ⟨cells, hI⟩ := h.inv
  obtain ⟨B, h1, h2, h3, h4⟩ := chainComplex_spec (F := F) hI
  exact ⟨B, h1, fun k => square_zero hI h3 h2 h4 k⟩

/-- C20: if the vertices of every stored simplex are distinct, the stored matrices are well formed (sorted, no zero entries, in
range), so the result is a valid input for the reduction algorithms. -/
theorem C20_chain_complex {X : SCpx} (h : Reachable X) (hn : ∀ s i, s ≠ [] → X.findIdx s = some i → s.Nodup) :
    ∃ B : List (CMat F), X.chainComplex = .ok B ∧ IsChainComplex B ∧ ZeroBdry0 B := by
  obtain ⟨cells, hI⟩ := h.inv
  obtain ⟨B, h1, h2, h3, h4⟩ := chainComplex_spec (F := F) hI
  refine ⟨B, h1, isChainComplex_of hI ?_ h3 h2 h4, ?_⟩
  · intro d s hs
    have hl := hI.ok.len d s hs
    have hs' := (mem_setOf hl).2 hs
    obtain ⟨i, hi⟩ := (hI.represents.found s hs'.1).1 hs'
    exact hn s i hs'.1 hi
  · intro c hc
    rw [List.getD_eq_getElem?_getD, h3, Option.getD_some] at hc
    simp [CMat.zero] at hc; exact hc.2

/-- C20: `boundary(d+1, j)` lists the faces of the `j`-th simplex in increasing order of index, with their signs. -/
theorem C20_boundary_query {X : SCpx} (h : Reachable X) {s : List Nat} {d j : Nat} (hl : s.length = d + 2) (hj : X.findIdx s = some j) :
    ∃ f c, X.boundary (d + 1) j = .ok (f, c) ∧ f.Pairwise (· ≤ ·) ∧
      ((f.zip c).map (fun p => (some p.1, p.2))).Perm ((List.range (d + 2)).map (fun k => (X.findIdx (s.eraseIdx k), (-1 : Int) ^ (d + k)))) := by
  obtain ⟨cells, hI⟩ := h.inv
  have hs : s ≠ [] := by intro e; rw [e] at hl; simp at hl
  have hg := (hI.trie s hs j).1 hj
  rw [hl, show d + 2 - 1 = d + 1 by omega] at hg
  have hd : d + 1 < X.ncells.length := by
    by_contra hc
    rw [hI.top _ (by omega)] at hg; simp at hg
  obtain ⟨Fs, Cs, a1, a2, a3, a4, a5⟩ := hI.bd d hd
  obtain ⟨hF, hC⟩ := BdOK.lengths (X := X) a3 a4 a5
  obtain ⟨f, c, b1, b2, b3⟩ := a5 j s hg
  have hjl := (List.getElem?_eq_some_iff.1 hg).1
  have hmul := Nat.mul_le_mul_left (d + 2) (show j + 1 ≤ (cells (d + 1)).length by omega)
  refine ⟨f, c, ?_, b3.sorted, ?_⟩
  · unfold SCpx.boundary
    rw [show d + 1 - 1 = d by omega, rd_some a1, bind_ok, rd_some a2, bind_ok, if_neg, pure_ok]
    · rw [flatten_slice_uniform hF b1, flatten_slice_uniform hC b2]
    · rw [flatten_length_uniform hF, flatten_length_uniform hC, a3, a4]
      simp only [Bool.or_self, decide_eq_true_eq, not_lt]
      exact hmul
  · refine (b3.perm.map _).trans ?_
    unfold facePairs
    rw [List.map_map]
    apply List.Perm.of_eq
    apply List.map_congr_left
    intro k hk
    rw [List.mem_range] at hk
    have hm := hI.ok.closed d s (List.mem_of_getElem? hg) k hk
    have hll : (s.eraseIdx k).length = d + 1 := by rw [List.length_eraseIdx_of_lt (by omega)]; omega
    have hne' : s.eraseIdx k ≠ [] := by intro e; rw [e] at hll; simp at hll
    have hf : X.findIdx (s.eraseIdx k) = some ((cells d).idxOf (s.eraseIdx k)) := by
      have := hI.trie.get hI.ok hne' (by rw [hll]; exact hm)
      rw [hll] at this; exact this
    simp [hf]

/-- the solid triangle on 2, 5, 9 -/
example : ((SCpx.init 0).run [.addRecursive [9, 5, 2]]).bind (fun X => (X.chainComplex : Res (List (CMat ℚ)))) =
    .ok [⟨1, [[], [], []]⟩, ⟨3, [[(0, -1), (1, 1)], [(0, -1), (2, 1)], [(1, -1), (2, 1)]]⟩,
      ⟨3, [[(0, -1), (1, 1), (2, -1)]]⟩] := by decide +kernel

/-! ## C51: end to end -/

/-- histories of `add` and `add_recursive` with simplices on distinct vertices -/
def PlainOp : Op → Prop
  | .add s | .addRecursive s => s ≠ [] ∧ s.Nodup
  | _ => False

theorem PlainOp.ne {o : Op} (h : PlainOp o) : o.simplex ≠ [] := by
  cases o <;> simp only [PlainOp] at h
  · exact h.1
  · exact h.1

theorem sorted_mergeSort {s : List Nat} (h : s.Nodup) : (s.mergeSort (· ≤ ·)).Pairwise (· < ·) := by
  rw [mergeSort_eq]
  have h1 := List.pairwise_insertionSort (· ≤ ·) s
  have h2 : (sortV s).Nodup := (List.perm_insertionSort (· ≤ ·) s).nodup_iff.2 h
  exact (h1.and h2).imp (fun h => lt_of_le_of_ne h.1 h.2)

theorem specRun_sorted : ∀ (ops : List Op) (K : Set (List Nat)), (∀ o ∈ ops, PlainOp o) → (∀ s ∈ K, s.Pairwise (· < ·)) →
    ∀ s ∈ ops.foldl specStep K, s.Pairwise (· < ·) := by
  intro ops
  induction ops with
  | nil => intro K _ h; exact h
  | cons o os ih =>
    intro K ho hK
    refine ih _ (fun o' h' => ho o' (by simp [h'])) ?_
    have hp := ho o (by simp)
    intro s hs
    cases o with
    | add t =>
      rcases hs with hs | ⟨rfl, _⟩
      · exact hK s hs
      · exact sorted_mergeSort hp.2
    | addRecursive t =>
      rcases hs with hs | ⟨_, hs⟩
      · exact hK s hs
      · exact (sorted_mergeSort hp.2).sublist hs
    | addDirected t => exact hp.elim
    | addDirectedRecursive t => exact hp.elim

/-- C51: build a complex by any history of `add` / `add_recursive` calls with distinct vertices, form its chain complex over any
field and reduce it with any of the algorithms: all calls succeed and `hdim(k)` is the `k`-th simplicial Betti number of the
abstract complex `K` of the stored vertex sets. -/
theorem C51_betti (v : Variant) (m : Nat) (ops : List Op) (ho : ∀ o ∈ ops, PlainOp o) (K : Finset (Finset Nat))
    (hK : ∀ σ : Finset Nat, σ ∈ K ↔ σ.sort (· ≤ ·) ∈ specRun ops) :
    ∃ (X : SCpx) (B : List (CMat F)) (C : RedCpx F), (SCpx.init m).run ops = .ok X ∧ X.chainComplex = .ok B ∧ v.reduce B = .ok C ∧
      ∀ k, k ≤ X.maxdim → C.hdim k = .ok (simplicialBetti F K k) := by
  obtain ⟨X, cells, h1, h2, _, h4⟩ := run_set ops (init_inv m).1 (fun o h => (ho o h).ne)
  have he : SCpx.setOf (fun _ => []) = ∅ := by
    ext s; simp [SCpx.setOf]
  rw [he] at h4
  obtain ⟨B, b1, b2, b3, b4⟩ := chainComplex_spec (F := F) h2
  have hsort : ∀ d s, s ∈ cells d → s.Pairwise (· < ·) := by
    intro d s hs
    have hm := (mem_setOf (h2.ok.len d s hs)).2 hs
    rw [h4] at hm
    exact specRun_sorted ops ∅ ho (by intro s hs; exact hs.elim) s hm
  have hv : VertexSets cells K := ⟨hsort, by intro σ; rw [hK, h4]; rfl⟩
  have hC := isChainComplex_of h2 (fun d s hs => (hsort d s hs).imp (fun h => ne_of_lt h)) b3 b2 b4
  obtain ⟨C, c1, c2⟩ := C13_betti_is_dim_homology v hC
  refine ⟨X, B, C, h1, b1, c1, ?_⟩
  intro k hk
  have hne := h2.sizes.ne
  rw [c2 k (by unfold maxdim at hk; omega)]
  congr 1
  exact betti_simplicial h2 hv b3 b2 b4 k

theorem mem_specRun_recursive : ∀ (ss : List (List Nat)) (K : Set (List Nat)) (t : List Nat),
    t ∈ (ss.map Op.addRecursive).foldl specStep K ↔ t ∈ K ∨ (t ≠ [] ∧ ∃ s ∈ ss, t.Sublist (s.mergeSort (· ≤ ·))) := by
  intro ss
  induction ss with
  | nil => intro K t; simp
  | cons s ss ih =>
    intro K t
    rw [List.map_cons, List.foldl_cons, ih]
    show ((t ∈ K ∨ (t ≠ [] ∧ t.Sublist (s.mergeSort (· ≤ ·)))) ∨ _) ↔ _
    simp only [List.mem_cons, exists_eq_or_imp]
    tauto

/-- C51, generated complexes: calling `add_recursive` on a list of vertex sets gives the Betti numbers of the abstract complex of
all nonempty subsets of those sets. -/
theorem C51_generated (v : Variant) (m : Nat) (ss : List (List Nat)) (hs : ∀ s ∈ ss, s ≠ [] ∧ s.Nodup) (K : Finset (Finset Nat))
    (hK : ∀ σ : Finset Nat, σ ∈ K ↔ σ.Nonempty ∧ ∃ s ∈ ss, σ ⊆ s.toFinset) :
    ∃ (X : SCpx) (B : List (CMat F)) (C : RedCpx F), (SCpx.init m).run (ss.map Op.addRecursive) = .ok X ∧ X.chainComplex = .ok B ∧ v.reduce B = .ok C ∧
      ∀ k, k ≤ X.maxdim → C.hdim k = .ok (simplicialBetti F K k) := by
  apply C51_betti v m _ ?_ K
  · intro σ
    rw [hK]
    unfold specRun
    rw [mem_specRun_recursive]
    have hne : σ.sort (· ≤ ·) ≠ [] ↔ σ.Nonempty := by
      rw [← List.length_pos_iff, Finset.length_sort, Finset.card_pos]
    rw [hne]
    simp only [Set.mem_empty_iff_false, false_or]
    apply and_congr_right
    intro _
    apply exists_congr
    intro s
    apply and_congr_right
    intro hm
    have hsorted := sorted_mergeSort (hs s hm).2
    constructor
    · intro hsub
      have h1 : (σ.sort (· ≤ ·)).Subperm (s.mergeSort (· ≤ ·)) := by
        apply List.subperm_of_subset (σ.sort_nodup _)
        intro a ha
        rw [List.mem_mergeSort]
        exact List.mem_toFinset.1 (hsub ((Finset.mem_sort _).1 ha))
      exact List.sublist_of_subperm_of_pairwise (r := (· < ·)) h1 (pairwise_sort_lt σ) hsorted
    · intro hsub a ha
      rw [List.mem_toFinset]
      have := hsub.subset ((Finset.mem_sort (· ≤ ·)).2 ha)
      rwa [List.mem_mergeSort] at this
  · intro o hm
    rw [List.mem_map] at hm
    obtain ⟨s, hs', rfl⟩ := hm
    exact hs s hs'

/-- the boundary of a triangle, added edge by edge: one component and one loop -/
example : (((SCpx.init 1).run ([[0, 1], [2, 0], [1, 2]].map Op.addRecursive)).bind (fun X => (X.chainComplex : Res (List (CMat ℚ))))).bind
    (fun B => (Variant.standard.reduce B).bind (fun C => (C.hdim 0).bind (fun a => (C.hdim 1).map (fun b => (a, b))))) = .ok (1, 1) := by
  decide +kernel

/-- the hypotheses of `C51_generated` are met by these three edges and their six nonempty subsets -/
example : (∀ s ∈ [[0, 1], [2, 0], [1, 2]], s ≠ [] ∧ s.Nodup) ∧
    ∀ σ : Finset Nat, σ ∈ ({{0}, {1}, {2}, {0, 1}, {0, 2}, {1, 2}} : Finset (Finset Nat)) ↔
      σ.Nonempty ∧ ∃ s ∈ [[0, 1], [2, 0], [1, 2]], σ ⊆ s.toFinset := by
  refine ⟨by decide, fun σ => ?_⟩
  constructor
  · intro h
    revert σ
    decide
  · rintro ⟨hn, s, hs, hsub⟩
    have key : ∀ s ∈ [[0, 1], [2, 0], [1, 2]], ∀ τ ∈ (s.toFinset : Finset Nat).powerset, τ.Nonempty →
        τ ∈ ({{0}, {1}, {2}, {0, 1}, {0, 2}, {1, 2}} : Finset (Finset Nat)) := by decide
    exact key s hs σ (Finset.mem_powerset.2 hsub) hn

end BATS
