import Verif.Proofs.UnionFindRips
import Verif.Props.Persistence

set_option linter.unusedSectionVars false
set_option linter.unusedVariables false
set_option linter.unusedSimpArgs false

/-! # C35: zero-dimensional barcodes by union-find

`componentsHit`, `IsGraphBoundary`, `graphEdges`, `condensedIdx`, `closeAt` are in `Verif/Spec/UnionFind.lean`. -/

namespace BATS
open UF

/-- the root of `i` when parents are followed `m` times -/
def followParents (p : List Nat) : Nat → Nat → Nat
  | 0, i => i
  | m + 1, i => followParents p m (p.getD i i)

theorem follow_of_root {p : List Nat} {r : Nat} (hr : p.getD r r = r) (m : Nat) : followParents p m r = r := by
  induction m with
  | zero => rfl
  | succ m ih => unfold followParents; rw [hr]; exact ih

theorem Forest.follow {N : Nat} {p : List Nat} {ρ : Nat → Nat} (h : UF.Forest N p ρ) : ∀ (m i : Nat), i < N → ρ (followParents p m i) = ρ i ∧ followParents p m i < N := by
  intro m
  induction m with
  | zero => intro i hi; exact ⟨rfl, hi⟩
  | succ m ih =>
    intro i hi
    obtain ⟨x, hx, hxN⟩ := h.get hi
    have hg : p.getD i i = x := by rw [List.getD_eq_getElem?_getD, hx]; rfl
    unfold followParents
    rw [hg]
    obtain ⟨h1, h2⟩ := ih x hxN
    exact ⟨h1.trans (h.step i x hx), h2⟩

/-- C35: on a parent vector in which every node reaches a root (a node that is its own parent), `find_parent` terminates without an
out-of-bounds access, returns the root of the node, and the compressed vector has the same length and the same root for every node. -/
theorem C35_find_parent {p : List Nat} (hp : ∀ i x : Nat, p[i]? = some x → x < p.length) (ρ : Nat → Nat)
    (hρ : ∀ i, i < p.length → p[ρ i]? = some (ρ i) ∧ ∃ m, followParents p m i = ρ i) {i : Nat} (hi : i < p.length) :
    ∃ p', findParent p i = .ok (p', ρ i) ∧ p'.length = p.length ∧
      ∀ j, j < p.length → p'[ρ j]? = some (ρ j) ∧ ∃ m, followParents p' m j = ρ j := by
  classical
  have hget : ∀ {i x : Nat}, p[i]? = some x → p.getD i i = x := by
    intro i x h; rw [List.getD_eq_getElem?_getD, h]; rfl
  have hself : ∀ i, i < p.length → p.getD (ρ i) (ρ i) = ρ i := fun i hi => hget (hρ i hi).1
  have hmany : ∀ (m' m i : Nat), p.getD (followParents p m i) (followParents p m i) = followParents p m i → m ≤ m' → followParents p m' i = followParents p m i := by
    intro m'
    induction m' with
    | zero => intro m i _ h; have : m = 0 := by omega
              rw [this]
    | succ m' ih =>
      intro m i h hm
      rcases m with _ | m
      · exact follow_of_root h _
      · unfold followParents at h ⊢
        exact ih m _ h (by omega)
  have huniq : ∀ i r, i < p.length → p.getD r r = r → (∃ m, followParents p m i = r) → r = ρ i := by
    intro i r hi hr ⟨m, hm⟩
    obtain ⟨m2, hm2⟩ := (hρ i hi).2
    have h1 := hmany (max m m2) m i (by rw [hm]; exact hr) (Nat.le_max_left _ _)
    have h2 := hmany (max m m2) m2 i (by rw [hm2]; exact hself i hi) (Nat.le_max_right _ _)
    rw [← hm, ← hm2, ← h1, h2]
  have hstep : ∀ i x : Nat, p[i]? = some x → ρ x = ρ i := by
    intro i x hx
    have hi := (List.getElem?_eq_some_iff.1 hx).1
    have hxl := hp i x hx
    obtain ⟨m, hm⟩ := (hρ x hxl).2
    apply huniq i (ρ x) hi (hself x hxl)
    exact ⟨m + 1, by unfold followParents; rw [hget hx]; exact hm⟩
  have hlt : ∀ i, i < p.length → ρ i < p.length := fun i hi => (List.getElem?_eq_some_iff.1 (hρ i hi).1).1
  have hidem : ∀ i, i < p.length → ρ (ρ i) = ρ i := by
    intro i hi
    exact (huniq (ρ i) (ρ i) (hlt i hi) (hself i hi) ⟨0, rfl⟩).symm
  have hroot : ∀ i x : Nat, p[i]? = some x → (ρ i = i ↔ x = i) := by
    intro i x hx
    have hi := (List.getElem?_eq_some_iff.1 hx).1
    constructor
    · intro e
      have := (hρ i hi).1
      rw [e, hx] at this
      exact Option.some.inj this
    · rintro rfl
      exact (huniq x x hi (hget hx) ⟨0, rfl⟩).symm
  have hex : ∀ i, ∃ m, i < p.length → followParents p m i = ρ i := by
    intro i
    by_cases hi : i < p.length
    · obtain ⟨m, hm⟩ := (hρ i hi).2; exact ⟨m, fun _ => hm⟩
    · exact ⟨0, fun h => absurd h hi⟩
  have hF : UF.Forest p.length p ρ := by
    refine ⟨rfl, hp, hstep, hroot, hlt, hidem, ⟨fun i => Nat.find (hex i), ?_⟩⟩
    intro i x hx hne
    have hi := (List.getElem?_eq_some_iff.1 hx).1
    have hxl := hp i x hx
    have hspec := Nat.find_spec (hex i) hi
    have hpos : Nat.find (hex i) ≠ 0 := by
      intro e
      rw [e] at hspec
      exact hne ((hroot i x hx).1 hspec.symm)
    obtain ⟨m, hm⟩ := Nat.exists_eq_succ_of_ne_zero hpos
    show Nat.find (hex x) < Nat.find (hex i)
    rw [hm] at hspec ⊢
    unfold followParents at hspec
    rw [hget hx] at hspec
    apply Nat.lt_succ_of_le
    apply Nat.find_min'
    intro _
    rw [hspec, hstep i x hx]
  obtain ⟨p', h1, h2⟩ := findParent_spec hF hi
  refine ⟨p', h1, h2.len, fun j hj => ?_⟩
  obtain ⟨r, hr⟩ := h2.rank
  obtain ⟨x, hx, _⟩ := h2.get (hlt j hj)
  have hxr : x = ρ j := (h2.root _ _ hx).1 (hidem j hj)
  refine ⟨by rw [hx, hxr], ?_⟩
  have : ∀ (n j : Nat), r j ≤ n → j < p.length → ∃ m, followParents p' m j = ρ j := by
    intro n
    induction n with
    | zero =>
      intro j hn hj
      obtain ⟨x, hx, hxN⟩ := h2.get hj
      by_cases e : x = j
      · exact ⟨0, ((h2.root j x hx).2 e).symm⟩
      · have := hr j x hx e; omega
    | succ n ih =>
      intro j hn hj
      obtain ⟨x, hx, hxN⟩ := h2.get hj
      by_cases e : x = j
      · exact ⟨0, ((h2.root j x hx).2 e).symm⟩
      · have := hr j x hx e
        obtain ⟨m, hm⟩ := ih x (by omega) hxN
        refine ⟨m + 1, ?_⟩
        unfold followParents
        have : p'.getD j j = x := by rw [List.getD_eq_getElem?_getD, hx]; rfl
        rw [this, hm, h2.step j x hx]
  exact this (r j) j (Nat.le_refl _) hj

section
variable {F : Type} [Field F] [DecidableEq F] {T : Type} [LinearOrder T] [Inhabited T] {K : Type} [LinearOrder K]

/-- C35: let `X` be a filtered chain complex whose stored values are in the order of the cells of the stored complex, with the
edges in nondecreasing order, and whose first boundary matrix is that of a graph. If the conversion of values to `float` keeps them
apart, `union_find_pairs` succeeds and returns one bar per vertex, in order, with the birth value of the vertex; for all `s`, `t`
the number of bars born at or before `s` and alive at `t` is the number of connected components at `t` that contain a vertex born
at or before `s` (elder rule), which for `s ≤ t` is the rank of `H_0(X_s) → H_0(X_t)`. -/
theorem C35_union_find_pairs {fl : T → K} (hfl : StrictMono fl) {X : FiltCpx T F} (hB : IsChainComplex X.C) (hl : 2 ≤ X.C.length) (h0 : ZeroBdry0 X.C)
    (hv : ValuesFor X.C X.val) (hg : IsGraphBoundary (X.C.getD 1 ⟨0, []⟩).cols) (hsort : (X.val.getD 1 []).Pairwise (· ≤ ·)) :
    ∃ ps, unionFindPairs fl X = .ok ps ∧ ps.length = cdim X.C 0 ∧
      (∀ x, x < cdim X.C 0 → ∃ q, ps[x]? = some q ∧ q.dim = 0 ∧ q.birthInd = x ∧ (X.val.getD 0 [])[x]? = some q.birth ∧
        ∀ d, q.death = some d → d ∈ X.val.getD 1 []) ∧
      (∀ s t, ps.countP (fun q => decide (q.birth ≤ s) && (match q.death with | none => true | some d => decide (t < d))) =
        componentsHit (cdim X.C 0) (graphEdges (X.C.getD 1 ⟨0, []⟩).cols (X.val.getD 1 [])) (fun v => (X.val.getD 0 []).getD v default) s t) ∧
      (∀ (s t : T) (hst : s ≤ t), ps.countP (fun q => decide (q.birth ≤ s) && (match q.death with | none => true | some d => decide (t < d))) =
        Module.finrank F (LinearMap.range (persistenceMap X.C X.val 0 hst))) := by
  obtain ⟨S, ρ, h1, h2, h3⟩ := unionFindPairs_spec hfl hB hl hv hg hsort
  refine ⟨S.pairs, h1, h2.len, ?_, h3, fun s t hst => by rw [persistentBetti_zero hB hl h0 hv hg hst]; exact h3 s t⟩
  intro x hx
  obtain ⟨q, q1, q2, q3, q4, q5, q6⟩ := h2.pair x hx
  have hlt : x < (X.val.getD 0 []).length := by rw [hv.lens 0 (by omega)]; exact hx
  refine ⟨q, q1, q2, q3, ?_, ?_⟩
  · rw [List.getElem?_eq_getElem hlt, getElem_getD' (d := default) hlt, q4]
  · intro d hd
    obtain ⟨i, j, hm⟩ := q6 d hd
    unfold graphEdges at hm
    rw [List.mem_map] at hm
    obtain ⟨⟨c, d'⟩, hm, heq⟩ := hm
    simp only [Prod.mk.injEq] at heq
    rw [← heq.2.2]
    exact (List.of_mem_zip hm).2

/-- a list in order is its own stable sort -/
theorem stableSortperm_of_sorted {l : List T} (h : l.Pairwise (· ≤ ·)) : Perm.stableSortperm l = List.range l.length := by
  unfold Perm.stableSortperm
  have hs : (l.zipIdx).Pairwise (fun x y : T × Nat => x.1 ≤ y.1) := by
    have : (l.zipIdx).map Prod.fst = l := List.zipIdx_map_fst 0 l
    rw [← this, List.pairwise_map] at h
    exact h
  rw [hs.insertionSort_eq, List.zipIdx_map_snd, List.range_eq_range']

/-- C35: if the cells of the filtration were added in filtration order (values nondecreasing in every dimension), the union-find bars
of the filtered chain complex have the same counts as the bars of dimension 0 computed by any of the reduction algorithms. -/
theorem C35_agrees_with_reduction (v : Variant) {fl : T → K} (hfl : StrictMono fl) {B : List (CMat F)} (hB : IsChainComplex B) (hl : 2 ≤ B.length) (h0 : ZeroBdry0 B)
    {val : List (List T)} (hv : ValuesFor B val) (hg : IsGraphBoundary (B.getD 1 ⟨0, []⟩).cols) (hsort : ∀ l ∈ val, l.Pairwise (· ≤ ·)) :
    ∃ X ps R qs, FiltCpx.ofFiltration val B = .ok X ∧ unionFindPairs fl X = .ok ps ∧
      RedFiltCpx.ofFiltration v.reduce val B = .ok R ∧ R.persistencePairs 0 false = .ok qs ∧
      ∀ s t, s ≤ t → ps.countP (fun q => decide (q.birth ≤ s) && (match q.death with | none => true | some d => decide (t < d))) =
        qs.countP (fun q => decide (q.birth ≤ s) && (match q.death with | none => true | some d => decide (t < d))) := by
  obtain ⟨X, hX, e1, e2, hr⟩ := ofFiltration_spec hB hl h0 hv
  have hperm : ∀ k i, i < cdim B k → ((FiltCpx.filtrationSortperm val).getD k []).getD i 0 = i := by
    intro k i hi
    rw [filtrationSortperm_getD]
    have hk : k < B.length := by
      by_contra hc
      unfold cdim at hi
      rw [List.getD_eq_getElem?_getD, List.getElem?_eq_none (by omega)] at hi
      simp at hi
    have hkl : k < val.length := by rw [hv.len]; exact hk
    rw [stableSortperm_of_sorted (hsort _ (getD_mem' hkl)), hv.lens k hk, List.getD_eq_getElem?_getD, List.getElem?_range hi]
    rfl
  have hCB : X.C = B := by
    apply List.ext_getElem
    · rw [hr.same.len]
    · intro k h1 h2
      have hC := hr.complex hB
      have s1 := hC.shape k h1
      have s2 := hB.shape k h2
      rw [← getElem_getD' h1] at s1
      rw [← getElem_getD' h2] at s2
      have hcd := hr.same.cdim k
      have hrd : rdim X.C k = rdim B k := by
        rcases k with _ | k
        · exact hr.same.rdim hr.ne 0
        · exact hr.same.cdim k
      rw [hcd, hrd] at s1
      apply CMat.Shape.ext s1 s2
      ext i j
      show coef (X.C[k].cols.getD j []) i = coef (B[k].cols.getD j []) i
      rw [getElem_getD' (d := ⟨0, []⟩) h1, getElem_getD' (d := ⟨0, []⟩) h2]
      rcases k with _ | k
      · have := hr.zero i j i.2 j.2
        rw [hperm 0 j j.2] at this
        exact this
      · have := hr.succ k i j h2 i.2 j.2
        rw [hperm (k + 1) j j.2, hperm k i i.2] at this
        exact this
  obtain ⟨R, r1, r2⟩ := C32_persistent_betti v hB hl h0 hv
  obtain ⟨qs, p1, p2⟩ := r2 0 (by omega)
  have hsort1 : (val.getD 1 []).Pairwise (· ≤ ·) := hsort _ (getD_mem' (by rw [hv.len]; omega))
  obtain ⟨ps, u1, _, _, _, u5⟩ := C35_union_find_pairs hfl (X := X) (by rw [hCB]; exact hB) (by rw [hCB]; exact hl) (by rw [hCB]; exact h0)
    (by rw [hCB, e1]; exact hv) (by rw [hCB]; exact hg) (by rw [e1]; exact hsort1)
  obtain ⟨xv, xc, xp⟩ := X
  simp only at e1 hCB u5
  subst e1 hCB
  exact ⟨_, ps, R, qs, hX, u1, r1, p1, fun s t hst => (u5 s t hst).trans (p2 s t hst).symm⟩

/-- C35: `rips_union_find_pairs` on the condensed distance vector of `N ≥ 1` points and a permutation sorting it (for exact square
roots) succeeds and returns one bar per point, born at 0; for all `t` the number of bars alive at `t` is the number of connected
components of the graph joining the points at distance at most `t`. -/
theorem C35_rips_union_find [Zero T] {N : Nat} (hN : 1 ≤ N) {inds : List Nat} {vals : List T} (hp : inds.Perm (List.range (N * (N - 1) / 2)))
    (hl : vals.length = N * (N - 1) / 2) (hs : (inds.map (fun e => vals.getD e default)).Pairwise (· ≤ ·)) :
    ∃ ps, ripsUnionFindPairs inds vals = .ok ps ∧ ps.length = N ∧ (∀ q ∈ ps, q.dim = 0 ∧ q.birth = 0 ∧ ∀ d, q.death = some d → d ∈ vals) ∧
      ∀ t, ps.countP (fun q => match q.death with | none => true | some d => decide (t < d)) = Nat.card (Quot (closeAt N vals t)) := by
  obtain ⟨S, h1, ⟨es, ρ, h2, h3⟩, h4⟩ := ripsUnionFind_spec hN hp hl hs
  refine ⟨S.pairs, h1, h2.len, ?_, h4⟩
  intro q hq
  obtain ⟨x, hx, hxq⟩ := List.mem_iff_getElem.1 hq
  obtain ⟨q', y1, y2, _, y4, _, y6⟩ := h2.pair x (by rw [← h2.len]; exact hx)
  rw [List.getElem?_eq_getElem hx] at y1
  have : q' = q := by rw [← hxq]; exact (Option.some.inj y1).symm
  subst this
  exact ⟨y2, y4, fun d hd => h3 d (y6 d hd)⟩

end

/-- C35: `binom_to_inds` inverts the condensed index (exact arithmetic). -/
theorem C35_binom_to_inds {N i j : Nat} (hij : i < j) (hj : j < N) : binomToInds (condensedIdx N i j) N = (i, j) ∧ condensedIdx N i j < N * (N - 1) / 2 :=
  ⟨binomToInds_spec hij hj, condensedIdx_lt hij hj⟩

/-! ### examples and limits -/

/-- a path on three vertices: the edges `01` and `02` -/
def pathQ : List (CMat ℚ) := [⟨0, [[], [], []]⟩, ⟨3, [[(0, -1), (1, 1)], [(0, -1), (2, 1)]]⟩]

example : IsGraphBoundary (pathQ.getD 1 ⟨0, []⟩).cols := by
  intro c hc
  have : c = [(0, -1), (1, 1)] ∨ c = [(0, -1), (2, 1)] := by simpa [pathQ] using hc
  rcases this with rfl | rfl
  · exact ⟨0, 1, -1, by norm_num, by norm_num⟩
  · exact ⟨0, 2, -1, by norm_num, by norm_num⟩

example : ((FiltCpx.ofFiltration [[0, 1, 2], [3, 4]] pathQ).bind (fun X => (unionFindPairs (id : Nat → Nat) X).map (fun ps => ps.map (fun q => (q.birth, q.death))))) =
    .ok [(0, none), (1, some 3), (2, some 4)] := by decide +kernel

example : (ripsUnionFindPairs [2, 0, 1] [5, 7, 1]).map (fun ps => ps.map (fun q => (q.birth, q.death))) =
    (.ok [(0, some 5), (0, some 1), (0, none)] : Res (List (Nat × Option Nat))) := by decide +kernel

/-- C35, limit: `F.vals()` is in the original order and the boundary matrix in filtration order, and the code uses one index for
both. If the cells were not added in filtration order the bars are wrong: here the vertices are born at 0, 1, 2 and the edges
`01`, `02` appear at 4 and 3; the reduction reports the bars `[0, ∞)`, `[1, 4)`, `[2, 3)`, union-find `[0, ∞)`, `[1, 3)`, `[2, 4)`. -/
theorem C35_unsorted_values_wrong :
    ((FiltCpx.ofFiltration [[0, 1, 2], [4, 3]] pathQ).bind (fun X => (unionFindPairs (id : Nat → Nat) X).map (fun ps => ps.map (fun q => (q.birth, q.death))))) =
      .ok [(0, none), (1, some 3), (2, some 4)] ∧
    ((RedFiltCpx.ofFiltration Variant.standard.reduce [[0, 1, 2], [4, 3]] pathQ).bind (fun R => (R.persistencePairs 0 false).map (fun ps => ps.map (fun q => (q.birth, q.death))))) =
      .ok [(0, none), (1, some 4), (2, some 3)] := by
  constructor <;> decide +kernel

end BATS
