import Verif.Proofs.CubicalChain
import Verif.Props.Homology

set_option linter.unusedSectionVars false
set_option linter.unusedVariables false
set_option linter.unusedSimpArgs false

/-! # C23: cubical complexes (include/complex/cubical_complex.hpp)

`Op`, `run` are histories of the calls `add` and `add_recursive`; `IsCube`, `CubeFace`, `specRun`, `Represents`, `cubicalBetti` are in
`Verif/Spec/Cubical.lean`. -/

namespace BATS
open Cub Reduction

variable {F : Type} [Field F] [DecidableEq F]

/-- `X` results from a history of calls with valid cubes on a new complex of dimension `D` -/
def Cub.Reachable (X : Cub) (D : Nat) : Prop := 0 < D ∧ ∃ ops : List Cub.Op, (∀ o ∈ ops, IsCube D o.cube) ∧ (Cub.init D).run ops = .ok X

theorem Cub.Reachable.inv {X : Cub} {D : Nat} (h : Cub.Reachable X D) : ∃ cells, Cub.Inv X D cells := by
  obtain ⟨hD, ops, ho, e⟩ := h
  obtain ⟨Y, cells, e1, e2, _⟩ := Cub.run_init hD ops ho
  rw [e] at e1; cases e1
  exact ⟨cells, e2⟩

theorem Cub.run_append : ∀ (ops : List Cub.Op) (A B : Cub) (o : Cub.Op), A.run ops = .ok B → A.run (ops ++ [o]) = B.step o := by
  intro ops
  induction ops with
  | nil => intro A B o e; cases e; show (do let Y ← A.step o; Cub.run Y [] : Res Cub) = A.step o; cases A.step o <;> rfl
  | cons p ps ih =>
    intro A B o e
    simp only [Cub.run] at e
    cases hp : A.step p with
    | error x => rw [hp] at e; cases e
    | ok C =>
      rw [hp, bind_ok] at e
      show (do let Y ← A.step p; Cub.run Y (ps ++ [o]) : Res Cub) = _
      rw [hp, bind_ok, ih C B o e]

theorem Cub.Reachable.step {X Y : Cub} {D : Nat} (h : Cub.Reachable X D) {o : Cub.Op} (ho : IsCube D o.cube) (e : X.step o = .ok Y) :
    Cub.Reachable Y D := by
  obtain ⟨hD, ops, h1, h2⟩ := h
  refine ⟨hD, ops ++ [o], ?_, ?_⟩
  · intro o' hm
    rw [List.mem_append, List.mem_singleton] at hm
    rcases hm with hm | rfl
    · exact h1 _ hm
    · exact ho
  · rw [Cub.run_append ops _ X _ h2, e]

/-- C23: any history of calls with valid cubes succeeds, and the queries on the result describe exactly the set of cubes computed by the
specification. -/
theorem C23_history {D : Nat} (hD : 0 < D) (ops : List Cub.Op) (ho : ∀ o ∈ ops, IsCube D o.cube) :
    ∃ X, (Cub.init D).run ops = .ok X ∧ Cub.Represents X D (Cub.specRun D ops) := by
  obtain ⟨Y, cells, e1, e2, e3⟩ := Cub.run_init hD ops ho
  have := e2.represents
  rw [e3] at this
  exact ⟨Y, e1, this⟩

/-- C23: vectors that are not elementary cubes of the right dimension, and only those, are rejected with an exception (no state is
returned: the complex is not changed). -/
theorem C23_invalid {X : Cub} {D : Nat} (h : Cub.Reachable X D) (s : List Nat) :
    (X.add s = .error .thrown ↔ ¬ IsCube D s) ∧ (X.addRecursive s = .error .thrown ↔ ¬ IsCube D s) := by
  obtain ⟨cells, hI⟩ := h.inv
  by_cases hc : IsCube D s
  · obtain ⟨Y, c, r, e, _⟩ := Cub.add_spec hI hc
    obtain ⟨Y', c', r', e', _⟩ := Cub.addRecursive_spec hI hc
    rw [e, e']
    exact ⟨⟨fun h => (by cases h), fun h => absurd hc h⟩, ⟨fun h => (by cases h), fun h => absurd hc h⟩⟩
  · have hv : X.isValidCube s = false := by
      rw [Bool.eq_false_iff, ne_eq, Cub.isValidCube_iff, hI.sizes.dim]; exact hc
    unfold Cub.add Cub.addRecursive
    rw [hv]
    simp [hc]

/-- C23: `add` on a valid cube returns its dimension and the index under which `find_idx` finds it afterwards; it reports `NO_IND`
exactly when the cube is new and one of its faces of codimension one is missing, and then the complex is exactly what it was. A cube
already present leaves the answers of all queries as they were. -/
theorem C23_add_result {X : Cub} {D : Nat} (h : Cub.Reachable X D) {s : List Nat} (hs : IsCube D s) :
    ∃ Y r, X.add s = .ok (Y, cubeDimension D s, r) ∧ Cub.Reachable Y D ∧ r = Y.findIdx s ∧
      (r = none ↔ X.findIdx s = none ∧ ∃ i ∈ dirs D s, X.findIdx (upperFace s i) = none ∨ X.findIdx (lowerFace s i) = none) ∧
      (r = none → Y = X) ∧
      (∀ t i, t.length = 2 * D → X.findIdx t = some i → Y.findIdx t = some i) ∧
      (∀ t, t.length = 2 * D → t ≠ s → Y.findIdx t = X.findIdx t) := by
  obtain ⟨cells, hI⟩ := h.inv
  obtain ⟨Y, cells', r, e1, e2, e3⟩ := Cub.add_spec hI hs
  have hd := cubeDimension_eq hs
  have hR : Cub.Reachable Y D := h.step (o := .add s) hs (by show (X.add s >>= fun r => pure r.1) = _; rw [e1]; rfl)
  have hfx : ∀ t, t.length = 2 * D → (X.findIdx t = none ↔ t ∉ Cub.setOf cells) := by
    intro t ht
    rw [hI.represents.found t ht]
    cases X.findIdx t <;> simp
  have hfaces : (∃ i ∈ dirs D s, X.findIdx (upperFace s i) = none ∨ X.findIdx (lowerFace s i) = none) ↔ ¬ Cub.FacesIn cells s := by
    rw [Cub.facesIn_iff hI.ok hs]
    push Not
    apply exists_congr; intro i
    apply and_congr_right; intro hi
    have l1 : (upperFace s i).length = 2 * D := by rw [upperFace, List.length_set]; exact hs.1
    have l2 : (lowerFace s i).length = 2 * D := by rw [lowerFace, List.length_set]; exact hs.1
    rw [hfx _ l1, hfx _ l2]
    tauto
  have hmono : ∀ t i, t.length = 2 * D → (∀ d, cells d <+: cells' d) → X.findIdx t = some i → Y.findIdx t = some i := by
    intro t i ht hp hi
    refine (e2.trie t ht i).2 ?_
    have := (hI.trie t ht i).1 hi
    obtain ⟨w, hw⟩ := hp (Cub.cubeDim t)
    rw [← hw, List.getElem?_append_left (List.getElem?_eq_some_iff.1 this).1]
    exact this
  rw [← hd] at e1
  refine ⟨Y, r, e1, hR, ?_⟩
  rw [hfaces, hfx s hs.1]
  rcases e3 with ⟨h1, rfl, rfl⟩ | ⟨h1, h2, rfl, rfl⟩ | ⟨h1, h2, rfl, rfl, rfl⟩
  · have hsame : ∀ t, t.length = 2 * D → Y.findIdx t = X.findIdx t := by
      intro t ht
      rcases hx : X.findIdx t with _ | i
      · have : t ∉ Cub.setOf cells' := (hfx t ht).1 hx
        exact e2.trie.none ht this
      · exact (e2.trie t ht i).2 ((hI.trie t ht i).1 hx)
    refine ⟨(e2.trie.get hs.1 h1).symm, ⟨fun h => by (cases h), fun h => absurd h1 h.1⟩, (fun h => by cases h), ?_, fun t ht _ => hsame t ht⟩
    intro t i ht hi; rw [hsame t ht]; exact hi
  · have hp : ∀ d, cells d <+: SCpx.push cells (Cub.cubeDim s) s d := Cub.push_prefix _ _ _
    refine ⟨?_, ⟨fun h => by (cases h), fun h => absurd h2 h.2⟩, (fun h => by cases h), fun t i ht hi => hmono t i ht hp hi, ?_⟩
    · symm
      refine (e2.trie s hs.1 _).2 ?_
      rw [SCpx.push_same]; simp
    · intro t ht hne
      rcases hx : X.findIdx t with _ | i
      · have h3 : t ∉ Cub.setOf cells := (hfx t ht).1 hx
        refine e2.trie.none ht ?_
        intro hm
        rcases SCpx.mem_push.1 hm with hm | ⟨_, rfl⟩
        · exact h3 hm
        · exact hne rfl
      · exact hmono t i ht hp hx
  · exact ⟨((hfx s hs.1).2 h1).symm, ⟨fun _ => ⟨h1, h2⟩, fun _ => rfl⟩, fun _ => rfl, fun _ _ _ h => h, fun _ _ _ => rfl⟩

/-- C23: `add_recursive` on a valid cube ends with the cube and all its faces stored, and nothing else new; the last returned pair is the
dimension and index of the cube. If the cube was already there this is the only pair and the complex is unchanged; otherwise the
returned pairs list, in each dimension, exactly the indices of the newly stored cubes, in order. -/
theorem C23_recursive_result {X : Cub} {D : Nat} (h : Cub.Reachable X D) {s : List Nat} (hs : IsCube D s) :
    ∃ Y r i, X.addRecursive s = .ok (Y, r) ∧ Cub.Reachable Y D ∧ Y.findIdx s = some i ∧ r.getLast? = some (cubeDimension D s, i) ∧
      (∀ t, t.length = 2 * D → ((∃ j, Y.findIdx t = some j) ↔ (∃ j, X.findIdx t = some j) ∨ CubeFace D t s)) ∧
      (∀ t j, t.length = 2 * D → X.findIdx t = some j → Y.findIdx t = some j) ∧
      ((∃ j, X.findIdx s = some j) → Y = X ∧ r = [(cubeDimension D s, i)]) ∧
      (X.findIdx s = none → ∀ d, d ≤ D → ∃ n n', X.numCells d = .ok n ∧ Y.numCells d = .ok n' ∧ n ≤ n' ∧
        (r.filter (fun p => p.1 = d)).map Prod.snd = List.range' n (n' - n)) := by
  obtain ⟨cells, hI⟩ := h.inv
  obtain ⟨Y, cells', r, e1, e2, e3⟩ := Cub.addRecursive_spec hI hs
  have hd := cubeDimension_eq hs
  have hR : Cub.Reachable Y D := h.step (o := .addRecursive s) hs (by show (X.addRecursive s >>= fun r => pure r.1) = _; rw [e1]; rfl)
  have hX := fun t ht => hI.represents.found t ht
  have hY := fun t ht => e2.represents.found t ht
  rw [hd]
  rcases e3 with ⟨h1, rfl, rfl, rfl⟩ | ⟨h1, h2, h3, h4⟩
  · refine ⟨Y, _, _, e1, hR, e2.trie.get hs.1 h1, rfl, ?_, fun _ _ _ h => h, fun _ => ⟨rfl, rfl⟩, ?_⟩
    · intro t ht
      rw [← hX t ht]
      constructor
      · exact Or.inl
      · rintro (h' | h')
        · exact h'
        · exact hI.ok.face _ _ _ h1 h'
    · intro hn
      exact absurd ((hX s hs.1).1 h1) (by rw [hn]; simp)
  · refine ⟨Y, r, _, e1, hR, (e2.trie s hs.1 _).2 (by rw [h3]; simp), h4, ?_, ?_, ?_, ?_⟩
    · intro t ht
      rw [← hX t ht, ← hY t ht]
      show t ∈ cells' _ ↔ _
      rw [h2.mem]
      simp only [List.mem_singleton, exists_eq_left, true_and]
      rfl
    · intro t j ht hj
      refine (e2.trie t ht j).2 ?_
      have := (hI.trie t ht j).1 hj
      obtain ⟨w, hw⟩ := h2.ext (Cub.cubeDim t)
      rw [← hw, List.getElem?_append_left (List.getElem?_eq_some_iff.1 this).1]
      exact this
    · intro hj
      exact absurd ((hX s hs.1).2 hj) h1
    · intro _ d hd
      exact ⟨_, _, rd_some (hI.dim d hd).nc, rd_some (e2.dim d hd).nc, (h2.ext d).length_le, h2.new d⟩

/-- C23: the complex is closed under faces. -/
theorem C23_closed {X : Cub} {D : Nat} (h : Cub.Reachable X D) {s t : List Nat} (hs : s.length = 2 * D) (hst : CubeFace D t s) {i : Nat}
    (hi : X.findIdx s = some i) : ∃ j, X.findIdx t = some j := by
  obtain ⟨cells, hI⟩ := h.inv
  have hm := (hI.represents.found s hs).2 ⟨i, hi⟩
  exact (hI.represents.found t hst.1.1).1 (hI.ok.face _ _ _ hm hst)

/-- C23: for every reachable complex over every field the chain complex is built without error, its sizes are the cell counts, it is a
well formed chain complex, and consecutive boundary maps compose to zero. -/
theorem C23_square_zero {X : Cub} {D : Nat} (h : Cub.Reachable X D) :
    ∃ B : List (CMat F), X.chainComplex = .ok B ∧ B.length = D + 1 ∧ (∀ d, d ≤ D → X.numCells d = .ok (cdim B d)) ∧ ZeroBdry0 B ∧
      IsChainComplex B ∧ ∀ k, bdry B k * bdryUp B k = 0 := by
  obtain ⟨cells, hI⟩ := h.inv
  obtain ⟨B, h1, h2⟩ := Cub.chainComplex_spec (F := F) hI
  refine ⟨B, h1, h2.len, ?_, ?_, Cub.isChainComplex hI.ok h2, fun k => Cub.square_zero hI.ok h2 k⟩
  · intro d hd
    rw [Cub.cdim_eq hI.ok h2]
    exact rd_some (hI.dim d hd).nc
  · intro c hc
    rw [List.getD_eq_getElem?_getD, h2.zero, Option.getD_some] at hc
    simp [CMat.zero] at hc; exact hc.2

/-- C23: the column of a cube is its cubical boundary: the sum over its directions `i` of `(-1)^(number of directions before i)` times
the upper minus the lower face. -/
theorem C23_columns {X : Cub} {D : Nat} (h : Cub.Reachable X D) :
    ∃ B : List (CMat F), X.chainComplex = .ok B ∧
      ∀ (s : List Nat) (d j : Nat), s.length = 2 * D → cubeDimension D s = d + 1 → X.findIdx s = some j →
        ∀ i, ent B (d + 1) i j = ∑ a ∈ dirs D s, (-1 : F) ^ ((dirs D s).filter (· < a)).card *
          ((if X.findIdx (upperFace s a) = some i then 1 else 0) - (if X.findIdx (lowerFace s a) = some i then 1 else 0)) := by
  obtain ⟨cells, hI⟩ := h.inv
  obtain ⟨B, h1, h2⟩ := Cub.chainComplex_spec (F := F) hI
  refine ⟨B, h1, ?_⟩
  intro s d j hl hd hj i
  have hg := (hI.trie s hl j).1 hj
  have hc := (hI.ok.cube _ s (List.mem_of_getElem? hg)).1
  rw [cubeDimension_eq hc] at hd
  rw [hd] at hg
  rw [Cub.ent_eq hI.ok h2 hg, Cub.pair_eq_sum hc.1]
  apply Finset.sum_congr rfl
  intro a ha
  have key : ∀ t, t ∈ (Cub.faces1 s).map Prod.fst → (X.findIdx t = some i ↔ (cells d).idxOf t = i) := by
    intro t ht
    obtain ⟨p, hp, rfl⟩ := List.mem_map.1 ht
    obtain ⟨q1, q2⟩ := Cub.face_cube hc hp
    have hm := hI.ok.closed d s (List.mem_of_getElem? hg) p hp
    have e : X.findIdx p.1 = some ((cells d).idxOf p.1) := by
      have := hI.trie.get (s := p.1) q1.1 (by rw [show Cub.cubeDim p.1 = d by omega]; exact hm)
      rw [show Cub.cubeDim p.1 = d by omega] at this
      exact this
    rw [e]; simp
  have k1 := key _ ((Cub.mem_faces1 hc.1 _).2 ⟨a, ha, Or.inl rfl⟩)
  have k2 := key _ ((Cub.mem_faces1 hc.1 _).2 ⟨a, ha, Or.inr rfl⟩)
  simp only [k1, k2]

/-- C23, end to end: build a cubical complex by any history of `add` / `add_recursive` calls, form its chain complex over any field and
reduce it with any of the algorithms: all calls succeed and `hdim(k)` is the `k`-th cubical Betti number of the set of stored cubes. -/
theorem C23_betti (v : Variant) {D : Nat} (hD : 0 < D) (ops : List Cub.Op) (ho : ∀ o ∈ ops, IsCube D o.cube) (K : Finset (List Nat))
    (hK : ∀ s, s ∈ K ↔ s ∈ Cub.specRun D ops) :
    ∃ (X : Cub) (B : List (CMat F)) (C : RedCpx F), (Cub.init D).run ops = .ok X ∧ X.chainComplex = .ok B ∧ v.reduce B = .ok C ∧
      ∀ k, k ≤ D → C.hdim k = .ok (cubicalBetti F D K k) := by
  obtain ⟨X, cells, e1, e2, e3⟩ := Cub.run_init hD ops ho
  obtain ⟨B, b1, b2⟩ := Cub.chainComplex_spec (F := F) e2
  obtain ⟨C, c1, c2⟩ := C13_betti_is_dim_homology v (Cub.isChainComplex e2.ok b2)
  refine ⟨X, B, C, e1, b1, c1, ?_⟩
  intro k hk
  rw [c2 k (by rw [b2.len]; omega)]
  congr 1
  exact Cub.betti_cubical e2.ok b2 (by intro s; rw [hK, e3]) k

/-- C23: `skeleton(k)` holds exactly the cubes of dimension at most `k`; it throws exactly when `k` exceeds the dimension. -/
theorem C23_skeleton {D : Nat} (hD : 0 < D) (ops : List Cub.Op) (ho : ∀ o ∈ ops, IsCube D o.cube) (k : Nat) :
    ∃ X, (Cub.init D).run ops = .ok X ∧ (D < k → X.skeleton k = .error .thrown) ∧
      (k ≤ D → ∃ Y, X.skeleton k = .ok Y ∧ Cub.Represents Y D {s | s ∈ Cub.specRun D ops ∧ cubeDimension D s ≤ k}) := by
  obtain ⟨X, cells, e1, e2, e3⟩ := Cub.run_init hD ops ho
  refine ⟨X, e1, ?_, ?_⟩
  · intro h
    unfold Cub.skeleton
    rw [e2.sizes.dim, if_pos h]
  · intro h
    obtain ⟨Y, f1, f2⟩ := Cub.skeleton_spec e2 h
    refine ⟨Y, f1, ?_⟩
    have := f2.represents
    have he : Cub.setOf (fun e => if e < k + 1 then cells e else []) = {s | s ∈ Cub.specRun D ops ∧ cubeDimension D s ≤ k} := by
      ext s
      rw [Set.mem_ofPred_eq, ← e3]
      show s ∈ (if Cub.cubeDim s < k + 1 then cells (Cub.cubeDim s) else []) ↔ s ∈ cells (Cub.cubeDim s) ∧ _
      constructor
      · intro hm
        split at hm
        · exact ⟨hm, by rw [cubeDimension_eq (e2.ok.cube _ _ hm).1]; omega⟩
        · simp at hm
      · rintro ⟨hm, hd⟩
        rw [cubeDimension_eq (e2.ok.cube _ _ hm).1] at hd
        rw [if_pos (by omega)]; exact hm
    rwa [he] at this

theorem Cub.mem_specRun_recursive (D : Nat) : ∀ (ss : List (List Nat)) (K : Set (List Nat)) (t : List Nat),
    t ∈ (ss.map Cub.Op.addRecursive).foldl (Cub.specStep D) K ↔ t ∈ K ∨ ∃ s ∈ ss, CubeFace D t s := by
  intro ss
  induction ss with
  | nil => intro K t; simp
  | cons s ss ih =>
    intro K t
    rw [List.map_cons, List.foldl_cons, ih]
    show ((t ∈ K ∨ CubeFace D t s) ∨ _) ↔ _
    simp only [List.mem_cons, exists_eq_or_imp]
    tauto

/-- C23: `generate_cube(n)` builds the full grid: exactly the cubes inside `[0, n-1]^3`. It throws exactly when `n < 2`. -/
theorem C23_generate_cube (n : Nat) :
    (n < 2 → Cub.generateCube n = .error .thrown) ∧
    (2 ≤ n → ∃ X, Cub.generateCube n = .ok X ∧ Cub.Represents X 3 {s | IsCube 3 s ∧ ∀ i, i < 3 → hi s i ≤ n - 1}) := by
  constructor
  · intro h; unfold Cub.generateCube; rw [if_pos h]
  · intro h
    let ss : List (List Nat) := (List.range (n - 1)).flatMap fun i => (List.range (n - 1)).flatMap fun j => (List.range (n - 1)).map fun k =>
      [i, i + 1, j, j + 1, k, k + 1]
    have hops : Cub.gridOps n = ss.map Cub.Op.addRecursive := by
      simp only [ss, Cub.gridOps, List.map_flatMap, List.map_map]; rfl
    have hss : ∀ s, s ∈ ss ↔ ∃ i j k, i < n - 1 ∧ j < n - 1 ∧ k < n - 1 ∧ s = [i, i + 1, j, j + 1, k, k + 1] := by
      intro s
      simp only [ss, List.mem_flatMap, List.mem_map, List.mem_range]
      constructor
      · rintro ⟨i, hi, j, hj, k, hk, rfl⟩; exact ⟨i, j, k, hi, hj, hk, rfl⟩
      · rintro ⟨i, j, k, hi, hj, hk, rfl⟩; exact ⟨i, hi, j, hj, k, hk, rfl⟩
    obtain ⟨X, e1, e2⟩ := C23_history (D := 3) (by omega) (Cub.gridOps n) (by
      intro o ho
      rw [hops, List.mem_map] at ho
      obtain ⟨s, hs, rfl⟩ := ho
      obtain ⟨i, j, k, _, _, _, rfl⟩ := (hss s).1 hs
      refine ⟨rfl, ?_⟩
      intro a ha
      right
      rcases (show a = 0 ∨ a = 1 ∨ a = 2 by omega) with rfl | rfl | rfl <;> rfl)
    refine ⟨X, by unfold Cub.generateCube; rw [if_neg (by omega), e1], ?_⟩
    have he : Cub.specRun 3 (Cub.gridOps n) = {s | IsCube 3 s ∧ ∀ i, i < 3 → hi s i ≤ n - 1} := by
      ext t
      unfold Cub.specRun
      rw [hops, Cub.mem_specRun_recursive, Set.mem_ofPred_eq]
      simp only [Set.mem_empty_iff_false, false_or]
      constructor
      · rintro ⟨s, hs, hf⟩
        obtain ⟨i, j, k, hi, hj, hk, rfl⟩ := (hss s).1 hs
        refine ⟨hf.1, ?_⟩
        intro a ha
        have := (hf.2 a ha).2
        rcases (show a = 0 ∨ a = 1 ∨ a = 2 by omega) with rfl | rfl | rfl
        · have e : BATS.hi [i, i + 1, j, j + 1, k, k + 1] 0 = i + 1 := rfl
          omega
        · have e : BATS.hi [i, i + 1, j, j + 1, k, k + 1] 1 = j + 1 := rfl
          omega
        · have e : BATS.hi [i, i + 1, j, j + 1, k, k + 1] 2 = k + 1 := rfl
          omega
      · rintro ⟨hc, hle⟩
        refine ⟨[min (lo t 0) (n - 2), min (lo t 0) (n - 2) + 1, min (lo t 1) (n - 2), min (lo t 1) (n - 2) + 1,
          min (lo t 2) (n - 2), min (lo t 2) (n - 2) + 1], (hss _).2 ⟨_, _, _, by omega, by omega, by omega, rfl⟩, hc, ?_⟩
        intro a ha
        have h1 := hc.2 a ha
        have h2 := hle a ha
        rcases (show a = 0 ∨ a = 1 ∨ a = 2 by omega) with rfl | rfl | rfl
        · show min (lo t 0) (n - 2) ≤ lo t 0 ∧ hi t 0 ≤ min (lo t 0) (n - 2) + 1
          omega
        · show min (lo t 1) (n - 2) ≤ lo t 1 ∧ hi t 1 ≤ min (lo t 1) (n - 2) + 1
          omega
        · show min (lo t 2) (n - 2) ≤ lo t 2 ∧ hi t 2 ≤ min (lo t 2) (n - 2) + 1
          omega
    rwa [he] at e2

theorem Cub.totalLoop_zero {X : Cub} : ∀ n k, k + n ≤ X.ncells.length → (∃ m, X.totalLoop n k = .ok m ∧ (m = 0 ↔ ∀ i, k ≤ i → i < k + n → X.ncells[i]? = some 0))
  | 0, k, _ => ⟨0, rfl, by simp; intro i h1 h2; omega⟩
  | n + 1, k, h => by
    obtain ⟨m, e1, e2⟩ := Cub.totalLoop_zero (X := X) n (k + 1) (by omega)
    have hk : k < X.ncells.length := by omega
    refine ⟨X.ncells[k] + m, ?_, ?_⟩
    · rw [Cub.totalLoop, rd_ok hk, bind_ok, e1]; rfl
    · constructor
      · intro h0 i h1 h2
        by_cases hi : i = k
        · subst hi; rw [List.getElem?_eq_getElem hk]; congr 1; omega
        · exact e2.1 (by omega) i (by omega) (by omega)
      · intro h0
        have := h0 k le_rfl (by omega)
        rw [List.getElem?_eq_getElem hk] at this
        have h3 := e2.2 (fun i h1 h2 => h0 i (by omega) (by omega))
        simp at this; omega

theorem Cub.specStep_mono (D : Nat) (K : Set (List Nat)) (o : Cub.Op) : K ⊆ Cub.specStep D K o := by
  intro s hs
  cases o with
  | add _ => exact Or.inl hs
  | addRecursive _ => exact Or.inl hs

theorem Cub.foldl_mono (D : Nat) : ∀ (ops : List Cub.Op) (K : Set (List Nat)), K ⊆ ops.foldl (Cub.specStep D) K
  | [], _ => fun _ h => h
  | o :: os, K => fun s hs => Cub.foldl_mono D os _ (Cub.specStep_mono D K o hs)

theorem Cub.run_empty {D : Nat} : ∀ (ops : List Cub.Op) {X : Cub} {cells : SCpx.Cells}, Cub.Inv X D cells → (∀ o ∈ ops, IsCube D o.cube) →
    ops.foldl (Cub.specStep D) (Cub.setOf cells) = ∅ → X.run ops = .ok X
  | [], X, cells, _, _, _ => rfl
  | o :: os, X, cells, h, ho, he => by
    have hc := ho o (by simp)
    have hes : Cub.specStep D (Cub.setOf cells) o = ∅ := by
      rw [Set.eq_empty_iff_forall_notMem] at he ⊢
      intro s hs
      exact he s (Cub.foldl_mono D os _ hs)
    have hstep : X.step o = .ok X := by
      cases o with
      | add s =>
        obtain ⟨Y, c, r, e1, _, e3⟩ := Cub.add_spec h hc
        have : Y = X := by
          rcases e3 with ⟨h1, _⟩ | ⟨h1, h2, _⟩ | ⟨_, _, h3, _⟩
          · exact absurd (show s ∈ Cub.specStep D (Cub.setOf cells) (.add s) from Or.inl h1) (by rw [hes]; simp)
          · exact absurd (show s ∈ Cub.specStep D (Cub.setOf cells) (.add s) from Or.inr ⟨rfl, (Cub.facesIn_iff h.ok hc).1 h2⟩) (by rw [hes]; simp)
          · exact h3
        show (X.add s >>= fun r => pure r.1) = _
        rw [show X.add s = _ from e1, this]; rfl
      | addRecursive s =>
        exact absurd (show s ∈ Cub.specStep D (Cub.setOf cells) (.addRecursive s) from Or.inr (Cub.cubeFace_refl hc)) (by rw [hes]; simp)
    rw [Cub.run, hstep, bind_ok]
    exact Cub.run_empty os h (fun p hp => ho p (by simp [hp])) (by
      rw [Set.eq_empty_iff_forall_notMem]
      intro s hs
      have hmono : ∀ (os : List Cub.Op) (K L : Set (List Nat)), K ⊆ L → os.foldl (Cub.specStep D) K ⊆ os.foldl (Cub.specStep D) L := by
        intro os
        induction os with
        | nil => intro K L h; exact h
        | cons p ps ih =>
          intro K L h
          apply ih
          intro t ht
          cases p with
          | add u =>
            rcases ht with ht | ⟨rfl, ht⟩
            · exact Or.inl (h ht)
            · exact Or.inr ⟨rfl, fun i hi => ⟨h (ht i hi).1, h (ht i hi).2⟩⟩
          | addRecursive u =>
            rcases ht with ht | ht
            · exact Or.inl (h ht)
            · exact Or.inr ht
      have := hmono os _ _ (Cub.specStep_mono D (Cub.setOf cells) o) hs
      rw [List.foldl_cons] at he
      rw [he] at this; exact this)

theorem growTo_growTo {α : Type} (m n : Nat) (a : α) : growTo (growTo [] m a) n a = growTo [] (max n m) a := by
  apply List.ext_getElem?
  intro i
  simp only [SCpx.growTo_getElem?, SCpx.growTo_length]
  simp
  split <;> split <;> first | rfl | omega | (split <;> first | rfl | omega)

theorem Cub.reserve_init (D m : Nat) : (Cub.init D).reserve m = Cub.init (max m D) := by
  show Cub.mk _ _ _ _ _ _ = Cub.mk _ _ _ _ _ _
  congr 1
  · show growTo (growTo [] (D + 1) []) (m + 1) [] = growTo [] (max m D + 1) []
    rw [growTo_growTo]; congr 1; omega
  · exact growTo_growTo _ _ _
  · exact growTo_growTo _ _ _
  · show growTo (growTo [] (D + 1) 0) (m + 1) 0 = growTo [] (max m D + 1) 0
    rw [growTo_growTo]; congr 1; omega
  · show (if (if D < D then D else D) < m then m else (if D < D then D else D)) = (if max m D < max m D then max m D else max m D)
    simp only [lt_self_iff_false, if_false]
    split <;> omega

/-- C23: `set_dimension(m)` throws exactly when the complex holds a cube; on an empty complex the result is the new complex of dimension
`max(m, D)`: the dimension never shrinks. -/
theorem C23_set_dimension {X : Cub} {D : Nat} (h : Cub.Reachable X D) (m : Nat) :
    (X.setDimension m = .error .thrown ↔ ∃ s i, s.length = 2 * D ∧ X.findIdx s = some i) ∧
    ((∀ s, s.length = 2 * D → X.findIdx s = none) → X.setDimension m = .ok (Cub.init (max m D))) := by
  obtain ⟨cells, hI⟩ := h.inv
  obtain ⟨t, e1, e2⟩ := Cub.totalLoop_zero (X := X) (D + 1) 0 (by rw [hI.sizes.nc]; omega)
  have hD := hI.sizes.pos
  have hempty : t = 0 ↔ ∀ s, s.length = 2 * D → X.findIdx s = none := by
    rw [e2]
    constructor
    · intro h0 s hs
      refine hI.trie.none hs ?_
      intro hm
      have hc := (hI.ok.cube _ _ hm).1
      have h1 := h0 (Cub.cubeDim s) (by omega) (by have := Cub.cubeDim_le hc; omega)
      rw [(hI.dim _ (Cub.cubeDim_le hc)).nc] at h1
      simp at h1
      rw [h1] at hm; simp at hm
    · intro h0 i _ hi
      rw [(hI.dim i (by omega)).nc]
      congr 1
      rw [List.length_eq_zero_iff, List.eq_nil_iff_forall_not_mem]
      intro s hs
      have hc := hI.ok.cube _ _ hs
      have h1 := h0 s hc.1.1
      have h2 := hI.trie.get hc.1.1 (by rw [hc.2]; exact hs)
      unfold Cub.findIdx at h1
      rw [h1] at h2; cases h2
  have htot : X.total = .ok t := by unfold Cub.total; rw [hI.sizes.dim]; exact e1
  constructor
  · unfold Cub.setDimension
    rw [htot, bind_ok]
    by_cases h0 : t = 0
    · rw [if_neg (by omega)]
      have := hempty.1 h0
      constructor
      · intro h; cases h
      · rintro ⟨s, i, h1, h2⟩
        rw [this s h1] at h2; cases h2
    · rw [if_pos (by omega)]
      refine ⟨fun _ => ?_, fun _ => rfl⟩
      by_contra hc
      push Not at hc
      exact h0 (hempty.2 (fun s hs => by
        rcases hx : X.findIdx s with _ | i
        · rfl
        · exact absurd hx (hc s i hs)))
  · intro hn
    have h0 := hempty.2 hn
    have hcells : cells = fun _ => [] := by
      funext d
      rw [List.eq_nil_iff_forall_not_mem]
      intro s hs
      have hc := hI.ok.cube _ _ hs
      have h2 := hI.trie.get hc.1.1 (by rw [hc.2]; exact hs)
      have h1 := hn s hc.1.1
      unfold Cub.findIdx at h1
      rw [h1] at h2; cases h2
    have hX : X = Cub.init D := by
      obtain ⟨_, ops, ho, e⟩ := h
      obtain ⟨Y, c2, f1, f2, f3⟩ := Cub.run_spec ops (Cub.init_inv hD) ho
      rw [e] at f1; cases f1
      have hc2 : Cub.setOf c2 = ∅ := by
        rw [Set.eq_empty_iff_forall_notMem]
        intro s hs
        have hl := (f2.ok.cube _ _ hs).1.1
        obtain ⟨i, hi⟩ := (f2.represents.found s hl).1 hs
        rw [hn s hl] at hi; cases hi
      rw [Cub.run_empty ops (Cub.init_inv hD) ho (by rw [← f3]; exact hc2)] at e
      cases e; rfl
    unfold Cub.setDimension
    rw [htot, bind_ok, if_neg (by omega), hX, Cub.reserve_init]
    rfl

/-- C23, finding: in dimension zero `add({})` reports index 0 but stores nothing. -/
theorem C23_dimension_zero : (Cub.init 0).add [] = .ok (Cub.init 0, 0, some 0) ∧ (Cub.init 0).numCells 0 = .ok 0 := ⟨rfl, rfl⟩

/-- C23, finding: `find_idx` answers 0 rather than `NO_IND` for a vector that is a proper prefix of a stored cube. -/
theorem C23_find_prefix : ((Cub.init 1).run [.add [4, 4]]).map (fun X => (X.findIdx [4], X.findIdx [5], X.findIdx [4, 4])) =
    .ok (some 0, none, some 0) := by decide +kernel

/-- a refused edge, then the boundary of a unit square, edge by edge; the square itself; one component and one loop before it -/
example : ((Cub.init 2).run [.add [0, 1, 0, 0], .addRecursive [0, 1, 0, 0], .addRecursive [0, 1, 1, 1], .addRecursive [0, 0, 0, 1],
      .addRecursive [1, 1, 0, 1]]).map (fun X => (X.findIdx [0, 1, 0, 0], X.findIdx [1, 1, 1, 1], X.findIdx [0, 1, 0, 1], X.ncells)) =
    .ok (some 0, some 2, none, [4, 4, 0]) := by decide +kernel

example : (((Cub.init 2).run [.addRecursive [0, 1, 0, 0], .addRecursive [0, 1, 1, 1], .addRecursive [0, 0, 0, 1],
      .addRecursive [1, 1, 0, 1]]).bind (fun X => (X.chainComplex : Res (List (CMat ℚ))))).bind
    (fun B => (Variant.standard.reduce B).bind (fun C => (C.hdim 0).bind (fun a => (C.hdim 1).map (fun b => (a, b))))) = .ok (1, 1) := by
  decide +kernel

example : (((Cub.init 2).run [.addRecursive [0, 1, 0, 1]]).bind (fun X => (X.chainComplex : Res (List (CMat ℚ))))) =
    .ok [⟨1, [[], [], [], []]⟩, ⟨4, [[(0, 1), (1, -1)], [(2, 1), (3, -1)], [(0, 1), (2, -1)], [(1, 1), (3, -1)]]⟩,
      ⟨4, [[(0, 1), (1, -1), (2, -1), (3, 1)]]⟩] := by decide +kernel

/-- the hypothesis of `C23_history` is met by these calls -/
example : ∀ o ∈ [Cub.Op.add [0, 1, 0, 0], .addRecursive [0, 1, 2, 3]], IsCube 2 o.cube := by
  intro o ho
  simp only [List.mem_cons, List.not_mem_nil, or_false] at ho
  rcases ho with rfl | rfl
  · exact ⟨rfl, by decide⟩
  · exact ⟨rfl, by decide⟩

end BATS
