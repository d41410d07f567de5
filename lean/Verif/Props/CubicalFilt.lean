import Verif.Proofs.CubicalFilt
import Verif.Props.Cubical
import Verif.Props.Persistence

set_option linter.unusedSectionVars false
set_option linter.unusedVariables false
set_option linter.unusedSimpArgs false

/-! # C80: persistent homology of cubical complexes and of images (include/filtration/extension.hpp:87-167)

`IsCubicalSet`, `cubInclusion` (the map between cubical homology groups induced by an inclusion of cubical sets), `CubeVertex`, `pixel2`,
`pixel3`, `IsCubeMax` are in `Verif/Spec/CubicalPersistence.lean`. -/

namespace BATS
open Cub Reduction

variable {F : Type} [Field F] [DecidableEq F] {T : Type} [LinearOrder T]

theorem Cub.found_iff {X : Cub} {D : Nat} {cells : SCpx.Cells} (hI : Cub.Inv X D cells) (s : List Nat) :
    (s.length = 2 * D ∧ ∃ i, X.findIdx s = some i) ↔ s ∈ Cub.setOf cells := by
  constructor
  · rintro ⟨h1, h2⟩; exact (hI.represents.found s h1).2 h2
  · intro h
    have h1 := (hI.represents.cube s h).1
    exact ⟨h1, (hI.represents.found s h1).1 h⟩

/-- C80: take any cubical complex and any values on its cubes with no cube below a face. Then the sublevel sets `K a` are nested cubical sets,
the filtered chain complex over any field is formed and reduced by any of the algorithms, and for all `s ≤ t` and all `k` the number of reported
bars of dimension `k` born at or before `s` and still alive at `t` is the rank of `H_k(K s) → H_k(K t)`. -/
theorem C80_persistence (v : Variant) {X : Cub} {D : Nat} (h : Cub.Reachable X D) {val : List (List T)} (w : List Nat → T)
    (hlen : val.length = D + 1) (hrow : ∀ k, k ≤ D → X.numCells k = .ok (val.getD k []).length)
    (hval : ∀ s i, s.length = 2 * D → X.findIdx s = some i → (val.getD (cubeDimension D s) [])[i]? = some (w s))
    (hm : ∀ s i, s.length = 2 * D → X.findIdx s = some i → ∀ a ∈ dirs D s, w (upperFace s a) ≤ w s ∧ w (lowerFace s a) ≤ w s)
    (K : T → Finset (List Nat)) (hK : ∀ a s, s ∈ K a ↔ s.length = 2 * D ∧ (∃ i, X.findIdx s = some i) ∧ w s ≤ a) :
    ∃ (B : List (CMat F)) (R : RedFiltCpx T F) (hset : ∀ a, IsCubicalSet D (K a)) (hsub : ∀ s t, s ≤ t → K s ⊆ K t),
      X.chainComplex = .ok B ∧ RedFiltCpx.ofFiltration v.reduce val B = .ok R ∧
      ∀ k, k ≤ D → ∃ ps, R.persistencePairs k false = .ok ps ∧
        ∀ (s t : T) (hst : s ≤ t),
          ps.countP (fun q => decide (q.birth ≤ s) && (match q.death with | none => true | some d => decide (t < d))) =
            Module.finrank F (LinearMap.range (cubInclusion F D (hset s) (hsub s t hst) k)) := by
  classical
  obtain ⟨cells, hI⟩ := h.inv
  obtain ⟨B, b1, b2⟩ := Cub.chainComplex_spec (F := F) hI
  have hC := Cub.isChainComplex hI.ok b2
  have hc := Cub.cdim_eq hI.ok b2
  have hz : ZeroBdry0 B := by
    intro c hc
    rw [List.getD_eq_getElem?_getD, b2.zero, Option.getD_some] at hc
    simp [CMat.zero] at hc; exact hc.2
  have hb0 : bdry B 0 = 0 := by
    ext i m
    show coef ((B.getD 0 ⟨0, []⟩).cols.getD m []) i = 0
    rw [List.getD_eq_getElem?_getD (l := B), b2.zero, Option.getD_some]
    simp only [CMat.zero, List.getD_eq_getElem?_getD, List.getElem?_replicate]
    split <;> simp
  have hnc : ∀ k, k ≤ D → (val.getD k []).length = (cells k).length := by
    intro k hk
    have h1 := hrow k hk
    have h2 := BATS.rd_some (hI.dim k hk).nc
    rw [show X.numCells k = rd X.ncells k from rfl, h2] at h1
    exact (Except.ok.inj h1).symm
  have hvals : ValuesFor B val := by
    refine ⟨by rw [hlen, b2.len], fun k hk => ?_⟩
    rw [hc, hnc k (by rw [b2.len] at hk; omega)]
  have hw : ∀ k, val.getD k [] = (cells k).map w := by
    intro k
    by_cases hk : k ≤ D
    · apply List.ext_getElem?
      intro i
      by_cases hi : i < (cells k).length
      · have hs : (cells k)[i]? = some (cells k)[i] := List.getElem?_eq_getElem hi
        have hmem : (cells k)[i] ∈ cells k := List.getElem_mem _
        obtain ⟨c1, c2⟩ := hI.ok.cube k _ hmem
        have hf : X.findIdx (cells k)[i] = some i := (hI.trie _ c1.1 i).2 (by rw [c2]; exact hs)
        have := hval _ i c1.1 hf
        rw [cubeDimension_eq c1, c2] at this
        rw [this, List.getElem?_map, hs]; rfl
      · rw [List.getElem?_eq_none (by rw [hnc k hk]; omega), List.getElem?_eq_none (by rw [List.length_map]; omega)]
    · rw [hI.ok.top (by omega), List.getD_eq_getElem?_getD, List.getElem?_eq_none (by omega)]; rfl
  have hKs : ∀ a s, s ∈ K a ↔ s ∈ Cub.setOf cells ∧ w s ≤ a := by
    intro a s
    rw [hK, ← Cub.found_iff hI, and_assoc]
  have hfin : ∃ K0 : Finset (List Nat), ∀ s, s ∈ K0 ↔ s ∈ Cub.setOf cells := by
    refine ⟨((List.range (D + 1)).flatMap cells).toFinset, fun s => ?_⟩
    rw [List.mem_toFinset, List.mem_flatMap]
    constructor
    · rintro ⟨d, _, hs⟩; exact (hI.ok.mem_iff.1 hs).1
    · intro hs
      have hs' : s ∈ cells (cubeDim s) := hs
      exact ⟨cubeDim s, by rw [List.mem_range]; have := Cub.cubeDim_le (hI.ok.cube _ _ hs').1; omega, hs'⟩
  obtain ⟨K0, hK0⟩ := hfin
  have hset : ∀ a, IsCubicalSet D (K a) := by
    intro a
    constructor
    · intro s hs
      exact hI.represents.cube s ((hKs a s).1 hs).1
    · intro s hs i hi
      obtain ⟨h1, h2⟩ := (hKs a s).1 hs
      have hcb := hI.represents.cube s h1
      obtain ⟨l1, j, hj⟩ := (Cub.found_iff hI s).2 h1
      have hfin' : FacesIn cells s := by
        have h1' : s ∈ cells (cubeDim s) := h1
        intro p hp
        obtain ⟨q1, q2⟩ := Cub.face_cube hcb hp
        have : s ∈ cells (cubeDim p.1 + 1) := by rw [q2]; exact h1'
        have e : cubeDim s - 1 = cubeDim p.1 := by omega
        rw [e]
        exact hI.ok.closed _ s this p hp
      obtain ⟨g1, g2⟩ := (Cub.facesIn_iff hI.ok hcb).1 hfin' i hi
      obtain ⟨m1, m2⟩ := hm s j l1 hj i hi
      exact ⟨(hKs a _).2 ⟨g1, le_trans m1 h2⟩, (hKs a _).2 ⟨g2, le_trans m2 h2⟩⟩
  have hsub : ∀ s t, s ≤ t → K s ⊆ K t := by
    intro s t hst σ hσ
    obtain ⟨h1, h2⟩ := (hKs s σ).1 hσ
    exact (hKs t σ).2 ⟨h1, le_trans h2 hst⟩
  obtain ⟨R, r1, r2⟩ := C32_persistent_betti v hC (by rw [b2.len]; have := hI.sizes.pos; omega) hz hvals
  refine ⟨B, R, hset, hsub, b1, r1, fun k hk => ?_⟩
  obtain ⟨ps, p1, p2⟩ := r2 k (by rw [b2.len]; omega)
  refine ⟨ps, p1, fun s t hst => ?_⟩
  exact (p2 s t hst).trans <| Cub.persistent_cubical hI.ok hK0 hc b2 hb0 hw (K := K)
    (fun a s => by rw [hKs, hK0]) hset k hst (hsub s t hst)

/-- common part of the theorems for images: `f` computes the maximum over the vertices, and fails if a vertex lies outside -/
theorem Cub.image_values [Nonempty T] {X : Cub} {D : Nat} (h : Cub.Reachable X D) {f : List Nat → Res T} {pix : List Nat → Option T}
    (hok : ∀ s, IsCube D s → (∀ p, CubeVertex D p s → pix p ≠ none) → ∃ v, f s = .ok v ∧ IsCubeMax D pix s v)
    (hin : ∀ s i p, s.length = 2 * D → X.findIdx s = some i → CubeVertex D p s → pix p ≠ none) :
    ∃ (val : List (List T)) (w : List Nat → T), cubeLoop X f (X.maxdim + 1) 0 = .ok val ∧ val.length = D + 1 ∧
      (∀ k, k ≤ D → X.numCells k = .ok (val.getD k []).length) ∧
      (∀ s i, s.length = 2 * D → X.findIdx s = some i → (val.getD (cubeDimension D s) [])[i]? = some (w s) ∧ IsCubeMax D pix s (w s)) ∧
      (∀ s i, s.length = 2 * D → X.findIdx s = some i → ∀ a ∈ dirs D s, w (upperFace s a) ≤ w s ∧ w (lowerFace s a) ≤ w s) := by
  classical
  obtain ⟨cells, hI⟩ := h.inv
  have key : ∀ s, ∃ x : Option T, s ∈ Cub.setOf cells → ∃ v, x = some v ∧ f s = .ok v ∧ IsCubeMax D pix s v := by
    intro s
    by_cases hs : s ∈ Cub.setOf cells
    · obtain ⟨l, i, hi⟩ := (Cub.found_iff hI s).2 hs
      obtain ⟨v, hv⟩ := hok s (hI.represents.cube s hs) (fun p hp => hin s i p l hi hp)
      exact ⟨some v, fun _ => ⟨v, rfl, hv⟩⟩
    · exact ⟨none, fun h => absurd h hs⟩
  choose x hx using key
  have hlenm : X.maxdim = D := hI.sizes.dim
  · obtain ⟨w, hw⟩ : ∃ w : List Nat → T, ∀ s, s ∈ Cub.setOf cells → f s = .ok (w s) ∧ IsCubeMax D pix s (w s) := by
      refine ⟨fun s => (x s).getD (Classical.arbitrary T), fun s hs => ?_⟩
      obtain ⟨v, e1, e2⟩ := hx s hs
      simp only [e1]; exact e2
    have e := Cub.cubeLoop_ok hI (f := f) (w := w) (fun d c hc => (hw c (hI.ok.mem_iff.1 hc).1).1) (D + 1) 0 (by omega)
    have hg : ∀ k, k ≤ D → ((List.range' 0 (D + 1)).map (fun d => (cells d).map w)).getD k [] = (cells k).map w := by
      intro k hk
      rw [List.getD_eq_getElem?_getD, List.getElem?_map, List.getElem?_range' (by omega)]
      simp
    refine ⟨_, w, by rw [hlenm]; exact e, by simp, ?_, ?_, ?_⟩
    · intro k hk
      rw [hg k hk, List.length_map]
      exact BATS.rd_some (hI.dim k hk).nc
    · intro s i l hi
      have hs := (Cub.found_iff hI s).1 ⟨l, i, hi⟩
      have hcb := hI.represents.cube s hs
      refine ⟨?_, (hw s hs).2⟩
      rw [cubeDimension_eq hcb, hg _ (Cub.cubeDim_le hcb), List.getElem?_map, (hI.trie s l i).1 hi]; rfl
    · intro s i l hi a ha
      have hs := (Cub.found_iff hI s).1 ⟨l, i, hi⟩
      have hcb := hI.represents.cube s hs
      have hfc : ∀ t, t ∈ (Cub.faces1 s).map Prod.fst → w t ≤ w s := by
        intro t ht
        obtain ⟨p, hp, rfl⟩ := List.mem_map.1 ht
        obtain ⟨q1, q2⟩ := Cub.face_cube hcb hp
        have hm : p.1 ∈ Cub.setOf cells := by
          have : s ∈ cells (cubeDim p.1 + 1) := by rw [q2]; exact hs
          exact hI.ok.closed _ s this p hp
        exact Cub.isCubeMax_mono ((Cub.cubeFace_iff hcb).2 (Or.inr ⟨p, hp, Cub.cubeFace_refl q1⟩)) (hw _ hm).2 (hw _ hs).2
      exact ⟨hfc _ ((Cub.mem_faces1 hcb.1 _).2 ⟨a, ha, Or.inl rfl⟩), hfc _ ((Cub.mem_faces1 hcb.1 _).2 ⟨a, ha, Or.inr rfl⟩)⟩

theorem Cub.image_fails {X : Cub} {D : Nat} (h : Cub.Reachable X D) {f : List Nat → Res T} (hub : ∀ c e, f c = .error e → e = .ub) {s : List Nat} {i : Nat}
    (hl : s.length = 2 * D) (hi : X.findIdx s = some i) (hf : IsCube D s → f s = .error .ub) : cubeLoop X f (X.maxdim + 1) 0 = .error .ub := by
  obtain ⟨cells, hI⟩ := h.inv
  have hs := (Cub.found_iff hI s).1 ⟨hl, i, hi⟩
  have hcb := hI.represents.cube s hs
  have := Cub.cubeDim_le hcb
  rw [show X.maxdim = D from hI.sizes.dim]
  exact Cub.cubeLoop_error hI hub (d := cubeDim s) (c := s) hs (hf hcb) (D + 1) 0 (by omega) (by omega) (by omega)

/-- C80: `lower_star_filtration` of a two-dimensional image on any cubical complex of dimension two. If all cubes lie inside the image it assigns to
every cube the maximum of its pixels, and the bars computed from these values are those of the sublevel sets `K a` of the image, the cubes all of
whose pixels have value at most `a`. If a cube sticks out, the image is read out of range. -/
theorem C80_image2 [Nonempty T] (v : Variant) {X : Cub} (h : Cub.Reachable X 2) (f0 : List (List T)) :
    ((∀ s i p, s.length = 4 → X.findIdx s = some i → CubeVertex 2 p s → pixel2 f0 p ≠ none) →
      ∃ val, lowerStar2 X f0 = .ok val ∧ val.length = 3 ∧ (∀ k, k ≤ 2 → X.numCells k = .ok (val.getD k []).length) ∧
        (∀ s i, s.length = 4 → X.findIdx s = some i → ∃ x, (val.getD (cubeDimension 2 s) [])[i]? = some x ∧ IsCubeMax 2 (pixel2 f0) s x) ∧
        ∀ (K : T → Finset (List Nat)), (∀ a s, s ∈ K a ↔ s.length = 4 ∧ (∃ i, X.findIdx s = some i) ∧
            ∀ p, CubeVertex 2 p s → ∃ y, pixel2 f0 p = some y ∧ y ≤ a) →
          ∃ (B : List (CMat F)) (R : RedFiltCpx T F) (hset : ∀ a, IsCubicalSet 2 (K a)) (hsub : ∀ s t, s ≤ t → K s ⊆ K t),
            X.chainComplex = .ok B ∧ RedFiltCpx.ofFiltration v.reduce val B = .ok R ∧
            ∀ k, k ≤ 2 → ∃ ps, R.persistencePairs k false = .ok ps ∧
              ∀ (s t : T) (hst : s ≤ t),
                ps.countP (fun q => decide (q.birth ≤ s) && (match q.death with | none => true | some d => decide (t < d))) =
                  Module.finrank F (LinearMap.range (cubInclusion F 2 (hset s) (hsub s t hst) k))) ∧
    ((∃ s i p, s.length = 4 ∧ X.findIdx s = some i ∧ CubeVertex 2 p s ∧ pixel2 f0 p = none) → lowerStar2 X f0 = .error .ub) := by
  constructor
  · intro hin
    obtain ⟨val, w, e1, e2, e3, e4, e5⟩ := Cub.image_values h (f := maxCubeVal2 f0) (fun s hs hp => Cub.maxCubeVal2_ok hs hp) hin
    refine ⟨val, e1, e2, e3, fun s i hl hi => ⟨_, e4 s i hl hi⟩, fun K hK => ?_⟩
    refine C80_persistence v h w e2 e3 (fun s i hl hi => (e4 s i hl hi).1) e5 K (fun a s => ?_)
    rw [hK]
    constructor
    · rintro ⟨h1, ⟨i, hi⟩, h2⟩
      refine ⟨h1, ⟨i, hi⟩, ?_⟩
      obtain ⟨p, hp, he⟩ := (e4 s i h1 hi).2.1
      obtain ⟨y, g1, g2⟩ := h2 p hp
      rw [he] at g1; cases g1; exact g2
    · rintro ⟨h1, ⟨i, hi⟩, h2⟩
      refine ⟨h1, ⟨i, hi⟩, fun p hp => ?_⟩
      obtain ⟨y, g1, g2⟩ := (e4 s i h1 hi).2.2 p hp
      exact ⟨y, g1, le_trans g2 h2⟩
  · rintro ⟨s, i, p, hl, hi, hp, hn⟩
    exact Cub.image_fails h (fun c e => Cub.maxCubeVal2_ub e) hl hi (fun hc => Cub.maxCubeVal2_fail hc hp hn)

/-- C80: the same for three-dimensional images on cubical complexes of dimension three. -/
theorem C80_image3 [Nonempty T] (v : Variant) {X : Cub} (h : Cub.Reachable X 3) (f0 : List (List (List T))) :
    ((∀ s i p, s.length = 6 → X.findIdx s = some i → CubeVertex 3 p s → pixel3 f0 p ≠ none) →
      ∃ val, lowerStar3 X f0 = .ok val ∧ val.length = 4 ∧ (∀ k, k ≤ 3 → X.numCells k = .ok (val.getD k []).length) ∧
        (∀ s i, s.length = 6 → X.findIdx s = some i → ∃ x, (val.getD (cubeDimension 3 s) [])[i]? = some x ∧ IsCubeMax 3 (pixel3 f0) s x) ∧
        ∀ (K : T → Finset (List Nat)), (∀ a s, s ∈ K a ↔ s.length = 6 ∧ (∃ i, X.findIdx s = some i) ∧
            ∀ p, CubeVertex 3 p s → ∃ y, pixel3 f0 p = some y ∧ y ≤ a) →
          ∃ (B : List (CMat F)) (R : RedFiltCpx T F) (hset : ∀ a, IsCubicalSet 3 (K a)) (hsub : ∀ s t, s ≤ t → K s ⊆ K t),
            X.chainComplex = .ok B ∧ RedFiltCpx.ofFiltration v.reduce val B = .ok R ∧
            ∀ k, k ≤ 3 → ∃ ps, R.persistencePairs k false = .ok ps ∧
              ∀ (s t : T) (hst : s ≤ t),
                ps.countP (fun q => decide (q.birth ≤ s) && (match q.death with | none => true | some d => decide (t < d))) =
                  Module.finrank F (LinearMap.range (cubInclusion F 3 (hset s) (hsub s t hst) k))) ∧
    ((∃ s i p, s.length = 6 ∧ X.findIdx s = some i ∧ CubeVertex 3 p s ∧ pixel3 f0 p = none) → lowerStar3 X f0 = .error .ub) := by
  constructor
  · intro hin
    obtain ⟨val, w, e1, e2, e3, e4, e5⟩ := Cub.image_values h (f := maxCubeVal3 f0) (fun s hs hp => Cub.maxCubeVal3_ok hs hp) hin
    refine ⟨val, e1, e2, e3, fun s i hl hi => ⟨_, e4 s i hl hi⟩, fun K hK => ?_⟩
    refine C80_persistence v h w e2 e3 (fun s i hl hi => (e4 s i hl hi).1) e5 K (fun a s => ?_)
    rw [hK]
    constructor
    · rintro ⟨h1, ⟨i, hi⟩, h2⟩
      refine ⟨h1, ⟨i, hi⟩, ?_⟩
      obtain ⟨p, hp, he⟩ := (e4 s i h1 hi).2.1
      obtain ⟨y, g1, g2⟩ := h2 p hp
      rw [he] at g1; cases g1; exact g2
    · rintro ⟨h1, ⟨i, hi⟩, h2⟩
      refine ⟨h1, ⟨i, hi⟩, fun p hp => ?_⟩
      obtain ⟨y, g1, g2⟩ := (e4 s i h1 hi).2.2 p hp
      exact ⟨y, g1, le_trans g2 h2⟩
  · rintro ⟨s, i, p, hl, hi, hp, hn⟩
    exact Cub.image_fails h (fun c e => Cub.maxCubeVal3_ub e) hl hi (fun hc => Cub.maxCubeVal3_fail hc hp hn)

/-- the full `m × n` grid of squares -/
def squareGrid (m n : Nat) : List Cub.Op := (List.range m).flatMap fun i => (List.range n).map fun j => .addRecursive [i, i + 1, j, j + 1]

/-- a 4 × 4 image with a ring of value 1 around a pit with one pixel of value 9: a loop born at 1 and killed at 9; the corner is an extra minimum -/
def ringImage : List (List Nat) := [[0, 3, 1, 1], [3, 1, 1, 1], [1, 1, 9, 1], [1, 1, 1, 1]]

example : ((Cub.init 2).run (squareGrid 3 3)).bind (fun X => (lowerStar2 X ringImage).bind (fun val => (X.chainComplex : Res (List (CMat ℚ))).bind (fun B =>
    (RedFiltCpx.ofFiltration Variant.standard.reduce val B).bind (fun R => (R.persistencePairs 0 false).bind (fun p0 =>
      (R.persistencePairs 1 false).map (fun p1 => ((p0.map (fun q => (q.birth, q.death))).filter (fun q => q.2 ≠ some q.1),
        (p1.map (fun q => (q.birth, q.death))).filter (fun q => q.2 ≠ some q.1)))))))) =
    .ok ([(0, none), (1, some 3)], [(1, some 9)]) := by decide +kernel

/-- a complex that sticks out of its image -/
example : ((Cub.init 2).run (squareGrid 2 1)).bind (fun X => lowerStar2 X [[1, 2], [3, 4]]) = .error .ub := by decide +kernel

example : ((Cub.init 3).run [.addRecursive [0, 1, 0, 1, 0, 1]]).bind (fun X => (lowerStar3 X [[[1, 2], [3, 4]], [[5, 6], [7, 8]]]).map (fun v => v.getD 3 [])) =
    .ok [8] := by decide +kernel

/-- the grid and the image meet the hypotheses -/
example : ∀ o ∈ squareGrid 3 3, IsCube 2 o.cube := by
  intro o ho
  simp only [squareGrid, List.mem_flatMap, List.mem_map, List.mem_range] at ho
  obtain ⟨i, hi, j, hj, rfl⟩ := ho
  refine ⟨rfl, ?_⟩
  intro a ha
  right
  rcases (show a = 0 ∨ a = 1 by omega) with rfl | rfl <;> rfl

end BATS
