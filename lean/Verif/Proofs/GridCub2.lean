import Verif.Proofs.GridCub

set_option linter.unusedSectionVars false
set_option linter.unusedVariables false
set_option linter.unusedSimpArgs false

/-! # Freudenthal triangulation of a cubical complex: all cubes -/

namespace BATS
namespace Grid
open SCpx
open Zigzag (boxCube isCube3 isCube3_iff cubeDim3)

theorem fold_add : ∀ (L : List (List Nat)) (K : Set (List Nat)), (∀ s ∈ L, s.Pairwise (· ≤ ·) ∧ (s.length = 1 ∨ ∀ k, k < s.length → s.eraseIdx k ∈ K)) →
    (L.map SCpx.Op.add).foldl specStep K = {t | t ∈ K ∨ t ∈ L}
  | [], K, _ => by ext t; simp
  | s :: L, K, h => by
    obtain ⟨h1, h2⟩ := h s (by simp)
    have hs : s.mergeSort (· ≤ ·) = s := List.mergeSort_of_pairwise (by simpa using h1)
    rw [List.map_cons, List.foldl_cons]
    show (L.map SCpx.Op.add).foldl specStep (specAdd K (s.mergeSort (· ≤ ·))) = _
    rw [hs]
    have hK : specAdd K s = {t | t ∈ K ∨ t = s} := by
      ext t
      constructor
      · rintro (h | ⟨h, _⟩)
        · exact Or.inl h
        · exact Or.inr h
      · rintro (h | h)
        · exact Or.inl h
        · exact Or.inr ⟨h, h2⟩
    rw [hK, fold_add L _ (fun s' hs' => by
      obtain ⟨q1, q2⟩ := h s' (List.mem_cons_of_mem _ hs')
      exact ⟨q1, q2.imp id (fun q k hk => Or.inl (q k hk))⟩)]
    ext t
    simp only [Set.mem_ofPred_eq, List.mem_cons, or_assoc]

variable {X : Cub} {cells : Cells}

/-- the shape of a cube of the complex -/
theorem shape_of (hI : Cub.Inv X 3 cells) {d : Nat} {c : List Nat} (hc : c ∈ cells d) :
    ∃ i j k a b e, c = boxCube i j k a b e ∧ (a ≤ 1 ∧ b ≤ 1 ∧ e ≤ 1) ∧ a + b + e = d := by
  obtain ⟨h1, h2⟩ := hI.ok.cube d c hc
  obtain ⟨i, j, k, a, b, e, rfl, ha, hb, he⟩ := (isCube3_iff c).1 h1
  refine ⟨i, j, k, a, b, e, rfl, ⟨ha, hb, he⟩, ?_⟩
  rw [← h2, ← Cub.cubeDimension_eq h1, cubeDim3 ha hb he]

/-- the vertices of an edge of the complex are in the complex -/
theorem edge_ends (hI : Cub.Inv X 3 cells) {i j k a b e : Nat} (ha : a ≤ 1) (hb : b ≤ 1) (he : e ≤ 1) (hd : a + b + e = 1) (hc : boxCube i j k a b e ∈ cells 1) :
    boxCube i j k 0 0 0 ∈ cells 0 ∧ boxCube (i + a) (j + b) (k + e) 0 0 0 ∈ cells 0 := by
  have hcb := (hI.ok.cube 1 _ hc).1
  have key : ∀ m ∈ dirs 3 (boxCube i j k a b e), ∀ t, t = upperFace (boxCube i j k a b e) m ∨ t = lowerFace (boxCube i j k a b e) m → t ∈ cells 0 := by
    intro m hm t ht
    obtain ⟨p, hp, rfl⟩ := List.mem_map.1 ((Cub.mem_faces1 hcb.1 t).2 ⟨m, hm, ht⟩)
    exact hI.ok.closed 0 _ hc p hp
  have hdir : ∀ m, m < 3 → lo (boxCube i j k a b e) m ≠ hi (boxCube i j k a b e) m → m ∈ dirs 3 (boxCube i j k a b e) := by
    intro m hm h
    rw [dirs, Finset.mem_filter, Finset.mem_range]; exact ⟨hm, h⟩
  have hcase : (a = 1 ∧ b = 0 ∧ e = 0) ∨ (a = 0 ∧ b = 1 ∧ e = 0) ∨ (a = 0 ∧ b = 0 ∧ e = 1) := by omega
  rcases hcase with ⟨rfl, rfl, rfl⟩ | ⟨rfl, rfl, rfl⟩ | ⟨rfl, rfl, rfl⟩
  · have hm := hdir 0 (by omega) (by show i ≠ i + 1; omega)
    exact ⟨key 0 hm _ (Or.inr rfl), key 0 hm _ (Or.inl rfl)⟩
  · have hm := hdir 1 (by omega) (by show j ≠ j + 1; omega)
    exact ⟨key 1 hm _ (Or.inr rfl), key 1 hm _ (Or.inl rfl)⟩
  · have hm := hdir 2 (by omega) (by show k ≠ k + 1; omega)
    exact ⟨key 2 hm _ (Or.inr rfl), key 2 hm _ (Or.inl rfl)⟩

theorem flatMap_add {f : List Nat → List Nat} {g : List Nat → List SCpx.Op} : ∀ (L : List (List Nat)), (∀ c ∈ L, g c = [.add (f c)]) →
    L.flatMap g = (L.map f).map SCpx.Op.add
  | [], _ => rfl
  | c :: L, h => by
    rw [List.flatMap_cons, h c (by simp), flatMap_add L (fun c hc => h c (List.mem_cons_of_mem _ hc))]; rfl

theorem sortedRec_flatMap {g : List Nat → List SCpx.Op} {L : List (List Nat)} (h : ∀ c ∈ L, SortedRec (g c)) : SortedRec (L.flatMap g) := by
  intro o ho
  obtain ⟨c, hc, h'⟩ := List.mem_flatMap.1 ho
  exact h c hc o h'

theorem mem_simplexSet_flatMap {g : List Nat → List SCpx.Op} {L : List (List Nat)} {t : List Nat} :
    t ∈ simplexSet (L.flatMap g) ↔ ∃ c ∈ L, t ∈ simplexSet (g c) := by
  constructor
  · rintro ⟨s, h, h'⟩
    obtain ⟨c, hc, hs⟩ := List.mem_flatMap.1 h
    exact ⟨c, hc, s, hs, h'⟩
  · rintro ⟨c, hc, s, hs, h'⟩
    exact ⟨s, List.mem_flatMap.2 ⟨c, hc, hs⟩, h'⟩

theorem cub_fold (hI : Cub.Inv X 3 cells) (n2 n3 : Nat) :
    ((cells 0).flatMap (cubeOps n2 n3) ++ (cells 1).flatMap (cubeOps n2 n3) ++
      ((cells 2).flatMap (cubeOps n2 n3) ++ (cells 3).flatMap (cubeOps n2 n3))).foldl specStep ∅ =
    {t | ∃ s ∈ Cub.setOf cells, t ∈ triangulation (corners s) (rowMajor3 n2 n3)} := by
  obtain ⟨N, hN⟩ : ∃ N, N = rowMajor3 n2 n3 := ⟨_, rfl⟩
  have hmono : Monotone N := by rw [hN]; exact rowMajor3_mono n2 n3
  have e0 : (cells 0).flatMap (cubeOps n2 n3) = ((cells 0).map (fun c => [N (cornerLo c)])).map SCpx.Op.add :=
    flatMap_add _ (fun c hc => by rw [hN]; exact cubeOps_zero n2 n3 (hI.ok.cube 0 c hc).2)
  have e1 : (cells 1).flatMap (cubeOps n2 n3) = ((cells 1).map (fun c => [N (cornerLo c), N (cornerHi c)])).map SCpx.Op.add :=
    flatMap_add _ (fun c hc => by rw [hN]; exact cubeOps_one n2 n3 (hI.ok.cube 1 c hc).2)
  have hs : SortedRec ((cells 2).flatMap (cubeOps n2 n3) ++ (cells 3).flatMap (cubeOps n2 n3)) := by
    refine SortedRec.append (sortedRec_flatMap fun c hc => ?_) (sortedRec_flatMap fun c hc => ?_)
    · obtain ⟨i, j, k, a, b, e, rfl, ⟨ha, hb, he⟩, hd⟩ := shape_of hI hc
      exact (cubeOps_box n2 n3 ha hb he (Or.inl hd)).1
    · obtain ⟨i, j, k, a, b, e, rfl, ⟨ha, hb, he⟩, hd⟩ := shape_of hI hc
      exact (cubeOps_box n2 n3 ha hb he (Or.inr hd)).1
  rw [List.foldl_append (l := _ ++ _) (l' := _ ++ _), specRun_simplexSet hs, List.foldl_append, e0, e1, fold_add _ ∅ (by
    intro s hs
    obtain ⟨c, _, rfl⟩ := List.mem_map.1 hs
    exact ⟨by simp, Or.inl rfl⟩), fold_add _ _ (by
    intro s hs
    obtain ⟨c, hc, rfl⟩ := List.mem_map.1 hs
    obtain ⟨i, j, k, a, b, e, rfl, ⟨ha, hb, he⟩, hd⟩ := shape_of hI hc
    obtain ⟨q1, q2⟩ := edge_ends hI ha hb he hd hc
    refine ⟨?_, Or.inr fun m hm => ?_⟩
    · have : N (cornerLo (boxCube i j k a b e)) ≤ N (cornerHi (boxCube i j k a b e)) :=
        hmono (p3_le.2 ⟨Nat.le_add_right i a, Nat.le_add_right j b, Nat.le_add_right k e⟩)
      simpa using this
    · rcases (show m = 0 ∨ m = 1 by simp at hm; omega) with rfl | rfl
      · exact Or.inr (List.mem_map.2 ⟨_, q2, rfl⟩)
      · exact Or.inr (List.mem_map.2 ⟨_, q1, rfl⟩)), simplexSet_append]
  have hmem : ∀ {d c}, c ∈ cells d → c ∈ Cub.setOf cells := by
    intro d c hc
    show c ∈ cells (Cub.cubeDim c)
    rw [(hI.ok.cube d c hc).2]; exact hc
  ext t
  simp only [Set.mem_ofPred_eq, Set.mem_empty_iff_false, false_or, mem_simplexSet_flatMap]
  rw [← hN]
  constructor
  · rintro ((ht | ht) | (⟨c, hc, ht⟩ | ⟨c, hc, ht⟩))
    · obtain ⟨c, hc, rfl⟩ := List.mem_map.1 ht
      refine ⟨c, hmem hc, ?_⟩
      obtain ⟨i, j, k, a, b, e, rfl, ⟨ha, hb, he⟩, hd⟩ := shape_of hI hc
      rw [(tri_corners N ha hb he).1 hd]; rfl
    · obtain ⟨c, hc, rfl⟩ := List.mem_map.1 ht
      refine ⟨c, hmem hc, ?_⟩
      obtain ⟨i, j, k, a, b, e, rfl, ⟨ha, hb, he⟩, hd⟩ := shape_of hI hc
      rw [(tri_corners N ha hb he).2 hd]; exact Or.inr (Or.inr rfl)
    · refine ⟨c, hmem hc, ?_⟩
      obtain ⟨i, j, k, a, b, e, rfl, ⟨ha, hb, he⟩, hd⟩ := shape_of hI hc
      rw [(cubeOps_box n2 n3 ha hb he (Or.inl hd)).2] at ht
      rw [hN]; exact ht
    · refine ⟨c, hmem hc, ?_⟩
      obtain ⟨i, j, k, a, b, e, rfl, ⟨ha, hb, he⟩, hd⟩ := shape_of hI hc
      rw [(cubeOps_box n2 n3 ha hb he (Or.inr hd)).2] at ht
      rw [hN]; exact ht
  · rintro ⟨c, hc, ht⟩
    have hc' : c ∈ cells (Cub.cubeDim c) := hc
    obtain ⟨i, j, k, a, b, e, rfl, ⟨ha, hb, he⟩, hd⟩ := shape_of hI hc'
    rw [← hd] at hc'
    rcases (show a + b + e = 0 ∨ a + b + e = 1 ∨ a + b + e = 2 ∨ a + b + e = 3 by omega) with h | h | h | h <;> rw [h] at hc'
    · rw [(tri_corners N ha hb he).1 h] at ht
      obtain rfl : t = _ := ht
      exact Or.inl (Or.inl (List.mem_map.2 ⟨_, hc', rfl⟩))
    · rw [(tri_corners N ha hb he).2 h] at ht
      obtain ⟨q1, q2⟩ := edge_ends hI ha hb he h hc'
      rcases ht with rfl | rfl | rfl
      · exact Or.inl (Or.inl (List.mem_map.2 ⟨_, q1, rfl⟩))
      · exact Or.inl (Or.inl (List.mem_map.2 ⟨_, q2, rfl⟩))
      · exact Or.inl (Or.inr (List.mem_map.2 ⟨_, hc', rfl⟩))
    · refine Or.inr (Or.inl ⟨_, hc', ?_⟩)
      rw [(cubeOps_box n2 n3 ha hb he (Or.inl h)).2, ← hN]; exact ht
    · refine Or.inr (Or.inr ⟨_, hc', ?_⟩)
      rw [(cubeOps_box n2 n3 ha hb he (Or.inr h)).2, ← hN]; exact ht

theorem freudenthalCub_spec (hI : Cub.Inv X 3 cells) (n1 n2 n3 : Nat) :
    ∃ F, freudenthalCub X n1 n2 n3 = .ok F ∧ Represents F {t | ∃ s ∈ Cub.setOf cells, t ∈ triangulation (corners s) (rowMajor3 n2 n3)} := by
  rw [freudenthalCub_eq hI]
  obtain ⟨F, c, h1, h2, _, h4⟩ := run_set ((cells 0).flatMap (cubeOps n2 n3) ++ (cells 1).flatMap (cubeOps n2 n3) ++
      ((cells 2).flatMap (cubeOps n2 n3) ++ (cells 3).flatMap (cubeOps n2 n3))) (init_inv 3).1 (by
    intro o ho
    have : ∃ d c, c ∈ cells d ∧ o ∈ cubeOps n2 n3 c := by
      simp only [List.mem_append, List.mem_flatMap] at ho
      rcases ho with (⟨c, h, h'⟩ | ⟨c, h, h'⟩) | (⟨c, h, h'⟩ | ⟨c, h, h'⟩)
      · exact ⟨_, c, h, h'⟩
      · exact ⟨_, c, h, h'⟩
      · exact ⟨_, c, h, h'⟩
      · exact ⟨_, c, h, h'⟩
    obtain ⟨d, c, hc, hoc⟩ := this
    have hd := (hI.ok.cube d c hc).2
    obtain ⟨i, j, k, a, b, e, rfl, ⟨ha, hb, he⟩, hde⟩ := shape_of hI hc
    rcases (show d = 0 ∨ d = 1 ∨ d = 2 ∨ d = 3 by omega) with h | h | h | h <;> subst h
    · rw [cubeOps_zero n2 n3 hd] at hoc
      rw [List.mem_singleton.1 hoc]; simp [SCpx.Op.simplex]
    · rw [cubeOps_one n2 n3 hd] at hoc
      rw [List.mem_singleton.1 hoc]; simp [SCpx.Op.simplex]
    · exact (cubeOps_box n2 n3 ha hb he (Or.inl hde)).1.ne o hoc
    · exact (cubeOps_box n2 n3 ha hb he (Or.inr hde)).1.ne o hoc)
  refine ⟨F, h1, ?_⟩
  have := h2.represents
  have he : SCpx.setOf (fun _ => []) = ∅ := by ext s; simp [SCpx.setOf]
  rw [h4, he, cub_fold hI] at this
  exact this

end Grid
end BATS
