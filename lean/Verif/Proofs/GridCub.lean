import Verif.Proofs.GridBox
import Verif.Proofs.Toplex
import Verif.Proofs.Text
import Mathlib.Data.Fintype.Sets

set_option linter.unusedSectionVars false
set_option linter.unusedVariables false
set_option linter.unusedSimpArgs false

/-! # Freudenthal triangulation of a cubical complex -/

namespace BATS
namespace Grid
open SCpx
open Zigzag (boxCube isCube3 isCube3_iff cubeDim3)

/-- the calls for one cube -/
def cubeOps (n2 n3 : Nat) (c : List Nat) : List SCpx.Op :=
  let c0 := c.getD 0 0
  let c1 := c.getD 1 0
  let c2 := c.getD 2 0
  let c3 := c.getD 3 0
  let c4 := c.getD 4 0
  let c5 := c.getD 5 0
  match Cub.cubeDim c with
  | 0 => [.add [idx3 c0 c2 c4 n2 n3]]
  | 1 => [.add [idx3 c0 c2 c4 n2 n3, idx3 c1 c3 c5 n2 n3]]
  | 2 =>
    let s2 := if c0 = c1 then idx3 c0 c3 c4 n2 n3 else idx3 c1 c2 c4 n2 n3
    let s3 := if c0 = c1 then idx3 c0 c2 c5 n2 n3 else if c2 = c3 then idx3 c0 c2 c5 n2 n3 else idx3 c0 c3 c4 n2 n3
    [.addRecursive [idx3 c0 c2 c4 n2 n3, s2, idx3 c1 c3 c5 n2 n3], .addRecursive [idx3 c0 c2 c4 n2 n3, s3, idx3 c1 c3 c5 n2 n3]]
  | _ => tets (idx3 c0 c2 c4 n2 n3) (idx3 c0 c2 c5 n2 n3) (idx3 c0 c3 c4 n2 n3) (idx3 c1 c2 c4 n2 n3) (idx3 c0 c3 c5 n2 n3) (idx3 c1 c2 c5 n2 n3)
    (idx3 c1 c3 c4 n2 n3) (idx3 c1 c3 c5 n2 n3)

theorem triv_ok (n2 n3 : Nat) {c : List Nat} (h : c.length = 6) :
    (Cub.cubeDim c = 0 → triv0 n2 n3 c = .ok (cubeOps n2 n3 c)) ∧ (Cub.cubeDim c = 1 → triv1 n2 n3 c = .ok (cubeOps n2 n3 c)) ∧
    (Cub.cubeDim c = 2 → triv2 n2 n3 c = .ok (cubeOps n2 n3 c)) ∧ (Cub.cubeDim c = 3 → triv3 n2 n3 c = .ok (cubeOps n2 n3 c)) := by
  match c, h with
  | [a, b, c, d, e, f], _ =>
    refine ⟨fun h => ?_, fun h => ?_, fun h => ?_, fun h => ?_⟩ <;> rw [cubeOps, h] <;> rfl

theorem trivLoop_eq {X : Cub} {cells : Cells} (hI : Cub.Inv X 3 cells) {d : Nat} (hd : d ≤ 3) {f : List Nat → Res (List SCpx.Op)} {ops : List Nat → List SCpx.Op}
    (hf : ∀ c ∈ cells d, f c = .ok (ops c)) : ∀ (n i : Nat) (F : SCpx), i + n = (cells d).length →
    trivLoop X d f n i F = F.run (((cells d).drop i).flatMap ops)
  | 0, i, F, h => by
    rw [List.drop_of_length_le (by omega)]; rfl
  | n + 1, i, F, h => by
    have hi : i < (cells d).length := by omega
    have hm := List.getElem_mem hi
    have hc := hI.ok.cube d _ hm
    have hgc : X.getCube d i = .ok (cells d)[i] := by
      have hs : (cells d)[i] ∈ Cub.setOf cells := by
        show (cells d)[i] ∈ cells (Cub.cubeDim (cells d)[i])
        rw [hc.2]; exact hm
      obtain ⟨m, _, _, h3⟩ := hI.represents.range _ hs i ((hI.trie _ hc.1.1 i).2 (by rw [hc.2]; exact List.getElem?_eq_getElem hi))
      rw [Cub.cubeDimension_eq hc.1, hc.2] at h3; exact h3
    rw [trivLoop, hgc, bind_ok, hf _ hm, bind_ok, List.drop_eq_getElem_cons hi, List.flatMap_cons, Txt.run_append']
    cases F.run (ops (cells d)[i]) with
    | error e => rfl
    | ok G =>
      rw [bind_ok, bind_ok]
      exact trivLoop_eq hI hd hf n (i + 1) G (by omega)

/-- the calls for all cubes -/
theorem freudenthalCub_eq {X : Cub} {cells : Cells} (hI : Cub.Inv X 3 cells) (n1 n2 n3 : Nat) :
    freudenthalCub X n1 n2 n3 = (SCpx.init 3).run ((cells 0).flatMap (cubeOps n2 n3) ++ (cells 1).flatMap (cubeOps n2 n3) ++
      ((cells 2).flatMap (cubeOps n2 n3) ++ (cells 3).flatMap (cubeOps n2 n3))) := by
  have hnc : ∀ d, d ≤ 3 → X.numCells d = .ok (cells d).length := fun d hd => by
    unfold Cub.numCells; exact rd_some (hI.dim d hd).nc
  have hl : ∀ d, ∀ c ∈ cells d, c.length = 6 ∧ Cub.cubeDim c = d := fun d c hc => ⟨(hI.ok.cube d c hc).1.1, (hI.ok.cube d c hc).2⟩
  unfold freudenthalCub
  rw [if_neg (by show ¬ (X.D ≠ 3); rw [hI.sizes.dim]; omega), hnc 0 (by omega), bind_ok,
    trivLoop_eq hI (by omega) (fun c hc => (triv_ok n2 n3 (hl 0 c hc).1).1 (hl 0 c hc).2) _ 0 _ (by omega), List.drop_zero]
  rw [Txt.run_append', Txt.run_append']
  cases (SCpx.init 3).run ((cells 0).flatMap (cubeOps n2 n3)) with
  | error e => rfl
  | ok F0 =>
    rw [bind_ok, bind_ok, hnc 1 (by omega), bind_ok,
      trivLoop_eq hI (by omega) (fun c hc => (triv_ok n2 n3 (hl 1 c hc).1).2.1 (hl 1 c hc).2) _ 0 _ (by omega), List.drop_zero]
    cases F0.run ((cells 1).flatMap (cubeOps n2 n3)) with
    | error e => rfl
    | ok F1 =>
      rw [bind_ok, bind_ok, hnc 2 (by omega), bind_ok,
        trivLoop_eq hI (by omega) (fun c hc => (triv_ok n2 n3 (hl 2 c hc).1).2.2.1 (hl 2 c hc).2) _ 0 _ (by omega), List.drop_zero, Txt.run_append']
      cases F1.run ((cells 2).flatMap (cubeOps n2 n3)) with
      | error e => rfl
      | ok F2 =>
        rw [bind_ok, bind_ok, hnc 3 (by omega), bind_ok,
          trivLoop_eq hI (by omega) (fun c hc => (triv_ok n2 n3 (hl 3 c hc).1).2.2.2 (hl 3 c hc).2) _ 0 _ (by omega), List.drop_zero]

/-! ### the simplices of one cube -/

theorem corners_box (i j k a b c : Nat) : corners (boxCube i j k a b c) = box3 i (i + a + 1) j (j + b + 1) k (k + c + 1) := by
  ext p
  show ((i ≤ p.1 ∧ p.1 ≤ i + a) ∧ (j ≤ p.2.1 ∧ p.2.1 ≤ j + b) ∧ (k ≤ p.2.2 ∧ p.2.2 ≤ k + c)) ↔ ((i ≤ p.1 ∧ p.1 < i + a + 1) ∧ (j ≤ p.2.1 ∧ p.2.1 < j + b + 1) ∧ (k ≤ p.2.2 ∧ p.2.2 < k + c + 1))
  simp only [Nat.lt_succ_iff]

theorem cubeOps_box (n2 n3 : Nat) {i j k a b c : Nat} (ha : a ≤ 1) (hb : b ≤ 1) (hc : c ≤ 1) :
    (a + b + c = 2 ∨ a + b + c = 3 → SortedRec (cubeOps n2 n3 (boxCube i j k a b c)) ∧
      simplexSet (cubeOps n2 n3 (boxCube i j k a b c)) = triangulation (corners (boxCube i j k a b c)) (rowMajor3 n2 n3)) := by
  intro h
  have hdim : Cub.cubeDim (boxCube i j k a b c) = a + b + c := by rw [← Cub.cubeDimension_eq (isCube3 ha hb hc), cubeDim3 ha hb hc]
  have hcase : (a = 1 ∧ b = 1 ∧ c = 0) ∨ (a = 0 ∧ b = 1 ∧ c = 1) ∨ (a = 1 ∧ b = 0 ∧ c = 1) ∨ (a = 1 ∧ b = 1 ∧ c = 1) := by omega
  rw [corners_box]
  rcases hcase with ⟨rfl, rfl, rfl⟩ | ⟨rfl, rfl, rfl⟩ | ⟨rfl, rfl, rfl⟩ | ⟨rfl, rfl, rfl⟩
  · have e : cubeOps n2 n3 (boxCube i j k 1 1 0) = sqIJ n2 n3 i j k := by
      rw [cubeOps, hdim]
      simp only [boxCube, List.getD_cons_zero, List.getD_cons_succ]
      rw [if_neg (by omega), if_neg (by omega), if_neg (by omega)]; rfl
    rw [e]; exact ⟨sqIJ_sorted n2 n3 i j k, sqIJ_set n2 n3 i j k⟩
  · have e : cubeOps n2 n3 (boxCube i j k 0 1 1) = sqJK n2 n3 i j k := by
      rw [cubeOps, hdim]
      simp only [boxCube, List.getD_cons_zero, List.getD_cons_succ]
      rw [if_pos (by omega), if_pos (by omega)]; rfl
    rw [e]; exact ⟨sqJK_sorted n2 n3 i j k, sqJK_set n2 n3 i j k⟩
  · have e : cubeOps n2 n3 (boxCube i j k 1 0 1) = sqIK n2 n3 i j k := by
      rw [cubeOps, hdim]
      simp only [boxCube, List.getD_cons_zero, List.getD_cons_succ]
      rw [if_neg (by omega), if_neg (by omega), if_pos (by omega)]; rfl
    rw [e]; exact ⟨sqIK_sorted n2 n3 i j k, sqIK_set n2 n3 i j k⟩
  · have e : cubeOps n2 n3 (boxCube i j k 1 1 1) = voxel n2 n3 i j k := by
      rw [cubeOps, hdim]; rfl
    rw [e]; exact ⟨voxel_sorted n2 n3 i j k, voxel_set n2 n3 i j k⟩

/-- the smallest and the largest corner -/
def cornerLo (c : List Nat) : Nat × Nat × Nat := (lo c 0, lo c 1, lo c 2)
def cornerHi (c : List Nat) : Nat × Nat × Nat := (hi c 0, hi c 1, hi c 2)

theorem cubeOps_zero (n2 n3 : Nat) {c : List Nat} (h : Cub.cubeDim c = 0) : cubeOps n2 n3 c = [.add [rowMajor3 n2 n3 (cornerLo c)]] := by
  rw [cubeOps, h]; simp only [idx3_eq]; rfl
theorem cubeOps_one (n2 n3 : Nat) {c : List Nat} (h : Cub.cubeDim c = 1) :
    cubeOps n2 n3 c = [.add [rowMajor3 n2 n3 (cornerLo c), rowMajor3 n2 n3 (cornerHi c)]] := by
  rw [cubeOps, h]; simp only [idx3_eq]; rfl

theorem tri_corners (name : Nat × Nat × Nat → Nat) {i j k a b c : Nat} (ha : a ≤ 1) (hb : b ≤ 1) (hc : c ≤ 1) :
    (a + b + c = 0 → triangulation (corners (boxCube i j k a b c)) name = {t | t = [name (cornerLo (boxCube i j k a b c))]}) ∧
    (a + b + c = 1 → triangulation (corners (boxCube i j k a b c)) name = {t | t = [name (cornerLo (boxCube i j k a b c))] ∨
      t = [name (cornerHi (boxCube i j k a b c))] ∨ t = [name (cornerLo (boxCube i j k a b c)), name (cornerHi (boxCube i j k a b c))]}) := by
  rw [corners_box]
  refine ⟨fun h => ?_, fun h => ?_⟩
  · obtain ⟨rfl, rfl, rfl⟩ : a = 0 ∧ b = 0 ∧ c = 0 := by omega
    have := cellOps_set (A := Unit) (P := Nat × Nat × Nat) (D := [[()]]) (by simp) (by
      intro l h1 h2
      match l with
      | [] => exact absurd rfl h1
      | [()] => exact ⟨_, by simp, List.Sublist.refl _⟩
      | _ :: _ :: _ =>
        exact absurd ((List.pairwise_cons.1 h2).1 _ (by simp)) (lt_irrefl _)) (e := fun _ => (i, j, k)) (by intro a b; simp) (by
          intro _ _; exact p3_le.2 ⟨Nat.le_succ _, Nat.le_succ _, Nat.le_succ _⟩) (B := box3 i (i + 1) j (j + 1) k (k + 1)) (by
          rintro ⟨x, y, z⟩
          show ((i ≤ x ∧ x < i + 1) ∧ (j ≤ y ∧ y < j + 1) ∧ (k ≤ z ∧ z < k + 1)) ↔ _
          simp only [Prod.mk.injEq, exists_const]
          omega) name
    rw [show i + 0 + 1 = i + 1 from rfl, show j + 0 + 1 = j + 1 from rfl, show k + 0 + 1 = k + 1 from rfl, ← this]
    ext t
    simp only [simplexSet, cellOps, List.map_cons, List.map_nil, List.mem_singleton, SCpx.Op.addRecursive.injEq, Set.mem_ofPred_eq]
    show (∃ s, s = [name (i, j, k)] ∧ t ≠ [] ∧ t.Sublist s) ↔ t = [name (i, j, k)]
    constructor
    · rintro ⟨s, rfl, h1, h2⟩
      rcases List.sublist_singleton.1 h2 with h2 | h2
      · exact absurd h2 h1
      · exact h2
    · rintro rfl; exact ⟨_, rfl, by simp, List.Sublist.refl _⟩
  · have key : ∀ (e : Fin 2 → Nat × Nat × Nat) (B : Set (Nat × Nat × Nat)), (∀ a b, e a < e b ↔ a < b) → (∀ a b, e b ≤ e a + 1) → (∀ p, p ∈ B ↔ ∃ a, e a = p) →
        triangulation B name = {t | t = [name (e 0)] ∨ t = [name (e 1)] ∨ t = [name (e 0), name (e 1)]} := by
      intro e B h1 h2 h3
      have := cellOps_set (A := Fin 2) (P := Nat × Nat × Nat) (D := [[0, 1]]) (by decide) (by
        intro l q1 q2
        match l with
        | [] => exact absurd rfl q1
        | [a] =>
          refine ⟨[0, 1], by simp, ?_⟩
          have : ∀ a : Fin 2, [a].Sublist [0, 1] := by decide
          exact this a
        | [a, b] =>
          refine ⟨[0, 1], by simp, ?_⟩
          have : ∀ a b : Fin 2, a < b → [a, b].Sublist [0, 1] := by decide
          exact this a b (by simpa using q2)
        | a :: b :: c :: l =>
          simp only [List.pairwise_cons, List.mem_cons, forall_eq_or_imp] at q2
          have := q2.1.1
          have := q2.2.1.1
          have := c.isLt
          omega) h1 h2 h3 name
      rw [← this]
      ext t
      simp only [simplexSet, cellOps, List.map_cons, List.map_nil, List.mem_singleton, SCpx.Op.addRecursive.injEq, Set.mem_ofPred_eq]
      constructor
      · rintro ⟨s, rfl, q1, q2⟩
        revert q1
        cases q2 with
        | cons _ q2 =>
          intro q1
          rcases List.sublist_singleton.1 q2 with q2 | q2
          · exact absurd q2 q1
          · exact Or.inr (Or.inl q2)
        | cons_cons _ q2 =>
          intro q1
          rcases List.sublist_singleton.1 q2 with rfl | rfl
          · exact Or.inl rfl
          · exact Or.inr (Or.inr rfl)
      · rintro (rfl | rfl | rfl)
        · exact ⟨_, rfl, by simp, by simp⟩
        · exact ⟨_, rfl, by simp, by simp⟩
        · exact ⟨_, rfl, by simp, List.Sublist.refl _⟩
    have f2 : ∀ a : Fin 2, a.val ≤ 1 := fun a => Nat.le_of_lt_succ a.isLt
    have hcase : (a = 1 ∧ b = 0 ∧ c = 0) ∨ (a = 0 ∧ b = 1 ∧ c = 0) ∨ (a = 0 ∧ b = 0 ∧ c = 1) := by omega
    rcases hcase with ⟨rfl, rfl, rfl⟩ | ⟨rfl, rfl, rfl⟩ | ⟨rfl, rfl, rfl⟩
    · refine key (fun a => (i + a.val, j, k)) _ ?_ ?_ ?_
      · intro a b; rw [p3_lt, Fin.lt_def]; simp only; omega
      · intro a b
        have := f2 a; have := f2 b
        exact p3_le.2 ⟨by show i + b.val ≤ i + a.val + 1; omega, Nat.le_succ _, Nat.le_succ _⟩
      · rintro ⟨x, y, z⟩
        constructor
        · rintro ⟨h1, h2, h3⟩
          simp only at h1 h2 h3
          exact ⟨⟨x - i, by omega⟩, Prod.ext (by show i + (x - i) = x; omega) (Prod.ext (by show j = y; omega) (by show k = z; omega))⟩
        · rintro ⟨a, h⟩
          cases h
          have := f2 a
          exact ⟨by simp only; omega, by simp only; omega, by simp only; omega⟩
    · refine key (fun a => (i, j + a.val, k)) _ ?_ ?_ ?_
      · intro a b; rw [p3_lt, Fin.lt_def]; simp only; omega
      · intro a b
        have := f2 a; have := f2 b
        exact p3_le.2 ⟨Nat.le_succ _, by show j + b.val ≤ j + a.val + 1; omega, Nat.le_succ _⟩
      · rintro ⟨x, y, z⟩
        constructor
        · rintro ⟨h1, h2, h3⟩
          simp only at h1 h2 h3
          exact ⟨⟨y - j, by omega⟩, Prod.ext (by show i = x; omega) (Prod.ext (by show j + (y - j) = y; omega) (by show k = z; omega))⟩
        · rintro ⟨a, h⟩
          cases h
          have := f2 a
          exact ⟨by simp only; omega, by simp only; omega, by simp only; omega⟩
    · refine key (fun a => (i, j, k + a.val)) _ ?_ ?_ ?_
      · intro a b; rw [p3_lt, Fin.lt_def]; simp only; omega
      · intro a b
        have := f2 a; have := f2 b
        exact p3_le.2 ⟨Nat.le_succ _, Nat.le_succ _, by show k + b.val ≤ k + a.val + 1; omega⟩
      · rintro ⟨x, y, z⟩
        constructor
        · rintro ⟨h1, h2, h3⟩
          simp only at h1 h2 h3
          exact ⟨⟨z - k, by omega⟩, Prod.ext (by show i = x; omega) (Prod.ext (by show j = y; omega) (by show k + (z - k) = z; omega))⟩
        · rintro ⟨a, h⟩
          cases h
          have := f2 a
          exact ⟨by simp only; omega, by simp only; omega, by simp only; omega⟩

end Grid
end BATS
