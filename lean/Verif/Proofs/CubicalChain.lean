import Verif.Proofs.CubicalAdd
import Verif.Proofs.SimplicialHomology

set_option linter.unusedSectionVars false
set_option linter.unusedVariables false
set_option linter.unusedSimpArgs false

/-! # Histories, boundary matrices and homology of cubical complexes -/

namespace BATS
namespace Cub
open Reduction CSC Matrix
open SCpx (Cells push push_same push_ne mem_push)

variable {X : Cub} {D : Nat} {cells : Cells}

/-- the cubes stored -/
def setOf (cells : Cells) : Set (List Nat) := {s | s ∈ cells (cubeDim s)}

theorem CellsOK.mem_iff (h : CellsOK D cells) {s : List Nat} {d : Nat} : s ∈ cells d ↔ s ∈ setOf cells ∧ cubeDim s = d := by
  constructor
  · intro hs
    have := (h.cube d s hs).2
    subst this
    exact ⟨hs, rfl⟩
  · rintro ⟨h1, rfl⟩; exact h1

theorem Inv.represents (h : Inv X D cells) : Represents X D (setOf cells) := by
  have hcube : ∀ s ∈ setOf cells, IsCube D s := fun s hs => (h.ok.cube _ s hs).1
  refine ⟨h.sizes.dim, hcube, ?_, ?_, ?_⟩
  · intro s hs
    rw [← Option.isSome_iff_exists]
    unfold findIdx
    rw [h.trie.isSome hs]
    rfl
  · intro s hs i hi
    have hc := hcube s hs
    rw [cubeDimension_eq hc]
    have hd := h.dim _ (cubeDim_le hc)
    have hg := (h.trie s hc.1 i).1 hi
    have hil := (List.getElem?_eq_some_iff.1 hg).1
    refine ⟨_, rd_some hd.nc, hil, ?_⟩
    unfold getCube
    rw [rd_some hd.sp, bind_ok, h.sizes.dim]
    have hu : ∀ l ∈ cells (cubeDim s), l.length = 2 * D := by intro l hl; exact (h.ok.cube _ _ hl).1.1
    rw [flatten_length_uniform hu, if_neg]
    · rw [pure_ok]
      congr 1
      have := flatten_slice_uniform hu hg
      exact this
    · have := Nat.mul_le_mul_right (2 * D) (show i + 1 ≤ (cells (cubeDim s)).length by omega)
      rw [Nat.mul_comm (2 * D) (i + 1), Nat.mul_comm (2 * D) (cells (cubeDim s)).length]
      omega
  · intro d hd
    have hdm := h.dim _ hd
    refine ⟨_, rd_some hdm.nc, ?_⟩
    intro i hi
    have hm := List.getElem_mem hi
    have hl := h.ok.cube d _ hm
    refine ⟨(cells d)[i], (h.ok.mem_iff.1 hm).1, by rw [cubeDimension_eq hl.1]; exact hl.2, ?_⟩
    unfold findIdx
    rw [h.trie _ hl.1.1, hl.2, List.getElem?_eq_getElem hi]

theorem facesIn_iff (h : CellsOK D cells) {s : List Nat} (hc : IsCube D s) :
    FacesIn cells s ↔ ∀ i ∈ dirs D s, upperFace s i ∈ setOf cells ∧ lowerFace s i ∈ setOf cells := by
  have key : FacesIn cells s ↔ ∀ t ∈ (faces1 s).map Prod.fst, t ∈ setOf cells := by
    constructor
    · intro hf t ht
      obtain ⟨p, hp, rfl⟩ := List.mem_map.1 ht
      exact (h.mem_iff.1 (hf p hp)).1
    · intro hf p hp
      rw [h.mem_iff]
      exact ⟨hf p.1 (List.mem_map_of_mem hp), by have := (face_cube hc hp).2; omega⟩
  rw [key]
  constructor
  · intro hf i hi
    exact ⟨hf _ ((mem_faces1 hc.1 _).2 ⟨i, hi, Or.inl rfl⟩), hf _ ((mem_faces1 hc.1 _).2 ⟨i, hi, Or.inr rfl⟩)⟩
  · intro hf t ht
    obtain ⟨i, hi, rfl | rfl⟩ := (mem_faces1 hc.1 t).1 ht
    · exact (hf i hi).1
    · exact (hf i hi).2

theorem setOf_push (cells : Cells) (s : List Nat) : setOf (push cells (cubeDim s) s) = {t | t ∈ setOf cells ∨ t = s} := by
  ext t
  show t ∈ push cells (cubeDim s) s (cubeDim t) ↔ (t ∈ cells (cubeDim t) ∨ t = s)
  rw [mem_push]
  constructor
  · rintro (h | ⟨_, h⟩)
    · exact Or.inl h
    · exact Or.inr h
  · rintro (h | rfl)
    · exact Or.inl h
    · exact Or.inr ⟨rfl, rfl⟩

theorem step_spec (h : Inv X D cells) (o : Op) (ho : IsCube D o.cube) :
    ∃ Y cells', X.step o = .ok Y ∧ Inv Y D cells' ∧ setOf cells' = specStep D (setOf cells) o := by
  cases o with
  | add s =>
    have hc : IsCube D s := ho
    obtain ⟨Y, cells', r, e1, e2, e3⟩ := add_spec h hc
    refine ⟨Y, cells', (by show (X.add s >>= fun r => pure r.1) = _; rw [e1]; rfl), e2, ?_⟩
    rcases e3 with ⟨h1, rfl, _⟩ | ⟨h1, h2, rfl, _⟩ | ⟨h1, h2, _, rfl, _⟩
    · ext t
      constructor
      · exact fun h => Or.inl h
      · rintro (h | ⟨rfl, _⟩)
        · exact h
        · exact h1
    · rw [setOf_push]
      ext t
      constructor
      · rintro (h' | rfl)
        · exact Or.inl h'
        · exact Or.inr ⟨rfl, (facesIn_iff h.ok hc).1 h2⟩
      · rintro (h' | ⟨rfl, _⟩)
        · exact Or.inl h'
        · exact Or.inr rfl
    · ext t
      constructor
      · exact fun h => Or.inl h
      · rintro (h' | ⟨rfl, h3⟩)
        · exact h'
        · exact absurd ((facesIn_iff h.ok hc).2 h3) h2
  | addRecursive s =>
    have hc : IsCube D s := ho
    obtain ⟨Y, cells', r, e1, e2, e3⟩ := addRecursive_spec h hc
    refine ⟨Y, cells', (by show (X.addRecursive s >>= fun r => pure r.1) = _; rw [e1]; rfl), e2, ?_⟩
    rcases e3 with ⟨h1, _, rfl, _⟩ | ⟨h1, h2, _⟩
    · ext t
      constructor
      · exact fun h => Or.inl h
      · rintro (h' | h')
        · exact h'
        · exact h.ok.face _ _ _ h1 h'
    · ext t
      show t ∈ cells' (cubeDim t) ↔ _
      rw [h2.mem]
      constructor
      · rintro (h' | ⟨_, p, hp, h'⟩)
        · exact Or.inl h'
        · rw [List.mem_singleton] at hp; subst hp; exact Or.inr h'
      · rintro (h' | h')
        · exact Or.inl h'
        · exact Or.inr ⟨rfl, s, by simp, h'⟩

theorem run_spec : ∀ (ops : List Op) {X : Cub} {cells : Cells}, Inv X D cells → (∀ o ∈ ops, IsCube D o.cube) →
    ∃ Y cells', X.run ops = .ok Y ∧ Inv Y D cells' ∧ setOf cells' = ops.foldl (specStep D) (setOf cells)
  | [], X, cells, h, _ => ⟨X, cells, rfl, h, rfl⟩
  | o :: os, X, cells, h, ho => by
    obtain ⟨Y, c1, e1, e2, e3⟩ := step_spec h o (ho o (by simp))
    obtain ⟨Z, c2, f1, f2, f3⟩ := run_spec os e2 (fun p hp => ho p (by simp [hp]))
    refine ⟨Z, c2, by rw [run, e1, bind_ok, f1], f2, ?_⟩
    rw [f3, e3]; rfl

theorem setOf_empty : setOf (fun _ => []) = (∅ : Set (List Nat)) := by
  ext s; simp [setOf]

theorem run_init {D : Nat} (hD : 0 < D) (ops : List Op) (ho : ∀ o ∈ ops, IsCube D o.cube) :
    ∃ Y cells, (init D).run ops = .ok Y ∧ Inv Y D cells ∧ setOf cells = specRun D ops := by
  obtain ⟨Y, c, e1, e2, e3⟩ := run_spec ops (init_inv hD) ho
  exact ⟨Y, c, e1, e2, by rw [e3, setOf_empty]; rfl⟩

/-! ### skeleton -/

theorem cubesLoop_spec {m : Nat} (hm : 0 < m) : ∀ (l : List Nat) (c rest : List Nat), c.length < m → (c ++ l).length = m →
    cubesLoop m c (l ++ rest) = (c ++ l) :: cubesLoop m [] rest := by
  intro l
  induction l with
  | nil => intro c rest h1 h2; simp at h2; omega
  | cons x l ih =>
    intro c rest h1 h2
    rw [List.cons_append]
    rw [cubesLoop]
    by_cases h : (c ++ [x]).length = m
    · rw [if_pos h]
      have : l = [] := by simp at h h2; exact List.length_eq_zero_iff.1 (by omega)
      subst this
      simp
    · rw [if_neg h, ih (c ++ [x]) rest (by simp at h2 h ⊢; omega) (by simpa using h2)]
      simp

theorem cubesLoop_flatten {m : Nat} (hm : 0 < m) : ∀ (L : List (List Nat)), (∀ s ∈ L, s.length = m) → cubesLoop m [] L.flatten = L
  | [], _ => rfl
  | s :: L, h => by
    rw [List.flatten_cons, cubesLoop_spec hm s [] _ (by simpa using hm) (by simpa using h s (by simp)), cubesLoop_flatten hm L (fun t ht => h t (by simp [ht]))]
    simp

theorem getCubes_spec (h : Inv X D cells) {d : Nat} (hd : d ≤ D) : X.getCubes d = .ok (cells d) := by
  unfold getCubes
  rw [rd_some (h.dim d hd).sp, bind_ok, h.sizes.dim, cubesLoop_flatten (by have := h.sizes.pos; omega) _ (fun s hs => (h.ok.cube _ _ hs).1.1)]
  rfl

theorem addAll_spec {d : Nat} : ∀ (L : List (List Nat)) {Y : Cub} {cells : Cells}, Inv Y D cells → (∀ s ∈ L, IsCube D s ∧ cubeDim s = d) → L.Nodup →
    (∀ s ∈ L, s ∉ cells d) → (∀ s ∈ L, ∀ p ∈ faces1 s, p.1 ∈ cells (d - 1)) →
    ∃ Z cells', Y.addAll L = .ok Z ∧ Inv Z D cells' ∧ cells' d = cells d ++ L ∧ ∀ e, e ≠ d → cells' e = cells e
  | [], Y, cells, h, _, _, _, _ => ⟨Y, cells, rfl, h, by simp, fun _ _ => rfl⟩
  | s :: L, Y, cells, h, hc, hnd, hn, hf => by
    obtain ⟨c1, c2⟩ := hc s (by simp)
    obtain ⟨Z, e1, e2⟩ := addUnsafe_ok h c1 (by rw [c2]; exact hn s (by simp)) (by intro p hp; rw [c2]; exact hf s (by simp) p hp)
    rw [c2] at e2
    rw [List.nodup_cons] at hnd
    obtain ⟨W, cells', f1, f2, f3, f4⟩ := addAll_spec L e2 (fun t ht => hc t (by simp [ht])) hnd.2 (by
        intro t ht hm
        rcases mem_push.1 hm with hm | ⟨_, rfl⟩
        · exact hn t (by simp [ht]) hm
        · exact hnd.1 ht) (by
        intro t ht p hp
        exact mem_push.2 (Or.inl (hf t (by simp [ht]) p hp)))
    refine ⟨W, cells', by rw [addAll, e1, bind_ok]; exact f1, f2, ?_, ?_⟩
    · rw [f3, push_same]; simp
    · intro e he; rw [f4 e he, push_ne _ _ he]

theorem skelLoop_spec (h : Inv X D cells) : ∀ (n d : Nat) {Y : Cub}, d + n ≤ D + 1 → Inv Y D (fun e => if e < d then cells e else []) →
    ∃ Z, X.skelLoop n d Y = .ok Z ∧ Inv Z D (fun e => if e < d + n then cells e else [])
  | 0, d, Y, _, hY => ⟨Y, rfl, hY⟩
  | n + 1, d, Y, hd, hY => by
    obtain ⟨Z, c', e1, e2, e3, e4⟩ := addAll_spec (d := d) (cells d) hY (fun s hs => h.ok.cube d s hs) (h.ok.nodup d) (by
        intro s _; simp) (by
        intro s hs p hp
        have hc := h.ok.cube d s hs
        have := (face_cube hc.1 hp).2
        obtain ⟨e, rfl⟩ : ∃ e, d = e + 1 := ⟨d - 1, by omega⟩
        simp only [Nat.add_sub_cancel]
        rw [if_pos (by omega)]
        exact h.ok.closed e s hs p hp)
    have hc' : c' = (fun e => if e < d + 1 then cells e else []) := by
      funext e
      by_cases he : e = d
      · subst he; rw [e3]; simp
      · rw [e4 e he]
        by_cases h1 : e < d
        · rw [if_pos h1, if_pos (by omega)]
        · rw [if_neg h1, if_neg (by omega)]
    rw [hc'] at e2
    obtain ⟨W, f1, f2⟩ := skelLoop_spec h n (d + 1) (by omega) e2
    refine ⟨W, ?_, ?_⟩
    · rw [skelLoop, getCubes_spec h (by omega), bind_ok, e1, bind_ok, f1]
    · rw [show d + (n + 1) = d + 1 + n by omega]; exact f2

theorem skeleton_spec (h : Inv X D cells) {k : Nat} (hk : k ≤ D) :
    ∃ Z, X.skeleton k = .ok Z ∧ Inv Z D (fun e => if e < k + 1 then cells e else []) := by
  unfold skeleton
  rw [h.sizes.dim, if_neg (by omega)]
  have h0 := init_inv h.sizes.pos
  obtain ⟨Z, e1, e2⟩ := skelLoop_spec h (k + 1) 0 (Y := init D) (by omega) (by
    have : (fun e => if e < 0 then cells e else []) = (fun _ => ([] : List (List Nat))) := by funext e; simp
    rw [this]; exact h0)
  rw [Nat.zero_add] at e2
  exact ⟨Z, e1, e2⟩

/-! ### boundary matrices -/

section
variable {F : Type} [Field F] [DecidableEq F]

structure ColOK (cells : Cells) (d : Nat) (s : List Nat) (col : SVec F) : Prop where
  sorted : (col.map Prod.fst).Pairwise (· ≤ ·)
  perm : col.Perm ((faces1 s).map (fun p => ((cells d).idxOf p.1, (p.2 : F))))

theorem coef_faces (L : List (List Nat × Int)) (g : List Nat → Nat) (i : Nat) :
    coef (L.map (fun p => (g p.1, (p.2 : F)))) i = (L.map (fun p => (p.2 : F) * (if g p.1 = i then 1 else 0))).sum := by
  induction L with
  | nil => simp
  | cons p L ih => rw [List.map_cons, coef_cons, ih, List.map_cons, List.sum_cons]; simp

theorem ColOK.coef {d : Nat} {s : List Nat} {col : SVec F} (h : ColOK cells d s col) (i : Nat) :
    coef col i = pair s (fun t => if (cells d).idxOf t = i then (1 : F) else 0) := by
  rw [coef_perm h.perm, coef_faces (g := fun t => (cells d).idxOf t)]; rfl

structure BdMat (cells : Cells) (d : Nat) (M : CMat F) : Prop where
  nrow : M.nrow = (cells d).length
  ncol : M.cols.length = (cells (d + 1)).length
  col : ∀ (j : Nat) (s : List Nat), (cells (d + 1))[j]? = some s → ∃ c, M.cols[j]? = some c ∧ ColOK cells d s c

theorem boundaryCsc_spec (h : Inv X D cells) {d : Nat} (hd : d < D) :
    ∃ A M, boundaryCsc X (d + 1) = .ok A ∧ A.toCMat = .ok M ∧ BdMat (F := F) cells d M := by
  have hb := h.bd d hd
  let bs : List (List Nat × List Int) := (cells (d + 1)).map (fun s => (inds cells d s, signs s))
  have hrows : ∀ j, rows (bs.take j) = ((cells (d + 1)).take j).flatMap (inds cells d) := by
    intro j; simp only [rows, bs]; rw [← List.map_take, List.map_map, List.flatMap_def]; rfl
  have hr : rows bs = (cells (d + 1)).flatMap (inds cells d) := by
    simp only [rows, bs]; rw [List.map_map, List.flatMap_def]; rfl
  have hv : vals bs = (cells (d + 1)).flatMap signs := by
    simp only [vals, bs]; rw [List.map_map, List.flatMap_def]; rfl
  have hlen : bs.length = (cells (d + 1)).length := by simp [bs]
  have hil : ∀ s ∈ cells (d + 1), (inds cells d s).length = 2 * (d + 1) := by
    intro s hs
    have hc := h.ok.cube _ _ hs
    unfold inds
    rw [List.length_map, faces1_count s (isCube_iff.1 hc.1).2, hc.2]
  have hdel : Delimits ((List.range ((cells (d + 1)).length + 1)).map (· * (2 * (d + 1)))) bs := by
    intro j hj
    rw [hlen] at hj
    rw [List.getElem?_map, List.getElem?_range (by omega), hrows]
    simp only [Option.map_some, Option.some.injEq]
    rw [List.flatMap_def, flatten_length_uniform (n := 2 * (d + 1))]
    · rw [List.length_map, List.length_take, Nat.min_eq_left hj, Nat.mul_comm]
    · intro l hl
      obtain ⟨s, hs, rfl⟩ := List.mem_map.1 hl
      exact hil s (List.mem_of_mem_take hs)
  obtain ⟨A, bs', g1, g2, g3, _⟩ := mk'_toCMat (F := F) (bs := bs) (cells d).length (by
    intro b hb
    obtain ⟨s, _, rfl⟩ := List.mem_map.1 hb
    simp [inds, signs]) hdel
  refine ⟨A, _, ?_, g3, rfl, ?_, ?_⟩
  · unfold boundaryCsc
    simp only [Nat.add_sub_cancel]
    rw [rd_some (h.dim d (by omega)).nc, bind_ok, rd_some (h.dim (d + 1) hd).nc, bind_ok, rd_some hb.fc, bind_ok, rd_some hb.co, bind_ok]
    rw [hr, hv, hlen] at g1
    exact g1
  · simp [← g2.length_eq, hlen]
  · intro j s hs
    have hj := (List.getElem?_eq_some_iff.1 hs).1
    have hj' : j < bs'.length := by rw [← g2.length_eq, hlen]; exact hj
    have hsb := List.Forall₂.get g2 (i := j) (by omega) hj'
    simp only [List.get_eq_getElem] at hsb
    have hbj : bs[j]'(by omega) = (inds cells d s, signs s) := by
      simp only [bs, List.getElem_map]
      rw [(List.getElem?_eq_some_iff.1 hs).2]
    rw [hbj] at hsb
    refine ⟨blockCol bs'[j], by simp [hj'], ?_, ?_⟩
    · unfold blockCol
      rw [List.map_map]
      have : ((bs'[j].1.zip bs'[j].2).map (Prod.fst ∘ fun p : Nat × Int => (p.1, (p.2 : F)))) = bs'[j].1 := by
        show (bs'[j].1.zip bs'[j].2).map Prod.fst = _
        exact List.map_fst_zip (by rw [hsb.lf, hsb.lc])
      rw [this]; exact hsb.sorted
    · unfold blockCol
      refine (hsb.perm.map (fun p : Nat × Int => (p.1, (p.2 : F)))).trans ?_
      apply List.Perm.of_eq
      unfold inds signs
      rw [List.zip_map', List.map_map]; rfl

theorem boundaries_spec (h : Inv X D cells) : ∀ n d, d + n ≤ D →
    ∃ Ms, boundaries (F := F) X n (d + 1) = .ok Ms ∧ Ms.length = n ∧ ∀ i, i < n → ∃ M, Ms[i]? = some M ∧ BdMat cells (d + i) M := by
  intro n
  induction n with
  | zero => intro d _; exact ⟨[], rfl, rfl, by intro i hi; omega⟩
  | succ n ih =>
    intro d hd
    obtain ⟨A, M, g1, g2, g3⟩ := boundaryCsc_spec (F := F) h (d := d) (by omega)
    obtain ⟨Ms, e1, e2, e3⟩ := ih (d + 1) (by omega)
    refine ⟨M :: Ms, ?_, by simp [e2], ?_⟩
    · unfold boundaries
      rw [g1, bind_ok, g2, bind_ok, e1]; rfl
    · intro i hi
      cases i with
      | zero => exact ⟨M, rfl, g3⟩
      | succ i =>
        obtain ⟨M', m1, m2⟩ := e3 i (by omega)
        exact ⟨M', by simpa using m1, by rw [show d + (i + 1) = d + 1 + i by omega]; exact m2⟩

/-- the chain complex `B` of the cells -/
structure IsCpx (D : Nat) (cells : Cells) (B : List (CMat F)) : Prop where
  len : B.length = D + 1
  zero : B[0]? = some (CMat.zero 1 (cells 0).length)
  bd : ∀ d, d < D → ∃ M, B[d + 1]? = some M ∧ BdMat cells d M

theorem chainComplex_spec (h : Inv X D cells) : ∃ B : List (CMat F), chainComplex X = .ok B ∧ IsCpx D cells B := by
  obtain ⟨Ms, e1, e2, e3⟩ := boundaries_spec (F := F) h D 0 (by omega)
  refine ⟨CMat.zero 1 (cells 0).length :: Ms, ?_, ?_, rfl, ?_⟩
  · unfold chainComplex maxdim
    rw [rd_some (h.dim 0 (by omega)).nc, bind_ok, h.sizes.dim, e1]; rfl
  · simp only [List.length_cons, e2]
  · intro d hd
    obtain ⟨M, m1, m2⟩ := e3 d hd
    exact ⟨M, by simpa using m1, by rwa [Nat.zero_add] at m2⟩

variable {B : List (CMat F)}

theorem cdim_eq (hok : CellsOK D cells) (hB : IsCpx D cells B) (k : Nat) : cdim B k = (cells k).length := by
  unfold cdim
  rw [List.getD_eq_getElem?_getD]
  cases k with
  | zero => rw [hB.zero]; simp [CMat.zero]
  | succ d =>
    by_cases hd : d < D
    · obtain ⟨M, m1, m2⟩ := hB.bd d hd
      rw [m1]; exact m2.ncol
    · rw [List.getElem?_eq_none (by rw [hB.len]; omega), hok.top (by omega)]; rfl

theorem ent_eq (hok : CellsOK D cells) (hB : IsCpx D cells B) {d j : Nat} {s : List Nat} (hs : (cells (d + 1))[j]? = some s) (i : Nat) :
    ent B (d + 1) i j = pair s (fun t => if (cells d).idxOf t = i then (1 : F) else 0) := by
  have hd : d < D := by
    by_contra hc
    rw [hok.top (by omega)] at hs; simp at hs
  obtain ⟨M, m1, m2⟩ := hB.bd d hd
  obtain ⟨c, c1, c2⟩ := m2.col j s hs
  unfold ent
  rw [List.getD_eq_getElem?_getD (l := B), m1, Option.getD_some, List.getD_eq_getElem?_getD, c1, Option.getD_some]
  exact c2.coef i

theorem sum_pair {n : Nat} (s : List Nat) (A : Fin n → F) (g : List Nat → Nat) (hg : ∀ p ∈ faces1 s, g p.1 < n) :
    ∑ m : Fin n, A m * pair s (fun t => if g t = m then (1 : F) else 0) =
      pair s (fun t => if h : g t < n then A ⟨g t, h⟩ else 0) := by
  unfold pair
  generalize faces1 s = L at hg
  induction L with
  | nil => simp
  | cons p L ih =>
    simp only [List.map_cons, List.sum_cons, mul_add, Finset.sum_add_distrib]
    rw [ih (fun q hq => hg q (by simp [hq]))]
    congr 1
    have hlt := hg p (by simp)
    rw [dif_pos hlt, Finset.sum_eq_single (⟨_, hlt⟩ : Fin n)]
    · rw [if_pos rfl, mul_one, mul_comm]
    · intro b _ hb
      rw [if_neg (fun e => hb (Fin.ext e.symm)), mul_zero, mul_zero]
    · intro h; exact absurd (Finset.mem_univ _) h

theorem square_zero (hok : CellsOK D cells) (hB : IsCpx D cells B) (k : Nat) : bdry B k * bdryUp B k = 0 := by
  ext i j
  rw [Matrix.mul_apply, Matrix.zero_apply]
  cases k with
  | zero =>
    apply Finset.sum_eq_zero
    intro m _
    have : bdry B 0 i m = 0 := by
      show coef ((B.getD 0 ⟨0, []⟩).cols.getD m []) i = 0
      rw [List.getD_eq_getElem?_getD (l := B), hB.zero, Option.getD_some]
      simp only [CMat.zero, List.getD_eq_getElem?_getD, List.getElem?_replicate]
      split <;> simp
    rw [this, zero_mul]
  | succ d =>
    have hc := cdim_eq hok hB
    have hj : (j : Nat) < (cells (d + 2)).length := by rw [← hc]; exact j.2
    obtain ⟨s, hs⟩ : ∃ s, (cells (d + 2))[(j : Nat)]? = some s := ⟨_, List.getElem?_eq_getElem hj⟩
    have hsm := List.mem_of_getElem? hs
    have hup : ∀ m : Fin (cdim B (d + 1)), bdryUp B (d + 1) m j = pair s (fun t => if (cells (d + 1)).idxOf t = m then (1 : F) else 0) :=
      fun m => ent_eq hok hB hs m
    simp only [hup]
    have hlt : ∀ p ∈ faces1 s, (cells (d + 1)).idxOf p.1 < cdim B (d + 1) := by
      intro p hp; rw [hc]; exact List.idxOf_lt_length_iff.2 (hok.closed (d + 1) s hsm p hp)
    rw [sum_pair s _ (fun t => (cells (d + 1)).idxOf t) hlt]
    rw [pair_congr (h := fun t => pair t (fun u => if (cells d).idxOf u = i then (1 : F) else 0))]
    · exact pair_pair s _
    · intro p hp
      have hm := hok.closed (d + 1) s hsm p hp
      rw [dif_pos (hlt p hp)]
      have hg : (cells (d + 1))[(cells (d + 1)).idxOf p.1]? = some p.1 := by
        rw [List.getElem?_eq_getElem (List.idxOf_lt_length_iff.2 hm), List.getElem_idxOf]
      exact ent_eq hok hB hg i

theorem ColOK.vecOK (h : CellsOK D cells) {d : Nat} {s : List Nat} (hs : s ∈ cells (d + 1)) {col : SVec F}
    (hc : ColOK cells d s col) : VecOK col ∧ Below (cells d).length col := by
  have hnd : (col.map Prod.fst).Nodup := by
    rw [(hc.perm.map Prod.fst).nodup_iff, List.map_map]
    have : (faces1 s).map (Prod.fst ∘ fun p : List Nat × Int => ((cells d).idxOf p.1, (p.2 : F))) = ((faces1 s).map Prod.fst).map (fun t => (cells d).idxOf t) := by
      rw [List.map_map]; rfl
    rw [this, List.nodup_map_iff_inj_on (faces1_nodup s)]
    intro t ht u hu e
    obtain ⟨p, hp, rfl⟩ := List.mem_map.1 ht
    exact (List.idxOf_inj (h.closed d s hs p hp)).1 e
  refine ⟨⟨?_, ?_⟩, ?_⟩
  · have h1 : (col.map Prod.fst).Pairwise (· < ·) := by
      have := hc.sorted.and hnd
      exact this.imp (fun h => lt_of_le_of_ne h.1 h.2)
    rw [List.pairwise_map] at h1
    exact h1
  · intro p hp
    have := hc.perm.subset hp
    rw [List.mem_map] at this
    obtain ⟨q, hq, rfl⟩ := this
    rcases faces1_sign s q hq with e | e
    · simp [e]
    · simp [e]
  · intro p hp
    have := hc.perm.subset hp
    rw [List.mem_map] at this
    obtain ⟨q, hq, rfl⟩ := this
    exact List.idxOf_lt_length_iff.2 (h.closed d s hs q hq)

theorem isChainComplex (hok : CellsOK D cells) (hB : IsCpx D cells B) : IsChainComplex B := by
  have hc := cdim_eq hok hB
  refine ⟨?_, ?_, fun k _ => square_zero hok hB k⟩
  · intro e; have := hB.zero; rw [e] at this; simp at this
  · intro k hk
    cases k with
    | zero =>
      have e : B.getD 0 ⟨0, []⟩ = CMat.zero 1 (cells 0).length := by rw [List.getD_eq_getElem?_getD, hB.zero]; rfl
      have r0 : rdim B 0 = 1 := by unfold rdim; rw [e]; rfl
      rw [hc, r0, e]
      refine ⟨?_, rfl, by simp [CMat.zero]⟩
      intro c hcm
      have : c = [] := by simp [CMat.zero] at hcm; exact hcm.2
      subst this
      exact ⟨⟨List.Pairwise.nil, by intro p hp; simp at hp⟩, by intro p hp; simp at hp⟩
    | succ d =>
      obtain ⟨M, m1, m2⟩ := hB.bd d (by rw [hB.len] at hk; omega)
      have e : B.getD (d + 1) ⟨0, []⟩ = M := by rw [List.getD_eq_getElem?_getD, m1]; rfl
      have r0 : rdim B (d + 1) = (cells d).length := by show cdim B d = _; exact hc d
      rw [hc, r0, e]
      refine ⟨?_, m2.nrow, m2.ncol⟩
      intro c hcm
      obtain ⟨j, hj, ej⟩ := List.getElem_of_mem hcm
      have hj' : j < (cells (d + 1)).length := by rw [← m2.ncol]; exact hj
      obtain ⟨c', c1, c2⟩ := m2.col j _ (List.getElem?_eq_getElem hj')
      rw [List.getElem?_eq_getElem hj, ej] at c1
      cases c1
      rw [m2.nrow]
      exact c2.vecOK hok (List.getElem_mem hj')

/-! ### homology -/

variable {K : Finset (List Nat)}

/-- the positions of the cells of dimension `k` and the cubes of dimension `k` of `K` -/
noncomputable def eqv (hok : CellsOK D cells) (hK : ∀ s, s ∈ K ↔ s ∈ setOf cells) (hc : ∀ k, cdim B k = (cells k).length) (k : Nat) :
    Fin (cdim B k) ≃ Cubes D K k where
  toFun j := ⟨(cells k)[j.1]'(by rw [← hc]; exact j.2), by
    have hm : (cells k)[j.1]'(by rw [← hc]; exact j.2) ∈ cells k := List.getElem_mem _
    have h1 := hok.cube k _ hm
    exact ⟨(hK _).2 (hok.mem_iff.1 hm).1, by rw [cubeDimension_eq h1.1]; exact h1.2⟩⟩
  invFun s := ⟨(cells k).idxOf s.1, by
    have h1 := (hK _).1 s.2.1
    have h2 := s.2.2
    rw [cubeDimension_eq (hok.cube _ _ h1).1] at h2
    rw [hc]; exact List.idxOf_lt_length_iff.2 (hok.mem_iff.2 ⟨h1, h2⟩)⟩
  left_inv j := by
    apply Fin.ext
    exact (hok.nodup k).idxOf_getElem _ _
  right_inv s := by
    apply Subtype.ext
    show (cells k)[(cells k).idxOf s.1]'_ = s.1
    rw [List.getElem_idxOf]

theorem boundary_eq (hok : CellsOK D cells) (hB : IsCpx D cells B) (hK : ∀ s, s ∈ K ↔ s ∈ setOf cells) (hc : ∀ k, cdim B k = (cells k).length) (k : Nat) :
    (cubicalBoundary F D K k).submatrix (eqv hok hK hc k) (eqv hok hK hc (k + 1)) = bdryUp B k := by
  ext i j
  rw [Matrix.submatrix_apply]
  have hj : j.1 < (cells (k + 1)).length := by rw [← hc]; exact j.2
  have hi : i.1 < (cells k).length := by rw [← hc]; exact i.2
  have hs : (cells (k + 1))[j.1]? = some (cells (k + 1))[j.1] := List.getElem?_eq_getElem hj
  show _ = ent B (k + 1) i j
  rw [ent_eq hok hB hs]
  have hm : (cells (k + 1))[j.1] ∈ cells (k + 1) := List.getElem_mem _
  have hcube := hok.cube _ _ hm
  have h1 : pair (cells (k + 1))[j.1] (fun t => if (cells k).idxOf t = i then (1 : F) else 0) =
      pair (cells (k + 1))[j.1] (fun t => if t = (cells k)[i.1] then (1 : F) else 0) := by
    apply pair_congr
    intro p hp
    have hpm := hok.closed k _ hm p hp
    have : (cells k).idxOf p.1 = i.1 ↔ p.1 = (cells k)[i.1] := by
      constructor
      · intro e
        have : (cells k)[(cells k).idxOf p.1]'(List.idxOf_lt_length_iff.2 hpm) = (cells k)[i.1] := by congr 1
        rw [List.getElem_idxOf] at this
        exact this
      · intro e; rw [e]; exact (hok.nodup k).idxOf_getElem _ _
    simp only [this]
  rw [h1, pair_eq_sum hcube.1.1]
  rfl

theorem betti_cubical (hok : CellsOK D cells) (hB : IsCpx D cells B) (hK : ∀ s, s ∈ K ↔ s ∈ setOf cells) (k : Nat) :
    bettiNumber B k = cubicalBetti F D K k := by
  have hc := cdim_eq hok hB
  have hspec : ∀ k, cubicalBoundary F D K k = (bdryUp B k).submatrix (eqv hok hK hc k).symm (eqv hok hK hc (k + 1)).symm := by
    intro k
    have := boundary_eq hok hB hK hc k
    ext σ τ
    have e := congrFun (congrFun this ((eqv hok hK hc k).symm σ)) ((eqv hok hK hc (k + 1)).symm τ)
    simpa using e
  have hrank : ∀ k, (cubicalBoundary F D K k).rank = (bdryUp B k).rank := by
    intro k
    rw [hspec, Matrix.rank_submatrix]
  have hcard : ∀ k, Fintype.card (Cubes D K k) = Fintype.card (Fin (cdim B k)) := fun k => (Fintype.card_congr (eqv hok hK hc k)).symm
  have e1 := finrank_homology' _ _ (square_zero hok hB k)
  cases k with
  | zero =>
    have hb0 : bdry B 0 = 0 := by
      ext i m
      show coef ((B.getD 0 ⟨0, []⟩).cols.getD m []) i = 0
      rw [List.getD_eq_getElem?_getD (l := B), hB.zero, Option.getD_some]
      simp only [CMat.zero, List.getD_eq_getElem?_getD, List.getElem?_replicate]
      split <;> simp
    have h2 := Submodule.finrank_quotient_add_finrank (LinearMap.range (cubicalBoundary F D K 0).mulVecLin)
    have h3 : Module.finrank F (LinearMap.range (cubicalBoundary F D K 0).mulVecLin) = (cubicalBoundary F D K 0).rank := rfl
    rw [h3, hrank 0, Module.finrank_fintype_fun_eq_card, hcard 0] at h2
    have h4 : (bdry B 0).rank = 0 := by rw [hb0, Matrix.rank_zero]
    unfold bettiNumber Homology cycles BATS.boundaries cubicalBetti
    dsimp only
    omega
  | succ k =>
    have hsq : cubicalBoundary F D K k * cubicalBoundary F D K (k + 1) = 0 := by
      rw [hspec, hspec, Matrix.submatrix_mul_equiv]
      have e : bdryUp B k * bdryUp B (k + 1) = 0 := square_zero hok hB (k + 1)
      rw [e]; simp
    have e2 := finrank_homology' _ _ hsq
    have hr : (bdry B (k + 1)).rank = (bdryUp B k).rank := rfl
    rw [hrank k, hrank (k + 1), hcard (k + 1)] at e2
    unfold bettiNumber Homology cycles BATS.boundaries cubicalBetti
    dsimp only
    omega

end

end Cub
end BATS
