import Verif.Spec.CellComplex
import Verif.Proofs.CSC
import Verif.Proofs.SparseVec
import Verif.Proofs.Pairing

set_option linter.unusedSectionVars false
set_option linter.unusedVariables false
set_option linter.unusedSimpArgs false

/-! # Cell complexes: proofs -/

namespace BATS
namespace CellCpx
open CSC MPair

abbrev Blocks := Nat → List (List Nat × List Int)

def offsets (bs : List (List Nat × List Int)) : List Nat := (List.range (bs.length + 1)).map fun j => (rows (bs.take j)).length
def cnt (nv : Nat) (cells : Blocks) : Nat → Nat
  | 0 => nv
  | k + 1 => (cells k).length

/-- the state of top dimension `D` with `nv` vertices and the cells `cells` -/
def form (D nv : Nat) (cells : Blocks) : CellCpx :=
  ⟨(List.range (D + 1)).map (cnt nv cells), (List.range D).map fun k => offsets (cells k), (List.range D).map fun k => rows (cells k),
    (List.range D).map fun k => vals (cells k)⟩

theorem growTo_range {A : Type} (n m : Nat) (f : Nat → A) {a : A} (h : ∀ i, n ≤ i → f i = a) :
    growTo ((List.range n).map f) m a = (List.range (max n m)).map f := by
  unfold growTo
  rw [List.length_map, List.length_range]
  split
  · rename_i hlt
    rw [Nat.max_eq_right hlt.le]
    apply List.ext_getElem
    · simp; omega
    · intro i h1 h2
      rw [List.getElem_append]
      split
      · simp
      · rename_i hi
        simp only [List.length_map, List.length_range, not_lt] at hi
        simp [h i hi]
  · rw [Nat.max_eq_left (by omega)]

theorem reserve_form {D nv : Nat} {cells : Blocks} (h : ∀ d, D ≤ d → cells d = []) (k : Nat) : (form D nv cells).reserve k = form (max D k) nv cells := by
  unfold reserve form
  rw [growTo_range, growTo_range, growTo_range, growTo_range]
  · simp only [Nat.add_max_add_right]
  · intro i hi; rw [h i hi]; rfl
  · intro i hi; rw [h i hi]; rfl
  · intro i hi; rw [h i hi]; rfl
  · intro i hi
    obtain ⟨j, rfl⟩ : ∃ j, i = j + 1 := ⟨i - 1, by omega⟩
    show (cells j).length = 0
    rw [h j (by omega)]; rfl

theorem init_form (D : Nat) : init D = form D 0 (fun _ => []) := by
  have : (⟨[], [], [], []⟩ : CellCpx).reserve D = form D 0 (fun _ => []) := by
    unfold reserve form
    have e : ∀ {A : Type} (m : Nat) (a : A), growTo [] m a = List.replicate m a := by
      intro A m a
      unfold growTo
      split
      · simp
      · rename_i h
        simp only [List.length_nil, not_lt, Nat.le_zero] at h
        subst h; rfl
    rw [e, e, e, e]
    simp only [CellCpx.mk.injEq]
    refine ⟨?_, ?_, ?_, ?_⟩
    · apply List.ext_getElem
      · simp
      · intro i h1 h2
        simp only [List.getElem_replicate, List.getElem_map, List.getElem_range]
        cases i <;> rfl
    all_goals
      apply List.ext_getElem
      · simp
      · intro i h1 h2
        simp only [List.getElem_replicate, List.getElem_map, List.getElem_range]
        rfl
  exact this

theorem maxdim_form (D nv : Nat) (cells : Blocks) : (form D nv cells).maxdim = D := by simp [maxdim, form]

theorem numCells_form {D nv : Nat} {cells : Blocks} (h : ∀ d, D ≤ d → cells d = []) (k : Nat) : (form D nv cells).numCells k = .ok (cnt nv cells k) := by
  unfold numCells
  rw [maxdim_form]
  split
  · exact rd_range (by omega)
  · rename_i hk
    obtain ⟨j, rfl⟩ : ∃ j, k = j + 1 := ⟨k - 1, by omega⟩
    show _ = Except.ok (cells j).length
    rw [h j (by omega)]; rfl

theorem totalLoop_form {D nv : Nat} {cells : Blocks} (h : ∀ d, D ≤ d → cells d = []) :
    ∀ n k ct, (form D nv cells).totalLoop n k ct = .ok (ct + ∑ i ∈ Finset.range n, cnt nv cells (k + i)) := by
  intro n
  induction n with
  | zero => intro k ct; simp [totalLoop]
  | succ n ih =>
    intro k ct
    rw [totalLoop, numCells_form h, bind_ok, ih, Finset.sum_range_succ']
    congr 1
    simp only [Nat.add_zero, Nat.add_assoc]
    congr 1
    rw [Nat.add_comm]
    congr 1
    apply Finset.sum_congr rfl
    intro i _
    rw [Nat.add_comm 1 i]

theorem total_form {D nv : Nat} {cells : Blocks} (h : ∀ d, D ≤ d → cells d = []) :
    (form D nv cells).total = .ok (∑ k ∈ Finset.range (D + 1), cnt nv cells k) := by
  unfold total
  rw [maxdim_form, totalLoop_form h]
  simp

theorem addVertices_form (D nv : Nat) (cells : Blocks) (k : Nat) : (form D nv cells).addVertices k = .ok (form D (nv + k) cells, nv + k) := by
  unfold addVertices
  show (rd ((List.range (D + 1)).map (cnt nv cells)) 0 >>= _) = _
  rw [rd_range (by omega), bind_ok]
  show (wr ((List.range (D + 1)).map (cnt nv cells)) 0 _ >>= _) = _
  rw [wr_range (v := cnt nv cells 0 + k) (cnt (nv + k) cells) (by omega) rfl (by intro x hx; cases x with | zero => exact absurd rfl hx | succ x => rfl), bind_ok]
  rfl

theorem addVertex_form (D nv : Nat) (cells : Blocks) : (form D nv cells).addVertex = .ok (form D (nv + 1) cells, nv) := by
  unfold addVertex
  show (rd ((List.range (D + 1)).map (cnt nv cells)) 0 >>= _) = _
  rw [rd_range (by omega), bind_ok]
  show (wr ((List.range (D + 1)).map (cnt nv cells)) 0 _ >>= _) = _
  rw [wr_range (v := cnt nv cells 0 + 1) (cnt (nv + 1) cells) (by omega) rfl (by intro x hx; cases x with | zero => exact absurd rfl hx | succ x => rfl), bind_ok]
  rfl

/-- one more cell of dimension `k + 1` -/
def snoc (cells : Blocks) (k : Nat) (b : List Nat) (c : List Int) : Blocks := fun d => if d = k then cells d ++ [(b, c)] else cells d

theorem offsets_snoc (bs : List (List Nat × List Int)) (p : List Nat × List Int) : offsets (bs ++ [p]) = offsets bs ++ [(rows (bs ++ [p])).length] := by
  unfold offsets
  rw [List.length_append, List.length_singleton, List.range_succ (n := bs.length + 1), List.map_append, List.map_singleton]
  congr 1
  · apply List.map_congr_left
    intro j hj
    rw [List.mem_range] at hj
    rw [List.take_append_of_le_length (by omega)]
  · rw [List.take_of_length_le (by simp)]

theorem addUnsafe_form {D nv k : Nat} {cells : Blocks} (hk : k < D) (b : List Nat) (c : List Int) :
    (form D nv cells).addUnsafe b c (k + 1) = .ok (form D nv (snoc cells k b c), (cells k).length) := by
  have hself : snoc cells k b c k = cells k ++ [(b, c)] := if_pos rfl
  have hoth : ∀ x, x ≠ k → snoc cells k b c x = cells x := fun x hx => if_neg hx
  unfold addUnsafe
  simp only [Nat.add_sub_cancel]
  show (rd ((List.range D).map fun k => rows (cells k)) k >>= _) = _
  rw [rd_range hk, bind_ok]
  show (wr ((List.range D).map fun k => rows (cells k)) k _ >>= _) = _
  rw [wr_range (fun d => rows (snoc cells k b c d)) hk (by simp only [hself, rows_append]; simp [rows]) (fun x hx => by simp only [hoth x hx]), bind_ok]
  show (rd ((List.range D).map fun k => vals (cells k)) k >>= _) = _
  rw [rd_range hk, bind_ok]
  show (wr ((List.range D).map fun k => vals (cells k)) k _ >>= _) = _
  rw [wr_range (fun d => vals (snoc cells k b c d)) hk (by simp only [hself, vals_append]; simp [vals]) (fun x hx => by simp only [hoth x hx]), bind_ok]
  show (rd ((List.range D).map fun k => offsets (cells k)) k >>= _) = _
  rw [rd_range hk, bind_ok, rd_range hk, bind_ok]
  show (wr ((List.range D).map fun k => offsets (cells k)) k _ >>= _) = _
  rw [wr_range (fun d => offsets (snoc cells k b c d)) hk (by simp only [hself, offsets_snoc]) (fun x hx => by simp only [hoth x hx]), bind_ok]
  show (rd ((List.range (D + 1)).map (cnt nv cells)) (k + 1) >>= _) = _
  rw [rd_range (by omega), bind_ok]
  show (wr ((List.range (D + 1)).map (cnt nv cells)) (k + 1) _ >>= _) = _
  rw [wr_range (cnt nv (snoc cells k b c)) (by omega) (by show (snoc cells k b c k).length = (cells k).length + 1; rw [hself]; simp) (fun x hx => by
    cases x with
    | zero => rfl
    | succ x => show (cells x).length = (snoc cells k b c x).length; rw [hoth x (by omega)]), bind_ok]
  rfl

/-! ### histories -/

theorem cellsOf_append (a b : List Op) (k : Nat) : cellsOf (a ++ b) k = cellsOf a k ++ cellsOf b k := by simp [cellsOf]

theorem vertexCount_append (a b : List Op) : vertexCount (a ++ b) = vertexCount a + vertexCount b := by
  induction a with
  | nil => simp [vertexCount]
  | cons o a ih =>
    cases o with
    | vertex => simp only [List.cons_append, vertexCount, ih]; omega
    | vertices k => simp only [List.cons_append, vertexCount, ih]; omega
    | add b c k => cases k <;> simp only [List.cons_append, vertexCount, ih] <;> omega

theorem cellsOf_cell (b : List Nat) (c : List Int) (k d : Nat) : cellsOf [.add b c (k + 1)] d = if k = d then [(b, c)] else [] := by
  unfold cellsOf
  by_cases h : k = d <;> simp [h]

theorem mem_cellsOf {os : List Op} {k : Nat} {b : List Nat} {c : List Int} : (b, c) ∈ cellsOf os k ↔ Op.add b c (k + 1) ∈ os := by
  unfold cellsOf
  rw [List.mem_filterMap]
  constructor
  · rintro ⟨o, ho, e⟩
    cases o with
    | vertex => cases e
    | vertices n => cases e
    | add b' c' k' =>
      cases k' with
      | zero => cases e
      | succ k' =>
        by_cases h : k' = k
        · simp only [h, if_true, Option.some.injEq, Prod.mk.injEq] at e
          rw [← h, ← e.1, ← e.2]
          exact ho
        · simp only [h, if_false] at e; cases e
  · intro h
    exact ⟨_, h, by simp⟩

theorem cnt_count (os : List Op) (k : Nat) : cnt (vertexCount os) (cellsOf os) k = count os k := by cases k <;> rfl

/-- state after a history -/
structure St (D0 : Nat) (os : List Op) (X : CellCpx) (D : Nat) : Prop where
  eq : X = form D (vertexCount os) (cellsOf os)
  top : IsTop D0 os D
  len : ∀ k p, p ∈ cellsOf os k → p.1.length = p.2.length

theorem IsTop.nil {D0 : Nat} {os : List Op} {D : Nat} (h : IsTop D0 os D) (d : Nat) (hd : D ≤ d) : cellsOf os d = [] := by
  apply List.eq_nil_iff_forall_not_mem.2
  rintro ⟨b, c⟩ hp
  have := h.1.2 b c (d + 1) (mem_cellsOf.1 hp)
  omega

theorem step_spec {D0 : Nat} {os : List Op} {X : CellCpx} {D : Nat} (h : St D0 os X D) {o : Op} (ho : ValidOp o) :
    ∃ X' D', X.step o = .ok (X', answer os o) ∧ St D0 (os ++ [o]) X' D' := by
  obtain ⟨rfl, ht, hl⟩ := h
  have ht0 : ∀ o', (∀ b c k, o' = Op.add b c k → k = 0) → IsTop D0 (os ++ [o']) D := by
    intro o' ho'
    refine ⟨⟨ht.1.1, ?_⟩, ?_⟩
    · intro b c k hm
      rcases List.mem_append.1 hm with hm | hm
      · exact ht.1.2 b c k hm
      · rw [List.mem_singleton] at hm
        rw [ho' b c k hm.symm]; omega
    · rcases ht.2 with e | ⟨b, c, e⟩
      · exact Or.inl e
      · exact Or.inr ⟨b, c, List.mem_append_left _ e⟩
  have hl0 : ∀ o', (∀ d, cellsOf [o'] d = []) → ∀ k p, p ∈ cellsOf (os ++ [o']) k → p.1.length = p.2.length := by
    intro o' he k p hp
    rw [cellsOf_append, he, List.append_nil] at hp
    exact hl k p hp
  have hcells : ∀ o', (∀ d, cellsOf [o'] d = []) → cellsOf (os ++ [o']) = cellsOf os := by
    intro o' he
    funext d
    rw [cellsOf_append, he, List.append_nil]
  cases o with
  | vertex =>
    refine ⟨_, D, addVertex_form _ _ _, ?_, ht0 _ (by intro b c k e; cases e), hl0 _ (fun d => rfl)⟩
    rw [hcells _ (fun d => rfl), vertexCount_append]; rfl
  | vertices n =>
    refine ⟨_, D, addVertices_form _ _ _ n, ?_, ht0 _ (by intro b c k e; cases e), hl0 _ (fun d => rfl)⟩
    rw [hcells _ (fun d => rfl), vertexCount_append]; simp [vertexCount]
  | add b c k =>
    cases k with
    | zero =>
      refine ⟨_, D, addVertex_form _ _ _, ?_, ht0 _ (by intro b c k e; cases e; rfl), hl0 _ (fun d => rfl)⟩
      rw [hcells _ (fun d => rfl), vertexCount_append]; rfl
    | succ k =>
      refine ⟨form (max D (k + 1)) (vertexCount (os ++ [.add b c (k + 1)])) (cellsOf (os ++ [.add b c (k + 1)])), max D (k + 1), ?_, rfl, ⟨⟨le_trans ht.1.1 (le_max_left _ _), ?_⟩, ?_⟩, ?_⟩
      · show add _ b c (k + 1) = _
        unfold add
        rw [if_neg (by omega), if_pos (ho (by omega)), reserve_form ht.nil, addUnsafe_form (by omega)]
        have e1 : snoc (cellsOf os) k b c = cellsOf (os ++ [.add b c (k + 1)]) := by
          funext d
          rw [cellsOf_append, cellsOf_cell]
          unfold snoc
          by_cases hd : d = k
          · rw [if_pos hd, if_pos hd.symm]
          · rw [if_neg hd, if_neg (fun e => hd e.symm), List.append_nil]
        have e2 : vertexCount (os ++ [.add b c (k + 1)]) = vertexCount os := by rw [vertexCount_append]; rfl
        rw [e1, e2]; rfl
      · intro b' c' k' hm
        rcases List.mem_append.1 hm with hm | hm
        · exact le_trans (ht.1.2 b' c' k' hm) (le_max_left _ _)
        · rw [List.mem_singleton] at hm
          cases hm
          exact le_max_right _ _
      · rcases Nat.le_total D (k + 1) with e | e
        · right
          refine ⟨b, c, List.mem_append_right _ ?_⟩
          rw [Nat.max_eq_right e]; exact List.mem_singleton.2 rfl
        · rw [Nat.max_eq_left e]
          rcases ht.2 with e | ⟨b', c', e⟩
          · exact Or.inl e
          · exact Or.inr ⟨b', c', List.mem_append_left _ e⟩
      · rintro d ⟨b', c'⟩ hp
        rw [mem_cellsOf] at hp
        rcases List.mem_append.1 hp with hm | hm
        · exact hl d (b', c') (mem_cellsOf.2 hm)
        · rw [List.mem_singleton] at hm
          cases hm
          exact ho (by omega)

theorem run_spec {D0 : Nat} : ∀ (os : List Op) (pre : List Op) (X : CellCpx) (D : Nat), St D0 pre X D → (∀ o ∈ os, ValidOp o) →
    ∃ X' D', X.run os = .ok (X', answers pre os) ∧ St D0 (pre ++ os) X' D'
  | [], pre, X, D, h, _ => ⟨X, D, rfl, by rwa [List.append_nil]⟩
  | o :: os, pre, X, D, h, ho => by
    obtain ⟨X1, D1, e1, h1⟩ := step_spec h (ho o (by simp))
    obtain ⟨X2, D2, e2, h2⟩ := run_spec os _ X1 D1 h1 (fun o' h' => ho o' (by simp [h']))
    refine ⟨X2, D2, ?_, by rwa [List.append_assoc] at h2⟩
    rw [run, e1, bind_ok]
    show (X1.run os >>= _) = _
    rw [e2]
    rfl

theorem init_St (D0 : Nat) : St D0 [] (init D0) D0 :=
  ⟨init_form D0, ⟨⟨Nat.le_refl _, by intro b c k h; cases h⟩, Or.inl rfl⟩, by intro k p h; cases h⟩

/-! ### matrices -/

variable {F : Type} [Field F] [DecidableEq F]

/-- column of a cell: sorted rearrangement of faces and coefficients -/
structure ColOf (b : List Nat) (c : List Int) (col : SVec F) : Prop where
  sorted : (col.map Prod.fst).Pairwise (· ≤ ·)
  perm : col.Perm ((b.zip c).map fun p => (p.1, (p.2 : F)))

/-- the boundary matrix in dimension `k + 1` -/
structure BdOf (os : List Op) (k : Nat) (M : CMat F) : Prop where
  nrow : M.nrow = count os k
  ncol : M.cols.length = count os (k + 1)
  col : ∀ (j : Nat) (b : List Nat) (c : List Int), (cellsOf os k)[j]? = some (b, c) → ∃ v, M.cols[j]? = some v ∧ ColOf b c v

theorem boundaryCsc_spec {D0 : Nat} {os : List Op} {X : CellCpx} {D : Nat} (h : St D0 os X D) {k : Nat} (hk : k < D) :
    ∃ A M, X.boundaryCsc (k + 1) = .ok A ∧ A.toCMat = .ok M ∧ BdOf (F := F) os k M := by
  obtain ⟨rfl, ht, hl⟩ := h
  have hdel : Delimits (offsets (cellsOf os k)) (cellsOf os k) := by
    intro j hj
    unfold offsets
    rw [List.getElem?_map, List.getElem?_range (by omega)]
    rfl
  obtain ⟨A, bs', g1, g2, g3, g4, g5, g6⟩ := mk'_toCMat (F := F) (count os k) (hl k) hdel
  refine ⟨A, _, ?_, g3, rfl, ?_, ?_⟩
  · unfold boundaryCsc
    rw [if_neg (by omega), Nat.add_sub_cancel, numCells_form ht.nil, bind_ok, numCells_form ht.nil, bind_ok]
    show (rd ((List.range D).map fun k => offsets (cellsOf os k)) k >>= _) = _
    rw [rd_range hk, bind_ok]
    show (rd ((List.range D).map fun k => rows (cellsOf os k)) k >>= _) = _
    rw [rd_range hk, bind_ok]
    show (rd ((List.range D).map fun k => vals (cellsOf os k)) k >>= _) = _
    rw [rd_range hk, bind_ok, cnt_count, cnt_count]
    exact g1
  · show (bs'.map _).length = (cellsOf os k).length
    rw [List.length_map, g2.length_eq]
  · intro j b c hj
    have hlt := (List.getElem?_eq_some_iff.1 hj).1
    have hj' : j < bs'.length := by rw [← g2.length_eq]; exact hlt
    have hsb := List.Forall₂.get g2 hlt hj'
    simp only [List.get_eq_getElem] at hsb
    rw [(List.getElem?_eq_some_iff.1 hj).2] at hsb
    refine ⟨blockCol bs'[j], by simp [hj'], ?_, ?_⟩
    · unfold blockCol
      rw [List.map_map]
      have : ((bs'[j].1.zip bs'[j].2).map (Prod.fst ∘ fun p : Nat × Int => (p.1, (p.2 : F)))) = bs'[j].1 := by
        show (bs'[j].1.zip bs'[j].2).map Prod.fst = _
        exact List.map_fst_zip (by rw [hsb.lf, hsb.lc])
      rw [this]; exact hsb.sorted
    · exact hsb.perm.map (fun p : Nat × Int => (p.1, (p.2 : F)))

theorem boundaries_spec {D0 : Nat} {os : List Op} {X : CellCpx} {D : Nat} (h : St D0 os X D) : ∀ n k, k + n ≤ D →
    ∃ Ms, boundaries (F := F) X n (k + 1) = .ok Ms ∧ Ms.length = n ∧ ∀ i, i < n → ∃ M, Ms[i]? = some M ∧ BdOf os (k + i) M := by
  intro n
  induction n with
  | zero => intro k _; exact ⟨[], rfl, rfl, by intro i hi; omega⟩
  | succ n ih =>
    intro k hk
    obtain ⟨A, M, g1, g2, g3⟩ := boundaryCsc_spec (F := F) h (k := k) (by omega)
    obtain ⟨Ms, e1, e2, e3⟩ := ih (k + 1) (by omega)
    refine ⟨M :: Ms, ?_, by simp [e2], ?_⟩
    · unfold boundaries
      rw [g1, bind_ok, g2, bind_ok, e1]; rfl
    · intro i hi
      cases i with
      | zero => exact ⟨M, rfl, g3⟩
      | succ i =>
        obtain ⟨M', m1, m2⟩ := e3 i (by omega)
        exact ⟨M', by simpa using m1, by rw [show k + (i + 1) = k + 1 + i by omega]; exact m2⟩

/-- the chain complex of a history -/
structure CpxOf (os : List Op) (D : Nat) (B : List (CMat F)) : Prop where
  len : B.length = D + 1
  zero : B[0]? = some (CMat.zero 1 (count os 0))
  bd : ∀ k, k < D → ∃ M, B[k + 1]? = some M ∧ BdOf os k M

theorem chainComplex_spec {D0 : Nat} {os : List Op} {X : CellCpx} {D : Nat} (h : St D0 os X D) :
    ∃ B : List (CMat F), X.chainComplex = .ok B ∧ CpxOf os D B := by
  have hm : X.maxdim = D := by rw [h.eq, maxdim_form]
  obtain ⟨Ms, e1, e2, e3⟩ := boundaries_spec (F := F) h D 0 (by omega)
  refine ⟨CMat.zero 1 (count os 0) :: Ms, ?_, by simp [e2], rfl, ?_⟩
  · unfold chainComplex
    have : X.numCells 0 = .ok (count os 0) := by rw [h.eq, numCells_form h.top.nil]; rfl
    rw [this, bind_ok, hm, e1]; rfl
  · intro k hk
    obtain ⟨M, m1, m2⟩ := e3 k hk
    exact ⟨M, by simpa using m1, by rwa [Nat.zero_add] at m2⟩

theorem coef_cast (l : List (Nat × Int)) (i : Nat) :
    coef (l.map fun p => (p.1, (p.2 : F))) i = (((l.map fun p => if p.1 = i then p.2 else 0).sum : Int) : F) := by
  induction l with
  | nil => simp
  | cons p l ih =>
    simp only [List.map_cons, coef_cons, ih, List.sum_cons, Int.cast_add]
    congr 1
    split <;> simp

section
variable {D0 : Nat} {os : List Op} {X : CellCpx} {D : Nat} {B : List (CMat F)}

theorem CpxOf.cdim (hB : CpxOf os D B) (ht : IsTop D0 os D) (k : Nat) : BATS.cdim B k = count os k := by
  unfold BATS.cdim
  rw [List.getD_eq_getElem?_getD]
  cases k with
  | zero => rw [hB.zero]; simp [CMat.zero]
  | succ d =>
    by_cases hd : d < D
    · obtain ⟨M, m1, m2⟩ := hB.bd d hd
      rw [m1]; exact m2.ncol
    · rw [List.getElem?_eq_none (by rw [hB.len]; omega)]
      show 0 = (cellsOf os d).length
      rw [ht.nil d (by omega)]; rfl

theorem CpxOf.ent (hB : CpxOf os D B) (ht : IsTop D0 os D) (k i j : Nat) : ent B (k + 1) i j = (incidence os k i j : F) := by
  unfold BATS.ent incidence
  rw [List.getD_eq_getElem?_getD (l := B)]
  by_cases hk : k < D
  · obtain ⟨M, m1, m2⟩ := hB.bd k hk
    rw [m1, Option.getD_some, List.getD_eq_getElem?_getD]
    cases hj : (cellsOf os k)[j]? with
    | none =>
      have : M.cols[j]? = none := by
        rw [List.getElem?_eq_none_iff, m2.ncol]
        exact List.getElem?_eq_none_iff.1 hj
      rw [this]; simp
    | some p =>
      obtain ⟨b, c⟩ := p
      obtain ⟨v, v1, v2⟩ := m2.col j b c hj
      rw [v1, Option.getD_some, coef_perm v2.perm, coef_cast]
  · rw [List.getElem?_eq_none (by rw [hB.len]; omega), ht.nil k (by omega)]
    simp

theorem CpxOf.chain (hB : CpxOf os D B) (ht : IsTop D0 os D) (hl : ∀ k p, p ∈ cellsOf os k → p.1.length = p.2.length) (hg : Good F os) : IsChainComplex B := by
  have hc := hB.cdim ht
  refine ⟨?_, ?_, ?_⟩
  · intro e
    have := hB.len
    rw [e] at this; simp at this
  · intro k hk
    cases k with
    | zero =>
      have e : B.getD 0 ⟨0, []⟩ = CMat.zero 1 (count os 0) := by rw [List.getD_eq_getElem?_getD, hB.zero]; rfl
      refine ⟨?_, rfl, rfl⟩
      rw [e]
      intro c hc
      have : c = [] := List.eq_of_mem_replicate hc
      rw [this]
      exact ⟨⟨List.Pairwise.nil, by intro p hp; cases hp⟩, by intro p hp; cases hp⟩
    | succ k =>
      obtain ⟨M, m1, m2⟩ := hB.bd k (by rw [hB.len] at hk; omega)
      have e : B.getD (k + 1) ⟨0, []⟩ = M := by rw [List.getD_eq_getElem?_getD, m1]; rfl
      rw [e]
      refine ⟨?_, ?_, ?_⟩
      · intro v hv
        obtain ⟨j, hj, rfl⟩ := List.getElem_of_mem hv
        have hj' : j < (cellsOf os k).length := by rw [m2.ncol] at hj; exact hj
        obtain ⟨v, v1, v2⟩ := m2.col j ((cellsOf os k)[j]).1 ((cellsOf os k)[j]).2 (List.getElem?_eq_getElem hj')
        rw [(List.getElem?_eq_some_iff.1 v1).2]
        have hmem : (((cellsOf os k)[j]).1, ((cellsOf os k)[j]).2) ∈ cellsOf os k := List.getElem_mem hj'
        generalize hp : (cellsOf os k)[j] = p at v2 hmem
        obtain ⟨b, c⟩ := p
        have hlen := hl k _ hmem
        have hfst : (((b.zip c).map fun p : Nat × Int => (p.1, (p.2 : F))).map Prod.fst) = b := by
          rw [List.map_map]
          show (b.zip c).map Prod.fst = b
          exact List.map_fst_zip (by dsimp only at hlen; omega)
        have hnd : (v.map Prod.fst).Nodup := by
          rw [(v2.perm.map Prod.fst).nodup_iff, hfst]
          exact hg.distinct k b c hmem
        refine ⟨⟨?_, ?_⟩, ?_⟩
        · have h1 : (v.map Prod.fst).Pairwise (· < ·) := (v2.sorted.and hnd).imp (fun h => lt_of_le_of_ne h.1 h.2)
          rw [List.pairwise_map] at h1
          exact h1
        · intro p hp
          obtain ⟨q, hq, rfl⟩ := List.mem_map.1 (v2.perm.subset hp)
          exact hg.unit k b c hmem _ (List.of_mem_zip hq).2
        · intro p hp
          obtain ⟨q, hq, rfl⟩ := List.mem_map.1 (v2.perm.subset hp)
          rw [m2.nrow]
          exact hg.exist k b c hmem _ (List.of_mem_zip hq).1
      · rw [m2.nrow]; exact (hc k).symm
      · rw [m2.ncol]; exact (hc (k + 1)).symm
  · intro k hk
    ext i j
    rw [Matrix.mul_apply, Matrix.zero_apply]
    cases k with
    | zero =>
      apply Finset.sum_eq_zero
      intro m _
      have : bdry B 0 i m = 0 := by
        show coef ((B.getD 0 ⟨0, []⟩).cols.getD m []) i = 0
        rw [List.getD_eq_getElem?_getD (l := B), hB.zero, Option.getD_some]
        simp only [CMat.zero, List.getD_eq_getElem?_getD, List.getElem?_replicate]
        split <;> simp
      rw [this, zero_mul]
    | succ k =>
      have e : ∀ m : Fin (BATS.cdim B (k + 1)), bdry B (k + 1) i m * bdryUp B (k + 1) m j =
          (incidence os k i m : F) * (incidence os (k + 1) m j : F) := by
        intro m
        show BATS.ent B (k + 1) i m * BATS.ent B (k + 2) m j = _
        rw [hB.ent ht, hB.ent ht]
      rw [Finset.sum_congr rfl (fun m _ => e m), Fin.sum_univ_eq_sum_range (fun m => (incidence os k i m : F) * (incidence os (k + 1) m j : F)), hc]
      exact hg.sq k i j (by rw [← hc]; exact j.2)

end

end CellCpx
end BATS
