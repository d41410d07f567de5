import Verif.Proofs.Pair2
import Verif.Model.Product
import Verif.Spec.Product
import Verif.Props.Simplicial

set_option linter.unusedSectionVars false
set_option linter.unusedVariables false
set_option linter.unusedSimpArgs false

/-! # The triangulated product -/

namespace BATS
namespace SCpx

/-- the staircases of two lists -/
def paths (xs ys : List Nat) : List (List (Nat × Nat)) :=
  match xs, ys with
  | [], _ => []
  | _ :: _, [] => []
  | [x], [y] => [[(x, y)]]
  | [x], y :: y' :: ys => (paths [x] (y' :: ys)).map ((x, y) :: ·)
  | x :: x' :: xs, [y] => (paths (x' :: xs) [y]).map ((x, y) :: ·)
  | x :: x' :: xs, y :: y' :: ys => (paths (x' :: xs) (y :: y' :: ys)).map ((x, y) :: ·) ++ (paths (x :: x' :: xs) (y' :: ys)).map ((x, y) :: ·)
termination_by xs.length + ys.length

/-- the calls made by `product_paths` -/
def pathOps' (n : Nat) (s : List Nat) (P : List (List (Nat × Nat))) : List Op :=
  P.map (fun p => Op.addRecursive (s ++ p.map (fun q => prodInd q.1 q.2 n)))

theorem pathOps'_cons (n : Nat) (s : List Nat) (q : Nat × Nat) (P : List (List (Nat × Nat))) :
    pathOps' n s (P.map (q :: ·)) = pathOps' n (s ++ [prodInd q.1 q.2 n]) P := by
  unfold pathOps'
  rw [List.map_map]
  apply List.map_congr_left
  intro p _
  simp

theorem productPaths_eq (n : Nat) (xs ys : List Nat) (s : List Nat) (XY : SCpx) (hx : xs ≠ []) (hy : ys ≠ []) :
    productPaths n xs ys s XY = XY.run (pathOps' n s (paths xs ys)) := by
  fun_induction productPaths n xs ys s XY with
  | case1 => exact absurd rfl hx
  | case2 => exact absurd rfl hy
  | case3 s XY x y =>
    rw [paths]
    show _ = ((XY.addRecursive (s ++ [prodInd x y n]) >>= fun r => pure r.1) >>= fun W => W.run [])
    cases XY.addRecursive (s ++ [prodInd x y n]) <;> rfl
  | case4 s XY x y y' ys ih => rw [ih (by simp) (by simp), paths, pathOps'_cons]
  | case5 s XY x x' xs y ih => rw [ih (by simp) (by simp), paths, pathOps'_cons]
  | case6 s XY x x' xs y y' ys ih1 ih2 =>
    rw [ih1 (by simp) (by simp), paths]
    have : pathOps' n s ((paths (x' :: xs) (y :: y' :: ys)).map ((x, y) :: ·) ++ (paths (x :: x' :: xs) (y' :: ys)).map ((x, y) :: ·)) =
        pathOps' n (s ++ [prodInd x y n]) (paths (x' :: xs) (y :: y' :: ys)) ++ pathOps' n (s ++ [prodInd x y n]) (paths (x :: x' :: xs) (y' :: ys)) := by
      rw [← pathOps'_cons (q := (x, y)), ← pathOps'_cons (q := (x, y))]
      unfold pathOps'
      rw [List.map_append]
    rw [this, Txt.run_append']
    cases XY.run (pathOps' n (s ++ [prodInd x y n]) (paths (x' :: xs) (y :: y' :: ys))) with
    | error e => rfl
    | ok W => exact ih2 W (by simp) (by simp)

/-- a staircase is a chain in the product -/
theorem paths_chain (xs ys : List Nat) (hx : xs.Pairwise (· < ·)) (hy : ys.Pairwise (· < ·)) : ∀ p ∈ paths xs ys,
    ProductChain p ∧ p ≠ [] ∧ p.length + 1 = xs.length + ys.length ∧ ∀ q ∈ p, q.1 ∈ xs ∧ q.2 ∈ ys := by
  fun_induction paths xs ys with
  | case1 => intro p hp; simp at hp
  | case2 => intro p hp; simp at hp
  | case3 x y =>
    intro p hp
    rw [List.mem_singleton] at hp
    subst hp
    exact ⟨List.pairwise_singleton _ _, by simp, by simp, by intro q hq; rw [List.mem_singleton] at hq; subst hq; simp⟩
  | case4 x y y' ys ih =>
    intro p hp
    obtain ⟨p', hp', rfl⟩ := List.mem_map.1 hp
    obtain ⟨a1, a2, a3, a4⟩ := ih hx hy.of_cons p' hp'
    have hlt := (List.pairwise_cons.1 hy).1
    refine ⟨List.pairwise_cons.2 ⟨?_, a1⟩, by simp, by simp at a3 ⊢; omega, ?_⟩
    · intro q hq
      obtain ⟨b1, b2⟩ := a4 q hq
      have := hlt _ b2
      rw [List.mem_singleton] at b1
      refine ⟨by simp [b1], by simp; omega, ?_⟩
      intro e; rw [← e] at this; simp at this
    · intro q hq
      rcases List.mem_cons.1 hq with rfl | hq
      · simp
      · exact ⟨(a4 q hq).1, List.mem_cons_of_mem _ (a4 q hq).2⟩
  | case5 x x' xs y ih =>
    intro p hp
    obtain ⟨p', hp', rfl⟩ := List.mem_map.1 hp
    obtain ⟨a1, a2, a3, a4⟩ := ih hx.of_cons hy p' hp'
    have hlt := (List.pairwise_cons.1 hx).1
    refine ⟨List.pairwise_cons.2 ⟨?_, a1⟩, by simp, by simp at a3 ⊢; omega, ?_⟩
    · intro q hq
      obtain ⟨b1, b2⟩ := a4 q hq
      have := hlt _ b1
      rw [List.mem_singleton] at b2
      refine ⟨by simp; omega, by simp [b2], ?_⟩
      intro e; rw [← e] at this; simp at this
    · intro q hq
      rcases List.mem_cons.1 hq with rfl | hq
      · simp
      · exact ⟨List.mem_cons_of_mem _ (a4 q hq).1, (a4 q hq).2⟩
  | case6 x x' xs y y' ys ih1 ih2 =>
    intro p hp
    rcases List.mem_append.1 hp with hp | hp
    · obtain ⟨p', hp', rfl⟩ := List.mem_map.1 hp
      obtain ⟨a1, a2, a3, a4⟩ := ih1 hx.of_cons hy p' hp'
      have hlt := (List.pairwise_cons.1 hx).1
      refine ⟨List.pairwise_cons.2 ⟨?_, a1⟩, by simp, by simp at a3 ⊢; omega, ?_⟩
      · intro q hq
        obtain ⟨b1, b2⟩ := a4 q hq
        have h1 := hlt _ b1
        have h2 : y ≤ q.2 := by
          rcases List.mem_cons.1 b2 with e | e
          · omega
          · exact le_of_lt (List.rel_of_pairwise_cons hy e)
        refine ⟨by simp; omega, h2, ?_⟩
        intro e; rw [← e] at h1; simp at h1
      · intro q hq
        rcases List.mem_cons.1 hq with rfl | hq
        · simp
        · exact ⟨List.mem_cons_of_mem _ (a4 q hq).1, (a4 q hq).2⟩
    · obtain ⟨p', hp', rfl⟩ := List.mem_map.1 hp
      obtain ⟨a1, a2, a3, a4⟩ := ih2 hx hy.of_cons p' hp'
      have hlt := (List.pairwise_cons.1 hy).1
      refine ⟨List.pairwise_cons.2 ⟨?_, a1⟩, by simp, by simp at a3 ⊢; omega, ?_⟩
      · intro q hq
        obtain ⟨b1, b2⟩ := a4 q hq
        have h1 := hlt _ b2
        have h2 : x ≤ q.1 := by
          rcases List.mem_cons.1 b1 with e | e
          · omega
          · exact le_of_lt (List.rel_of_pairwise_cons hx e)
        refine ⟨h2, by simp; omega, ?_⟩
        intro e; rw [← e] at h1; simp at h1
      · intro q hq
        rcases List.mem_cons.1 hq with rfl | hq
        · simp
        · exact ⟨(a4 q hq).1, List.mem_cons_of_mem _ (a4 q hq).2⟩

theorem ProductChain.sub {c d : List (Nat × Nat)} (h : c.Sublist d) (hd : ProductChain d) : ProductChain c := List.Pairwise.sublist h hd

/-- removing the first point of the product from a chain -/
theorem chain_rest {x y : Nat} {c : List (Nat × Nat)} (hc : ProductChain c) (hm : ∀ q ∈ c, x ≤ q.1 ∧ y ≤ q.2) :
    ∃ c', ProductChain c' ∧ (∀ q ∈ c', q ∈ c ∧ q ≠ (x, y)) ∧ ∀ p, c'.Sublist p → c.Sublist ((x, y) :: p) := by
  cases c with
  | nil => exact ⟨[], hc, by simp, fun p _ => List.nil_sublist _⟩
  | cons a c =>
    by_cases ha : a = (x, y)
    · subst ha
      refine ⟨c, hc.of_cons, ?_, fun p hp => List.cons_sublist_cons.2 hp⟩
      intro q hq
      exact ⟨List.mem_cons_of_mem _ hq, fun e => (List.rel_of_pairwise_cons hc hq).2.2 e.symm⟩
    · refine ⟨a :: c, hc, ?_, fun p hp => List.Sublist.cons _ hp⟩
      intro q hq
      refine ⟨hq, ?_⟩
      rcases List.mem_cons.1 hq with rfl | h
      · exact ha
      · intro e
        obtain ⟨r1, r2, r3⟩ := List.rel_of_pairwise_cons hc h
        have := hm a List.mem_cons_self
        apply ha
        rw [e] at r1 r2
        ext
        · exact le_antisymm r1 this.1
        · exact le_antisymm r2 this.2

theorem mem_ge {x : Nat} {xs : List Nat} (h : (x :: xs).Pairwise (· < ·)) {a : Nat} (ha : a ∈ x :: xs) : x ≤ a := by
  rcases List.mem_cons.1 ha with e | e
  · omega
  · exact le_of_lt (List.rel_of_pairwise_cons h e)

/-- every chain in the product is part of a staircase -/
theorem chain_path (xs ys : List Nat) (hx : xs.Pairwise (· < ·)) (hy : ys.Pairwise (· < ·)) (hx0 : xs ≠ []) (hy0 : ys ≠ []) : ∀ c, ProductChain c →
    (∀ q ∈ c, q.1 ∈ xs ∧ q.2 ∈ ys) → ∃ p ∈ paths xs ys, c.Sublist p := by
  fun_induction paths xs ys with
  | case1 => exact absurd rfl hx0
  | case2 => exact absurd rfl hy0
  | case3 x y =>
    intro c hc hm
    obtain ⟨c', h1, h2, h3⟩ := chain_rest (x := x) (y := y) hc (fun q hq => by have := hm q hq; simp at this; omega)
    refine ⟨_, List.mem_singleton_self _, h3 [] ?_⟩
    rw [List.sublist_nil]
    apply List.eq_nil_iff_forall_not_mem.2
    intro q hq
    have := hm q (h2 q hq).1
    simp only [List.mem_singleton] at this
    exact (h2 q hq).2 (Prod.ext this.1 this.2)
  | case4 x y y' ys ih =>
    intro c hc hm
    obtain ⟨c', h1, h2, h3⟩ := chain_rest (x := x) (y := y) hc (fun q hq => ⟨mem_ge hx (hm q hq).1, mem_ge hy (hm q hq).2⟩)
    obtain ⟨p, p1, p2⟩ := ih hx hy.of_cons (by simp) (by simp) c' h1 (by
      intro q hq
      obtain ⟨a, b⟩ := hm q (h2 q hq).1
      refine ⟨a, ?_⟩
      rcases List.mem_cons.1 b with e | e
      · exact absurd (Prod.ext (by simpa using a) e) (h2 q hq).2
      · exact e)
    exact ⟨_, List.mem_map_of_mem p1, h3 p p2⟩
  | case5 x x' xs y ih =>
    intro c hc hm
    obtain ⟨c', h1, h2, h3⟩ := chain_rest (x := x) (y := y) hc (fun q hq => ⟨mem_ge hx (hm q hq).1, mem_ge hy (hm q hq).2⟩)
    obtain ⟨p, p1, p2⟩ := ih hx.of_cons hy (by simp) (by simp) c' h1 (by
      intro q hq
      obtain ⟨a, b⟩ := hm q (h2 q hq).1
      refine ⟨?_, b⟩
      rcases List.mem_cons.1 a with e | e
      · exact absurd (Prod.ext e (by simpa using b)) (h2 q hq).2
      · exact e)
    exact ⟨_, List.mem_map_of_mem p1, h3 p p2⟩
  | case6 x x' xs y y' ys ih1 ih2 =>
    intro c hc hm
    obtain ⟨c', h1, h2, h3⟩ := chain_rest (x := x) (y := y) hc (fun q hq => ⟨mem_ge hx (hm q hq).1, mem_ge hy (hm q hq).2⟩)
    cases c' with
    | nil =>
      obtain ⟨p, p1, p2⟩ := ih1 hx.of_cons hy (by simp) (by simp) [] List.Pairwise.nil (by simp)
      exact ⟨_, List.mem_append_left _ (List.mem_map_of_mem p1), h3 p p2⟩
    | cons a c' =>
      have hle : ∀ q ∈ a :: c', a.1 ≤ q.1 ∧ a.2 ≤ q.2 := by
        intro q hq
        rcases List.mem_cons.1 hq with rfl | h
        · exact ⟨le_refl _, le_refl _⟩
        · have := List.rel_of_pairwise_cons h1 h; exact ⟨this.1, this.2.1⟩
      have hmem : ∀ q ∈ a :: c', q.1 ∈ x :: x' :: xs ∧ q.2 ∈ y :: y' :: ys := fun q hq => hm q (h2 q hq).1
      obtain ⟨ma, mb⟩ := hmem a List.mem_cons_self
      by_cases hax : a.1 = x
      · have hay : y < a.2 := by
          rcases List.mem_cons.1 mb with e | e
          · exact absurd (Prod.ext hax e) (h2 a List.mem_cons_self).2
          · exact List.rel_of_pairwise_cons hy e
        obtain ⟨p, p1, p2⟩ := ih2 hx hy.of_cons (by simp) (by simp) (a :: c') h1 (by
          intro q hq
          obtain ⟨u, v⟩ := hmem q hq
          refine ⟨u, ?_⟩
          rcases List.mem_cons.1 v with e | e
          · have := (hle q hq).2; omega
          · exact e)
        exact ⟨_, List.mem_append_right _ (List.mem_map_of_mem p1), h3 p p2⟩
      · have hax' : x < a.1 := lt_of_le_of_ne (mem_ge hx ma) (Ne.symm hax)
        obtain ⟨p, p1, p2⟩ := ih1 hx.of_cons hy (by simp) (by simp) (a :: c') h1 (by
          intro q hq
          obtain ⟨u, v⟩ := hmem q hq
          refine ⟨?_, v⟩
          rcases List.mem_cons.1 u with e | e
          · have := (hle q hq).1; omega
          · exact e)
        exact ⟨_, List.mem_append_left _ (List.mem_map_of_mem p1), h3 p p2⟩

/-! ### the loops -/

/-- the calls for one pair of dimensions -/
def prodOps (n : Nat) (xs ys : List (List Nat)) : List Op := xs.flatMap (fun a => ys.flatMap (fun b => pathOps' n [] (paths a b)))

theorem productCellsY_eq {Y : SCpx} {cY : Cells} (h : Inv Y cY) (n d : Nat) {a : List Nat} (ha : a ≠ []) : ∀ (m i : Nat) (XY : SCpx), i + m = (cY d).length →
    productCellsY Y n d a m i XY = XY.run (((cY d).drop i).flatMap (fun b => pathOps' n [] (paths a b))) := by
  intro m
  induction m with
  | zero => intro i XY hi; rw [List.drop_of_length_le (by omega)]; rfl
  | succ m ih =>
    intro i XY hi
    have hlt : i < (cY d).length := by omega
    rw [List.drop_eq_getElem_cons hlt, List.flatMap_cons, Txt.run_append', productCellsY, Filt.getSimplex_eq h (List.getElem?_eq_getElem hlt), bind_ok,
      productPaths_eq n _ _ _ _ ha (by have := h.ok.len d _ (List.getElem_mem hlt); intro e; rw [e] at this; simp at this)]
    cases XY.run (pathOps' n [] (paths a (cY d)[i])) with
    | error e => rfl
    | ok W => exact ih (i + 1) W (by omega)

theorem productCellsX_eq {X Y : SCpx} {cX cY : Cells} (hX : Inv X cX) (hY : Inv Y cY) (n d e : Nat) (he : e < Y.ncells.length) : ∀ (m i : Nat) (XY : SCpx),
    i + m = (cX d).length → productCellsX X Y n d e m i XY = XY.run (prodOps n ((cX d).drop i) (cY e)) := by
  intro m
  induction m with
  | zero => intro i XY hi; rw [List.drop_of_length_le (by omega)]; rfl
  | succ m ih =>
    intro i XY hi
    have hlt : i < (cX d).length := by omega
    unfold prodOps
    rw [List.drop_eq_getElem_cons hlt, List.flatMap_cons, Txt.run_append', productCellsX, Filt.getSimplex_eq hX (List.getElem?_eq_getElem hlt), bind_ok]
    unfold numCells
    rw [rd_some (hY.dim e he).nc, bind_ok, productCellsY_eq hY n e (by have := hX.ok.len d _ (List.getElem_mem hlt); intro e; rw [e] at this; simp at this) _ 0 XY (by omega),
      List.drop_zero]
    cases XY.run ((cY e).flatMap (fun b => pathOps' n [] (paths (cX d)[i] b))) with
    | error e => rfl
    | ok W => exact ih (i + 1) W (by omega)

theorem prodOps_nil_left (n : Nat) (ys : List (List Nat)) : prodOps n [] ys = [] := rfl

theorem prodOps_nil_right (n : Nat) (xs : List (List Nat)) : prodOps n xs [] = [] := by
  unfold prodOps
  rw [List.flatMap_eq_nil_iff]
  intro a _; rfl

theorem productDX_eq {X Y : SCpx} {cX cY : Cells} (hX : Inv X cX) (hY : Inv Y cY) (n dim : Nat) : ∀ (m d : Nat) (XY : SCpx),
    productDX X Y n dim m d XY = XY.run ((List.range' d m).flatMap (fun d => prodOps n (cX d) (cY (dim - d)))) := by
  have nX := hX.sizes.ne
  have nY := hY.sizes.ne
  intro m
  induction m with
  | zero => intro d XY; rfl
  | succ m ih =>
    intro d XY
    rw [List.range'_succ, List.flatMap_cons, productDX]
    by_cases hc : (X.maxdim < d || Y.maxdim < dim - d) = true
    · rw [if_pos hc, ih]
      have : prodOps n (cX d) (cY (dim - d)) = [] := by
        rw [Bool.or_eq_true, decide_eq_true_iff, decide_eq_true_iff] at hc
        unfold maxdim at hc
        rcases hc with h | h
        · rw [hX.top d (by omega), prodOps_nil_left]
        · rw [hY.top _ (by omega), prodOps_nil_right]
      rw [this, List.nil_append]
    · rw [if_neg hc]
      rw [Bool.or_eq_true, decide_eq_true_iff, decide_eq_true_iff, not_or] at hc
      unfold maxdim at hc
      unfold numCells
      rw [rd_some (hX.dim d (by omega)).nc, bind_ok, productCellsX_eq hX hY n d (dim - d) (by omega) _ 0 XY (by omega), List.drop_zero, Txt.run_append']
      cases XY.run (prodOps n (cX d) (cY (dim - d))) with
      | error e => rfl
      | ok W => exact ih (d + 1) W

/-- all calls of `TriangulatedProduct` for dimensions `dim, .., dim + m - 1` -/
def allOps (cX cY : Cells) (n dim m : Nat) : List Op :=
  (List.range' dim m).flatMap (fun dim => (List.range' 0 (dim + 1)).flatMap (fun d => prodOps n (cX d) (cY (dim - d))))

theorem productDims_eq {X Y : SCpx} {cX cY : Cells} (hX : Inv X cX) (hY : Inv Y cY) (n : Nat) : ∀ (m dim : Nat) (XY : SCpx),
    productDims X Y n m dim XY = XY.run (allOps cX cY n dim m) := by
  intro m
  induction m with
  | zero => intro dim XY; rfl
  | succ m ih =>
    intro dim XY
    unfold allOps
    rw [List.range'_succ, List.flatMap_cons, Txt.run_append', productDims, productDX_eq hX hY]
    cases XY.run ((List.range' 0 (dim + 1)).flatMap (fun d => prodOps n (cX d) (cY (dim - d)))) with
    | error e => rfl
    | ok W => exact ih (dim + 1) W

theorem mem_allOps {cX cY : Cells} {n k : Nat} (o : Op) : o ∈ allOps cX cY n 0 (k + 1) ↔
    ∃ d e a b p, d + e ≤ k ∧ a ∈ cX d ∧ b ∈ cY e ∧ p ∈ paths a b ∧ o = Op.addRecursive (p.map (fun q => prodInd q.1 q.2 n)) := by
  unfold allOps prodOps pathOps'
  simp only [List.mem_flatMap, List.mem_map, List.mem_range'_1, List.nil_append]
  constructor
  · rintro ⟨dim, ⟨_, h1⟩, d, ⟨_, h2⟩, a, ha, b, hb, p, hp, rfl⟩
    exact ⟨d, dim - d, a, b, p, by omega, ha, hb, hp, rfl⟩
  · rintro ⟨d, e, a, b, p, h1, ha, hb, hp, rfl⟩
    exact ⟨d + e, ⟨by omega, by omega⟩, d, ⟨by omega, by omega⟩, a, ha, b, by rwa [Nat.add_sub_cancel_left], p, hp, rfl⟩

/-- the simplices after a history of recursive additions of increasing lists -/
theorem specRun_rec : ∀ (ops : List Op) (K : Set (List Nat)), (∀ o ∈ ops, ∃ s : List Nat, s.Pairwise (· ≤ ·) ∧ o = .addRecursive s) →
    ∀ t, t ∈ ops.foldl specStep K ↔ t ∈ K ∨ ∃ s, Op.addRecursive s ∈ ops ∧ t ≠ [] ∧ t.Sublist s := by
  intro ops
  induction ops with
  | nil => intro K _ t; simp
  | cons o ops ih =>
    intro K h t
    obtain ⟨s, hs, rfl⟩ := h o List.mem_cons_self
    rw [List.foldl_cons, ih _ (fun o ho => h o (List.mem_cons_of_mem _ ho))]
    have : s.mergeSort (· ≤ ·) = s := List.mergeSort_of_pairwise (by simpa using hs)
    show ((t ∈ specAddRec K (s.mergeSort (· ≤ ·))) ∨ _) ↔ _
    rw [this]
    constructor
    · rintro ((h | ⟨h1, h2⟩) | ⟨s', h1, h2⟩)
      · exact Or.inl h
      · exact Or.inr ⟨s, List.mem_cons_self, h1, h2⟩
      · exact Or.inr ⟨s', List.mem_cons_of_mem _ h1, h2⟩
    · rintro (h | ⟨s', h1, h2, h3⟩)
      · exact Or.inl (Or.inl h)
      · rcases List.mem_cons.1 h1 with e | e
        · injection e with e
          subst e
          exact Or.inl (Or.inr ⟨h2, h3⟩)
        · exact Or.inr ⟨s', e, h2, h3⟩

theorem prodInd_chain {n : Nat} {p : List (Nat × Nat)} (hp : ProductChain p) : (p.map (fun q => prodInd q.1 q.2 n)).Pairwise (· ≤ ·) := by
  rw [List.pairwise_map]
  apply hp.imp
  intro a b h
  unfold prodInd
  have := Nat.mul_le_mul_left n h.2.1
  omega

theorem run_rec_maxdim {k : Nat} : ∀ (ops : List Op) {X : SCpx} {cells : Cells}, Inv X cells → X.ncells.length = k + 1 →
    (∀ o ∈ ops, ∃ s : List Nat, s ≠ [] ∧ s.length ≤ k + 1 ∧ o = .addRecursive s) → ∀ Y, X.run ops = .ok Y → Y.ncells.length = k + 1 := by
  intro ops
  induction ops with
  | nil => intro X cells _ hl _ Y hY; cases hY; exact hl
  | cons o ops ih =>
    intro X cells h hl ho Y hY
    obtain ⟨s, hs, hk, rfl⟩ := ho o List.mem_cons_self
    have hlen : (sortV s).length = s.length := List.length_insertionSort _ _
    obtain ⟨W, cells', r, e1, e2, e3, _⟩ := addDirectedRecursive_set h (s := sortV s) (sortV_ne hs)
    have : X.run (Op.addRecursive s :: ops) = W.run ops := by
      show ((X.addDirectedRecursive (sortV s) >>= fun r => pure r.1) >>= fun W => W.run ops) = _
      rw [e1]; rfl
    rw [this] at hY
    exact ih e2 (by rw [e3, hl, hlen]; omega) (fun o h => ho o (List.mem_cons_of_mem _ h)) Y hY

theorem triangulatedProduct_spec {X Y : SCpx} {cX cY : Cells} (hX : Inv X cX) (hY : Inv Y cY) (sX : ∀ d, ∀ s ∈ cX d, s.Pairwise (· < ·))
    (sY : ∀ d, ∀ s ∈ cY d, s.Pairwise (· < ·)) (k n : Nat) :
    ∃ XY, triangulatedProduct X Y k n = .ok XY ∧ Reachable XY ∧ XY.maxdim = k ∧ Represents XY (productSimplices X Y n k) := by
  have hne : ∀ {c : Cells} (h : CellsOK c) {d : Nat} {s : List Nat}, s ∈ c d → s ≠ [] := by
    intro c h d s hs e
    have := h.len d s hs
    rw [e] at this; simp at this
  have hops : ∀ o ∈ allOps cX cY n 0 (k + 1), o.simplex ≠ [] := by
    intro o ho
    obtain ⟨d, e, a, b, p, _, ha, hb, hp, rfl⟩ := (mem_allOps o).1 ho
    have := (paths_chain a b (sX d a ha) (sY e b hb) p hp).2.1
    intro e
    have e' : p.map (fun q => prodInd q.1 q.2 n) = [] := e
    exact this (List.map_eq_nil_iff.1 e')
  have hlen : ∀ o ∈ allOps cX cY n 0 (k + 1), o.simplex.length ≤ k + 1 := by
    intro o ho
    obtain ⟨d, e, a, b, p, h, ha, hb, hp, rfl⟩ := (mem_allOps o).1 ho
    have := (paths_chain a b (sX d a ha) (sY e b hb) p hp).2.2.1
    have l1 := hX.ok.len d a ha
    have l2 := hY.ok.len e b hb
    show (p.map (fun q => prodInd q.1 q.2 n)).length ≤ k + 1
    rw [List.length_map]; omega
  obtain ⟨XY, h1, h2⟩ := C19_history k (allOps cX cY n 0 (k + 1)) hops
  refine ⟨XY, ?_, ⟨k, _, hops, h1⟩, ?_, ?_⟩
  · unfold triangulatedProduct numCells
    rw [rd_some (hY.dim 0 hY.sizes.ne).nc, bind_ok, productDims_eq hX hY]; exact h1
  · have := run_rec_maxdim (k := k) _ (init_inv k).1 (init_inv k).2 (by
      intro o ho
      have a1 := hops o ho
      have a2 := hlen o ho
      obtain ⟨d, e, a, b, p, h, ha, hb, hp, rfl⟩ := (mem_allOps o).1 ho
      exact ⟨_, a1, a2, rfl⟩) XY h1
    unfold maxdim; omega
  · convert h2 using 1
    ext t
    unfold specRun
    rw [specRun_rec _ _ (by
      intro o ho
      obtain ⟨d, e, a, b, p, h, ha, hb, hp, rfl⟩ := (mem_allOps o).1 ho
      exact ⟨_, prodInd_chain (paths_chain a b (sX d a ha) (sY e b hb) p hp).1, rfl⟩)]
    constructor
    · rintro ⟨c, rfl, hc0, hc, σ, hσ, τ, hτ, hl, hm⟩
      rw [simplices_eq hX] at hσ
      rw [simplices_eq hY] at hτ
      have pσ := List.length_pos_iff.2 hσ.1
      have pτ := List.length_pos_iff.2 hτ.1
      obtain ⟨p, p1, p2⟩ := chain_path σ τ (sX _ σ hσ.2) (sY _ τ hτ.2) hσ.1 hτ.1 c hc hm
      right
      refine ⟨_, (mem_allOps _).2 ⟨σ.length - 1, τ.length - 1, σ, τ, p, by omega, hσ.2, hτ.2, p1, rfl⟩, by simpa using hc0, p2.map _⟩
    · rintro (h | ⟨s, hs, ht, hsub⟩)
      · exact absurd h (Set.notMem_empty _)
      · obtain ⟨d, e, a, b, p, h, ha, hb, hp, e'⟩ := (mem_allOps _).1 hs
        injection e' with e'
        subst e'
        obtain ⟨q1, q2, q3, q4⟩ := paths_chain a b (sX d a ha) (sY e b hb) p hp
        obtain ⟨c, hc, rfl⟩ := List.sublist_map_iff.1 hsub
        have l1 := hX.ok.len d a ha
        have l2 := hY.ok.len e b hb
        refine ⟨c, rfl, by rintro rfl; exact ht rfl, ProductChain.sub hc q1, a, ?_, b, ?_, by omega, fun q hq => q4 q (hc.subset hq)⟩
        · rw [simplices_eq hX]; exact (mem_setOf l1).2 ha
        · rw [simplices_eq hY]; exact (mem_setOf l2).2 hb

end SCpx
end BATS
