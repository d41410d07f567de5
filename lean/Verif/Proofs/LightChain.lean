import Verif.Proofs.LightAdd
import Verif.Proofs.SimplicialHomology

set_option linter.unusedSectionVars false
set_option linter.unusedVariables false
set_option linter.unusedSimpArgs false

/-! # Boundary matrices and homology of the light complex -/

namespace BATS

section scaling
variable {F : Type} [Field F] [DecidableEq F]

/-- multiply the matrix of dimension `d+1` by `(-1)^d` -/
def signCpx (B : List (CMat F)) : List (CMat F) :=
  B.zipIdx.map (fun p => ⟨p.1.nrow, p.1.cols.map (fun c => c.map (fun e => (e.1, (-1 : F) ^ (p.2 - 1) * e.2)))⟩)

theorem signCpx_getD (B : List (CMat F)) (k : Nat) : (signCpx B).getD k ⟨0, []⟩ =
    ⟨(B.getD k ⟨0, []⟩).nrow, (B.getD k ⟨0, []⟩).cols.map (fun c => c.map (fun e => (e.1, (-1 : F) ^ (k - 1) * e.2)))⟩ := by
  unfold signCpx
  rw [List.getD_eq_getElem?_getD, List.getElem?_map, List.getElem?_zipIdx, List.getD_eq_getElem?_getD]
  cases B[k]? <;> simp

theorem signCpx_length (B : List (CMat F)) : (signCpx B).length = B.length := by simp [signCpx]

theorem signCpx_cdim (B : List (CMat F)) (k : Nat) : cdim (signCpx B) k = cdim B k := by
  unfold cdim; rw [signCpx_getD]; simp

theorem signCpx_rdim (B : List (CMat F)) (k : Nat) : rdim (signCpx B) k = rdim B k := by
  cases k with
  | zero => show ((signCpx B).getD 0 ⟨0, []⟩).nrow = _; rw [signCpx_getD]; rfl
  | succ k => exact signCpx_cdim B k

theorem coef_map_scale (a : F) (c : SVec F) (i : Nat) : coef (c.map (fun e => (e.1, a * e.2))) i = a * coef c i := by
  induction c with
  | nil => simp
  | cons p c ih => rw [List.map_cons, coef_cons, coef_cons, ih]; split <;> ring

theorem signCpx_ent (B : List (CMat F)) (k i j : Nat) : ent (signCpx B) k i j = (-1 : F) ^ (k - 1) * ent B k i j := by
  unfold ent
  rw [signCpx_getD]
  simp only
  generalize (B.getD k ⟨0, []⟩).cols = l
  rw [List.getD_eq_getElem?_getD, List.getElem?_map, List.getD_eq_getElem?_getD]
  cases l[j]? with
  | none => simp
  | some c => simp only [Option.map_some, Option.getD_some]; exact coef_map_scale _ _ _

theorem signCpx_signCpx (B : List (CMat F)) : signCpx (signCpx B) = B := by
  apply List.ext_getElem?
  intro k
  unfold signCpx
  rw [List.getElem?_map, List.getElem?_zipIdx, List.getElem?_map, List.getElem?_zipIdx]
  cases h : B[k]? with
  | none => simp
  | some M =>
    have e : ((-1 : F) ^ (k - 1)) * ((-1 : F) ^ (k - 1)) = 1 := by rw [← pow_add, ← two_mul, pow_mul]; simp
    simp only [Option.map_some, Nat.zero_add, Option.some.injEq]
    obtain ⟨nr, cols⟩ := M
    simp only [List.map_map, CMat.mk.injEq, true_and]
    apply List.ext_getElem?
    intro j
    rw [List.getElem?_map]
    cases cols[j]? with
    | none => rfl
    | some c =>
      simp only [Option.map_some, Option.some.injEq, Function.comp_apply, List.map_map]
      conv_rhs => rw [← List.map_id c]
      apply List.map_congr_left
      intro p _
      simp only [Function.comp_apply, ← mul_assoc, e, one_mul, id]

theorem sign_ne (n : Nat) : (-1 : F) ^ n ≠ 0 := pow_ne_zero _ (neg_ne_zero.2 one_ne_zero)

theorem signCpx_bdry (B : List (CMat F)) (k : Nat) : bdry (signCpx B) k =
    (-1 : F) ^ (k - 1) • (bdry B k).submatrix (finCongr (signCpx_rdim B k)) (finCongr (signCpx_cdim B k)) := by
  ext i j
  exact signCpx_ent B k i j

theorem signCpx_square {B : List (CMat F)} {k : Nat} (h : bdry B k * bdryUp B k = 0) : bdry (signCpx B) k * bdryUp (signCpx B) k = 0 := by
  have e2 : bdryUp (signCpx B) k = (-1 : F) ^ k • (bdryUp B k).submatrix (finCongr (signCpx_cdim B k)) (finCongr (signCpx_cdim B (k + 1))) := by
    ext i j
    exact signCpx_ent B (k + 1) i j
  rw [signCpx_bdry, e2, Matrix.smul_mul, Matrix.mul_smul, Matrix.submatrix_mul_equiv, h]; simp

theorem signCpx_chain {B : List (CMat F)} (h : IsChainComplex B) : IsChainComplex (signCpx B) := by
  refine ⟨?_, ?_, fun k hk => signCpx_square (h.sq k (by rw [signCpx_length] at hk; exact hk))⟩
  · intro e
    have := signCpx_length B
    rw [e] at this
    exact h.ne (List.length_eq_zero_iff.1 this.symm)
  · intro k hk
    rw [signCpx_length] at hk
    obtain ⟨s1, s2, s3⟩ := h.shape k hk
    rw [signCpx_rdim, signCpx_cdim, signCpx_getD]
    refine ⟨?_, s2, by simpa using s3⟩
    intro c hc
    simp only [List.mem_map] at hc
    obtain ⟨c', hc', rfl⟩ := hc
    obtain ⟨v1, v2⟩ := s1 c' hc'
    refine ⟨⟨?_, ?_⟩, ?_⟩
    · unfold Sorted; rw [List.pairwise_map]; exact v1.1
    · intro p hp
      rw [List.mem_map] at hp
      obtain ⟨q, hq, rfl⟩ := hp
      exact mul_ne_zero (sign_ne _) (v1.2 q hq)
    · intro p hp
      rw [List.mem_map] at hp
      obtain ⟨q, hq, rfl⟩ := hp
      exact v2 q hq

theorem signCpx_betti {B : List (CMat F)} (hsq : ∀ k, bdry B k * bdryUp B k = 0) (k : Nat) : bettiNumber (signCpx B) k = bettiNumber B k := by
  have e1 := finrank_homology' _ _ (hsq k)
  have e2 := finrank_homology' _ _ (signCpx_square (hsq k))
  have r1 : (bdry (signCpx B) k).rank = (bdry B k).rank := by
    rw [signCpx_bdry, rank_smul_ne _ (sign_ne _), Matrix.rank_submatrix]
  have r2 : (bdryUp (signCpx B) k).rank = (bdryUp B k).rank := by
    show (bdry (signCpx B) (k + 1)).rank = (bdry B (k + 1)).rank
    rw [signCpx_bdry, rank_smul_ne _ (sign_ne _), Matrix.rank_submatrix]
  have hc : Fintype.card (Fin (cdim (signCpx B) k)) = Fintype.card (Fin (cdim B k)) := by simp [signCpx_cdim]
  rw [r1, r2, hc] at e2
  unfold bettiNumber Homology cycles BATS.boundaries
  omega

end scaling

namespace Light
open Reduction SCpx CSC

/-- a simplicial complex with the same cells in the same order -/
theorem exists_mirror {cells : Cells} (hc : CellsOK cells) (N : Nat) : ∀ D, D ≤ N → ∃ X, Inv X (fun d => if d < D then cells d else []) ∧
    X.ncells.length = max 1 D := by
  intro D
  induction D with
  | zero =>
    intro _
    obtain ⟨h1, h2⟩ := init_inv 0
    exact ⟨_, by simpa using h1, by rw [h2]; rfl⟩
  | succ D ih =>
    intro hD
    obtain ⟨X, hX, hl⟩ := ih (by omega)
    have key : ∀ m, m ≤ (cells D).length → ∃ Y, Inv Y (fun d => if d < D then cells d else if d = D then (cells D).take m else []) ∧
        (Y.ncells.length = max 1 (D + 1) ∨ (m = 0 ∧ Y.ncells.length = max 1 D)) := by
      intro m
      induction m with
      | zero =>
        intro _
        refine ⟨X, ?_, Or.inr ⟨rfl, hl⟩⟩
        have : (fun d => if d < D then cells d else if d = D then (cells D).take 0 else []) = (fun d => if d < D then cells d else []) := by
          funext d; split
          · rfl
          · simp
        rw [this]; exact hX
      | succ m ihm =>
        intro hm
        obtain ⟨Y, hY, hYl⟩ := ihm (by omega)
        have hmem : (cells D)[m] ∈ cells D := List.getElem_mem _
        obtain ⟨Z, cells', r, a1, a2, a3, a4⟩ := addDirected_spec hY (hc.len D _ hmem)
        have hnot : (cells D)[m] ∉ (cells D).take m := by
          intro h
          obtain ⟨i, hi, e⟩ := List.mem_take_iff_getElem.1 h
          have := (hc.nodup D).getElem_inj_iff.1 e
          omega
        have hDD : (if D < D then cells D else if D = D then (cells D).take m else []) = (cells D).take m := by
          rw [if_neg (lt_irrefl D), if_pos rfl]
        have hfaces : FacesIn (fun d => if d < D then cells d else if d = D then (cells D).take m else []) D (cells D)[m] := by
          intro e he k hk
          subst he
          simp only
          rw [if_pos (by omega)]
          exact hc.closed e _ hmem k hk
        refine ⟨Z, ?_, Or.inl ?_⟩
        · rcases a4 with ⟨h1, _⟩ | ⟨h1, h2, h3, _⟩ | ⟨_, h2, _⟩
          · rw [hDD] at h1
            exact absurd h1 hnot
          · rw [h3] at a2
            convert a2 using 1
            funext d
            by_cases hd : d = D
            · subst hd
              rw [push_same, if_neg (lt_irrefl d), if_pos rfl, hDD]
              rw [List.take_add_one, List.getElem?_eq_getElem (by omega)]; rfl
            · rw [push_ne _ _ hd]; simp [hd]
          · exact absurd hfaces h2
        · rw [a3]; rcases hYl with h | ⟨_, h⟩ <;> rw [h] <;> omega
    obtain ⟨Y, hY, hYl⟩ := key _ le_rfl
    have hfun : (fun d => if d < D then cells d else if d = D then (cells D).take (cells D).length else []) =
        (fun d => if d < D + 1 then cells d else []) := by
      funext d
      by_cases h1 : d < D
      · rw [if_pos h1, if_pos (by omega)]
      · by_cases h2 : d = D
        · subst h2; rw [if_neg h1, if_pos rfl, if_pos (by omega), List.take_length]
        · rw [if_neg h1, if_neg h2, if_neg (by omega)]
    rw [hfun] at hY
    obtain ⟨g1, g2⟩ := reserve_spec hY D
    refine ⟨_, g1, ?_⟩
    rw [g2]; rcases hYl with h | ⟨_, h⟩ <;> rw [h] <;> omega

theorem mirror {cells : Cells} (hc : CellsOK cells) {k : Nat} (htop : ∀ d, k < d → cells d = []) : ∃ X, Inv X cells ∧ X.ncells.length = k + 1 := by
  obtain ⟨X, h1, h2⟩ := exists_mirror hc (k + 1) (k + 1) le_rfl
  refine ⟨X, ?_, by rw [h2]; omega⟩
  have : (fun d => if d < k + 1 then cells d else []) = cells := by
    funext d
    split
    · rfl
    · rw [htop d (by omega)]
  rwa [this] at h1

variable {F : Type} [Field F] [DecidableEq F] {L : Light} {cells : Cells}

/-- stored column of the `(d+1)`-simplex `s` -/
structure LColOK (cells : Cells) (d : Nat) (s : List Nat) (col : SVec F) : Prop where
  sorted : (col.map Prod.fst).Pairwise (· ≤ ·)
  perm : col.Perm ((List.range (d + 2)).map (fun k => ((cells d).idxOf (s.eraseIdx k), (-1 : F) ^ k)))

/-- the boundary matrix in dimension `d+1` -/
structure LBdMat (cells : Cells) (d : Nat) (M : CMat F) : Prop where
  nrow : M.nrow = (cells d).length
  ncol : M.cols.length = (cells (d + 1)).length
  col : ∀ (j : Nat) (s : List Nat), (cells (d + 1))[j]? = some s → ∃ c, M.cols[j]? = some c ∧ LColOK cells d s c

/-- the signed faces in the order of the iterator -/
def lfaces (cells : Cells) (d : Nat) (s : List Nat) : List (Nat × Int) :=
  (List.range (d + 2)).reverse.map (fun i => ((cells d).idxOf (s.eraseIdx i), (-1) ^ i))

theorem lookupFaces_spec (h : LInv L cells) {d : Nat} {s : List Nat} (hl : s.length = d + 2) (hr : ∀ x ∈ s, x < L.n) :
    ∀ is : List Nat, (∀ i ∈ is, i < d + 2 ∧ s.eraseIdx i ∈ cells d) →
    lookupFaces (((cells d).map (Nat.ofDigits L.n)).zipIdx) (is.map (fun i => (Nat.ofDigits L.n (s.eraseIdx i), (-1) ^ i))) =
      .ok (is.map (fun i => ((cells d).idxOf (s.eraseIdx i), (-1) ^ i))) := by
  intro is
  induction is with
  | nil => intro _; rfl
  | cons i is ih =>
    intro hi
    have h1 := hi i (by simp)
    rw [List.map_cons]
    unfold lookupFaces
    simp only
    rw [h.lookup (by rw [List.length_eraseIdx_of_lt (by omega), hl]; omega) (fun x hx => hr x (List.mem_of_mem_eraseIdx hx)), if_pos h1.2]
    simp only [pure_ok, bind_ok]
    rw [ih (fun j hj => hi j (by simp [hj])), bind_ok]
    rfl

/-- the faces of a stored simplex, looked up -/
theorem faces_found (h : LInv L cells) (stray : Nat) {d : Nat} {s : List Nat} (hs : s ∈ cells (d + 1)) (hf : ∀ k, k < d + 2 → s.eraseIdx k ∈ cells d) :
    ∃ fs, L.iterFaces stray (d + 1) (Nat.ofDigits L.n s) = .ok fs ∧
      lookupFaces (((cells d).map (Nat.ofDigits L.n)).zipIdx) fs = .ok (lfaces cells d s) := by
  have hk : d + 1 ≤ L.k := by
    by_contra hc
    rw [h.top _ (by omega)] at hs; simp at hs
  have hl := h.len _ s hs
  refine ⟨_, iterFaces_spec h.fits stray hl ⟨h.range _ s hs, by omega⟩, ?_⟩
  exact lookupFaces_spec h (by omega) (h.range _ s hs) _ (fun i hi => by
    rw [List.mem_reverse, List.mem_range] at hi
    exact ⟨hi, hf i hi⟩)

theorem cscLoop_spec (h : LInv L cells) (stray : Nat) {d : Nat} (hf : ∀ s ∈ cells (d + 1), ∀ k, k < d + 2 → s.eraseIdx k ∈ cells d) :
    ∀ l : List (List Nat), (∀ s ∈ l, s ∈ cells (d + 1)) →
    cscLoop L stray (d + 1) (((cells d).map (Nat.ofDigits L.n)).zipIdx) (l.map (Nat.ofDigits L.n)) = .ok (l.flatMap (lfaces cells d)) := by
  intro l
  induction l with
  | nil => intro _; rfl
  | cons s l ih =>
    intro hl
    obtain ⟨fs, g1, g2⟩ := faces_found h stray (hl s (by simp)) (hf s (hl s (by simp)))
    rw [List.map_cons]
    unfold cscLoop
    rw [g1, bind_ok, g2, bind_ok, ih (fun t ht => hl t (by simp [ht])), bind_ok]
    rfl

theorem boundaryCsc_spec (h : LInv L cells) (stray : Nat) {d : Nat} (hd : d + 1 ≤ L.k)
    (hf : ∀ s ∈ cells (d + 1), ∀ k, k < d + 2 → s.eraseIdx k ∈ cells d) :
    ∃ A M, L.boundaryCsc stray (d + 1) = .ok A ∧ A.toCMat = .ok M ∧ LBdMat (F := F) cells d M := by
  have hlf : ∀ s, (lfaces cells d s).length = d + 2 := by intro s; simp [lfaces]
  let bs : List (List Nat × List Int) := (cells (d + 1)).map (fun s => ((lfaces cells d s).map Prod.fst, (lfaces cells d s).map Prod.snd))
  have hbl : bs.length = (cells (d + 1)).length := by simp [bs]
  have hrows : ∀ l : List (List Nat), rows (l.map (fun s => ((lfaces cells d s).map Prod.fst, (lfaces cells d s).map Prod.snd))) =
      (l.flatMap (lfaces cells d)).map Prod.fst := by
    intro l
    induction l with
    | nil => rfl
    | cons s l ih =>
      rw [List.map_cons, List.flatMap_cons, List.map_append, ← ih]; rfl
  have hvals : ∀ l : List (List Nat), vals (l.map (fun s => ((lfaces cells d s).map Prod.fst, (lfaces cells d s).map Prod.snd))) =
      (l.flatMap (lfaces cells d)).map Prod.snd := by
    intro l
    induction l with
    | nil => rfl
    | cons s l ih =>
      rw [List.map_cons, List.flatMap_cons, List.map_append, ← ih]; rfl
  have hdel : Delimits ((List.range ((cells (d + 1)).length + 1)).map (· * (d + 2))) bs := by
    intro j hj
    rw [hbl] at hj
    rw [List.getElem?_map, List.getElem?_range (by omega)]
    simp only [Option.map_some, Option.some.injEq, bs]
    rw [← List.map_take, hrows, List.length_map, List.length_flatMap]
    simp only [hlf]
    rw [List.map_const', List.sum_replicate, List.length_take, Nat.min_eq_left hj]; simp
  obtain ⟨A, bs', g1, g2, g3, _⟩ := mk'_toCMat (F := F) (bs := bs) (cells d).length (by
    intro b hb
    simp only [bs, List.mem_map] at hb
    obtain ⟨s, _, rfl⟩ := hb
    simp) hdel
  refine ⟨A, _, ?_, g3, rfl, ?_, ?_⟩
  · unfold boundaryCsc numCells
    simp only [Nat.add_sub_cancel]
    rw [rd_some (h.keys d (by omega)), bind_ok, pure_ok, bind_ok, rd_some (h.keys (d + 1) hd), bind_ok, pure_ok, bind_ok, bind_ok,
      rd_some (h.idx d (by omega)), bind_ok, cscLoop_spec h stray hf _ (fun s hs => hs), bind_ok]
    rw [List.length_map, List.length_map, ← hrows, ← hvals, ← hbl]
    rw [hbl] at g1 ⊢
    exact g1
  · simp [← g2.length_eq, hbl]
  · intro j s hs
    have hj := (List.getElem?_eq_some_iff.1 hs).1
    have hj' : j < bs'.length := by rw [← g2.length_eq, hbl]; exact hj
    have hsb := List.Forall₂.get g2 (i := j) (by omega) hj'
    simp only [List.get_eq_getElem] at hsb
    have hbj : bs[j]'(by omega) = ((lfaces cells d s).map Prod.fst, (lfaces cells d s).map Prod.snd) := by
      simp only [bs, List.getElem_map, (List.getElem?_eq_some_iff.1 hs).2]
    rw [hbj] at hsb
    refine ⟨blockCol bs'[j], by simp [hj'], ?_, ?_⟩
    · unfold blockCol
      rw [List.map_map]
      have : ((bs'[j].1.zip bs'[j].2).map (Prod.fst ∘ fun p : Nat × Int => (p.1, (p.2 : F)))) = bs'[j].1 := by
        show (bs'[j].1.zip bs'[j].2).map Prod.fst = _
        exact List.map_fst_zip (by rw [hsb.lf, hsb.lc])
      rw [this]; exact hsb.sorted
    · unfold blockCol
      have := hsb.perm.map (fun p : Nat × Int => (p.1, (p.2 : F)))
      refine this.trans ?_
      rw [zip_map_fst_snd]
      unfold lfaces
      rw [List.map_map]
      refine (List.Perm.map _ (List.reverse_perm _)).trans (List.Perm.of_eq ?_)
      apply List.map_congr_left
      intro k _
      simp

theorem boundaries_spec (h : LInv L cells) (stray : Nat) (hc : ∀ d, ∀ s ∈ cells (d + 1), ∀ k, k < d + 2 → s.eraseIdx k ∈ cells d) : ∀ n d, d + n ≤ L.k →
    ∃ Ms, L.boundaries (F := F) stray n (d + 1) = .ok Ms ∧ Ms.length = n ∧ ∀ i, i < n → ∃ M, Ms[i]? = some M ∧ LBdMat cells (d + i) M := by
  intro n
  induction n with
  | zero => intro d _; exact ⟨[], rfl, rfl, by intro i hi; omega⟩
  | succ n ih =>
    intro d hd
    obtain ⟨A, M, g1, g2, g3⟩ := boundaryCsc_spec (F := F) h stray (d := d) (by omega) (hc d)
    obtain ⟨Ms, e1, e2, e3⟩ := ih (d + 1) (by omega)
    refine ⟨M :: Ms, ?_, by simp [e2], ?_⟩
    · unfold boundaries
      rw [g1, bind_ok, g2, bind_ok, e1]; rfl
    · intro i hi
      cases i with
      | zero => exact ⟨M, rfl, g3⟩
      | succ i =>
        obtain ⟨M', m1, m2⟩ := e3 i (by omega)
        exact ⟨M', by simpa using m1, by rw [show d + (i + 1) = d + 1 + i by omega]; exact m2⟩

/-- the chain complex of a closed light complex is, up to the signs, that of a simplicial complex with the same cells -/
theorem chainComplex_spec (h : LInv L cells) (stray : Nat) (hc : ∀ d, ∀ s ∈ cells (d + 1), ∀ k, k < d + 2 → s.eraseIdx k ∈ cells d) :
    ∃ B : List (CMat F), L.chainComplex stray = .ok B ∧ B.length = L.k + 1 ∧ B[0]? = some (CMat.zero 1 (cells 0).length) ∧
      (∀ d, d + 1 < L.k + 1 → ∃ M, B[d + 1]? = some M ∧ LBdMat cells d M) ∧
      (signCpx B)[0]? = some (CMat.zero 1 (cells 0).length) ∧ ∀ d, d + 1 < L.k + 1 → ∃ M, (signCpx B)[d + 1]? = some M ∧ BdMat cells d M := by
  obtain ⟨Ms, e1, e2, e3⟩ := boundaries_spec (F := F) h stray hc L.maxdim 0 (by unfold maxdim; omega)
  refine ⟨CMat.zero 1 (cells 0).length :: Ms, ?_, by simp [e2, maxdim], rfl, ?_, ?_, ?_⟩
  · unfold chainComplex numCells
    rw [rd_some (h.keys 0 (by omega)), bind_ok, pure_ok, bind_ok, e1, bind_ok, List.length_map]; rfl
  · intro d hd
    obtain ⟨M, m1, m2⟩ := e3 d (by unfold maxdim; omega)
    exact ⟨M, by simpa using m1, by rwa [Nat.zero_add] at m2⟩
  · simp [signCpx, CMat.zero]
  · intro d hd
    obtain ⟨M, m1, m2⟩ := e3 d (by unfold maxdim; omega)
    rw [Nat.zero_add] at m2
    refine ⟨⟨M.nrow, M.cols.map (fun c => c.map (fun e => (e.1, (-1 : F) ^ d * e.2)))⟩, ?_, m2.nrow, by simpa using m2.ncol, ?_⟩
    · unfold signCpx
      rw [List.getElem?_map, List.getElem?_zipIdx, List.getElem?_cons_succ, m1]
      simp
    · intro j s hs
      obtain ⟨c, c1, c2⟩ := m2.col j s hs
      refine ⟨c.map (fun e => (e.1, (-1 : F) ^ d * e.2)), by simp [c1], ?_, ?_⟩
      · rw [List.map_map]; exact c2.sorted
      · refine (c2.perm.map _).trans (List.Perm.of_eq ?_)
        rw [List.map_map]
        apply List.map_congr_left
        intro k _
        simp [pow_add]

end Light
end BATS
