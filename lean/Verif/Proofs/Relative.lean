import Verif.Proofs.RelativeLin
import Verif.Proofs.MatOps3
import Verif.Proofs.Reindex
import Verif.Props.Linalg
import Verif.Props.Sorted
import Verif.Model.Chain

set_option linter.unusedSectionVars false
set_option linter.unusedSimpArgs false
set_option linter.unusedVariables false

/-! # `is_valid_complex`, `subcomplex`, `relative_complex` -/

namespace BATS
open Reduction Matrix Module

variable {F : Type} [Field F] [DecidableEq F]

/-! ### is_valid_complex -/

theorem isValidComplex_spec : ∀ (B : List (CMat F)), B ≠ [] → ShapesOK B →
    ∃ b, Cpx.isValidComplex B = .ok b ∧ (b = true ↔ ∀ k, k + 1 < B.length → bdry B k * bdryUp B k = 0)
  | [], h, _ => absurd rfl h
  | [M], _, _ => ⟨true, rfl, by simp⟩
  | M :: M' :: Ms, _, hB => by
    have hM := hB 0 (by simp)
    have hM' := hB 1 (by simp)
    obtain ⟨P, hP, hPs, hPm⟩ := gemm_spec (A := M) (B := M') (m := rdim (M :: M' :: Ms) 0) (n := cdim (M :: M' :: Ms) 0)
      (l := cdim (M :: M' :: Ms) 1) hM hM'
    have hz := (C41_triangular hPs).2.2
    have hrow : M'.nrow = M.cols.length := hM'.nrow
    have hB' : ShapesOK (M' :: Ms) := by
      intro l hl
      have := hB (l + 1) (by simpa using hl)
      cases l with
      | zero =>
        refine ⟨this.ok, rfl, rfl⟩
      | succ l => exact this
    obtain ⟨b, hb, hiff⟩ := isValidComplex_spec (M' :: Ms) (by simp) hB'
    have hstep : (∀ k, k + 1 < (M :: M' :: Ms).length → bdry (M :: M' :: Ms) k * bdryUp (M :: M' :: Ms) k = 0) ↔
        P.isZero = true ∧ ∀ k, k + 1 < (M' :: Ms).length → bdry (M' :: Ms) k * bdryUp (M' :: Ms) k = 0 := by
      have key0 : bdry (M :: M' :: Ms) 0 * bdryUp (M :: M' :: Ms) 0 = 0 ↔ P.isZero = true := by
        rw [hz, hPm]; exact Iff.rfl
      have keyS : ∀ k, bdry (M :: M' :: Ms) (k + 1) * bdryUp (M :: M' :: Ms) (k + 1) = 0 ↔ bdry (M' :: Ms) k * bdryUp (M' :: Ms) k = 0 := by
        intro k
        cases k with
        | zero =>
          constructor
          · intro h
            ext i j
            have hi : i.val < M.cols.length := by rw [← hrow]; exact i.2
            exact congrFun (congrFun h ⟨i.val, hi⟩) j
          · intro h
            ext i j
            have hi : i.val < M'.nrow := by rw [hrow]; exact i.2
            exact congrFun (congrFun h ⟨i.val, hi⟩) j
        | succ k => exact Iff.rfl
      constructor
      · intro h
        exact ⟨key0.1 (h 0 (by simp)), fun k hk => (keyS k).1 (h (k + 1) (by simpa using hk))⟩
      · rintro ⟨h1, h2⟩ k hk
        cases k with
        | zero => exact key0.2 h1
        | succ k => exact (keyS k).2 (h2 k (by simpa using hk))
    rw [hstep]
    by_cases hp : P.isZero = true
    · refine ⟨b, ?_, by rw [hiff]; simp [hp]⟩
      rw [Cpx.isValidComplex, hP, bind_ok, if_pos hp]; exact hb
    · refine ⟨false, ?_, by simp [hp]⟩
      rw [Cpx.isValidComplex, hP, bind_ok, if_neg hp]; rfl

/-! ### selections -/

/-- `B'` is obtained from `B` by keeping, in each dimension `k`, the cells `sel k`; its boundary in dimension 0 is zero -/
structure SelectedBy (B B' : List (CMat F)) (sel : Nat → List Nat) : Prop where
  len : B'.length = B.length
  ne : 0 < B.length
  ok : ShapesOK B'
  zero : ZeroBdry0 B'
  cdim : ∀ k, cdim B' k = (sel k).length
  nodup : ∀ k, (sel k).Nodup
  lt : ∀ k, ∀ i ∈ sel k, i < BATS.cdim B k
  ent : ∀ k i j (hi : i < (sel k).length) (hj : j < (sel (k + 1)).length), ent B' (k + 1) i j = BATS.ent B (k + 1) (sel k)[i] (sel (k + 1))[j]

namespace SelectedBy
variable {B B' : List (CMat F)} {sel : Nat → List Nat}

/-- the selection as a map of indices -/
def idx (h : SelectedBy B B' sel) (k : Nat) (i : Fin (BATS.cdim B' k)) : Fin (BATS.cdim B k) :=
  ⟨(sel k)[i.val]'(by rw [← h.cdim]; exact i.2), h.lt k _ (List.getElem_mem _)⟩

theorem idx_inj (h : SelectedBy B B' sel) (k : Nat) : Function.Injective (h.idx k) := by
  intro a b e
  apply Fin.ext
  have e' : (sel k)[a.val]'(by rw [← h.cdim]; exact a.2) = (sel k)[b.val]'(by rw [← h.cdim]; exact b.2) := congrArg Fin.val e
  exact (h.nodup k).getElem_inj_iff.1 e'

theorem range_idx (h : SelectedBy B B' sel) (k : Nat) : Set.range (h.idx k) = {i | i.val ∈ sel k} := by
  ext i
  constructor
  · rintro ⟨a, rfl⟩; exact List.getElem_mem _
  · intro hi
    obtain ⟨a, ha, e⟩ := List.mem_iff_getElem.1 hi
    exact ⟨⟨a, by rw [h.cdim]; exact ha⟩, Fin.ext e⟩

theorem bdryUp_eq (h : SelectedBy B B' sel) (k : Nat) (i : Fin (BATS.cdim B' k)) (j : Fin (BATS.cdim B' (k + 1))) :
    bdryUp B' k i j = bdryUp B k (h.idx k i) (h.idx (k + 1) j) :=
  h.ent k i.val j.val (by rw [← h.cdim]; exact i.2) (by rw [← h.cdim]; exact j.2)

theorem bdry0 (h : SelectedBy B B' sel) : bdry B' 0 = 0 := by
  ext i j; exact ent_zero_bdry h.zero _ _

end SelectedBy

/-- a selection closed under taking boundaries -/
theorem SelectedBy.sub {B B' : List (CMat F)} {sel : Nat → List Nat} (h : SelectedBy B B' sel) (hB : IsChainComplex B) (h0 : ZeroBdry0 B)
    (hcl : ∀ (k : Nat) (i : Fin (BATS.cdim B k)) (j : Fin (BATS.cdim B (k + 1))), j.val ∈ sel (k + 1) → bdryUp B k i j ≠ 0 → i.val ∈ sel k) :
    IsChainComplex B' ∧ ∀ k, bettiNumber B' k = finrank F ((cycles B k ⊓ supported {i | i.val ∈ sel k} : Submodule F _) ⧸
      ((supported {i : Fin (BATS.cdim B (k + 1)) | i.val ∈ sel (k + 1)}).map (bdryUp B k).mulVecLin).submoduleOf
        (cycles B k ⊓ supported {i | i.val ∈ sel k})) := by
  -- chains of the selection go to chains of the selection
  have hmap : ∀ k, ∀ y ∈ supported (F := F) (Set.range (h.idx (k + 1))), bdryUp B k *ᵥ y ∈ supported (F := F) (Set.range (h.idx k)) ∧
      restr F (h.idx k) (bdryUp B k *ᵥ y) = bdryUp B' k *ᵥ restr F (h.idx (k + 1)) y := by
    intro k y hy
    refine ⟨?_, restr_mulVec (h.idx_inj (k + 1)) (h.bdryUp_eq k) (fun i j hj => by rw [hy j hj, mul_zero])⟩
    intro i hi
    show ∑ j, bdryUp B k i j * y j = 0
    apply Finset.sum_eq_zero
    intro j _
    by_cases hj : j ∈ Set.range (h.idx (k + 1))
    · have : bdryUp B k i j = 0 := by
        by_contra hne
        apply hi
        rw [h.range_idx] at hj ⊢
        exact hcl k i j hj hne
      rw [this, zero_mul]
    · rw [hy j hj, mul_zero]
  have hsq : ∀ k, bdry B' k * bdryUp B' k = 0 := by
    intro k
    cases k with
    | zero => rw [h.bdry0, Matrix.zero_mul]
    | succ k =>
      apply Matrix.ext_of_mulVec_single
      intro j
      rw [← mulVec_mulVec, zero_mulVec]
      obtain ⟨x, hx, e⟩ := exists_supported (h.idx_inj (k + 1 + 1)) (Pi.single j 1 : Fin (BATS.cdim B' (k + 1 + 1)) → F)
      have h1 := hmap (k + 1) x hx
      have h2 := hmap k _ h1.1
      rw [← e]
      show bdryUp B' k *ᵥ (bdryUp B' (k + 1) *ᵥ _) = 0
      rw [← h1.2, ← h2.2, mulVec_mulVec]
      have : bdryUp B k * bdryUp B (k + 1) = 0 := hB.sq' (k + 1)
      rw [this, zero_mulVec]; rfl
  refine ⟨⟨by intro e; have := h.len; have := h.ne; rw [e] at *; simp at *; omega, h.ok, fun k _ => hsq k⟩, ?_⟩
  intro k
  have key := finrank_sub (F := F) (h.idx_inj k) (h.idx_inj (k + 1)) (M := bdry B k) (M' := bdry B' k) (N := bdryUp B k) (N' := bdryUp B' k)
    (hB.sq' k) (hsq k) (by
      intro x hx
      cases k with
      | zero =>
        rw [h.bdry0, zero_mulVec]
        have : bdry B 0 = 0 := by ext i j; exact ent_zero_bdry h0 _ _
        rw [this, zero_mulVec]; simp
      | succ k =>
        have := hmap k x hx
        show bdryUp B k *ᵥ x = 0 ↔ bdryUp B' k *ᵥ _ = 0
        rw [← this.2]
        constructor
        · intro e; rw [e]; rfl
        · intro e
          funext i
          by_cases hi : i ∈ Set.range (h.idx k)
          · obtain ⟨a, rfl⟩ := hi; exact congrFun e a
          · exact this.1 i hi) (hmap k)
  rw [h.range_idx, h.range_idx] at key
  exact key.symm

/-- a selection whose complement is closed under taking boundaries -/
theorem SelectedBy.rel {B B' : List (CMat F)} {sel : Nat → List Nat} (h : SelectedBy B B' sel) (hB : IsChainComplex B) (h0 : ZeroBdry0 B)
    (hcl : ∀ (k : Nat) (i : Fin (BATS.cdim B k)) (j : Fin (BATS.cdim B (k + 1))), j.val ∉ sel (k + 1) → bdryUp B k i j ≠ 0 → i.val ∉ sel k)
    {inds : List (List Nat)} (hc : ∀ k, ∀ i : Fin (BATS.cdim B k), i.val ∈ sel k ↔ i.val ∉ inds.getD k []) :
    IsChainComplex B' ∧ ∀ k, bettiNumber B' k = finrank F (RelHomology B inds k) := by
  have hmap : ∀ k, ∀ y, restr F (h.idx k) (bdryUp B k *ᵥ y) = bdryUp B' k *ᵥ restr F (h.idx (k + 1)) y := by
    intro k y
    apply restr_mulVec (h.idx_inj (k + 1)) (h.bdryUp_eq k)
    intro i j hj
    have : bdryUp B k (h.idx k i) j = 0 := by
      by_contra hne
      rw [h.range_idx] at hj
      exact hcl k _ j hj hne (List.getElem_mem _)
    rw [this, zero_mul]
  have hsq : ∀ k, bdry B' k * bdryUp B' k = 0 := by
    intro k
    cases k with
    | zero => rw [h.bdry0, Matrix.zero_mul]
    | succ k =>
      apply Matrix.ext_of_mulVec_single
      intro j
      rw [← mulVec_mulVec, zero_mulVec]
      obtain ⟨x, e⟩ := restr_surj (h.idx_inj (k + 1 + 1)) (Pi.single j 1 : Fin (BATS.cdim B' (k + 1 + 1)) → F)
      rw [← e]
      show bdryUp B' k *ᵥ (bdryUp B' (k + 1) *ᵥ _) = 0
      rw [← hmap, ← hmap, mulVec_mulVec]
      have : bdryUp B k * bdryUp B (k + 1) = 0 := hB.sq' (k + 1)
      rw [this, zero_mulVec]; rfl
  refine ⟨⟨by intro e; have := h.len; have := h.ne; rw [e] at *; simp at *; omega, h.ok, fun k _ => hsq k⟩, ?_⟩
  have hlist : ∀ k, (Set.range (h.idx k))ᶜ = listed B inds k := by
    intro k
    rw [h.range_idx]
    ext i
    show ¬ (i.val ∈ sel k) ↔ i.val ∈ inds.getD k []
    rw [hc]; exact not_not
  intro k
  have key := finrank_rel (F := F) (h.idx_inj k) (h.idx_inj (k + 1)) (M' := bdry B' k) (N := bdryUp B k) (N' := bdryUp B' k)
    (hsq k) (Z := relCycles B inds k) (by
      intro x
      cases k with
      | zero =>
        rw [h.bdry0, zero_mulVec]
        have : bdry B 0 = 0 := by ext i j; exact ent_zero_bdry h0 _ _
        simp only [relCycles, cycles, this, LinearMap.mem_ker, mulVecLin_apply, zero_mulVec]
      | succ k =>
        show bdryUp B k *ᵥ x ∈ supported (listed B inds k) ↔ bdryUp B' k *ᵥ _ = 0
        rw [← hmap, ← hlist, ← ker_restr]; exact Iff.rfl) (hmap k)
  rw [hlist] at key
  exact key.symm

/-! ### the loops -/

/-- the common form of the two loops -/
def submats (prev : List Nat) : List (CMat F) → List (List Nat) → Res (List (CMat F))
  | [], _ => .ok []
  | _ :: _, [] => .error .ub
  | M :: Ms, s :: ss => do
    let N ← CMat.submatrix prev s M
    let Ns ← submats s Ms ss
    pure (N :: Ns)

theorem subcomplexFrom_eq : ∀ (Ms : List (CMat F)) (prev : List Nat) (inds : List (List Nat)),
    Cpx.subcomplexFrom prev Ms inds = submats prev Ms (inds.map (fun l => l.insertionSort (· ≤ ·)))
  | [], _, _ => by rw [Cpx.subcomplexFrom, submats]
  | _ :: _, _, [] => by rw [Cpx.subcomplexFrom]; rfl
  | M :: Ms, prev, ind :: inds => by
    rw [Cpx.subcomplexFrom, List.map_cons, submats]
    simp only [subcomplexFrom_eq Ms]

theorem relativeFrom_eq (cs : List (List Nat)) : ∀ (Ms : List (CMat F)) (prev : List Nat) (inds cs : List (List Nat)), inds.length = Ms.length →
    cs.length = Ms.length →
    (∀ k, k < Ms.length → Srt.sortedComplement ((inds.getD k []).insertionSort (· ≤ ·)) (Ms.getD k ⟨0, []⟩).cols.length = .ok (cs.getD k [])) →
    Cpx.relativeFrom prev Ms inds = submats prev Ms cs
  | [], _, _, _, _, _, _ => by rw [Cpx.relativeFrom, submats]
  | M :: Ms, prev, [], _, h, _, _ => by simp at h
  | M :: Ms, prev, ind :: inds, [], _, h, _ => by simp at h
  | M :: Ms, prev, ind :: inds, c :: cs, h1, h2, h => by
    have hc := h 0 (by simp)
    simp only [List.getD_cons_zero] at hc
    rw [Cpx.relativeFrom, submats, hc, bind_ok]
    rw [relativeFrom_eq cs Ms c inds cs (by simpa using h1) (by simpa using h2) (fun k hk => by
      have := h (k + 1) (by simpa using hk)
      simpa only [List.getD_cons_succ] using this)]

theorem submats_spec : ∀ (Ms : List (CMat F)) (prev : List Nat) (ss : List (List Nat)) (d0 : Nat), ss.length = Ms.length →
    prev.Nodup → (∀ i ∈ prev, i < d0) → (∀ k, (ss.getD k []).Nodup) → (∀ k, ∀ i ∈ ss.getD k [], i < (Ms.getD k ⟨0, []⟩).cols.length) →
    (∀ k, k < Ms.length → (Ms.getD k ⟨0, []⟩).Shape (if k = 0 then d0 else (Ms.getD (k - 1) ⟨0, []⟩).cols.length) (Ms.getD k ⟨0, []⟩).cols.length) →
    ∃ Ns, submats prev Ms ss = .ok Ns ∧ Ns.length = Ms.length ∧ ∀ k, k < Ms.length →
      (Ns.getD k ⟨0, []⟩).Shape (if k = 0 then prev else ss.getD (k - 1) []).length (ss.getD k []).length ∧
      ∀ i j (hi : i < (if k = 0 then prev else ss.getD (k - 1) []).length) (hj : j < (ss.getD k []).length),
        ent1 (Ns.getD k ⟨0, []⟩) i j = ent1 (Ms.getD k ⟨0, []⟩) (if k = 0 then prev else ss.getD (k - 1) [])[i] (ss.getD k [])[j]
  | [], prev, ss, d0, _, _, _, _, _, _ => ⟨[], by rw [submats], rfl, by intro k hk; simp at hk⟩
  | M :: Ms, prev, [], d0, h, _, _, _, _, _ => by simp at h
  | M :: Ms, prev, s :: ss, d0, hl, hp, hpl, hn, hlt, hsh => by
    have hM : M.Shape d0 M.cols.length := hsh 0 (by simp)
    have hs0 : s.Nodup := hn 0
    obtain ⟨N, n1, n2, n3⟩ := submatrix_spec hM hp hpl (cind := s) (hlt 0)
    obtain ⟨Ns, g1, g2, g3⟩ := submats_spec Ms s ss M.cols.length (by simpa using hl) hs0 (hlt 0) (fun k => hn (k + 1)) (fun k => hlt (k + 1)) (by
      intro k hk
      have := hsh (k + 1) (by simpa using hk)
      cases k with
      | zero => exact this
      | succ k => exact this)
    refine ⟨N :: Ns, by rw [submats, n1, bind_ok, g1]; rfl, by simp [g2], ?_⟩
    intro k hk
    cases k with
    | zero => exact ⟨n2, n3⟩
    | succ k =>
      have := g3 k (by simpa using hk)
      cases k with
      | zero => exact this
      | succ k => exact this

theorem selected_of_submats {M : CMat F} {Ms : List (CMat F)} (hB : ShapesOK (M :: Ms)) {s : List Nat} {ss : List (List Nat)}
    (hl : ss.length = Ms.length) (hn : ∀ k, ((s :: ss).getD k []).Nodup) (hlt : ∀ k, ∀ i ∈ (s :: ss).getD k [], i < cdim (M :: Ms) k)
    {n : Nat} (hnl : n = s.length) :
    ∃ Ns, submats s Ms ss = .ok Ns ∧ SelectedBy (M :: Ms) (CMat.zero 1 n :: Ns) (fun k => (s :: ss).getD k []) := by
  subst hnl
  obtain ⟨Ns, g1, g2, g3⟩ := submats_spec Ms s ss M.cols.length hl (hn 0) (hlt 0) (fun k => hn (k + 1)) (fun k => hlt (k + 1)) (by
    intro k hk
    have := hB (k + 1) (by simpa using hk)
    cases k with
    | zero => exact this
    | succ k => exact this)
  have hsel : ∀ k, (if k = 0 then s else ss.getD (k - 1) []) = (s :: ss).getD k [] := by
    intro k; cases k <;> rfl
  have hcd : ∀ k, cdim (CMat.zero 1 s.length :: Ns) k = ((s :: ss).getD k []).length := by
    intro k
    cases k with
    | zero => show (List.replicate s.length []).length = s.length; simp
    | succ k =>
      by_cases hk : k < Ms.length
      · exact (g3 k hk).1.ncol
      · rw [cdim_of_ge (by simp [g2]; omega), List.getD_cons_succ, List.getD_eq_getElem?_getD, List.getElem?_eq_none (by omega)]; rfl
  refine ⟨Ns, g1, ⟨by simp [g2], by simp, ?_, ?_, hcd, hn, hlt, ?_⟩⟩
  · intro l hl'
    cases l with
    | zero =>
      refine ⟨?_, rfl, rfl⟩
      intro c hc
      have : c = [] := List.eq_of_mem_replicate hc
      subst this
      exact ⟨⟨List.Pairwise.nil, by intro p hp; simp at hp⟩, by intro p hp; simp at hp⟩
    | succ l =>
      have hl'' : l < Ms.length := by simp [g2] at hl'; exact hl'
      have := (g3 l hl'').1
      show (Ns.getD l ⟨0, []⟩).Shape (cdim _ l) (cdim _ (l + 1))
      rw [hcd, hcd, ← hsel l]
      exact this
  · intro c hc
    exact List.eq_of_mem_replicate hc
  · intro k i j hi hj
    by_cases hk : k < Ms.length
    · have := (g3 k hk).2
      simp only [hsel] at this
      exact this i j hi hj
    · have : ((s :: ss).getD (k + 1) []).length = 0 := by
        rw [List.getD_cons_succ, List.getD_eq_getElem?_getD, List.getElem?_eq_none (by omega)]; rfl
      omega

/-! ### subcomplex -/

theorem sorted_nodup {l : List Nat} (h : l.Nodup) : (l.insertionSort (· ≤ ·)).Nodup := (List.perm_insertionSort _ l).nodup_iff.2 h

theorem getD_map_nil (f : List Nat → List Nat) (hf : f [] = []) (l : List (List Nat)) (k : Nat) : (l.map f).getD k [] = f (l.getD k []) := by
  rw [List.getD_eq_getElem?_getD, List.getElem?_map, List.getD_eq_getElem?_getD]
  cases l[k]? with
  | none => exact hf.symm
  | some x => rfl

theorem subcomplex_spec {B : List (CMat F)} (hB : IsChainComplex B) (h0 : ZeroBdry0 B) {inds : List (List Nat)} (hS : IsSubcomplex B inds) :
    ∃ B', Cpx.subcomplex B inds = .ok B' ∧ SelectedBy B B' (fun k => (inds.getD k []).insertionSort (· ≤ ·)) := by
  obtain ⟨M, Ms, rfl⟩ := List.exists_cons_of_ne_nil hB.ne
  cases inds with
  | nil => have := hS.len; simp at this
  | cons s ss =>
    have hmap : ∀ k, ((s.insertionSort (· ≤ ·)) :: ss.map (fun l => l.insertionSort (· ≤ ·))).getD k [] = (((s :: ss).getD k []).insertionSort (· ≤ ·)) :=
      fun k => getD_map_nil (fun l => l.insertionSort (· ≤ ·)) rfl (s :: ss) k
    obtain ⟨Ns, g1, g2⟩ := selected_of_submats hB.shape (s := s.insertionSort (· ≤ ·)) (ss := ss.map (fun l => l.insertionSort (· ≤ ·)))
      (by have := hS.len; simpa using this) (by intro k; rw [hmap]; exact sorted_nodup (hS.nodup k))
      (by intro k i hi; rw [hmap] at hi; exact hS.lt k i ((List.mem_insertionSort _).1 hi)) rfl
    refine ⟨CMat.zero 1 (s.insertionSort (· ≤ ·)).length :: Ns, ?_, ?_⟩
    · rw [Cpx.subcomplex]
      simp only [subcomplexFrom_eq, g1, bind_ok]
      rfl
    · have : (fun k => (s.insertionSort (· ≤ ·) :: ss.map (fun l => l.insertionSort (· ≤ ·))).getD k []) = fun k => ((s :: ss).getD k []).insertionSort (· ≤ ·) :=
        funext hmap
      rw [← this]
      exact g2

theorem relativeComplex_spec {B : List (CMat F)} (hB : IsChainComplex B) (h0 : ZeroBdry0 B) {inds : List (List Nat)} (hS : IsSubcomplex B inds) :
    ∃ B' sel, Cpx.relativeComplex B inds = .ok B' ∧ SelectedBy B B' sel ∧ (∀ k, (sel k).Pairwise (· < ·)) ∧
      ∀ k x, x ∈ sel k ↔ x < cdim B k ∧ x ∉ inds.getD k [] := by
  have hcomp : ∀ k, ∃ c, Srt.sortedComplement ((inds.getD k []).insertionSort (· ≤ ·)) (cdim B k) = .ok c ∧ c.Pairwise (· < ·) ∧
      ∀ x, x ∈ c ↔ x < cdim B k ∧ x ∉ inds.getD k [] := by
    intro k
    have hs : ((inds.getD k []).insertionSort (· ≤ ·)).Pairwise (· < ·) := by
      have h1 := List.pairwise_insertionSort (· ≤ ·) (inds.getD k [])
      have h2 := sorted_nodup (hS.nodup k)
      exact (h1.and h2).imp (fun h => Nat.lt_of_le_of_ne h.1 h.2)
    obtain ⟨r, h1, h2, h3⟩ := C27_sorted_complement hs (n := cdim B k) (fun x hx => hS.lt k x ((List.mem_insertionSort _).1 hx))
    exact ⟨r, h1, h2, by intro x; rw [h3, List.mem_insertionSort]⟩
  choose cf c1 c2 c3 using hcomp
  obtain ⟨M, Ms, rfl⟩ := List.exists_cons_of_ne_nil hB.ne
  cases inds with
  | nil => have := hS.len; simp at this
  | cons s ss =>
    have hlen : ss.length = Ms.length := by have := hS.len; simpa using this
    have hcs : ∀ k, (cf 0 :: (List.range Ms.length).map (fun k => cf (k + 1))).getD k [] = cf k := by
      intro k
      cases k with
      | zero => rfl
      | succ k =>
        rw [List.getD_cons_succ, List.getD_eq_getElem?_getD, List.getElem?_map]
        by_cases hk : k < Ms.length
        · rw [List.getElem?_range hk]; rfl
        · rw [List.getElem?_eq_none (by simpa using hk)]
          symm
          show cf (k + 1) = []
          rw [List.eq_nil_iff_forall_not_mem]
          intro x hx
          have := ((c3 (k + 1) x).1 hx).1
          rw [cdim_of_ge (by simp; omega)] at this
          omega
    have hnum : M.cols.length - s.length = (cf 0).length := by
      have hs := hS.nodup 0
      have e : (List.range M.cols.length).Perm (s ++ cf 0) := by
        rw [List.perm_ext_iff_of_nodup List.nodup_range]
        · intro x
          rw [List.mem_range, List.mem_append, c3]
          constructor
          · intro hx
            by_cases hxs : x ∈ s
            · exact Or.inl hxs
            · exact Or.inr ⟨hx, hxs⟩
          · rintro (hx | hx)
            · exact hS.lt 0 x hx
            · exact hx.1
        · rw [List.nodup_append]
          refine ⟨hs, (c2 0).imp (fun h => Nat.ne_of_lt h), ?_⟩
          intro a ha b hb hab
          subst hab
          exact ((c3 0 a).1 hb).2 ha
      have := e.length_eq
      rw [List.length_range, List.length_append] at this
      omega
    obtain ⟨Ns, g1, g2⟩ := selected_of_submats hB.shape (s := cf 0) (ss := (List.range Ms.length).map (fun k => cf (k + 1)))
      (by simp) (by intro k; rw [hcs]; exact (c2 k).imp (fun h => Nat.ne_of_lt h)) (by intro k i hi; rw [hcs] at hi; exact ((c3 k i).1 hi).1) hnum
    refine ⟨CMat.zero 1 (M.cols.length - s.length) :: Ns, cf, ?_, ?_, c2, c3⟩
    · rw [Cpx.relativeComplex]
      have e0 : Srt.sortedComplement (s.insertionSort (· ≤ ·)) M.cols.length = .ok (cf 0) := c1 0
      rw [e0, bind_ok, relativeFrom_eq [] Ms (cf 0) ss ((List.range Ms.length).map (fun k => cf (k + 1))) hlen (by simp), g1]
      · rfl
      · intro k hk
        have := hcs (k + 1)
        rw [List.getD_cons_succ] at this
        rw [this]
        exact c1 (k + 1)
    · have : (fun k => (cf 0 :: (List.range Ms.length).map (fun k => cf (k + 1))).getD k []) = cf := funext hcs
      rw [← this]
      exact g2

end BATS
