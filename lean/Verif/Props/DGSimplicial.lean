import Verif.Props.DG
import Verif.Props.SimplicialPersistence
import Verif.Props.SimplicialMap

set_option linter.unusedSectionVars false
set_option linter.unusedVariables false
set_option linter.unusedSimpArgs false

/-! # C57: DG vector spaces of simplicial complexes -/

namespace BATS
open Reduction Matrix DG SCpx Filt

variable {F : Type} [Field F] [DecidableEq F]

/-- the boundary of an edge has augmentation zero -/
theorem augmentable_simplicial {X : SCpx} {cells : Cells} {B : List (CMat F)} (h : Inv X cells) (h0 : B[0]? = some (CMat.zero 1 (cells 0).length)) (hl : B.length = X.ncells.length)
    (hb : ∀ d, d + 1 < X.ncells.length → ∃ M, B[d + 1]? = some M ∧ BdMat cells d M) : Augmentable B := by
  intro j
  have hc := cdim_eq h h0 hl hb
  have hj : (j : Nat) < (cells 1).length := by rw [← hc]; exact j.2
  obtain ⟨s, hs⟩ : ∃ s, (cells 1)[(j : Nat)]? = some s := ⟨_, List.getElem?_eq_getElem hj⟩
  have hsm := List.mem_of_getElem? hs
  have hup : ∀ m : Fin (cdim B 0), bdryUp B 0 m j = ∑ k ∈ Finset.range 2, if (cells 0).idxOf (s.eraseIdx k) = m then (-1 : F) ^ (0 + k) else 0 :=
    fun m => ent_eq h hb hs m
  simp only [hup]
  rw [Finset.sum_comm]
  have e1 : ∀ k ∈ Finset.range 2, (∑ m : Fin (cdim B 0), if (cells 0).idxOf (s.eraseIdx k) = (m : Nat) then (-1 : F) ^ (0 + k) else 0) = (-1 : F) ^ k := by
    intro k hk
    rw [Finset.mem_range] at hk
    have hm := h.ok.closed 0 s hsm k (by omega)
    have hlt : (cells 0).idxOf (s.eraseIdx k) < cdim B 0 := by rw [hc]; exact List.idxOf_lt_length_iff.2 hm
    rw [Finset.sum_eq_single (⟨_, hlt⟩ : Fin (cdim B 0))]
    · rw [if_pos rfl, Nat.zero_add]
    · intro b _ hb
      rw [if_neg (fun e => hb (Fin.ext e.symm))]
    · intro h; exact absurd (Finset.mem_univ _) h
  rw [Finset.sum_congr rfl e1]
  simp [Finset.sum_range_succ]

theorem zeroBdry_simplicial {n : Nat} {B : List (CMat F)} (h0 : B[0]? = some (CMat.zero 1 n)) : ZeroBdry0 B := by
  unfold ZeroBdry0
  rw [List.getD_eq_getElem?_getD, h0]
  intro c hc
  simp [CMat.zero] at hc
  exact hc.2

/-- C57, simplicial complexes: build a complex by any history of `add` / `add_recursive` calls with distinct vertices, form a DG
vector space of degree `-1` or `+1` over any field, with or without augmentation, and reduce it with any flags: all calls
succeed and `hdim(k)` is the `k`-th simplicial Betti number of the abstract complex `K` of the stored vertex sets, less one in
dimension 0 if the complex is augmented and nonempty. -/
theorem C57_simplicial (v : DGVariant) (co b : Bool) (m : Nat) (ops : List Op) (ho : ∀ o ∈ ops, PlainOp o) (K : Finset (Finset Nat))
    (hK : ∀ σ : Finset Nat, σ ∈ K ↔ σ.sort (· ≤ ·) ∈ specRun ops) :
    ∃ (X : SCpx) (B : List (CMat F)) (C : DGVS F) (R : RedDG F), (SCpx.init m).run ops = .ok X ∧ X.chainComplex = .ok B ∧
      DGVS.ofComplex (if co then 1 else -1) b B = .ok C ∧ v.reduce C = .ok R ∧
      ∀ k, k ≤ X.maxdim → ∃ n, R.hdim k = .ok n ∧ simplicialBetti F K k = n + (if b = true ∧ k = 0 ∧ K.Nonempty then 1 else 0) := by
  obtain ⟨X, cells, h1, h2, _, h4⟩ := run_set ops (init_inv m).1 (fun o h => (ho o h).ne)
  have he : SCpx.setOf (fun _ => []) = ∅ := by
    ext s; simp [SCpx.setOf]
  rw [he] at h4
  obtain ⟨B, b1, b2, b3, b4⟩ := chainComplex_spec (F := F) h2
  have hsort : ∀ d s, s ∈ cells d → s.Pairwise (· < ·) := by
    intro d s hs
    have hm := (mem_setOf (h2.ok.len d s hs)).2 hs
    rw [h4] at hm
    exact specRun_sorted ops ∅ ho (by intro s hs; exact hs.elim) s hm
  have hv : VertexSets cells K := ⟨hsort, by intro σ; rw [hK, h4]; rfl⟩
  have hC := isChainComplex_of h2 (fun d s hs => (hsort d s hs).imp (fun h => ne_of_lt h)) b3 b2 b4
  have ha := augmentable_simplicial h2 b3 b2 b4
  have hz := zeroBdry_simplicial b3
  obtain ⟨C, R, c1, c2, c3⟩ := dg_hdim v co b hC (fun _ => ha)
  refine ⟨X, B, C, R, h1, b1, c1, c2, fun k hk => ?_⟩
  have hne := h2.sizes.ne
  obtain ⟨n, n1, n2⟩ := c3 k (by unfold maxdim at hk; omega)
  refine ⟨n, n1, ?_⟩
  have hf := finrank_hom hC hz k
  have hbet : Module.finrank F (Homology B k) = simplicialBetti F K k := betti_simplicial h2 hv b3 b2 b4 k
  rw [hbet] at hf
  cases b with
  | false =>
    rw [if_neg (by simp)]
    have : aug false = 0 := rfl
    rw [this] at n2
    omega
  | true =>
    have : aug true = 1 := rfl
    rw [this] at n2
    cases k with
    | succ k =>
      have e0 : rank0 0 B (k + 1) = rank0 1 B (k + 1) := rfl
      rw [if_neg (by simp)]; omega
    | zero =>
      have e0 : rank0 0 B 0 = 0 := rfl
      have e1 : rank0 1 B 0 = (augMat B).rank := rfl
      have hcd := cdim_eq h2 b3 b2 b4
      have hKne : K.Nonempty ↔ 0 < cdim B 0 := by
        rw [hcd, List.length_pos_iff_exists_mem]
        constructor
        · rintro ⟨σ, hσ⟩
          obtain ⟨hne', hmem⟩ := (hv.mem σ).1 hσ
          obtain ⟨x, xs, hx⟩ := List.exists_cons_of_ne_nil hne'
          refine ⟨[x], ?_⟩
          have := h2.ok.sublist _ _ _ [x] hmem (by rw [hx]; simp) (by simp) rfl
          simpa using this
        · rintro ⟨s, hs⟩
          have hp := hsort 0 s hs
          have hsf : s.toFinset.sort (· ≤ ·) = s := by
            apply List.toFinset_sort (· ≤ ·) (hp.imp (fun h => ne_of_lt h)) |>.2
            exact hp.imp (fun h => le_of_lt h)
          refine ⟨s.toFinset, (hv.mem _).2 ?_⟩
          rw [hsf]
          exact (mem_setOf (h2.ok.len 0 s hs)).2 hs
      by_cases hp : K.Nonempty
      · rw [if_pos ⟨rfl, rfl, hp⟩]
        rw [e1, rank_augMat (hKne.1 hp)] at n2
        rw [e0] at hf
        omega
      · rw [if_neg (fun h => hp h.2.2)]
        have hc0 : cdim B 0 = 0 := by
          by_contra hc
          exact hp (hKne.2 (by omega))
        omega

example : (∀ o ∈ triOps, PlainOp o) ∧
    (((SCpx.init 1).run triOps).bind fun X => (X.chainComplex (F := ℚ)).bind fun B => (DGVS.ofComplex 1 true B).bind fun C => (RedDG.mkClearing C).bind fun R => R.hdim 1) = .ok 1 := by
  refine ⟨?_, by decide +kernel⟩
  intro o ho
  simp only [triOps, List.mem_cons, List.not_mem_nil, or_false] at ho
  rcases ho with rfl | rfl | rfl <;> simp [PlainOp]

variable {T : Type} [LinearOrder T] [Zero T]

/-- C58, simplicial filtrations: build a filtration by any history of calls with distinct vertices and monotone values and compute
its persistence through a DG vector space of degree `-1` or `+1` with any flags: for all `s ≤ t` the number of bars born by
`s` and alive after `t` is the rank of the map induced in simplicial homology by the inclusion of sublevel complexes. -/
theorem C58_simplicial (v : DGVariant) (co : Bool) {Φ Ψ : Filt T} (hΦ : NewFilt Φ) (ops : List (Filt.Op T)) (ho : ∀ o ∈ ops, PlainFiltOp o)
    {w : List Nat → Option T} (hw : Filt.specRun (fun _ => none) ops = some w) (hm : Filt.Monotone w)
    (hrun : Φ.run ops = .ok Ψ) (h1 : 1 ≤ Ψ.X.maxdim)
    (K : T → Finset (Finset Nat)) (hK : ∀ a σ, σ ∈ K a ↔ ∃ x, w (σ.sort (· ≤ ·)) = some x ∧ x ≤ a) :
    ∃ (B : List (CMat F)) (R : RedFiltDG T F) (hasc : ∀ a, IsASC (K a)) (hsub : ∀ s t, s ≤ t → K s ⊆ K t),
      Ψ.X.chainComplex = .ok B ∧ RedFiltDG.ofFiltration v.reduce (if co then 1 else -1) false Ψ.val B = .ok R ∧
      ∀ k, k ≤ Ψ.X.maxdim → ∃ ps, R.persistencePairs k = .ok ps ∧
        ∀ (s t : T) (hst : s ≤ t),
          ps.countP (fun q => decide (q.birth ≤ s) && (match q.death with | none => true | some d => decide (t < d))) =
            Module.finrank F (LinearMap.range (simpInclusion F (hasc s) (hasc t) (hsub s t hst) k)) := by
  obtain ⟨hrI, _⟩ := run_inv ops hΦ.inv (fun o h => (ho o h).ne)
  obtain ⟨Ψ', cells, e1, hF, _⟩ := hrI w hw
  rw [hrun] at e1; cases e1
  have hsort : ∀ d s, s ∈ cells d → s.Pairwise (· < ·) := by
    intro d s hs
    have hmem := (mem_setOf (hF.inv.ok.len d s hs)).2 hs
    exact specRun_dom_strict ops _ w ho (by intro s h; exact absurd rfl h) hw s ((hF.dom s).2 hmem)
  obtain ⟨B0, R0, hasc, hsub, c1, c2, c3⟩ := persistence_core (F := F) .standard hF hsort hm h1 K hK
  obtain ⟨B, b1, b2, b3, b4⟩ := chainComplex_spec (F := F) hF.inv
  have hBB : B = B0 := by rw [b1] at c1; injection c1
  subst hBB
  have hC := isChainComplex_of hF.inv (fun d s hs => (hsort d s hs).imp (fun h => ne_of_lt h)) b3 b2 b4
  have hc := cdim_eq hF.inv b3 b2 b4
  have hne := hF.inv.sizes.ne
  have hmd : Ψ.X.maxdim + 1 = Ψ.X.ncells.length := by unfold SCpx.maxdim; omega
  have hz := zeroBdry_simplicial b3
  have hvals : ValuesFor B Ψ.val := by
    refine ⟨?_, ?_⟩
    · rcases hF.len with h | ⟨_, h, _⟩
      · omega
      · omega
    · intro k _
      rw [hF.rowLen, hc]
  obtain ⟨X, R', x1, x2, x3⟩ := C58_pairs v .standard co false hC (by omega) hz (by simp) hvals
  rw [c2] at x2; cases x2
  refine ⟨B, X, hasc, hsub, b1, x1, fun k hk => ?_⟩
  obtain ⟨ps, qs, p1, p2, p3, _⟩ := x3 k (by omega)
  obtain ⟨ps', q1, q2⟩ := c3 k hk
  rw [p1] at q1; cases q1
  refine ⟨qs, p2, fun s t hst => ?_⟩
  rw [← q2 s t hst, p3 (by simp)]
  cases co with
  | false => rfl
  | true => simp only [if_true]; rw [List.countP_reverse]; rfl

end BATS
