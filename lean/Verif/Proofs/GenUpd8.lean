import Verif.Proofs.GenUpd7
import Verif.Props.DGSimplicial

set_option linter.unusedSectionVars false
set_option linter.unusedVariables false
set_option linter.unusedSimpArgs false

/-! # Histories of general updates -/

namespace BATS.GenUpd
open Reduction Matrix DG SCpx UpdInfo

variable {F : Type} [Field F] [DecidableEq F] {T : Type} [LinearOrder T]

theorem rd_set_ne {α : Type} {l : List α} {k N : Nat} (h : k ≠ N) (x : α) : rd (l.set N x) k = rd l k := by
  unfold rd; rw [List.getElem?_set_ne (fun e => h e.symm)]

theorem pairsLoop_congr {f g : Nat → SVec F → Res (Option (PPair T))} (h : ∀ i c, f i c = g i c) : ∀ (cs : List (SVec F)) i, RedFiltDG.pairsLoop f i cs = RedFiltDG.pairsLoop g i cs
  | [], _ => rfl
  | c :: cs, i => by
    rw [RedFiltDG.pairsLoop, RedFiltDG.pairsLoop, h, pairsLoop_congr h cs]

/-- the queries do not look at what goes stale -/
theorem stale_pairs {N m a : Nat} {Y : RedDG F} (hd : Y.degree = -1) (hR : Y.R.length = N + 1) (val : List (List T)) (perm : List (List Nat)) {k : Nat} (hk : k < N) :
    (⟨stale N m a Y, val, perm⟩ : RedFiltDG T F).persistencePairs k = (⟨Y, val, perm⟩ : RedFiltDG T F).persistencePairs k := by
  unfold RedFiltDG.persistencePairs
  have h1 : (stale N m a Y).degree = -1 := hd
  simp only [h1, hd, if_true]
  have h2 : rd (stale N m a Y).R k = rd Y.R k := rd_set_ne (by omega) _
  rw [h2]
  apply bind_congr
  intro r
  apply pairsLoop_congr
  intro i c
  unfold RedFiltDG.pairAtHom
  have hm : (stale N m a Y).maxdim = Y.maxdim := by unfold RedDG.maxdim stale; simp
  by_cases hc : c.length ≠ 0
  · rw [if_pos hc, if_pos hc]
  · rw [if_neg hc, if_neg hc]
    show (if k = (stale N m a Y).maxdim then _ else _) = _
    rw [hm]
    by_cases hkm : k = Y.maxdim
    · rw [if_pos hkm, if_pos hkm]; rfl
    · rw [if_neg hkm, if_neg hkm]
      have hk1 : k + 1 ≠ N := by
        intro e; apply hkm; unfold RedDG.maxdim; omega
      have h3 : rd (stale N m a Y).p2c (k + 1) = rd Y.p2c (k + 1) := rd_set_ne hk1 _
      show (do let tab ← rd (stale N m a Y).p2c (k + 1); _) = _
      rw [h3]; rfl

/-- a fresh state is its own repair -/
theorem stale_self {e N : Nat} {d : Nat → Nat} {D : List (CMat F)} {Y : RedDG F} (hN : 1 ≤ N) (hd : d N = 0) (h : DGTab false e N d D Y) : ∃ a, stale N (d (N - 1)) a Y = Y := by
  have hl := h.lev N (le_refl _)
  have hdr : dr false e d N = d (N - 1) := by
    obtain ⟨n, rfl⟩ : ∃ n, N = n + 1 := ⟨N - 1, by omega⟩
    rfl
  have hdc : dc false e d N = 0 := hd
  rw [hdr, hdc] at hl
  refine ⟨(Y.R.getD N ⟨0, []⟩).nrow, ?_⟩
  have hRl : N < Y.R.length := by rw [h.lenR]; omega
  have hPl : N < Y.p2c.length := by rw [h.lenP]; omega
  have eR : Y.R.getD N ⟨0, []⟩ = Y.R[N] := by rw [List.getD_eq_getElem?_getD, List.getElem?_eq_getElem hRl]; rfl
  have eP : Y.p2c.getD N [] = Y.p2c[N] := by rw [List.getD_eq_getElem?_getD, List.getElem?_eq_getElem hPl]; rfl
  have hc : (Y.R.getD N ⟨0, []⟩).cols = [] := List.length_eq_zero_iff.1 hl.shapeR.ncol
  have hp : Y.p2c.getD N [] = List.replicate (d (N - 1)) none := by
    apply List.eq_replicate_iff.2
    refine ⟨hl.table.len, ?_⟩
    intro x hx
    cases x with
    | none => rfl
    | some j =>
      obtain ⟨i, hi, e⟩ := List.getElem_of_mem hx
      have := hl.table.bound i j (by rw [List.getElem?_eq_getElem hi, e])
      omega
  unfold stale
  have h1 : Y.R.set N ⟨(Y.R.getD N ⟨0, []⟩).nrow, []⟩ = Y.R := by
    have : (⟨(Y.R.getD N ⟨0, []⟩).nrow, []⟩ : CMat F) = Y.R[N] := by
      rw [← eR]
      generalize Y.R.getD N ⟨0, []⟩ = M at hc ⊢
      cases M; simp only at hc; rw [hc]
    rw [this, List.set_getElem_self]
  have h2 : Y.p2c.set N (List.replicate (d (N - 1)) none) = Y.p2c := by rw [← hp, eP, List.set_getElem_self]
  rw [h1, h2]

/-- the state after a history of general updates, ending with the filtration `Φ` -/
structure GState (b : Bool) (N m : Nat) (Φ : Filt T) (cells : Cells) (B : List (CMat F)) (X : RedFiltDG T F) : Prop where
  ex : ∃ D Y a, X = ⟨stale N m a Y, Φ.val, FiltCpx.filtrationSortperm Φ.val⟩ ∧ DGFull false b B Φ.val D ⟨Y, Φ.val, FiltCpx.filtrationSortperm Φ.val⟩

/-- a filtration over a simplicial complex with its chain complex -/
structure SFilt (Φ : Filt T) (cells : Cells) (N : Nat) (B : List (CMat F)) : Prop where
  side : Side Φ cells N
  two : 2 ≤ N
  nodup : ∀ d s, s ∈ cells d → s.Nodup
  zero : B[0]? = some (CMat.zero 1 (cells 0).length)
  len : B.length = Φ.X.ncells.length
  bd : ∀ d, d + 1 < Φ.X.ncells.length → ∃ M, B[d + 1]? = some M ∧ BdMat cells d M

namespace SFilt
variable {Φ Ψ : Filt T} {cells cells' : Cells} {N : Nat} {B B' : List (CMat F)}

theorem cdim (h : SFilt Φ cells N B) (k : Nat) : BATS.cdim B k = (cells k).length := cdim_eq h.side.inv h.zero h.len h.bd k
theorem complex (h : SFilt Φ cells N B) : IsChainComplex B := isChainComplex_of h.side.inv h.nodup h.zero h.len h.bd
theorem aug (h : SFilt Φ cells N B) : Augmentable B := augmentable_simplicial h.side.inv h.zero h.len h.bd
theorem values (h : SFilt Φ cells N B) : ValuesFor B Φ.val :=
  ⟨by rw [h.side.len, h.len, h.side.num], fun k _ => by rw [h.side.row, h.cdim]⟩
theorem blen (h : SFilt Φ cells N B) : B.length = N := by rw [h.len, h.side.num]

theorem cx (h : SFilt Φ cells N B) {b : Bool} {D : List (CMat F)}
    (hs : DGSorted false (DG.aug b) B (fun k i => ((FiltDG.sortPerms (deg false) Φ.val).getD k []).getD i 0) D) : Cx Φ cells N B (DG.aug b) D :=
  ⟨h.side, h.blen, h.cdim, by have := h.bd; rw [h.side.num] at this; exact this, hs⟩

/-- one general update -/
theorem update {b : Bool} {m : Nat} (h1 : SFilt Φ cells N B) (h2 : SFilt Ψ cells' N B') (h0 : ∀ s ∈ cells' 0, s ∈ cells 0) (hm : (cells' (N - 1)).length ≤ m) {X : RedFiltDG T F}
    (hX : GState b N m Φ cells B X) : ∃ u X', UpdInfo.ofFilt Φ Ψ = .ok u ∧ X.updateBasis u = .ok X' ∧ GState b N m Ψ cells' B' X' := by
  obtain ⟨D1, Y, a, rfl, hF⟩ := hX.ex
  obtain ⟨D2, f1, f2⟩ := filtDG_spec false b h2.complex h2.values
  have hc1 := h1.cx hF.state.sorted
  have hc2 := h2.cx f2
  obtain ⟨u, u1, u2, u3, u4, u5, u6⟩ := valid_ofFilt hc1 hc2 h2.nodup h0
  have hN := h1.two
  have hσ := sigOK_sortPerms false h2.values
  have haug : AugOK (DG.aug b) B' := aug_ok (fun _ => h2.aug)
  have hbas := hF.basis
  rw [h1.blen] at hbas
  have sh1 := hF.state.sorted.sh
  rw [h1.blen] at sh1
  have sh2 := f2.sh
  rw [h2.blen] at sh2
  obtain ⟨Y', y1, y2⟩ := updateBasis_spec (T := T) (m := m) (a := a) hN (by rw [h1.cdim, h1.side.inv.top _ (by rw [h1.side.num])]; rfl)
    (by rw [h2.cdim, h2.side.inv.top _ (by rw [h2.side.num])]; rfl) hbas sh1 sh2 (by
      intro l hl
      exact f2.sq h2.complex haug hσ l) u4 u5 u6 (by rw [h2.cdim]; exact hm)
  refine ⟨u, ⟨stale N m a Y', Ψ.val, FiltCpx.filtrationSortperm Ψ.val⟩, u1, ?_, ⟨D2, Y', a, rfl, ⟨⟨f2, ?_, rfl, (sortPerms_false _).symm⟩, ?_, f1⟩⟩⟩
  · unfold RedFiltDG.updateBasis
    have hdeg : (stale N m a Y).degree = -1 := hbas.tab.deg
    have hne : ¬ (stale N m a Y).degree = 1 := by rw [hdeg]; decide
    simp only [hne, if_false, y1, bind_ok, u2, u3]
    rfl
  · have := y2.tab; rw [← h2.blen] at this; exact this
  · rw [← h2.blen] at y2; exact y2

end SFilt

/-- a state after general updates answers like a reduction from scratch -/
theorem GState.queries {b : Bool} {N m : Nat} {Φ : Filt T} {cells : Cells} {B : List (CMat F)} (h : SFilt Φ cells N B) {X : RedFiltDG T F} (hX : GState b N m Φ cells B X)
    (w : DGVariant) : ∃ Z, RedFiltDG.ofFiltration w.reduce (-1) b Φ.val B = .ok Z ∧ X.val = Z.val ∧ X.perm = Z.perm ∧
      ∀ k, k < N → X.RC.hdim k = Z.RC.hdim k ∧ ∃ ps, X.persistencePairs k = .ok ps ∧ Z.persistencePairs k = .ok ps := by
  obtain ⟨D, Y, a, rfl, hF⟩ := hX.ex
  have hB := h.complex
  have hz := zeroBdry_simplicial h.zero
  have haug : AugOK (DG.aug b) B := aug_ok (fun _ => h.aug)
  obtain ⟨E, Z, z1, z2, _⟩ := dg_state w false b hB (fun _ => h.aug) h.values
  refine ⟨Z, z1, by rw [z2.valEq], by rw [z2.perm, sortPerms_false], fun k hk => ⟨?_, ?_⟩⟩
  · have hσ := sigOK_sortPerms false h.values
    have he : DG.aug b = 0 ∨ DG.aug b = 1 := by cases b <;> simp [DG.aug]
    have hk' : k < B.length := by rw [h.blen]; exact hk
    obtain ⟨n, n1, n2⟩ := hF.state.tab.hdim hF.state.sorted.sh (fun l _ => hF.state.sorted.sq hB haug hσ l) hk'
    obtain ⟨m', m1, m2⟩ := z2.tab.hdim z2.sorted.sh (fun l _ => z2.sorted.sq hB haug hσ l) hk'
    rw [hF.state.sorted.rank_up hσ, hF.state.sorted.rank_fac he hσ] at n2
    rw [z2.sorted.rank_up hσ, z2.sorted.rank_fac he hσ] at m2
    have e1 : (stale N m a Y).hdim k = Y.hdim k := rfl
    show (stale N m a Y).hdim k = _
    rw [e1, m1]
    have n1' : Y.hdim k = .ok n := n1
    rw [n1']; congr 1; omega
  · have hk' : k < B.length := by rw [h.blen]; exact hk
    obtain ⟨C, R, hR, hp, _, _⟩ := pipeline .standard hB (by rw [h.blen]; exact h.two) hz h.values
    obtain ⟨ps, p1, p2, _⟩ := dg_pairs hB hz (fun _ => h.aug) h.values hF.state hp hk'
    obtain ⟨ps', q1, q2, _⟩ := dg_pairs hB hz (fun _ => h.aug) h.values z2 hp hk'
    rw [p1] at q1
    cases q1
    refine ⟨_, ?_, q2⟩
    have hlen : Y.R.length = N + 1 := by have := hF.basis.tab.lenR; rw [h.blen] at this; exact this
    rw [stale_pairs (by exact hF.basis.tab.deg) hlen _ _ hk]
    exact p2

end BATS.GenUpd
