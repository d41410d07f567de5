import Verif.Proofs.RepsAt
import Verif.Props.Update

set_option linter.unusedSectionVars false
set_option linter.unusedVariables false
set_option linter.unusedSimpArgs false

/-!
# C50: representatives of bars

`R.representative q false` is `representative(p)` with its default arguments, for a pair obtained from `persistence_pairs(k)`.
-/

namespace BATS
open Reduction Matrix

variable {F : Type} [Field F] [DecidableEq F] {T : Type} [LinearOrder T]

/-- the bar `q` is alive at `t`: born at or before `t`, and dying after `t` or never -/
def aliveAt (t : T) (q : PPair T) : Bool :=
  decide (q.birth ≤ t) && (match q.death with | none => true | some d => decide (t < d))

/-- what the representatives of the bars of dimension `k` reported by `R` satisfy -/
structure RepsOK (B : List (CMat F)) (val : List (List T)) (R : RedFiltCpx T F) (k : Nat) (ps : List (PPair T)) (rep : PPair T → SVec F) : Prop where
  /-- `representative` returns normally -/
  ok : ∀ q ∈ ps, R.representative q false = .ok (rep q)
  /-- a well-formed vector whose entries refer to existing cells -/
  wf : ∀ q ∈ ps, VecOK (rep q) ∧ Below (cdim B k) (rep q)
  /-- a cycle supported on cells of value at most the birth -/
  cyc : ∀ q ∈ ps, vecOf (cdim B k) (rep q) ∈ cyclesAt B val k q.birth
  /-- containing the birth cell -/
  birth : ∀ q ∈ ps, coef (rep q) q.birthInd ≠ 0
  /-- not a boundary while the bar is alive -/
  alive : ∀ q ∈ ps, ∀ t, aliveAt t q = true → vecOf (cdim B k) (rep q) ∉ boundariesAt B val k t
  /-- the representatives of the bars alive at `t` are a basis of the homology of the sublevel complex at `t` -/
  basis : ∀ t, ∀ z ∈ cyclesAt B val k t, ∃! c : Fin (ps.filter (aliveAt t)).length → F,
    z - ∑ g, c g • vecOf (cdim B k) (rep ((ps.filter (aliveAt t)).get g)) ∈ boundariesAt B val k t

theorem reps_ok {B : List (CMat F)} (hB : IsChainComplex B) {val : List (List T)} {C : List (CMat F)} {R : RedFiltCpx T F}
    (hp : PipeOK B val C R) (hb : CompBasisOK C R.RC) {k : Nat} (hk : k < B.length) :
    ∃ ps rep, R.persistencePairs k false = .ok ps ∧ RepsOK B val R k ps rep := by
  classical
  have hC := hp.reidx.complex hB
  have hlen := hp.reidx.same.len
  obtain ⟨ps, h1, hbars⟩ := hp.filt.bars hC false (k := k) (by omega)
  choose pos hpos hbar using hbars.mem
  have hrep := fun q hq => representative_spec hp hb hk (pos q hq) (hpos q hq) (hbar q hq)
  choose! rep r1 r2 r3 r4 r5 using hrep
  have halive : ∀ q (hq : q ∈ ps), ∀ t, aliveAt t q = true →
      pos q hq ∈ hp.reidx.eqv k ⁻¹' sublevel B val k t ∧ ∀ j ∈ hp.reidx.eqv (k + 1) ⁻¹' sublevel B val (k + 1) t, ¬ IsPivot (bdryUp C k) (pos q hq) j := by
    intro q hq t ha
    obtain ⟨_, _, hbv, hd⟩ := hbar q hq
    rw [hp.valEq] at hbv hd
    unfold aliveAt at ha
    simp only [Bool.and_eq_true, decide_eq_true_eq] at ha
    refine ⟨⟨_, hbv, ha.1⟩, ?_⟩
    rcases hd with ⟨hn, _, hd⟩ | ⟨j, d, hpv, _, hdv, hd⟩
    · intro j _; exact hn j
    · have ha2 := ha.2
      rw [hd] at ha2
      simp only [decide_eq_true_eq] at ha2
      intro j' hj' hpv'
      have := hpv.col_unique hpv'
      subst this
      obtain ⟨w, hw, hle⟩ := hj'
      have e := hdv.symm.trans hw
      cases e
      exact absurd ha2 (not_lt.2 hle)
  have hsup : ∀ q ∈ ps, ∀ t, q.birth ≤ t → vecOf (cdim B k) (rep q) ∈ cyclesAt B val k t := by
    intro q hq t ht
    obtain ⟨_, _, hbv, _⟩ := hbar q hq
    rw [hp.valEq] at hbv
    refine ⟨?_, ?_⟩
    · unfold cycles; rw [SetLike.mem_coe, LinearMap.mem_ker, mulVecLin_apply]; exact r5 q hq
    · rw [SetLike.mem_coe, ← hp.reidx.mem_supported]
      exact supported_of_vlow (hp.lower k t) (r4 q hq) ⟨_, hbv, ht⟩
  refine ⟨ps, rep, h1, r1, fun q hq => ⟨r2 q hq, r3 q hq⟩, fun q hq => hsup q hq _ (le_refl _), ?_, ?_, ?_⟩
  · intro q hq
    have := (r4 q hq).1
    obtain ⟨_, h2, _, _⟩ := hbar q hq
    rw [h2]
    exact this
  · intro q hq t ha hm
    obtain ⟨ha1, ha2⟩ := halive q hq t ha
    have hm' := (hp.reidx.mem_boundaries k (sublevel B val (k + 1) t) (vecOf (cdim B k) (rep q))).2 hm
    obtain ⟨x, hx, hxe⟩ := hm'
    rw [mulVecLin_apply] at hxe
    have hlow := r4 q hq
    rw [← hxe] at hlow
    obtain ⟨j, hj, hpv⟩ := boundary_low_pivot_at (hC.hasRedUp k) (hp.lower (k + 1) t) hx hlow
    exact ha2 j hj hpv
  · intro t z hz
    have hmem : ∀ g : Fin (ps.filter (aliveAt t)).length, (ps.filter (aliveAt t)).get g ∈ ps ∧ aliveAt t ((ps.filter (aliveAt t)).get g) = true := by
      intro g
      exact List.mem_filter.1 (List.get_mem _ g)
    have hnd : ((ps.filter (aliveAt t)).map (·.birthInd)).Nodup := hbars.births.sublist (List.Sublist.map _ List.filter_sublist)
    have he : Function.Injective (fun g : Fin (ps.filter (aliveAt t)).length => pos ((ps.filter (aliveAt t)).get g) (hmem g).1) := by
      intro g g' hgg
      simp only at hgg
      have e1 := (hbar _ (hmem g).1).2.1
      have e2 := (hbar _ (hmem g').1).2.1
      rw [hgg, ← e2] at e1
      have hg := g.2; have hg' := g'.2
      have : ((ps.filter (aliveAt t)).map (·.birthInd))[g.val]'(by simp) = ((ps.filter (aliveAt t)).map (·.birthInd))[g'.val]'(by simp) := by
        rw [List.getElem_map, List.getElem_map]; exact e1
      exact Fin.ext (hnd.getElem_inj_iff.1 this)
    have key := unique_combination_at (hC.hasRed k) (hC.hasRedUp k) (hC.sq' k) (hp.lower k t) (hp.lower (k + 1) t) he
      (u := fun g => vecOf (cdim B k) (rep ((ps.filter (aliveAt t)).get g)) ∘ hp.reidx.eqv k)
      (fun g => r4 _ (hmem g).1) (fun g => (hp.reidx.mem_cycles k _).2 (r5 _ (hmem g).1))
      (fun g => (halive _ (hmem g).1 t (hmem g).2).2)
      (by
        intro p hpS hpp hpk
        obtain ⟨q, hq, hqb⟩ := hbars.ex p hpp
        have ha : aliveAt t q = true := by
          obtain ⟨_, _, hbv, hd⟩ := hqb
          rw [hp.valEq] at hbv hd
          obtain ⟨w, hw, hle⟩ := hpS
          have e := hbv.symm.trans hw
          cases e
          unfold aliveAt
          simp only [Bool.and_eq_true, decide_eq_true_eq]
          refine ⟨hle, ?_⟩
          rcases hd with ⟨hn, _, hd⟩ | ⟨j, d, hpv, _, hdv, hd⟩
          · rw [hd]
          · rw [hd]
            simp only [decide_eq_true_eq]
            by_contra hc
            exact hpk j ⟨d, hdv, not_lt.1 hc⟩ hpv
        have hqm : q ∈ ps.filter (aliveAt t) := List.mem_filter.2 ⟨hq, ha⟩
        obtain ⟨g, hg, hgq⟩ := List.mem_iff_getElem.1 hqm
        refine ⟨⟨g, hg⟩, ?_⟩
        have e : (ps.filter (aliveAt t)).get ⟨g, hg⟩ = q := hgq
        have e1 := (hbar _ (hmem ⟨g, hg⟩).1).2.1
        have hb' : ((ps.filter (aliveAt t)).get ⟨g, hg⟩).birthInd = repInd R false k p := by
          rw [e]; exact hqb.2.1
        exact Fin.ext (hp.filt.repInd_inj false p.2 (pos _ (hmem ⟨g, hg⟩).1).2 (hb'.symm.trans e1)).symm)
      (z ∘ hp.reidx.eqv k) ((hp.reidx.mem_cycles k z).2 (by
        have := hz.1; unfold cycles at this; rw [SetLike.mem_coe, LinearMap.mem_ker, mulVecLin_apply] at this; exact this))
      ((hp.reidx.mem_supported k _ z).2 hz.2)
    have conv : ∀ c : Fin (ps.filter (aliveAt t)).length → F,
        (z ∘ hp.reidx.eqv k - ∑ g, c g • (vecOf (cdim B k) (rep ((ps.filter (aliveAt t)).get g)) ∘ hp.reidx.eqv k) ∈
          (supported (F := F) (hp.reidx.eqv (k + 1) ⁻¹' sublevel B val (k + 1) t)).map (bdryUp C k).mulVecLin) ↔
        z - ∑ g, c g • vecOf (cdim B k) (rep ((ps.filter (aliveAt t)).get g)) ∈ boundariesAt B val k t := by
      intro c
      rw [boundariesAt, ← hp.reidx.mem_boundaries]
      have : (z - ∑ g, c g • vecOf (cdim B k) (rep ((ps.filter (aliveAt t)).get g))) ∘ hp.reidx.eqv k =
          z ∘ hp.reidx.eqv k - ∑ g, c g • (vecOf (cdim B k) (rep ((ps.filter (aliveAt t)).get g)) ∘ hp.reidx.eqv k) := by
        funext i
        simp [Finset.sum_apply]
      rw [this]
    obtain ⟨c, hc, hu⟩ := key
    exact ⟨c, (conv c).1 hc, fun c' hc' => hu c' ((conv c').2 hc')⟩

/-- the flag combinations that compute a basis -/
def Variant.HasBasis (v : Variant) : Prop := v = .standard ∨ v = .clearingBasis ∨ v = .compressionBasis

/-- C50: for every filtered complex and every flag combination that computes a basis, `representative` succeeds on every
reported pair; it is a cycle supported on cells of value at most the birth, contains the birth cell, is not a boundary at any
time the bar is alive, and at every `t` the representatives of the bars alive at `t` form a basis of `H_k(X_t)`. -/
theorem C50_representatives {v : Variant} (hvb : v.HasBasis) {B : List (CMat F)} (hB : IsChainComplex B) (h2 : 2 ≤ B.length)
    (h0 : ZeroBdry0 B) {val : List (List T)} (hv : ValuesFor B val) :
    ∃ R, RedFiltCpx.ofFiltration v.reduce val B = .ok R ∧ ∀ k, k < B.length →
      ∃ ps rep, R.persistencePairs k false = .ok ps ∧ RepsOK B val R k ps rep := by
  obtain ⟨C, R, hR, hp, hRC, hX⟩ := pipeline v hB h2 h0 hv
  have hC := hp.reidx.complex hB
  refine ⟨R, hR, fun k hk => reps_ok hB hp ?_ hk⟩
  rcases hvb with rfl | rfl | rfl
  · obtain ⟨D, hD, hb⟩ := mkStd_spec hC
    have : RedCpx.mkStd C = .ok R.RC := hRC
    rw [hD] at this; cases this; exact hb.comp
  · obtain ⟨D, hD, hb⟩ := mkClearingU_spec hC
    have : RedCpx.mkClearingU C = .ok R.RC := hRC
    rw [hD] at this; cases this; exact hb.comp
  · obtain ⟨D, _, hD, hb, _, _⟩ := mkCompression_both hC
    have : RedCpx.mkCompressionU C = .ok R.RC := hRC
    rw [hD] at this; cases this; exact hb

/-- C50: the same after any sequence of updates of the filtration. -/
theorem C50_representatives_after_updates {v : Variant} (hvb : v.KeepsBasis) {B : List (CMat F)} (hB : IsChainComplex B) (h2 : 2 ≤ B.length)
    (h0 : ZeroBdry0 B) {val : List (List T)} (hv : ValuesFor B val) (hist : List (List (List T))) (hh : ∀ u ∈ hist, ValuesFor B u) :
    ∃ X R, RedFiltCpx.ofFiltration v.reduce val B = .ok X ∧ X.updateAll hist = .ok R ∧ ∀ k, k < B.length →
      ∃ ps rep, R.persistencePairs k false = .ok ps ∧ RepsOK B (hist.getLastD val) R k ps rep := by
  obtain ⟨C, X, hX, hS⟩ := state_init hvb hB h2 h0 hv
  obtain ⟨X', C', hX', hS'⟩ := updateAll_spec hB h2 h0 hist val C X hS hh
  exact ⟨X, X', hX, hX', fun k hk => reps_ok hB hS'.pipe hS'.basis.comp hk⟩

example : Variant.compressionBasis.HasBasis ∧ IsChainComplex triangleQ ∧ ValuesFor triangleQ triangleVals ∧
    ((RedFiltCpx.ofFiltration Variant.standard.reduce triangleVals triangleQ).bind
      (fun R => R.representative ⟨1, 2, some 0, 5, some 7⟩ false)) = .ok [(0, 1), (1, -1), (2, 1)] :=
  ⟨Or.inr (Or.inr rfl), triangleQ_complex, triangleVals_ok, by decide +kernel⟩

end BATS
