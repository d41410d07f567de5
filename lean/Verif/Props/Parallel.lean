import Verif.Proofs.Parallel
import Verif.Props.Homology

set_option linter.unusedSectionVars false
set_option linter.unusedVariables false

/-! # C71: divide-and-conquer reduction in parallel (include/homology/parallel.hpp) -/

namespace BATS
namespace Par
open Reduction Matrix

variable {F : Type} [Field F] [DecidableEq F]

/-- the state at the start of `reduce_block_dq(M, 0, n, max_block_size, 0, max_depth)` -/
def start (M : CMat F) : State F := (.block 0 M.cols.length 0, M.cols)

/-- the states some schedule can reach -/
def Reached (mbs md : Nat) (M : CMat F) (s : State F) : Prop := Relation.ReflTransGen (Step mbs md) (start M) s

/-- `reduce_matrix(M, divide_conquer_flag())` can return the matrix `R` and the table `t`: some schedule ends in the columns of `R`, and `t` is the table filled in some order from
the map returned -/
def Returns (mbs md : Nat) (M R : CMat F) (t : P2C) : Prop :=
  ∃ p nz it, Reached mbs md M (.done p nz, R.cols) ∧ R.nrow = M.nrow ∧ List.Perm it p ∧ fillTable it (List.replicate M.nrow none) = .ok t

theorem cols_of_shape {m n : Nat} {M : CMat F} (hM : M.Shape m n) : ColsOK m M.cols := by
  have := hM.ok; rw [CMat.OK, hM.nrow] at this; exact this

theorem sinv_reached {m n mbs md : Nat} {M : CMat F} (hM : M.Shape m n) {s : State F} (h : Reached mbs md M s) : SInv m n M.cols s := by
  refine SInv.steps ?_ h
  unfold start
  rw [hM.ncol]
  exact sinv_start (cols_of_shape hM) hM.ncol

/-- C71: whatever the schedule, no step fails (no access out of bounds, no division by zero). -/
theorem C71_no_failure {m n mbs md : Nat} {M : CMat F} (hM : M.Shape m n) {s : State F} (h : Reached mbs md M s) (q : List Bool) :
    step mbs md q s.1 s.2 = none ∨ ∃ s', step mbs md q s.1 s.2 = some (.ok s') := by
  cases hx : step mbs md q s.1 s.2 with
  | none => exact Or.inl rfl
  | some x =>
    obtain ⟨s', h1, _⟩ := (sinv_reached hM h).step hx
    exact Or.inr ⟨s', by rw [h1]⟩

/-- C71: no schedule runs for ever. -/
theorem C71_terminates {m n mbs md : Nat} {M : CMat F} (hM : M.Shape m n) (f : Nat → State F) (h0 : f 0 = start M) : ¬ ∀ k, Step mbs md (f k) (f (k + 1)) := by
  intro hs
  have hr : ∀ k, Reached mbs md M (f k) := by
    intro k
    induction k with
    | zero => rw [h0]; exact .refl
    | succ k ih => exact .tail ih (hs k)
  have hd : ∀ k, mu m md (f k).2 (f k).1 + k ≤ mu m md (f 0).2 (f 0).1 := by
    intro k
    induction k with
    | zero => exact le_refl _
    | succ k ih =>
      obtain ⟨q, e⟩ := hs k
      obtain ⟨s', e1, _, e3⟩ := (sinv_reached hM (hr k)).step e
      cases e1
      omega
  have := hd (mu m md (f 0).2 (f 0).1 + 1)
  omega

/-- C71: as long as the call has not returned, some task can run (no deadlock). -/
theorem C71_no_deadlock {mbs md : Nat} {M : CMat F} {m n : Nat} (hM : M.Shape m n) {s : State F} (h : Reached mbs md M s) (hr : ∀ p nz, s.1 ≠ .done p nz) :
    ∃ s', Step mbs md s s' := by
  have : s.1.result = none := by
    cases e : s.1 with
    | done p nz => exact absurd e (hr p nz)
    | _ => rfl
  obtain ⟨q, x, hx⟩ := step_progress (mbs := mbs) (md := md) this s.2
  obtain ⟨s', h1, _⟩ := (sinv_reached hM h).step hx
  subst h1
  exact ⟨s', q, hx⟩

/-- C71: two tasks that run at the same time work on different columns: if at the end of the path `u` there is a `taskwait` for two tasks, there is a column `c` such that a step in the first task
(whatever its subtasks) reads and writes only columns before `c`, and a step in the second task only columns from `c` on. -/
theorem C71_task_locality {mbs md : Nat} {M : CMat F} {m n : Nat} (hM : M.Shape m n) {s : State F} (h : Reached mbs md M s) {u : List Bool} {l r : Task}
    (hu : s.1.sub u = some (.fork l r)) (hlr : l.result = none ∨ r.result = none) :
    ∃ c, c ≤ n ∧
      (∀ v t' M', step mbs md (u ++ false :: v) s.1 s.2 = some (.ok (t', M')) →
        (∀ k, c ≤ k → M'.getD k [] = s.2.getD k []) ∧
        ∀ N, N.length = n → (∀ k, k < c → N.getD k [] = s.2.getD k []) → ∃ N', step mbs md (u ++ false :: v) s.1 N = some (.ok (t', N')) ∧
          (∀ k, k < c → N'.getD k [] = M'.getD k []) ∧ ∀ k, c ≤ k → N'.getD k [] = N.getD k []) ∧
      (∀ v t' M', step mbs md (u ++ true :: v) s.1 s.2 = some (.ok (t', M')) →
        (∀ k, k < c → M'.getD k [] = s.2.getD k []) ∧
        ∀ N, N.length = n → (∀ k, c ≤ k → N.getD k [] = s.2.getD k []) → ∃ N', step mbs md (u ++ true :: v) s.1 N = some (.ok (t', N')) ∧
          (∀ k, c ≤ k → N'.getD k [] = M'.getD k []) ∧ ∀ k, k < c → N'.getD k [] = N.getD k []) := by
  have hi := sinv_reached hM h
  obtain ⟨c, h1, h2, h3, h4⟩ := race_free (mbs := mbs) (md := md) hi.tinv hi.ok (by rw [hi.len]) hu hlr
  refine ⟨c, h2, ?_, ?_⟩
  · intro v t' M' hx
    obtain ⟨t1, o, g1, g2, g3⟩ := h3 v _ hx
    cases g2
    refine ⟨fun k hk => app_outside g1 _ k (Or.inr hk), fun N hN hA => ⟨app o N, g3 N (by omega) (fun k _ e => hA k e), fun k hk => ?_, fun k hk => app_outside g1 _ k (Or.inr hk)⟩⟩
    exact app_agree g1 (fun k _ e => hA k e) (by rw [hi.len]; exact h2) (by omega) k (Nat.zero_le _) hk
  · intro v t' M' hx
    obtain ⟨t1, o, g1, g2, g3⟩ := h4 v _ hx
    cases g2
    refine ⟨fun k hk => app_outside g1 _ k (Or.inl hk), fun N hN hA => ⟨app o N, g3 N (by omega) (fun k e _ => hA k e), fun k hk => ?_, fun k hk => app_outside g1 _ k (Or.inl hk)⟩⟩
    rcases Nat.lt_or_ge k n with hkn | hkn
    · exact app_agree g1 (fun k e _ => hA k e) (by rw [hi.len]) (by omega) k hk hkn
    · rw [app_outside g1 N k (Or.inr hkn), app_outside g1 s.2 k (Or.inr hkn)]; exact hA k hk

/-- C71: all schedules that end, end in the same columns, map and list of nonzero columns; and there is one that ends. -/
theorem C71_schedule_independent {m n mbs md : Nat} {M : CMat F} (hM : M.Shape m n) :
    ∃ p nz R, Reached mbs md M (.done p nz, R) ∧ ∀ p' nz' R', Reached mbs md M (.done p' nz', R') → p' = p ∧ nz' = nz ∧ R' = R := by
  have h0 : SInv m n M.cols (start M) := sinv_reached (mbs := mbs) (md := md) hM .refl
  obtain ⟨p, nz, R, hR⟩ := exists_final (mbs := mbs) (md := md) _ h0 (le_refl _)
  refine ⟨p, nz, R, hR, fun p' nz' R' h' => ?_⟩
  exact final_unique h0 h' hR

theorem returns_level {m n mbs md : Nat} {M R : CMat F} {t : P2C} (hM : M.Shape m n) (h : Returns mbs md M R t) :
    R.Shape m n ∧ IsPivotTable (R.mat m n) t ∧ ∃ V : Matrix (Fin n) (Fin n) F, UnitUpperTri V ∧ R.mat m n = M.mat m n * V := by
  obtain ⟨p, nz, it, h1, h2, h3, h4⟩ := h
  have hi := sinv_reached hM h1
  obtain ⟨t', k1, k2⟩ := table_of_prog hi.ok hi.tinv.2 h3
  rw [hM.nrow, k1] at h4
  cases h4
  obtain ⟨V, hV, hA⟩ := hi.app
  refine ⟨⟨?_, by rw [h2, hM.nrow], hi.len⟩, rinv_table k2, _, unitUpper_matOf hV n, applied_matOf hA m⟩
  rw [CMat.OK, h2, hM.nrow]; exact hi.ok

/-- C71: `reduce_matrix(M, divide_conquer_flag())`, whatever the schedule and the order of iteration through the map, block size and depth: it returns; the matrix and the table returned are always the same; the matrix is
a reduction of `M` by left-to-right column additions; and the table is the one `reduce_matrix(M)` returns. -/
theorem C71_reduction {m n : Nat} (mbs md : Nat) {M : CMat F} (hM : M.Shape m n) :
    ∃ R t, Returns mbs md M R t ∧ (∀ R' t', Returns mbs md M R' t' → R' = R ∧ t' = t) ∧ R.Shape m n ∧
      (∃ V : Matrix (Fin n) (Fin n) F, UnitUpperTri V ∧ R.mat m n = M.mat m n * V) ∧ Reduced (R.mat m n) ∧ IsPivotTable (R.mat m n) t ∧
      ∃ Rs, reduceStd M = .ok (Rs, t) := by
  obtain ⟨p, nz, Rc, h1, h2⟩ := C71_schedule_independent (mbs := mbs) (md := md) hM
  have hi := sinv_reached hM h1
  obtain ⟨t, k1, k2⟩ := table_of_prog hi.ok hi.tinv.2 (List.Perm.refl p)
  have hret : Returns mbs md M ⟨M.nrow, Rc⟩ t := ⟨p, nz, p, h1, rfl, List.Perm.refl p, by rw [hM.nrow]; exact k1⟩
  obtain ⟨a1, a2, V, a3, a4⟩ := returns_level hM hret
  have lev : LevelOK m n M ⟨M.nrow, Rc⟩ t := levelOK_of_factor hM a1 a3.upperInv a4 a2
  refine ⟨⟨M.nrow, Rc⟩, t, hret, ?_, a1, ⟨V, a3, a4⟩, a2.reduced, a2, ?_⟩
  · intro R' t' hR'
    obtain ⟨b1, b2, V', b3, b4⟩ := returns_level hM hR'
    have lev' : LevelOK m n M R' t' := levelOK_of_factor hM b1 b3.upperInv b4 b2
    obtain ⟨p', nz', it', c1, c2, _⟩ := hR'
    obtain ⟨_, _, e3⟩ := h2 p' nz' R'.cols c1
    refine ⟨?_, lev'.p2c_unique lev⟩
    cases R'
    simp only at c2 e3
    rw [c2, e3]
  · obtain ⟨Rs, ts, Vs, d1, d2, d3, d4, d5⟩ := reduceStd_spec hM
    have levs : LevelOK m n M Rs ts := levelOK_of_factor hM d2 d3.upperInv d4 d5
    exact ⟨Rs, by rw [d1, levs.p2c_unique lev]⟩

/-- C71: `reduce_matrix(M, U, divide_conquer_flag())` (the sequential version with a basis), for every block size of at least 2 (1024 in the code) and every order of iteration through the map: `M`
and `U` are multiplied by the same unit upper triangular matrix, `R` is reduced, and the table is the one `reduce_matrix(M)` returns. -/
theorem C71_reduction_basis {m n mu mbs : Nat} (hm : 2 ≤ mbs) (order : PMap → PMap) (ho : ∀ p, (order p).Perm p) {M U : CMat F} (hM : M.Shape m n) (hU : U.Shape mu n) :
    ∃ R U' t, reduceDqU mbs order M U = .ok (R, U', t) ∧ R.Shape m n ∧ U'.Shape mu n ∧
      (∃ V : Matrix (Fin n) (Fin n) F, UnitUpperTri V ∧ R.mat m n = M.mat m n * V ∧ U'.mat mu n = U.mat mu n * V) ∧ Reduced (R.mat m n) ∧ IsPivotTable (R.mat m n) t ∧
      ∃ Rs, reduceStd M = .ok (Rs, t) := by
  obtain ⟨s, V, a1, a2, a3, a4, a5, a6, a7, a8, _, a10⟩ := blockDqU_spec (m := m) hm M.cols U.cols (n + 1) 0 n M.cols U.cols _ (Nat.zero_le _) (le_refl _) (by omega)
    (cols_of_shape hM) hM.ncol hU.ncol unitUpper_id (applied_id n _) (applied_id n _)
  obtain ⟨t, k1, k2⟩ := table_of_prog a3 a2 (ho s.p)
  have hR : CMat.Shape (⟨m, s.cols⟩ : CMat F) m n := ⟨a3, rfl, a4⟩
  have lev : LevelOK m n M ⟨m, s.cols⟩ t := levelOK_of_factor hM hR (unitUpper_matOf a6 n).upperInv (applied_matOf a7 m) (rinv_table k2)
  refine ⟨⟨m, s.cols⟩, ⟨mu, s.ucols⟩, t, ?_, hR, ⟨a10 mu (cols_of_shape hU), rfl, a5⟩, ⟨_, unitUpper_matOf a6 n, applied_matOf a7 m, applied_matOf a8 mu⟩, (rinv_table k2).reduced, rinv_table k2, ?_⟩
  · unfold reduceDqU
    rw [hM.nrow, hM.ncol, a1]
    simp only [bind_ok]
    rw [k1, hU.nrow]; rfl
  · obtain ⟨Rs, ts, Vs, d1, d2, d3, d4, d5⟩ := reduceStd_spec hM
    have levs : LevelOK m n M Rs ts := levelOK_of_factor hM d2 d3.upperInv d4 d5
    exact ⟨Rs, by rw [d1, levs.p2c_unique lev]⟩

/-- C71: with a block size of 0 or 1 the version with a basis recurses for ever on every nonempty matrix. -/
theorem C71_small_blocks {mbs : Nat} (hm : mbs ≤ 1) (m fuel j0 j1 : Nat) (h : j0 < j1) (cols ucols : List (SVec F)) :
    blockDqU m mbs fuel j0 j1 cols ucols = .error .diverge := blockDqU_diverges hm fuel j0 j1 cols ucols h

/-- C71: `ReducedChainComplex(C, divide_conquer_flag())`: whatever the schedules of the reductions of the boundary matrices, the constructor succeeds and `hdim(k)` is the dimension of homology; the
tables and the indices of the homology classes are those of the standard algorithm. -/
theorem C71_complex {mbs md : Nat} {B : List (CMat F)} (hB : IsChainComplex B) {rs : List (CMat F × P2C)} (hrs : List.Forall₂ (fun b r => Returns mbs md b r.1 r.2) B rs) :
    ∃ C Cs, RedCpx.assemble rs = .ok C ∧ RedCpx.mkNoBasis B = .ok Cs ∧ C.p2c = Cs.p2c ∧ C.I = Cs.I ∧
      ∀ k, k < B.length → C.hdim k = .ok (Module.finrank F (Homology B k)) := by
  have levels : ∀ {B : List (CMat F)} {rs : List (CMat F × P2C)}, ChainList B → List.Forall₂ (fun b r => Returns mbs md b r.1 r.2) B rs → LevelsOK B rs := by
    intro B rs hc h
    induction h with
    | nil => exact List.Forall₂.nil
    | @cons b r B rs h1 h2 ih =>
      obtain ⟨a1, a2, V, a3, a4⟩ := returns_level hc.head h1
      exact List.Forall₂.cons (levelOK_of_factor hc.head a1 a3.upperInv a4 a2) (ih (by cases B with | nil => trivial | cons _ _ => exact hc.2.2))
  obtain ⟨C, hC, ht, _⟩ := assemble_spec hB (levels hB.chainList hrs)
  obtain ⟨Cs, hCs, hts⟩ := mkNoBasis_spec hB
  refine ⟨C, Cs, hC, hCs, ?_, ?_, fun k hk => ht.hdim hB hk⟩
  · refine List.ext_getElem (by rw [ht.lenP, hts.lenP]) fun k h1 h2 => ?_
    have hk : k < B.length := by rw [← ht.lenP]; exact h1
    have := (ht.lev k hk).p2c_unique (hts.lev k hk)
    rwa [List.getD_eq_getElem?_getD, List.getD_eq_getElem?_getD, List.getElem?_eq_getElem h1, List.getElem?_eq_getElem h2] at this
  · refine List.ext_getElem (by rw [ht.lenI, hts.lenI]) fun k h1 h2 => ?_
    have hk : k < B.length := by rw [← ht.lenI]; exact h1
    have e := List.Perm.eq_of_pairwise (fun a b _ _ h1 h2 => absurd h1 (Nat.lt_asymm h2)) (ht.sorted k hk) (hts.sorted k hk)
      ((List.perm_ext_iff_of_nodup ((ht.sorted k hk).imp Nat.ne_of_lt) ((hts.sorted k hk).imp Nat.ne_of_lt)).2 (fun j => by rw [ht.inds k hk, hts.inds k hk]))
    rwa [List.getD_eq_getElem?_getD, List.getD_eq_getElem?_getD, List.getElem?_eq_getElem h1, List.getElem?_eq_getElem h2] at e

/-! ### `partial_reduce_parallel` -/

/-- C71: `partial_reduce_parallel(M, block_size)` runs out of bounds if the matrix has fewer columns than a block. -/
theorem C71_sweep_ub {n bs : Nat} (h : n < bs) : sweepTasks n bs = .error .ub := by
  unfold sweepTasks blockStarts
  rw [if_pos h]; rfl

/-- the states some schedule of the parallel sweep can reach -/
def SweepReached (M : CMat F) (ts : List Task) (s : List Task × List (SVec F)) : Prop := Relation.ReflTransGen PStep (ts, M.cols) s

theorem sweepTasks_spec {n bs : Nat} (h0 : 0 < bs) (h : bs ≤ n) : ∃ K, K * bs < n ∧ n ≤ (K + 1) * bs ∧ sweepTasks n bs = .ok ((List.range K).map (fun i => Task.seq (i * bs) (i * bs + bs) [] [])) := by
  refine ⟨(n - bs + (bs - 1)) / bs, ?_, ?_, ?_⟩
  · have := Nat.div_mul_le_self (n - bs + (bs - 1)) bs
    omega
  · have := Nat.div_add_mod (n - bs + (bs - 1)) bs
    have h2 := Nat.mod_lt (n - bs + (bs - 1)) h0
    rw [Nat.add_mul, Nat.one_mul, Nat.mul_comm]
    omega
  · unfold sweepTasks blockStarts
    rw [if_neg (by omega), if_neg (by omega)]
    simp only [bind_ok, pure_ok, List.map_map]
    rfl

theorem pinv_start {m n bs K : Nat} {M : CMat F} (hM : M.Shape m n) (hK : K * bs ≤ n) :
    PInv m n bs K M.cols ((List.range K).map (fun i => Task.seq (i * bs) (i * bs + bs) [] []), M.cols) := by
  refine ⟨cols_of_shape hM, hM.ncol, by simp, ?_, ⟨_, unitUpper_id, applied_id n _⟩, fun _ _ => rfl⟩
  intro i t ht
  rw [List.getElem?_map] at ht
  have hi : i < K := by
    by_contra hc
    rw [List.getElem?_eq_none (by simpa using hc)] at ht; cases ht
  rw [List.getElem?_range hi] at ht
  cases ht
  refine ⟨Nat.le_add_right _ _, rfl, Nat.le_add_right _ _, List.pairwise_lt_range', ?_, ?_, by simp, by simp, by simp⟩
  · intro k hk
    simp only [List.nil_append, List.mem_range'_1] at hk
    omega
  · intro k h1 h2 _
    simp only [List.nil_append, List.mem_range'_1]
    omega

theorem sweep_tasks_form {M : CMat F} {K bs : Nat} {s : List Task × List (SVec F)} (h : SweepReached M ((List.range K).map (fun i => Task.seq (i * bs) (i * bs + bs) [] [])) s) :
    ∀ t ∈ s.1, (∃ p nz, t = .done p nz) ∨ ∃ j j1 p nz, t = .seq j j1 p nz := by
  induction h with
  | refl =>
    intro t ht
    obtain ⟨i, _, rfl⟩ := List.mem_map.1 ht
    exact Or.inr ⟨_, _, _, _, rfl⟩
  | @tail s1 s2 e1 e2 ih =>
    obtain ⟨i, e2⟩ := e2
    unfold poolStep at e2
    intro t ht
    cases hti : s1.1[i]? with
    | none => rw [hti] at e2; cases e2
    | some u =>
      rw [hti] at e2
      simp only at e2
      rcases ih u (List.mem_of_getElem? hti) with ⟨p, nz, rfl⟩ | ⟨j, j1, p, nz, rfl⟩
      · simp [step] at e2
      · simp only [step] at e2
        by_cases hj : j < j1
        · rw [if_pos hj] at e2
          unfold iterate at e2
          cases hc : colIter j s1.2 p with
          | error e => rw [hc] at e2; cases e2
          | ok r =>
            rw [hc] at e2
            obtain ⟨r1, r2⟩ := r
            cases r2 with
            | none =>
              cases e2
              rcases List.mem_or_eq_of_mem_set ht with ht | rfl
              · exact ih t ht
              · exact Or.inr ⟨_, _, _, _, rfl⟩
            | some p' =>
              simp only [bind_ok] at e2
              cases hr : rd r1 j with
              | error e => rw [hr] at e2; cases e2
              | ok c =>
                rw [hr] at e2
                cases e2
                rcases List.mem_or_eq_of_mem_set ht with ht | rfl
                · exact ih t ht
                · exact Or.inr ⟨_, _, _, _, rfl⟩
        · rw [if_neg hj] at e2
          cases e2
          rcases List.mem_or_eq_of_mem_set ht with ht | rfl
          · exact ih t ht
          · exact Or.inl ⟨_, _, rfl⟩

/-- C71: the parallel sweep, for every schedule: no step fails; it does not run for ever; as long as some block is not finished, some task can run. -/
theorem C71_sweep_runs {m n bs : Nat} (h0 : 0 < bs) {M : CMat F} (hM : M.Shape m n) {ts : List Task} (hts : sweepTasks n bs = .ok ts) :
    (∀ s, SweepReached M ts s → ∀ i, poolStep i s.1 s.2 = none ∨ ∃ s', poolStep i s.1 s.2 = some (.ok s')) ∧
    (∀ f : Nat → List Task × List (SVec F), f 0 = (ts, M.cols) → ¬ ∀ k, PStep (f k) (f (k + 1))) ∧
    (∀ s, SweepReached M ts s → (∃ t ∈ s.1, ∀ p nz, t ≠ .done p nz) → ∃ s', PStep s s') := by
  have hbs : bs ≤ n := by
    by_contra hc
    rw [C71_sweep_ub (by omega)] at hts; cases hts
  obtain ⟨K, k1, k2, k3⟩ := sweepTasks_spec h0 hbs
  rw [k3] at hts; cases hts
  have hst := pinv_start (bs := bs) (K := K) hM (by omega)
  have hinv : ∀ s, SweepReached M _ s → PInv m n bs K M.cols s := fun s hs => hst.steps (by omega) hs
  refine ⟨?_, ?_, ?_⟩
  · intro s hs i
    cases hx : poolStep i s.1 s.2 with
    | none => exact Or.inl rfl
    | some x =>
      obtain ⟨t, t', o, _, h2, _⟩ := poolStep_spec (by omega) (hinv s hs) hx
      exact Or.inr ⟨_, by rw [h2]⟩
  · intro f hf0 hs
    have hr : ∀ k, SweepReached M ((List.range K).map (fun i => Task.seq (i * bs) (i * bs + bs) [] [])) (f k) := by
      intro k
      induction k with
      | zero => rw [hf0]; exact .refl
      | succ k ih => exact .tail ih (hs k)
    have hd : ∀ k, pmu m (f k) + k ≤ pmu m (f 0) := by
      intro k
      induction k with
      | zero => exact le_refl _
      | succ k ih =>
        obtain ⟨i, e⟩ := hs k
        obtain ⟨t, t', o, _, h2, _, _, _, h6⟩ := poolStep_spec (by omega) (hinv _ (hr k)) e
        injection h2 with h2
        rw [← h2] at h6
        omega
    have := hd (pmu m (f 0) + 1)
    omega
  · rintro s hs ⟨t, ht, hd⟩
    obtain ⟨i, hi, e⟩ := List.getElem_of_mem ht
    have hti : s.1[i]? = some t := by rw [List.getElem?_eq_getElem hi, e]
    obtain ⟨x, hx⟩ : ∃ x, poolStep i s.1 s.2 = some x := by
      rcases sweep_tasks_form hs t ht with ⟨p, nz, rfl⟩ | ⟨j, j1, p, nz, rfl⟩
      · exact absurd rfl (hd p nz)
      · unfold poolStep
        rw [hti]
        simp only [step]
        by_cases hj : j < j1
        · rw [if_pos hj]; exact ⟨_, rfl⟩
        · rw [if_neg hj]; exact ⟨_, rfl⟩
    obtain ⟨t0, t', o, _, h2, _⟩ := poolStep_spec (by omega) (hinv s hs) hx
    exact ⟨_, i, by rw [hx, h2]⟩

/-- all the tasks have returned -/
def SweepDone (ts : List Task) : Prop := ∀ t ∈ ts, ∃ p nz, t = .done p nz

/-- C71: all schedules of the parallel sweep end in the same columns. -/
theorem C71_sweep_schedule_independent {m n bs : Nat} (h0 : 0 < bs) {M : CMat F} (hM : M.Shape m n) {ts : List Task} (hts : sweepTasks n bs = .ok ts)
    {s s' : List Task × List (SVec F)} (h : SweepReached M ts s) (h' : SweepReached M ts s') (hd : SweepDone s.1) (hd' : SweepDone s'.1) : s = s' := by
  have hbs : bs ≤ n := by
    by_contra hc
    rw [C71_sweep_ub (by omega)] at hts; cases hts
  obtain ⟨K, k1, k2, k3⟩ := sweepTasks_spec h0 hbs
  rw [k3] at hts; cases hts
  have hst := pinv_start (bs := bs) (K := K) hM (by omega)
  obtain ⟨r, hr⟩ : ∃ r : List Task × List (SVec F) → List Task × List (SVec F) → Prop, r = fun u v => PInv m n bs K M.cols u ∧ PStep u v := ⟨_, rfl⟩
  have lift : ∀ {u v : List Task × List (SVec F)}, PInv m n bs K M.cols u → Relation.ReflTransGen PStep u v → Relation.ReflTransGen r u v := by
    intro u v hu e
    induction e with
    | refl => exact .refl
    | tail e1 e2 ih => exact .tail ih (by rw [hr]; exact ⟨hu.steps (by omega) e1, e2⟩)
  have cr := Relation.church_rosser (r := r) (by
    intro u v w huv huw
    rw [hr] at huv huw
    obtain ⟨hu, q1, e1⟩ := huv
    obtain ⟨_, q2, e2⟩ := huw
    rcases pool_diamond (by omega) hu e1 e2 with e | ⟨x, x1, x2⟩
    · subst e; exact ⟨v, .refl, .refl⟩
    · exact ⟨x, .single (by rw [hr]; exact ⟨hu.steps (by omega) (.single ⟨q1, e1⟩), x1⟩), .single (by rw [hr]; exact ⟨hu.steps (by omega) (.single ⟨q2, e2⟩), x2⟩)⟩)
    (lift hst h) (lift hst h')
  obtain ⟨z, z1, z2⟩ := cr
  have stuck : ∀ {u z : List Task × List (SVec F)}, SweepDone u.1 → Relation.ReflTransGen r u z → z = u := by
    intro u z hd e
    rcases Relation.ReflTransGen.cases_head e with e | ⟨y, e, _⟩
    · exact e.symm
    · rw [hr] at e
      obtain ⟨_, q, e⟩ := e
      unfold poolStep at e
      cases hu : u.1[q]? with
      | none => rw [hu] at e; cases e
      | some t =>
        rw [hu] at e
        obtain ⟨p, nz, rfl⟩ := hd t (List.mem_of_getElem? hu)
        simp [step] at e
  rw [← stuck hd z1, stuck hd' z2]

/-- C71: the result of the parallel sweep with blocks of `bs` columns: `M` is multiplied by a unit upper triangular matrix; within each of the first `K` blocks the nonzero columns have distinct last rows; at most `bs` columns, the last
ones, do not change at all; and `reduce_matrix` afterwards returns the same table as without the sweep. -/
theorem C71_sweep_result {m n bs : Nat} (h0 : 0 < bs) {M : CMat F} (hM : M.Shape m n) {ts : List Task} (hts : sweepTasks n bs = .ok ts)
    {us : List Task} {R : List (SVec F)} (h : SweepReached M ts (us, R)) (hd : SweepDone us) :
    ∃ K, K * bs < n ∧ n ≤ K * bs + bs ∧ CMat.Shape (⟨m, R⟩ : CMat F) m n ∧
      (∃ V : Matrix (Fin n) (Fin n) F, UnitUpperTri V ∧ (⟨m, R⟩ : CMat F).mat m n = M.mat m n * V) ∧
      (∀ b, b < K → ∀ (i : Fin m) (j j' : Fin n), b * bs ≤ j.val → j.val < b * bs + bs → b * bs ≤ j'.val → j'.val < b * bs + bs →
        Low ((⟨m, R⟩ : CMat F).mat m n) i j → Low ((⟨m, R⟩ : CMat F).mat m n) i j' → j = j') ∧
      (∀ k, K * bs ≤ k → R.getD k [] = M.cols.getD k []) ∧
      ∃ Rs Rs' t, reduceStd M = .ok (Rs, t) ∧ reduceStd (⟨m, R⟩ : CMat F) = .ok (Rs', t) := by
  have hbs : bs ≤ n := by
    by_contra hc
    rw [C71_sweep_ub (by omega)] at hts; cases hts
  obtain ⟨K, k1, k2, k3⟩ := sweepTasks_spec h0 hbs
  rw [k3] at hts; cases hts
  have hst := pinv_start (bs := bs) (K := K) hM (by omega)
  have hi : PInv m n bs K M.cols (us, R) := hst.steps (by omega) h
  have hS : CMat.Shape (⟨m, R⟩ : CMat F) m n := ⟨hi.ok, rfl, hi.len⟩
  obtain ⟨V, hV, hA⟩ := hi.app
  refine ⟨K, k1, by rw [Nat.add_mul, Nat.one_mul] at k2; exact k2, hS, ⟨_, unitUpper_matOf hV n, applied_matOf hA m⟩, ?_, hi.out, ?_⟩
  · intro b hb i j j' a1 a2 a3 a4 l1 l2
    have hlen : b < us.length := by have := hi.num; simp only at this; omega
    obtain ⟨p, nz, e⟩ := hd us[b] (List.getElem_mem hlen)
    have ht := hi.tinv b _ (List.getElem?_eq_getElem hlen)
    rw [e] at ht
    have hP : Prog (b * bs) (b * bs + bs) R p nz [] := ht.2
    have hok : ColsOK m R := hi.ok
    have key : ∀ j : Fin n, b * bs ≤ j.val → j.val < b * bs + bs → Low ((⟨m, R⟩ : CMat F).mat m n) i j → (i.val, j.val) ∈ p := by
      intro j a1 a2 l
      have l := (low_matOf hok i j).1 l
      refine (hP.tab _ _).2 ⟨?_, l⟩
      have := hP.cover j a1 a2 (by intro e; rw [e, low_nil] at l; cases l)
      rwa [List.append_nil] at this
    have e1 := key j a1 a2 l1
    have e2 := key j' a3 a4 l2
    have := List.inj_on_of_nodup_map hP.keys e1 e2 rfl
    exact Fin.ext (Prod.ext_iff.1 this).2
  · obtain ⟨Rs, t1, V1, d1, d2, d3, d4, d5⟩ := reduceStd_spec hM
    obtain ⟨Rs', t2, V2, e1, e2, e3, e4, e5⟩ := reduceStd_spec hS
    have lev1 : LevelOK m n M Rs t1 := levelOK_of_factor hM d2 d3.upperInv d4 d5
    have lev2 : LevelOK m n M Rs' t2 := levelOK_of_factor hM e2 (UpperInv.mul (unitUpper_matOf hV n).upperInv e3.upperInv) (by rw [e4, ← Matrix.mul_assoc]; exact congrArg (· * V2) (applied_matOf hA m)) e5
    exact ⟨Rs, Rs', t1, d1, by rw [e1, lev2.p2c_unique lev1]⟩

/-! ### Examples -/

/-- a matrix with six columns: the edges of the complete graph on four vertices -/
def k4 : CMat ℚ := ⟨4, [[(0, -1), (1, 1)], [(0, -1), (2, 1)], [(1, -1), (2, 1)], [(0, -1), (3, 1)], [(1, -1), (3, 1)], [(2, -1), (3, 1)]]⟩

theorem k4_shape : k4.Shape 4 6 := by
  refine ⟨?_, rfl, rfl⟩
  intro c hc
  refine ⟨?_, ?_⟩
  · revert c; decide +kernel
  · revert c; decide +kernel

/-- the matrix and the table of the standard algorithm -/
example : (reduceStd k4).map (fun r => r.2) = .ok [none, some 0, some 1, some 3] := by decide +kernel

/-- a schedule that always runs the first task (`b = false`) or always the second task (`b = true`) that can run, for the examples -/
def pickPath (b : Bool) : Task → List Bool
  | .fork l r =>
    if b then (match r.result with | none => true :: pickPath b r | some _ => false :: pickPath b l)
    else (match l.result with | none => false :: pickPath b l | some _ => true :: pickPath b r)
  | _ => []

def runPick (b : Bool) (mbs md : Nat) : Nat → State ℚ → Res (State ℚ)
  | 0, s => .ok s
  | fuel + 1, s =>
    match step mbs md (pickPath b s.1) s.1 s.2 with
    | none => .ok s
    | some r => do
      let s' ← r
      runPick b mbs md fuel s'

theorem runPick_reached (b : Bool) (mbs md : Nat) : ∀ (fuel : Nat) (s s' : State ℚ), runPick b mbs md fuel s = .ok s' → Relation.ReflTransGen (Step mbs md) s s' := by
  intro fuel
  induction fuel with
  | zero => intro s s' h; cases h; exact .refl
  | succ fuel ih =>
    intro s s' h
    unfold runPick at h
    cases hx : step mbs md (pickPath b s.1) s.1 s.2 with
    | none => rw [hx] at h; cases h; exact .refl
    | some r =>
      rw [hx] at h
      cases r with
      | error e => cases h
      | ok s1 => exact .head ⟨_, hx⟩ (ih s1 s' h)

/-- with blocks of at most 2 columns and 3 levels both schedules end in the same state -/
example : runPick false 2 3 200 (start k4) = .ok (.done [(3, 3), (2, 1), (1, 0)] [0, 1, 3],
    [[(0, -1), (1, 1)], [(0, -1), (2, 1)], [], [(0, -1), (3, 1)], [], []]) := by decide +kernel
example : runPick true 2 3 200 (start k4) = runPick false 2 3 200 (start k4) := by decide +kernel
/-- after 14 steps they are in different states -/
example : runPick true 2 3 14 (start k4) ≠ runPick false 2 3 14 (start k4) := by decide +kernel

/-- the hypotheses of `C71_task_locality`: a reachable state in which two tasks run -/
example : Reached 2 3 k4 (.fork (.block 0 3 1) (.block 3 6 1), k4.cols) := runPick_reached false 2 3 1 (start k4) _ (by decide +kernel)

/-- `Returns` for the second schedule -/
example : Returns 2 3 k4 ⟨4, [[(0, -1), (1, 1)], [(0, -1), (2, 1)], [], [(0, -1), (3, 1)], [], []]⟩ [none, some 0, some 1, some 3] :=
  ⟨[(3, 3), (2, 1), (1, 0)], [0, 1, 3], [(3, 3), (2, 1), (1, 0)], runPick_reached true 2 3 200 (start k4) _ (by decide +kernel), rfl, List.Perm.refl _, by decide +kernel⟩

/-- the version with a basis -/
example : (reduceDqU 2 id k4 (CMat.identity 6)).map (fun r => (r.1.cols, r.2.2)) =
    .ok ([[(0, -1), (1, 1)], [(0, -1), (2, 1)], [], [(0, -1), (3, 1)], [], []], [none, some 0, some 1, some 3]) := by decide +kernel

/-- the sweep of a matrix with 6 columns in blocks of 2 leaves the last block alone -/
example : sweepTasks 6 2 = .ok [.seq 0 2 [] [], .seq 2 4 [] []] := by decide +kernel
example : sweepTasks 7 2 = .ok [.seq 0 2 [] [], .seq 2 4 [] [], .seq 4 6 [] []] := by decide +kernel
example : sweepTasks 3 4 = .error .ub := by decide +kernel


end Par
end BATS
