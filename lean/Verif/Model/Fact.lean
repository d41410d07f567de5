import Verif.Model.Matrix

/-!
# Model of include/linalg/sparse_fact.hpp and of the J operations of include/linalg/col_matrix.hpp
-/

namespace BATS

variable {F : Type} [Field F] [DecidableEq F]

/-- sparse_vector.hpp:341-346 `lower_bound(i)`: position of the first stored entry with index `≥ i` -/
def SVec.lowerBound (v : SVec F) (i : Nat) : Nat := (v.takeWhile (fun p => p.1 < i)).length

/-- sparse_vector.hpp:1061-1134 `axpy(x, coeff, inds, tmp)`: main loop on the stored entries of `*this` (`y`), the stored entries of `x`
and the position `ii` in `inds`; the arguments `coeff`, `inds` are the parts from position `ii` on. -/
def SVec.lazyMain (ii : Nat) : SVec F → SVec F → List (F × Nat) → Res (SVec F)
  | [], x, cs => .ok (tail ii x cs)
  | y, [], _ => .ok y
  | y, _ :: _, [] => .ok y
  | (r, b) :: y, (k, v) :: x, (a, q) :: cs =>
    if ii < r ∧ q < k then SVec.lazyMain (ii + 1) ((r, b) :: y) ((k, v) :: x) cs
    else if r = ii ∧ q < k then do
      let t ← SVec.lazyMain (ii + 1) y ((k, v) :: x) cs
      pure ((r, b) :: t)
    else if ii < r ∧ q = k then do
      let t ← SVec.lazyMain (ii + 1) ((r, b) :: y) x cs
      pure (if a * v ≠ 0 then (ii, a * v) :: t else t)
    else if r = ii ∧ k = q then do
      let t ← SVec.lazyMain (ii + 1) y x cs
      pure (if a * v + b ≠ 0 then (r, a * v + b) :: t else t)
    else .error .thrown
where
  /-- sparse_vector.hpp:1119-1127: the last loop -/
  tail (ii : Nat) : SVec F → List (F × Nat) → SVec F
  | [], _ => []
  | _ :: _, [] => []
  | (k, v) :: x, (a, q) :: cs => if q < k then tail (ii + 1) ((k, v) :: x) cs else (ii, a * v) :: tail (ii + 1) x cs

/-- sparse_vector.hpp:1061-1134 `axpy(x, coeff, inds, tmp)`: `*this + Σ_ii coeff[ii] x[inds[ii]] e_ii` -/
def SVec.lazyAxpy (x : SVec F) (coeff : List F) (inds : List Nat) (y : SVec F) : Res (SVec F) :=
  if x.isEmpty then .ok y else SVec.lazyMain 0 y x (coeff.zip inds)

namespace CMat

/-- col_matrix.hpp:826-831 `J_left_inplace` -/
def jLeft (A : CMat F) : CMat F := ⟨A.nrow, A.cols.map (SVec.J A.nrow)⟩

/-- col_matrix.hpp:812-817 `J_right_inplace`: the swaps of columns `j` and `n-1-j` for `j < n/2` reverse the columns -/
def jRight (A : CMat F) : CMat F := ⟨A.nrow, A.cols.reverse⟩

/-- col_matrix.hpp:841-851 `J_conjugation` -/
def jConj (A : CMat F) : CMat F := jRight (jLeft A)

/-- sparse_fact.hpp:376-410: loop on the entries of column `j`. `piv` is the position in `C[j]`; `p2c` uses `none` for -1. The row looked at
increases in every step, so `nrow + 1` is enough fuel. -/
def cuCol (j : Nat) : Nat → Bool → Nat → List (SVec F) → List (SVec F) → List (Option Nat) → Res (List (SVec F) × List (SVec F) × List (Option Nat))
  | 0, _, _, _, _, _ => .error .diverge
  | fuel + 1, found, pos, C, U, p2c => do
    let c ← rd C j
    match c[pos]? with
    | none => pure (C, U, p2c)
    | some (i0, v) => do
      let e ← rd p2c i0
      match e with
      | some k => do
        let ck ← rd C k
        let uk ← rd U k
        let uj ← rd U j
        let c' := SVec.axpy (-v) ck c
        cuCol j fuel found (SVec.lowerBound c' i0) (C.set j c') (U.set j (SVec.axpy (-v) uk uj)) p2c
      | none =>
        if found = false then do
          let w ← fdiv 1 v
          let uj ← rd U j
          cuCol j fuel true (pos + 1) (C.set j (SVec.scale w c)) (U.set j (SVec.scale w uj)) (p2c.set i0 (some j))
        else cuCol j fuel found (pos + 1) C U p2c

/-- sparse_fact.hpp:371-413: loop over the columns -/
def cuLoop (nrow : Nat) : Nat → Nat → List (SVec F) → List (SVec F) → List (Option Nat) → Res (List (SVec F) × List (SVec F) × List (Option Nat))
  | 0, _, C, U, p2c => .ok (C, U, p2c)
  | n + 1, j, C, U, p2c => do
    let c ← rd C j
    let r ← cuCol j (nrow + 1) false (SVec.lowerBound c 0) C U p2c
    cuLoop nrow n (j + 1) r.1 r.2.1 r.2.2

/-- sparse_fact.hpp:359-415 `CU_inplace(C, U)` -/
def cuInplace (C U : CMat F) : Res (CMat F × CMat F) := do
  let r ← cuLoop C.nrow C.cols.length 0 C.cols U.cols (List.replicate C.nrow none)
  pure (⟨C.nrow, r.1⟩, ⟨U.nrow, r.2.1⟩)

/-- sparse_fact.hpp:16-21: the factors `L`, `E`, `U`, `P` -/
structure SparseFact (F : Type) where
  L : CMat F
  E : CMat F
  U : CMat F
  P : CMat F
  deriving DecidableEq

/-- sparse_fact.hpp:418-455 `LQU_inplace`, `LQU`; `P` is not set -/
def lqu (A : CMat F) : Res (SparseFact F) := do
  let (e1, u1) ← cuInplace A (identity A.cols.length)
  let u ← uInv u1
  let e2 ← transpose e1
  let (e3, l1) ← cuInplace e2 (identity A.nrow)
  let l2 ← uInv l1
  let e ← transpose e3
  let l ← transpose l2
  pure ⟨l, e, u, ⟨0, []⟩⟩

/-- sparse_fact.hpp:457-468 `UQL` -/
def uql (A : CMat F) : Res (SparseFact F) := do
  let f ← lqu (jConj A)
  pure ⟨jConj f.U, jConj f.E, jConj f.L, f.P⟩

/-- sparse_fact.hpp:473-479 `inv(A)` -/
def inv (A : CMat F) : Res (CMat F) := do
  let f ← lqu A
  let a ← uInv f.U
  let b ← transpose f.E
  let c ← lInv f.L
  let ab ← gemm a b
  gemm ab c

/-! ### LEUP and its relatives -/

/-- `std::map<size_t, std::vector<size_t>>`: rows to columns with this pivot -/
abbrev PMap := Nat → Option (List Nat)

/-- sparse_fact.hpp:53-58 `update_pivot` -/
def updatePivot (c : SVec F) (p : PMap) (j i0 : Nat) : PMap :=
  match c[SVec.lowerBound c i0]? with
  | none => p
  | some (r, _) => Function.update p r (some ((p r).getD [] ++ [j]))

/-- sparse_fact.hpp:60-69 `delete_pivot`: erases the first occurrence of `j` in the list of its pivot row -/
def deletePivot (c : SVec F) (p : PMap) (j i0 : Nat) : PMap :=
  match c[SVec.lowerBound c i0]? with
  | none => p
  | some (r, _) => Function.update p r (some (((p r).getD []).erase j))

/-- sparse_fact.hpp:71-78 `get_pivots` -/
def getPivots : Nat → List (SVec F) → PMap → PMap
  | _, [], p => p
  | j, c :: cs, p => getPivots (j + 1) cs (updatePivot c p j 0)

/-- sparse_fact.hpp:124-130: loop over the remaining columns with pivot in row `i`. The list of row `i` is not changed by the loop, because new
pivots are in rows larger than `i`. -/
def schurLoop (m i : Nat) (a11 : F) (cj : SVec F) : List Nat → List (SVec F) → PMap → Res (List (SVec F) × PMap)
  | [], E, p => .ok (E, p)
  | jj :: js, E, p => do
    let c ← rd E jj
    let q ← fdiv (SVec.getval c i) a11
    let c' := SVec.axpyRange (-q) cj (i + 1) m c
    schurLoop m i a11 cj js (E.set jj c') (updatePivot c' p jj (i + 1))

/-- state of `LEUP_inplace`: columns of `L`, `E`, `U`, `P`, the pivots with the inverses of their values (`coeff`, `pivs`), the map `p2c` -/
structure LeupState (F : Type) where
  L : List (SVec F)
  E : List (SVec F)
  U : List (SVec F)
  P : List (SVec F)
  coeff : List F
  pivs : List Nat
  p2c : PMap

/-- `std::swap(col[j], col[j2])` -/
def swapList {α : Type} (l : List α) (j j2 : Nat) : Res (List α) := do
  let a ← rd l j
  let b ← rd l j2
  pure ((l.set j b).set j2 a)

/-- sparse_fact.hpp:97-142: the body of the main loop for a row `i` with a pivot -/
def leupStep (m i j : Nat) (js : List Nat) (s : LeupState F) : Res (LeupState F) :=
  match js with
  | [] => .error .ub
  | j2 :: _ => do
    let s ← if j2 ≠ j then do
        let cj ← rd s.E j
        let p1 := deletePivot cj s.p2c j i
        let E1 ← swapList s.E j j2
        let c2 ← rd E1 j2
        let p2 := updatePivot c2 p1 j2 i
        let P1 ← swapList s.P j j2
        pure { s with E := E1, P := P1, p2c := p2 }
      else pure s
    let cj ← rd s.E j
    let uj ← rd s.U j
    let uj' ← SVec.lazyAxpy cj s.coeff s.pivs uj
    let U1 := s.U.set j uj'
    let a11 := SVec.getval cj i
    let w ← fdiv 1 a11
    let r ← schurLoop m i a11 cj (((s.p2c i).getD []).drop 1) s.E s.p2c
    let li ← rd s.L i
    let L1 := s.L.set i (SVec.axpyRange w cj (i + 1) m li)
    pure ⟨L1, r.1.set j [(i, a11)], U1, s.P, s.coeff ++ [w], s.pivs ++ [i], Function.update r.2 i none⟩

/-- sparse_fact.hpp:92-147: the main loop; `n` is the number of columns, the first argument the number of rows which remain -/
def leupLoop (m n : Nat) : Nat → Nat → Nat → LeupState F → Res (Nat × LeupState F)
  | 0, _, j, s => .ok (j, s)
  | rem + 1, i, j, s =>
    if j < n then
      match s.p2c i with
      | some js => do
        let s' ← leupStep m i j js s
        leupLoop m n rem (i + 1) (j + 1) s'
      | none => leupLoop m n rem (i + 1) j s
    else .ok (j, s)

/-- sparse_fact.hpp:148-155: the remaining columns -/
def leupRest : Nat → Nat → LeupState F → Res (LeupState F)
  | 0, _, s => .ok s
  | rem + 1, j, s => do
    let cj ← rd s.E j
    let uj ← rd s.U j
    let uj' ← SVec.lazyAxpy cj s.coeff s.pivs uj
    leupRest rem (j + 1) { s with U := s.U.set j uj', E := s.E.set j [] }

/-- sparse_fact.hpp:80-180 `LEUP_inplace`, `LEUP` -/
def leup (A : CMat F) : Res (SparseFact F) := do
  let m := A.nrow
  let n := A.cols.length
  let s0 : LeupState F := ⟨(identity m : CMat F).cols, A.cols, (identity n : CMat F).cols, (identity n : CMat F).cols, [], [],
    getPivots 0 A.cols (fun _ => none)⟩
  let (j, s) ← leupLoop m n m 0 0 s0
  let s' ← leupRest (n - j) j s
  let P ← transpose ⟨n, s'.P⟩
  pure ⟨⟨m, s'.L⟩, ⟨m, s'.E⟩, ⟨n, s'.U⟩, P⟩

/-- sparse_fact.hpp:198-212 `PLEU` -/
def pleu (A : CMat F) : Res (SparseFact F) := do
  let At ← transpose A
  let f ← leup At
  let E ← transpose f.E
  let P ← transpose f.P
  let U ← transpose f.L
  let L ← transpose f.U
  pure ⟨L, E, U, P⟩

/-- sparse_fact.hpp:229-242 `UELP` -/
def uelp (A : CMat F) : Res (SparseFact F) := do
  let f ← leup (jConj A)
  pure ⟨jConj f.U, jConj f.E, jConj f.L, jConj f.P⟩

/-- sparse_fact.hpp:260-274 `PUEL` -/
def puel (A : CMat F) : Res (SparseFact F) := do
  let At ← transpose (jConj A)
  let f ← leup At
  let E ← transpose f.E
  let P ← transpose f.P
  let U ← transpose f.U
  let L ← transpose f.L
  pure ⟨jConj L, jConj E, jConj U, jConj P⟩

/-- products of four factors, sparse_fact.hpp:23-45 `LEUP_prod` etc. -/
def prod4 (A B C D : CMat F) : Res (CMat F) := do
  let ab ← gemm A B
  let abc ← gemm ab C
  gemm abc D

/-- sparse_fact.hpp:39-45 `LQU_prod`, `UQL_prod` -/
def prod3 (A B C : CMat F) : Res (CMat F) := do
  let ab ← gemm A B
  gemm ab C

/-! ### checks of shapes -/

/-- col_matrix.hpp:961-975 `is_pivot_matrix` -/
def isPivotMatrix (A : CMat F) : Res Bool := do
  if A.cols.all (fun c => decide (c.length ≤ 1)) then do
    let R ← transpose A
    pure (R.cols.all (fun c => decide (c.length ≤ 1)))
  else pure false

/-- col_matrix.hpp:976-1000 `is_EL`: the two loops; `i` is the last pivot plus one (the code starts with the pivot -1) -/
def isELLoop : Nat → List (SVec F) → Bool
  | _, [] => true
  | _, [] :: cs => cs.all (fun c => c.isEmpty)
  | i, [p] :: cs => if p.1 < i then false else isELLoop (p.1 + 1) cs
  | _, (_ :: _ :: _) :: _ => false

/-- col_matrix.hpp:976-1000 `is_EL` -/
def isEL (A : CMat F) : Bool := isELLoop 0 A.cols

/-- col_matrix.hpp:1001 `is_EU` -/
def isEU (A : CMat F) : Res Bool := do
  let R ← transpose A
  pure (isEL R)

/-- col_matrix.hpp:1002 `is_ELhat` -/
def isELhat (A : CMat F) : Res Bool := isEU (jConj A)

/-- col_matrix.hpp:1003 `is_EUhat` -/
def isEUhat (A : CMat F) : Bool := isEL (jConj A)

/-! ### commuting a triangular matrix with a matrix of shape E -/

/-- sparse_fact.hpp:282-286 `pivot_ind`; `none` is `NO_IND` -/
def pivotInd (c : SVec F) : Option Nat := c.head?.map Prod.fst

/-- sparse_fact.hpp:290-309 `extract_row_scale`: the coefficients (the code also sets the entries of `E` to 1, which is not used afterwards
because only the row of the pivot is read) -/
def rowScale : List (SVec F) → List F → Res (List F)
  | [], co => .ok co
  | c :: cs, co =>
    match c.head? with
    | none => rowScale cs co
    | some p => do
      let co' ← wr co p.1 p.2
      rowScale cs co'

/-- sparse_fact.hpp:339-341: the entries of one column of `L`, up to the first row without a pivot -/
def commuteCol (idx : List (Option Nat)) : SVec F → Res (SVec F)
  | [] => .ok []
  | (k, v) :: c => do
    let e ← rd idx k
    match e with
    | none => pure []
    | some i => do
      let t ← commuteCol idx c
      pure ((i, v) :: t)

/-- sparse_fact.hpp:334-343: loop over the columns -/
def commuteLoop (idx : List (Option Nat)) (L : List (SVec F)) : Nat → List (Option Nat) → List (SVec F) → Res (List (SVec F))
  | _, [], T => .ok T
  | _, none :: _, T => .ok T
  | l, some j :: js, T => do
    let c ← rd L l
    let t ← commuteCol idx c
    let T' ← wr T j t
    commuteLoop idx L (l + 1) js T'

/-- sparse_vector.hpp:1137-1146 `scale_inplace(coeff)` -/
def scaleVec (co : List F) : SVec F → Res (SVec F)
  | [] => .ok []
  | (i, v) :: c => do
    let a ← rd co i
    let t ← scaleVec co c
    pure ((i, v * a) :: t)

/-- col_matrix.hpp:870-883 `row_scale`, then `col_inv_scale`, sparse_fact.hpp:345-346 -/
def scaleCols (co : List F) : Nat → List (SVec F) → Res (List (SVec F))
  | _, [] => .ok []
  | j, c :: cs => do
    let c1 ← scaleVec co c
    let a ← rd co j
    let w ← fdiv 1 a
    let t ← scaleCols co (j + 1) cs
    pure (SVec.scale w c1 :: t)

/-- sparse_fact.hpp:312-349 `EL_L_commute` -/
def elLCommute (E L : CMat F) : Res (CMat F) := do
  let co ← rowScale E.cols (List.replicate E.nrow 1)
  let idx := E.cols.map pivotInd
  let T ← commuteLoop idx L.cols 0 idx (identity E.nrow : CMat F).cols
  let T' ← scaleCols co 0 T
  pure ⟨E.nrow, T'⟩

/-- sparse_fact.hpp:351-355 `L_EL_commute` -/
def lElCommute (L E : CMat F) : Res (CMat F) := do
  let Et ← transpose E
  let Lt ← transpose L
  let T ← elLCommute (jConj Et) (jConj Lt)
  let Tt ← transpose T
  pure (jConj Tt)

/-- sparse_fact.hpp:358-362 `U_EU_commute` -/
def uEuCommute (U E : CMat F) : Res (CMat F) := do
  let Et ← transpose E
  let Ut ← transpose U
  let T ← elLCommute Et Ut
  transpose T

/-- sparse_fact.hpp:365-369 `EU_U_commute` -/
def euUCommute (E U : CMat F) : Res (CMat F) := do
  let T ← elLCommute (jConj E) (jConj U)
  pure (jConj T)

end CMat
end BATS
