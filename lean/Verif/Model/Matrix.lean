import Verif.Model.SparseVec

/-!
# Model of include/linalg/col_matrix.hpp

`ColumnMatrix<TC>` (col_matrix.hpp:31-36) has a row count `m`, a column count `n` and the vector `col`.
All member functions maintain `n = col.size()`, so the model keeps `m` and the columns and defines `n` as the
number of columns.
-/

namespace BATS

/-- col_matrix.hpp:31-36 -/
structure CMat (F : Type _) where
  nrow : Nat
  cols : List (SVec F)
  deriving DecidableEq

namespace CMat

variable {F : Type _} [Field F] [DecidableEq F]

/-- col_matrix.hpp:123 `ncol` -/
def ncol (M : CMat F) : Nat := M.cols.length

/-- col_matrix.hpp:46-48 zero matrix -/
def zero (m n : Nat) : CMat F := ⟨m, List.replicate n []⟩

/-- col_matrix.hpp:128-130 `getval` -/
def getval (M : CMat F) (i j : Nat) : Res F := do
  let c ← rd M.cols j
  pure (SVec.getval c i)

/-- col_matrix.hpp:1050-1056 `identity` -/
def identity (n : Nat) : CMat F := ⟨n, (List.range n).map (fun j => [(j, 1)])⟩

/-- loop of `gemv`, col_matrix.hpp:688-690: accumulate `y.axpy(x[k], col[k])` over the stored entries of `x` -/
def gemvLoop (cols : List (SVec F)) : SVec F → SVec F → Res (SVec F)
  | [], y => .ok y
  | (k, a) :: x, y => do
    let c ← rd cols k
    gemvLoop cols x (SVec.axpy a c y)

/-- col_matrix.hpp:684-692 `gemv` (and 695-702, `operator*` 714) -/
def gemv (A : CMat F) (x : SVec F) : Res (SVec F) := gemvLoop A.cols x []

/-- column loop of `operator*`, col_matrix.hpp:721-725 -/
def gemmLoop (cols : List (SVec F)) : List (SVec F) → Res (List (SVec F))
  | [] => .ok []
  | b :: bs => do
    let c ← gemvLoop cols b []
    let r ← gemmLoop cols bs
    pure (c :: r)

/-- col_matrix.hpp:717-727 `operator*(ColumnMatrix)` -/
def gemm (A B : CMat F) : Res (CMat F) := do
  let r ← gemmLoop A.cols B.cols
  pure ⟨A.nrow, r⟩

/-- col_matrix.hpp:705-712 scalar multiplication -/
def smul (A : CMat F) (a : F) : CMat F := ⟨A.nrow, A.cols.map (fun c => SVec.smul c a)⟩

/-- loop `for j < n: C.col[j].axpy(a, col[j])` shared by `operator+` and `operator-`
(col_matrix.hpp:748-750, 763-765); `cs` is the copy of `B`, `as` are the columns of `*this`.
Writing to `C.col[j]` for `j ≥ B.n` is undefined behaviour. -/
def axpyCols (a : F) : List (SVec F) → List (SVec F) → Res (List (SVec F))
  | cs, [] => .ok cs
  | [], _ :: _ => .error .ub
  | c :: cs, x :: xs => do
    let r ← axpyCols a cs xs
    pure (SVec.axpy a x c :: r)

/-- col_matrix.hpp:746-752 `operator+`: copies `B` and adds `*this` -/
def add (A B : CMat F) : Res (CMat F) := do
  let r ← axpyCols 1 B.cols A.cols
  pure ⟨B.nrow, r⟩

/-- col_matrix.hpp:761-767 `operator-`: copies `B` and adds `-1` times `*this` -/
def sub (A B : CMat F) : Res (CMat F) := do
  let r ← axpyCols (-1) B.cols A.cols
  pure ⟨B.nrow, r⟩

/-- inner loop of `transpose`, col_matrix.hpp:773-775 -/
def transposeCol (j : Nat) : SVec F → List (SVec F) → Res (List (SVec F))
  | [], t => .ok t
  | (i, a) :: v, t => do
    let c ← rd t i
    let t' ← wr t i (c ++ [(j, a)])
    transposeCol j v t'

/-- outer loop of `transpose`, col_matrix.hpp:772-776 -/
def transposeLoop : List (SVec F) → Nat → List (SVec F) → Res (List (SVec F))
  | [], _, t => .ok t
  | c :: cs, j, t => do
    let t' ← transposeCol j c t
    transposeLoop cs (j + 1) t'

/-- col_matrix.hpp:769-778 `transpose` -/
def transpose (A : CMat F) : Res (CMat F) := do
  let t ← transposeLoop A.cols 0 (List.replicate A.nrow [])
  pure ⟨A.cols.length, t⟩

/-- apply a fallible operation to every column, left to right (the `for (j < n) col[j].f(..)` loops) -/
def mapCols (f : SVec F → Res (SVec F)) : List (SVec F) → Res (List (SVec F))
  | [] => .ok []
  | c :: cs => do
    let c' ← f c
    let r ← mapCols f cs
    pure (c' :: r)

/-- col_matrix.hpp:133-138 `permute_rows` -/
def permuteRows (perm : List Nat) (A : CMat F) : Res (CMat F) := do
  let r ← mapCols (SVec.permute perm) A.cols
  pure ⟨A.nrow, r⟩

/-- col_matrix.hpp:141-146 `ipermute_rows` -/
def ipermuteRows (perm : List Nat) (A : CMat F) : Res (CMat F) := do
  let r ← mapCols (SVec.ipermute perm) A.cols
  pure ⟨A.nrow, r⟩

/-- col_matrix.hpp:638-643 `clear_rows` -/
def clearRows (c : List Bool) (A : CMat F) : Res (CMat F) :=
  if c.length ≠ A.nrow then .error .thrown else do
    let r ← mapCols (SVec.clearInds c) A.cols
    pure ⟨A.nrow, r⟩

/-- col_matrix.hpp:854-856 `swap_cols` -/
def swapCols (j1 j2 : Nat) (A : CMat F) : Res (CMat F) := do
  let a ← rd A.cols j1
  let b ← rd A.cols j2
  pure ⟨A.nrow, (A.cols.set j1 b).set j2 a⟩

/-- col_matrix.hpp:796-803 `mix_cols` -/
def mixCols (j k : Nat) (a b c d : F) (A : CMat F) : Res (CMat F) := do
  let cj ← rd A.cols j
  let ck ← rd A.cols k
  let cols1 := A.cols.set j (SVec.axpy c ck (SVec.scale a cj))
  let ck' ← rd cols1 k
  pure ⟨A.nrow, cols1.set k (SVec.axpy b cj (SVec.scale d ck'))⟩

/-- col_matrix.hpp:886-892 `nnz` -/
def nnz (A : CMat F) : Nat := (A.cols.map List.length).sum

/-- col_matrix.hpp:895-902 `is_zero` -/
def isZero (A : CMat F) : Bool := A.cols.all (fun c => c.isEmpty)

/-- col_matrix.hpp:905-916 `is_upper`: the last stored index of column `j` is at most `j` -/
def isUpperFrom : Nat → List (SVec F) → Bool
  | _, [] => true
  | j, c :: cs =>
    match c.getLast? with
    | some p => if p.1 > j then false else isUpperFrom (j + 1) cs
    | none => isUpperFrom (j + 1) cs
/-- col_matrix.hpp:905-916 -/
def isUpper (A : CMat F) : Bool := isUpperFrom 0 A.cols

/-- col_matrix.hpp:919-930 `is_upper_invert` -/
def isUpperInvertFrom : Nat → List (SVec F) → Bool
  | _, [] => true
  | j, c :: cs =>
    match c.getLast? with
    | some p => if p.1 ≠ j then false else isUpperInvertFrom (j + 1) cs
    | none => isUpperInvertFrom (j + 1) cs
/-- col_matrix.hpp:919-930 -/
def isUpperInvert (A : CMat F) : Bool := isUpperInvertFrom 0 A.cols

/-- col_matrix.hpp:932-942 `is_lower` -/
def isLowerFrom : Nat → List (SVec F) → Bool
  | _, [] => true
  | j, c :: cs =>
    match c.head? with
    | some p => if p.1 < j then false else isLowerFrom (j + 1) cs
    | none => isLowerFrom (j + 1) cs
/-- col_matrix.hpp:932-942 -/
def isLower (A : CMat F) : Bool := isLowerFrom 0 A.cols

/-- loop of `is_reduced`, col_matrix.hpp:945-959; `seen` is the key set of the map `p2c` -/
def isReducedLoop : List Nat → List (SVec F) → Bool
  | _, [] => true
  | seen, c :: cs =>
    match c.getLast? with
    | some p => if p.1 ∈ seen then false else isReducedLoop (p.1 :: seen) cs
    | none => isReducedLoop seen cs
/-- col_matrix.hpp:943-960 `is_reduced` -/
def isReduced (A : CMat F) : Bool := isReducedLoop [] A.cols

/-- field division throws on zero divisors (field.hpp:178-185, 299-305, 468-471) -/
def fdiv (a b : F) : Res F := if b = 0 then .error .thrown else .ok (a / b)

/-- loop of `u_solve`, col_matrix.hpp:1155-1169. `bound`: the iterator is `x.upper_bound(bound)`, so the next
entry visited is the last stored entry with index `≤ bound`. -/
def uSolveLoop (cols : List (SVec F)) : Nat → SVec F → Nat → Res (SVec F)
  | 0, _, _ => .error .diverge
  | fuel + 1, x, bound =>
    match (x.takeWhile (fun p => p.1 ≤ bound)).getLast? with
    | none => .ok x
    | some (j, v) => do
      let Uj ← rd cols j
      match Uj.dropWhile (fun p => p.1 < j) with
      | [] => .error .thrown
      | (_, d) :: _ =>
        let a ← fdiv v d
        let x := SVec.putVal x j a
        if j = 0 then .ok x
        else uSolveLoop cols fuel (SVec.axpyRange (-a) Uj 0 j x) (j - 1)

/-- col_matrix.hpp:1145-1171 `u_solve(U, y)`; fuel `n + 2` (theorem: enough) -/
def uSolve (U : CMat F) (y : SVec F) : Res (SVec F) :=
  if y.isEmpty then .ok y else uSolveLoop U.cols (U.cols.length + 2) y U.cols.length

/-- loop of `l_solve`, col_matrix.hpp:1182-1193; the iterator is `x.lower_bound(start)`.
`*Lj_it` is read without an end check (undefined behaviour if the diagonal entry does not exist). -/
def lSolveLoop (cols : List (SVec F)) (m : Nat) : Nat → SVec F → Nat → Res (SVec F)
  | 0, _, _ => .error .diverge
  | fuel + 1, x, start =>
    match x.dropWhile (fun p => p.1 < start) with
    | [] => .ok x
    | (j, v) :: _ => do
      let Lj ← rd cols j
      match Lj.dropWhile (fun p => p.1 < j) with
      | [] => .error .ub
      | (_, d) :: _ =>
        let a ← fdiv v d
        let x := SVec.putVal x j a
        lSolveLoop cols m fuel (SVec.axpyRange (-a) Lj (j + 1) m x) (j + 1)

/-- col_matrix.hpp:1173-1195 `l_solve(L, y)`; fuel `m + 2` (theorem: enough) -/
def lSolve (L : CMat F) (y : SVec F) : Res (SVec F) :=
  if y.isEmpty then .ok y else lSolveLoop L.cols L.nrow (L.nrow + 2) y 0

/-- col_matrix.hpp:1198-1212 `u_solve(U, A)` -/
def uSolveMat (U A : CMat F) : Res (CMat F) := do
  let r ← mapCols (uSolve U) A.cols
  pure ⟨A.nrow, r⟩

/-- col_matrix.hpp:1215-1229 `l_solve(L, A)` -/
def lSolveMat (L A : CMat F) : Res (CMat F) := do
  let r ← mapCols (lSolve L) A.cols
  pure ⟨A.nrow, r⟩

/-- col_matrix.hpp:1232-1238 `u_inv` -/
def uInv (U : CMat F) : Res (CMat F) := uSolveMat U (identity U.nrow)
/-- col_matrix.hpp:1241-1247 `l_inv` -/
def lInv (L : CMat F) : Res (CMat F) := lSolveMat L (identity L.nrow)

/-- col_matrix.hpp:1089-1102 `direct_sum` -/
def directSum (A B : CMat F) : CMat F :=
  ⟨A.nrow + B.nrow, A.cols ++ B.cols.map (fun c => SVec.shiftInds c A.nrow)⟩

/-- col_matrix.hpp:605-619 `block` (for `j1 ≤ n`; otherwise undefined behaviour) -/
def block (i0 i1 j0 j1 : Nat) (A : CMat F) : Res (CMat F) :=
  if j1 ≤ A.cols.length ∧ j0 ≤ j1 then
    .ok ⟨i1 - i0, ((A.cols.drop j0).take (j1 - j0)).map (SVec.block i0 i1)⟩
  else .error .ub

end CMat
end BATS
