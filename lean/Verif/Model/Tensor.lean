import Verif.Model.MatOps

/-! # Tensor product of chain complexes (include/chain/chain_complex.hpp:298-334, 384-387) -/

namespace BATS

variable {F : Type} [Field F] [DecidableEq F]

/-- chain_complex.hpp `dim(k)`: the number of columns of the `k`-th boundary matrix -/
def tensorDim (A : List (CMat F)) (k : Nat) : Nat := (A.getD k ⟨0, []⟩).cols.length

/-- chain_complex.hpp:325-326: the column `d(a ⊗ b)`.  `tab` is the array `ind_shift`.  For `i = 0` the code reads `ind_shift[-1][j]` and for `j = 0` it reads
`ind_shift[i][-1]`, outside of the array or of its row; the values found there are the parameters `strayA j`, `strayB i`. -/
def tensorColumn (A B : List (CMat F)) (strayA strayB : Nat → Nat) (tab : Nat → Nat → Nat) (i j a b : Nat) : SVec F :=
  SVec.add
    (SVec.shiftInds (SVec.kron ((A.getD i ⟨0, []⟩).cols.getD a []) (SVec.indicator b) (tensorDim B j)) (if i = 0 then strayA j else tab (i - 1) j))
    (SVec.shiftInds (SVec.kron (SVec.indicator a (if i % 2 = 1 then -1 else 1)) ((B.getD j ⟨0, []⟩).cols.getD b []) (B.getD j ⟨0, []⟩).nrow)
      (if j = 0 then strayB i else tab i (j - 1)))

/-- chain_complex.hpp:321-329: the columns appended for the pair of dimensions `(i, j)` -/
def tensorBlock (A B : List (CMat F)) (strayA strayB : Nat → Nat) (tab : Nat → Nat → Nat) (i j : Nat) : List (SVec F) :=
  (List.range (tensorDim A i)).flatMap (fun a => (List.range (tensorDim B j)).map (fun b => tensorColumn A B strayA strayB tab i j a b))

/-- chain_complex.hpp:314-330: one iteration of the loop over `Adim`; the state is the array `ind_shift`, the variable `shift` and the matrix `C[n]` -/
def tensorStep (A B : List (CMat F)) (strayA strayB : Nat → Nat) (n : Nat) (st : (Nat → Nat → Nat) × Nat × CMat F) (i : Nat) :
    (Nat → Nat → Nat) × Nat × CMat F :=
  let j := n - i
  let tab := fun p q => if p = i ∧ q = j then st.2.1 else st.1 p q
  if A.length - 1 < i ∨ B.length - 1 < j then (tab, st.2.1, st.2.2)
  else (tab, st.2.1 + tensorDim A i * tensorDim B j, ⟨st.2.2.nrow, st.2.2.cols ++ tensorBlock A B strayA strayB tab i j⟩)

/-- chain_complex.hpp:306-331: one iteration of the loop over `n`; the state is the array `ind_shift` and the matrices `C[0], …, C[n-1]` -/
def tensorDegree (A B : List (CMat F)) (strayA strayB : Nat → Nat) (st : (Nat → Nat → Nat) × List (CMat F)) (n : Nat) :
    (Nat → Nat → Nat) × List (CMat F) :=
  if n = 0 then (fun p q => if p = 0 ∧ q = 0 then 0 else st.1 p q, st.2 ++ [⟨1, List.replicate (tensorDim A 0 * tensorDim B 0) []⟩])
  else
    let r := (List.range (n + 1)).foldl (tensorStep A B strayA strayB n) (st.1, 0, ⟨tensorDim st.2 (n - 1), []⟩)
    (r.1, st.2 ++ [r.2.2])

/-- chain_complex.hpp:300-334 `tensor_product(A, B, dmax)`; `tab0` is the initial (indeterminate) content of `ind_shift` -/
def tensorProduct (A B : List (CMat F)) (dmax : Nat) (strayA strayB : Nat → Nat) (tab0 : Nat → Nat → Nat) : List (CMat F) :=
  ((List.range (dmax + 1)).foldl (tensorDegree A B strayA strayB) (tab0, [])).2

/-- chain_complex.hpp:384-387 `tensor_product(A, B)` -/
def tensorProductFull (A B : List (CMat F)) (strayA strayB : Nat → Nat) (tab0 : Nat → Nat → Nat) : List (CMat F) :=
  tensorProduct A B ((A.length - 1) + (B.length - 1)) strayA strayB tab0

end BATS
