import Verif.Model.Fact
import Verif.Model.Barcode

/-!
# Model of include/quiver/sparse.hpp: barcodes of type A quiver representations (zigzag diagrams of vector spaces)

OpenMP: `#pragma omp task` blocks which run at the same time in the code work on disjoint ranges of the vectors `facts` and `mats`; they are
modelled one after the other.
-/

namespace BATS

variable {F : Type} [Field F] [DecidableEq F]

/-- multigraph/diagram.hpp:13-35 `Diagram<NT, ColumnMatrix>`: the source and the target of every edge, the matrix on every edge. (The node data
are not used by the barcode functions.) -/
structure Dgm (F : Type) where
  elist : List (Nat × Nat)
  edata : List (CMat F)

/-- quiver/sparse.hpp:488-497 `bar` -/
structure QBar where
  start : Nat
  startInd : Nat
  stop : Nat
  stopInd : Nat
  deriving DecidableEq, Repr

/-- the vectors `facts` and `mats` of the barcode functions -/
structure QState (F : Type) where
  facts : List (CMat.SparseFact F)
  mats : List (CMat F)

namespace Quiver
open CMat

/-- quiver/sparse.hpp:15-18 `is_left_arrow(dgm.elist[i])` -/
def isLeft (D : Dgm F) (i : Nat) : Res Bool := do
  let e ← rd D.elist i
  pure (decide (e.2 < e.1))

/-- quiver/sparse.hpp:28-44: the new matrix of the next edge; `nl`, `cl`: the next, the current edge is a left arrow -/
def upMat (nl cl : Bool) (f : SparseFact F) (a : CMat F) : Res (CMat F) :=
  if nl then
      if cl then prod3 f.U f.P a
      else do
        let u ← uInv f.U
        let p ← transpose f.P
        prod3 u p a
    else
      if cl then do
        let p ← transpose f.P
        let u ← uInv f.U
        prod3 a p u
      else prod3 a f.P f.U

/-- quiver/sparse.hpp:22-49 `pass_UP_right` -/
def passUPRight (D : Dgm F) (s : QState F) (i : Nat) : Res (QState F) := do
  let nl ← isLeft D (i + 1)
  let cl ← isLeft D i
  let f ← rd s.facts i
  let a ← rd s.mats (i + 1)
  let a' ← upMat nl cl f a
  let mats ← wr s.mats (i + 1) a'
  let facts ← wr s.facts i { f with U := identity f.U.nrow, P := identity f.P.nrow }
  pure ⟨facts, mats⟩

/-- quiver/sparse.hpp:57-71: the new `E` of the next edge -/
def prMat (nl cl : Bool) (f g : SparseFact F) : Res (CMat F) :=
  if nl then
      if cl then gemm f.P g.E
      else do
        let p ← transpose f.P
        gemm p g.E
    else
      if cl then do
        let p ← transpose f.P
        gemm g.E p
      else gemm g.E f.P

/-- quiver/sparse.hpp:51-75 `pass_P_right` -/
def passPRight (D : Dgm F) (s : QState F) (i : Nat) : Res (QState F) := do
  let nl ← isLeft D (i + 1)
  let cl ← isLeft D i
  let f ← rd s.facts i
  let g ← rd s.facts (i + 1)
  let e ← prMat nl cl f g
  let facts ← wr s.facts (i + 1) { g with E := e }
  let facts ← wr facts i { f with P := identity f.P.nrow }
  pure ⟨facts, s.mats⟩

/-- quiver/sparse.hpp:83-97: the new `L` of the previous edge; `pl`: the previous edge is a left arrow -/
def lMat (pl cl : Bool) (f g : SparseFact F) : Res (CMat F) :=
  if pl then
      if cl then do
        let t ← elLCommute g.E f.L
        gemm g.L t
      else do
        let li ← lInv f.L
        let t ← elLCommute g.E li
        gemm g.L t
    else
      if cl then do
        let li ← lInv f.L
        let t ← lElCommute li g.E
        gemm t g.L
      else do
        let t ← lElCommute f.L g.E
        gemm t g.L

/-- quiver/sparse.hpp:78-101 `pass_L_left` -/
def passLLeft (D : Dgm F) (s : QState F) (i : Nat) : Res (QState F) := do
  let pl ← isLeft D (i - 1)
  let cl ← isLeft D i
  let f ← rd s.facts i
  let g ← rd s.facts (i - 1)
  let l ← lMat pl cl f g
  let facts ← wr s.facts (i - 1) { g with L := l }
  let facts ← wr facts i { f with L := identity f.L.nrow }
  pure ⟨facts, s.mats⟩

/-- quiver/sparse.hpp:114, 121: the factorisation used when sweeping to the right -/
def facEL (left : Bool) (A : CMat F) : Res (SparseFact F) := if left then leup A else puel A

/-- quiver/sparse.hpp:268, 274: the factorisation used when sweeping to the left -/
def facEU (left : Bool) (A : CMat F) : Res (SparseFact F) := if left then pleu A else uelp A

/-- quiver/sparse.hpp:117-123: the loop of `type_A_leftright_sweep1`, for `n` edges starting at `j` -/
def lrSweep1Loop (D : Dgm F) : Nat → Nat → QState F → Res (QState F)
  | 0, _, s => .ok s
  | n + 1, j, s => do
    let s ← passUPRight D s (j - 1)
    let l ← isLeft D j
    let a ← rd s.mats j
    let f ← facEL l a
    let facts ← wr s.facts j f
    lrSweep1Loop D n (j + 1) ⟨facts, s.mats⟩

/-- quiver/sparse.hpp:106-124 `type_A_leftright_sweep1`; `n = j1 - j0` -/
def lrSweep1 (D : Dgm F) (j0 n : Nat) (s : QState F) : Res (QState F) := do
  let l ← isLeft D j0
  let a ← rd s.mats j0
  let f ← facEL l a
  let facts ← wr s.facts j0 f
  lrSweep1Loop D n (j0 + 1) ⟨facts, s.mats⟩

/-- quiver/sparse.hpp:129-140 `type_A_leftright_sweep2`; `n = j1 - j0` -/
def lrSweep2 (D : Dgm F) (j0 : Nat) : Nat → QState F → Res (QState F)
  | 0, s => .ok s
  | n + 1, s => do
    let s ← passLLeft D s (j0 + (n + 1))
    lrSweep2 D j0 n s

/-- `SparseFact<TC>()` -/
def noFact : SparseFact F := ⟨⟨0, []⟩, ⟨0, []⟩, ⟨0, []⟩, ⟨0, []⟩⟩

/-- the state in which the barcode functions start -/
def start (D : Dgm F) : QState F := ⟨List.replicate D.edata.length noFact, D.edata⟩

/-- the matrices which are returned -/
def result (s : QState F) : List (CMat F) := s.facts.map (fun f => f.E)

/-- quiver/sparse.hpp:142-163 `barcode_form_leftright`. With no edges `m - 1 = -1` and `elist[0]` is read out of bounds. -/
def formLeftright (D : Dgm F) : Res (List (CMat F)) := do
  let s ← lrSweep1 D 0 (D.edata.length - 1) (start D)
  pure (result s)

/-- quiver/sparse.hpp:172-188: the new matrix of the previous edge -/
def plMat (pl cl : Bool) (f : SparseFact F) (a : CMat F) : Res (CMat F) :=
  if pl then
      if cl then prod3 a f.P f.L
      else do
        let p ← transpose f.P
        let l ← lInv f.L
        prod3 a p l
    else
      if cl then do
        let l ← lInv f.L
        let p ← transpose f.P
        prod3 l p a
      else prod3 f.L f.P a

/-- quiver/sparse.hpp:167-192 `pass_PL_left` -/
def passPLLeft (D : Dgm F) (s : QState F) (i : Nat) : Res (QState F) := do
  let pl ← isLeft D (i - 1)
  let cl ← isLeft D i
  let f ← rd s.facts i
  let a ← rd s.mats (i - 1)
  let a' ← plMat pl cl f a
  let mats ← wr s.mats (i - 1) a'
  let facts ← wr s.facts i { f with L := identity f.L.nrow, P := identity f.P.nrow }
  pure ⟨facts, mats⟩

/-- quiver/sparse.hpp:200-216: the new `E` of the previous edge -/
def plE (pl cl : Bool) (f g : SparseFact F) : Res (CMat F) :=
  if pl then
      if cl then gemm g.E f.P
      else do
        let p ← transpose f.P
        gemm g.E p
    else
      if cl then do
        let p ← transpose f.P
        gemm p g.E
      else gemm f.P g.E

/-- quiver/sparse.hpp:196-219 `pass_P_left` -/
def passPLeft (D : Dgm F) (s : QState F) (i : Nat) : Res (QState F) := do
  let pl ← isLeft D (i - 1)
  let cl ← isLeft D i
  let f ← rd s.facts i
  let g ← rd s.facts (i - 1)
  let e ← plE pl cl f g
  let facts ← wr s.facts (i - 1) { g with E := e }
  let facts ← wr facts i { f with P := identity f.P.nrow }
  pure ⟨facts, s.mats⟩

/-- quiver/sparse.hpp:227-239: the new `U` of the next edge -/
def uMat (cl nl : Bool) (f g : SparseFact F) : Res (CMat F) :=
  if cl then
      if nl then do
        let t ← uEuCommute f.U g.E
        gemm t g.U
      else do
        let ui ← uInv f.U
        let t ← euUCommute g.E ui
        gemm g.U t
    else
      if nl then do
        let ui ← uInv f.U
        let t ← uEuCommute ui g.E
        gemm t g.U
      else do
        let t ← euUCommute g.E f.U
        gemm g.U t

/-- quiver/sparse.hpp:222-242 `pass_U_right` -/
def passURight (D : Dgm F) (s : QState F) (i : Nat) : Res (QState F) := do
  let cl ← isLeft D i
  let nl ← isLeft D (i + 1)
  let f ← rd s.facts i
  let g ← rd s.facts (i + 1)
  let u ← uMat cl nl f g
  let facts ← wr s.facts (i + 1) { g with U := u }
  let facts ← wr facts i { f with U := identity f.U.nrow }
  pure ⟨facts, s.mats⟩

/-- quiver/sparse.hpp:247-257 `type_A_rightleft_sweep2`, for `n` edges starting at `j` -/
def rlSweep2 (D : Dgm F) : Nat → Nat → QState F → Res (QState F)
  | 0, _, s => .ok s
  | n + 1, j, s => do
    let s ← passURight D s j
    rlSweep2 D n (j + 1) s

/-- quiver/sparse.hpp:270-275: the loop of `type_A_rightleft_sweep1`, for the `n` edges below `j0 + n` -/
def rlSweep1Loop (D : Dgm F) (j0 : Nat) : Nat → QState F → Res (QState F)
  | 0, s => .ok s
  | n + 1, s => do
    let s ← passPLLeft D s (j0 + n + 1)
    let l ← isLeft D (j0 + n)
    let a ← rd s.mats (j0 + n)
    let f ← facEU l a
    let facts ← wr s.facts (j0 + n) f
    rlSweep1Loop D j0 n ⟨facts, s.mats⟩

/-- quiver/sparse.hpp:260-276 `type_A_rightleft_sweep1`; `n = j1 - j0` -/
def rlSweep1 (D : Dgm F) (j0 n : Nat) (s : QState F) : Res (QState F) := do
  let l ← isLeft D (j0 + n)
  let a ← rd s.mats (j0 + n)
  let f ← facEU l a
  let facts ← wr s.facts (j0 + n) f
  rlSweep1Loop D j0 n ⟨facts, s.mats⟩

/-- quiver/sparse.hpp:279-298 `barcode_form_rightleft` -/
def formRightleft (D : Dgm F) : Res (List (CMat F)) := do
  let s ← rlSweep1 D 0 (D.edata.length - 1) (start D)
  let s ← rlSweep2 D (D.edata.length - 1) 0 s
  pure (result s)

/-- quiver/sparse.hpp:392-397: the loop of `type_A_dq_EU`, for the `n` edges above `j0` -/
def dqEULoop (D : Dgm F) (j0 : Nat) : Nat → QState F → Res (QState F)
  | 0, s => .ok s
  | n + 1, s => do
    let l ← isLeft D (j0 + (n + 1))
    let g ← rd s.facts (j0 + (n + 1))
    let f ← facEU l g.E
    let facts ← wr s.facts (j0 + (n + 1)) f
    let s ← passPLeft D ⟨facts, s.mats⟩ (j0 + (n + 1))
    dqEULoop D j0 n s

/-- quiver/sparse.hpp:428-433: the loop of `type_A_dq_EL`, for `n` edges starting at `j` -/
def dqELLoop (D : Dgm F) : Nat → Nat → QState F → Res (QState F)
  | 0, _, s => .ok s
  | n + 1, j, s => do
    let l ← isLeft D j
    let g ← rd s.facts j
    let f ← facEL l g.E
    let facts ← wr s.facts j f
    let s ← passPRight D ⟨facts, s.mats⟩ j
    dqELLoop D n (j + 1) s

mutual
/-- quiver/sparse.hpp:322-368 `type_A_dq_common`; the first argument bounds the depth of the recursion (the ranges shrink, so `j1 - j0` is enough) -/
def dqCommon (D : Dgm F) : Nat → Nat → Nat → QState F → Res (Nat × QState F)
  | 0, _, _, _ => .error .diverge
  | fuel + 1, j0, j1, s => do
    let j2 := (j0 + j1) / 2
    let s ← dqEL D fuel j0 (j2 - 1) s
    let s ← dqEU D fuel (j2 + 1) j1 s
    let s ← passPLLeft D s (j2 + 1)
    let s ← passUPRight D s (j2 - 1)
    let l ← isLeft D j2
    let a ← rd s.mats j2
    let f ← if l then lqu a else uql a
    let facts ← wr s.facts j2 f
    let s ← passURight D ⟨facts, s.mats⟩ j2
    let s ← passLLeft D s j2
    let s ← lrSweep2 D j0 (j2 - 1 - j0) s
    let s ← rlSweep2 D (j1 - (j2 + 1)) (j2 + 1) s
    pure (j2, s)

/-- quiver/sparse.hpp:372-407 `type_A_dq_EU` -/
def dqEU (D : Dgm F) : Nat → Nat → Nat → QState F → Res (QState F)
  | 0, _, _, _ => .error .diverge
  | fuel + 1, j0, j1, s =>
    if j1 - j0 < 4 then do
      let s ← rlSweep1 D j0 (j1 - j0) s
      rlSweep2 D (j1 - j0) j0 s
    else do
      let (j2, s) ← dqCommon D fuel j0 j1 s
      let s ← dqEULoop D j0 (j2 - j0) s
      let l ← isLeft D j0
      let g ← rd s.facts j0
      let a ← if l then gemm g.L g.E else gemm g.E g.L
      let f ← facEU l a
      let facts ← wr s.facts j0 f
      rlSweep2 D (j1 - j0) j0 ⟨facts, s.mats⟩

/-- quiver/sparse.hpp:410-443 `type_A_dq_EL` -/
def dqEL (D : Dgm F) : Nat → Nat → Nat → QState F → Res (QState F)
  | 0, _, _, _ => .error .diverge
  | fuel + 1, j0, j1, s =>
    if j1 - j0 < 4 then do
      let s ← lrSweep1 D j0 (j1 - j0) s
      lrSweep2 D j0 (j1 - j0) s
    else do
      let (j2, s) ← dqCommon D fuel j0 j1 s
      let s ← dqELLoop D (j1 - j2) j2 s
      let l ← isLeft D j1
      let g ← rd s.facts j1
      let a ← if l then gemm g.E g.U else gemm g.U g.E
      let f ← facEL l a
      let facts ← wr s.facts j1 f
      lrSweep2 D j0 (j1 - j0) ⟨facts, s.mats⟩
end

/-- quiver/sparse.hpp:447-482 `barcode_form_divide_conquer`; `nlevels` is the binary logarithm of `omp_get_max_threads()` -/
def formDivideConquer (D : Dgm F) (nlevels : Nat) : Res (List (CMat F)) :=
  if D.edata.length < 5 ∨ nlevels ≤ 1 then formLeftright D
  else do
    let (_, s) ← dqCommon D (2 * D.edata.length) 0 (D.edata.length - 1) (start D)
    pure (result s)

/-- quiver/sparse.hpp:534-548 and 553-567: loop over the columns of `mat[k]` (of its transpose for a right arrow); `p2i` and `p2i2` are
`piv_to_ind` and `piv_to_ind2` (a missing key of `std::map` reads as 0) -/
def barLoop (k : Nat) (p2i : Nat → Option Nat) : Nat → List (SVec F) → List QBar → (Nat → Option Nat) → Res (List QBar × (Nat → Option Nat))
  | _, [], bars, q => .ok (bars, q)
  | j, c :: cs, bars, q =>
    match c.head? with
    | none => barLoop k p2i (j + 1) cs (bars ++ [⟨k + 1, j, k + 1, j⟩]) (Function.update q j (some bars.length))
    | some e => do
      let pi := (p2i e.1).getD 0
      let b ← rd bars pi
      let bars' ← wr bars pi { b with stop := k + 1, stopInd := j }
      barLoop k p2i (j + 1) cs bars' (Function.update q j (some pi))

/-- quiver/sparse.hpp:528-572: loop over the edges, `n` edges starting at `k` -/
def barsLoop (mats : List (CMat F)) (D : Dgm F) : Nat → Nat → List QBar → (Nat → Option Nat) → Res (List QBar)
  | 0, _, bars, _ => .ok bars
  | n + 1, k, bars, p2i => do
    let l ← isLeft D k
    let a ← rd mats k
    let r ← if l then barLoop k p2i 0 a.cols bars (fun _ => none)
      else do
        let t ← transpose a
        barLoop k p2i 0 t.cols bars (fun _ => none)
    barsLoop mats D n (k + 1) r.1 r.2

/-- quiver/sparse.hpp:500-576 `barcode_from_barcode_form` -/
def barsFromForm (mats : List (CMat F)) (D : Dgm F) : Res (List QBar) := do
  let l ← isLeft D 0
  let a ← rd mats 0
  let n := if l then a.nrow else a.cols.length
  barsLoop mats D D.edata.length 0 ((List.range n).map (fun i => ⟨0, i, 0, i⟩)) (fun i => if i < n then some i else none)

/-- quiver/sparse.hpp:578-589 `bars_to_pairs` -/
def barsToPairs (bars : List QBar) (hdim : Nat) : List (PPair Nat) :=
  bars.map (fun b => ⟨hdim, b.startInd, some b.stopInd, b.start, some b.stop⟩)

/-- the flags of `barcode`, quiver/sparse.hpp:591-606 -/
inductive Algo where
  | divideConquer (nlevels : Nat)
  | leftward
  | rightward
  deriving DecidableEq

/-- the barcode form computed by an algorithm -/
def Algo.form (D : Dgm F) : Algo → Res (List (CMat F))
  | .divideConquer n => formDivideConquer D n
  | .leftward => formRightleft D
  | .rightward => formLeftright D

/-- quiver/sparse.hpp:613-655 `barcode(dgm, hdim, flag)` -/
def barcode (D : Dgm F) (hdim : Nat) (a : Algo) : Res (List (PPair Nat)) := do
  let mats ← a.form D
  let bars ← barsFromForm mats D
  pure (barsToPairs bars hdim)

/-- a diagram with one matrix per dimension on every edge -/
structure DgmVec (F : Type) where
  elist : List (Nat × Nat)
  edata : List (List (CMat F))

/-- quiver/sparse.hpp:661-676 `extract_dimension` -/
def extractDimension (D : DgmVec F) (k : Nat) : Res (Dgm F) := do
  let e ← D.edata.mapM (fun l => rd l k)
  pure ⟨D.elist, e⟩

/-- quiver/sparse.hpp:684-688: loop over the dimensions, `n` of them starting at `k` -/
def barcodeDims (D : DgmVec F) (a : Algo) : Nat → Nat → Res (List (PPair Nat))
  | 0, _ => .ok []
  | n + 1, k => do
    let Dk ← extractDimension D k
    let p ← barcode Dk k a
    let r ← barcodeDims D a n (k + 1)
    pure (p ++ r)

/-- quiver/sparse.hpp:681-690 `barcode(dgm, args...)` for a diagram with a matrix for every dimension -/
def barcodeAll (D : DgmVec F) (a : Algo) : Res (List (PPair Nat)) := do
  let e ← rd D.edata 0
  barcodeDims D a e.length 0

end Quiver
end BATS
