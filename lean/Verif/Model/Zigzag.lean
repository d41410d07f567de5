import Verif.Model.Induced
import Verif.Model.Fact

/-!
# Model of include/zigzag/reduction.hpp: barcodes of zigzag filtrations

`std::unordered_map<size_t, size_t>` is an association list without repeated keys; the only iteration over it (reduction.hpp:391-396) writes the
same data to every element it visits, so its order does not matter. `std::numeric_limits<T>::max()` as a death value is `none`.
-/

namespace BATS
namespace Zigzag
open Reduction CMat

variable {F : Type} [Field F] [DecidableEq F] {T : Type}

/-- zigzag/reduction.hpp:169-179 `rfilt_val` -/
structure Event (T : Type) where
  dim : Nat
  ind : Nat
  cind : Nat
  val : T
  entry : Bool
  deriving DecidableEq, Repr

/-- zigzag/reduction.hpp:193-215 `ZigzagPair`; `death = none`, `deathInd = none`: not set -/
structure ZPair (T : Type) where
  dim : Nat
  birthInd : Nat
  deathInd : Option Nat
  birth : T
  death : Option T
  birthIsEntry : Bool
  deathIsEntry : Bool
  deriving DecidableEq, Repr

/-- zigzag/reduction.hpp:82-88: column `t` is reduced with column `s` (`j = t`, `k = s` after the swap), both with the same pivot -/
def elim (t s : Nat) (R U : List (SVec F)) : Res (List (SVec F) × List (SVec F)) := do
  let ct ← rd R t
  let piv ← SVec.lastnz ct
  let cs ← rd R s
  let l ← SVec.lastnz cs
  let a ← fdiv piv.2 l.2
  let ut ← rd U t
  let us ← rd U s
  pure (R.set t (SVec.axpy (-a) cs ct), U.set t (SVec.axpy (-a) us ut))

/-- the `while` loop of `reduce_column(j, M, U, p2c, tmp, reduction_flag)`, zigzag/reduction.hpp:74-96 -/
def reduceColLoop : Nat → Nat → List (SVec F) → List (SVec F) → P2C → Res (Nat × List (SVec F) × List (SVec F) × P2C)
  | 0, _, _, _, _ => .error .diverge
  | fuel + 1, j, R, U, p => do
    let c ← rd R j
    if c.isEmpty then .ok (j, R, U, p)
    else do
      let piv ← SVec.lastnz c
      let e ← rd p piv.1
      match e with
      | none => .ok (j, R, U, p.set piv.1 (some j))
      | some k =>
        if j < k then do
          let r ← elim k j R U
          reduceColLoop fuel k r.1 r.2 (p.set piv.1 (some j))
        else do
          let r ← elim j k R U
          reduceColLoop fuel j r.1 r.2 p

/-- zigzag/reduction.hpp:64-97 `reduce_column`; fuel `nrow + 1` (theorem: enough) -/
def reduceColumn (j : Nat) (R U : CMat F) (p : P2C) : Res (Nat × CMat F × CMat F × P2C) := do
  let r ← reduceColLoop (R.nrow + 1) j R.cols U.cols p
  pure (r.1, ⟨R.nrow, r.2.1⟩, ⟨U.nrow, r.2.2.1⟩, r.2.2.2)

/-- zigzag/reduction.hpp:249-265 `cycle_insertion_map`; for an empty `I`, `m - 1` wraps around and the allocation throws -/
def cycleInsertionMap (I : List Nat) (j : Nat) : Res (CMat F) :=
  if I.length = 0 then .error .thrown
  else .ok ⟨I.length, (List.range (I.length - 1)).map (fun k => if I.getD k 0 < j then [(k, 1)] else [(k + 1, 1)])⟩

/-- loop of zigzag/reduction.hpp:278-288 over the remaining indices; `k` counts, `col` are the columns (positions `k ≤ m` always exist) -/
def bimLoop (i : Nat) (v : SVec F) : List Nat → Nat → Bool → List (SVec F) → Bool × List (SVec F)
  | [], _, seen, col => (seen, col)
  | x :: xs, k, seen, col =>
    if x < i then bimLoop i v xs (k + 1) seen (col.set k [(k, 1)])
    else if !seen then bimLoop i v xs (k + 1) true ((col.set k v).set (k + 1) [(k, 1)])
    else bimLoop i v xs (k + 1) true (col.set (k + 1) [(k, 1)])

/-- zigzag/reduction.hpp:268-294 `boundary_insertion_map` -/
def boundaryInsertionMap (I : List Nat) (i : Nat) (v : SVec F) : CMat F :=
  let r := bimLoop i v I 0 false (List.replicate (I.length + 1) [])
  ⟨I.length, if r.1 then r.2 else r.2.set I.length v⟩

/-- zigzag/reduction.hpp:300-316 `apply_basis`; `true` is an arrow to the right -/
def applyBasis (A L P : CMat F) (prevDir dir : Bool) : Res (CMat F) :=
  if !prevDir && !dir then prod3 L P A
  else if prevDir && dir then prod3 A P L
  else if !prevDir && dir then do
    let Pt ← transpose P
    let Li ← lInv L
    prod3 A Pt Li
  else do
    let Li ← lInv L
    let Pt ← transpose P
    prod3 Li Pt A

/-- `std::unordered_map<size_t, size_t>` -/
abbrev AMap := List (Nat × Nat)

/-- `m[x]` (a missing key reads as 0) -/
def AMap.get (m : AMap) (x : Nat) : Nat := (m.lookup x).getD 0
/-- `m[x] = y` -/
def AMap.put (m : AMap) (x y : Nat) : AMap := (x, y) :: m.filter (fun p => p.1 ≠ x)
/-- `m.erase(x)` -/
def AMap.erase (m : AMap) (x : Nat) : AMap := m.filter (fun p => p.1 ≠ x)

/-- zigzag/reduction.hpp:340-361 and 366-387: loop over the columns of `E` (of its transpose for an arrow to the right) -/
def ubLoop (e : Event T) (hdim : Nat) : Nat → List (SVec F) → List (ZPair T) → AMap → AMap → List (ZPair T) × AMap × AMap
  | _, [], bars, m, m2 => (bars, m, m2)
  | j, c :: cs, bars, m, m2 =>
    match c.head? with
    | none => ubLoop e hdim (j + 1) cs (bars ++ [⟨hdim, e.cind, none, e.val, none, e.entry, true⟩]) m (m2.put j bars.length)
    | some q => ubLoop e hdim (j + 1) cs bars (m.erase q.1) (m2.put j (m.get q.1))

/-- zigzag/reduction.hpp:389-396: the bars left in the map die -/
def killLoop (e : Event T) : AMap → List (ZPair T) → Res (List (ZPair T))
  | [], bars => .ok bars
  | q :: m, bars => do
    let b ← rd bars q.2
    killLoop e m (bars.set q.2 { b with deathInd := some e.cind, death := some e.val, deathIsEntry := e.entry })

/-- zigzag/reduction.hpp:323-400 `update_bars`: the new bars and the new `piv_to_ind` -/
def updateBars (bars : List (ZPair T)) (e : Event T) (hdim : Nat) (E : CMat F) (m : AMap) : Res (List (ZPair T) × AMap) := do
  let G ← if e.entry then transpose E else .ok E
  let r := ubLoop e hdim 0 G.cols bars m []
  let bars' ← killLoop e r.2.1 r.1
  pure (bars', r.2.2)

/-- the local variables of `zigzag_barcode_reduction`, zigzag/reduction.hpp:442-449 -/
structure State (F T : Type) where
  red : RedCpx F
  bars : List (List (ZPair T))
  p2i : List AMap
  L : List (CMat F)
  P : List (CMat F)
  dir : List Bool

/-- basis.hpp:48-60 `initialize(C)` -/
def initRed (C : List (CMat F)) : RedCpx F :=
  ⟨C.map (fun b => identity b.cols.length), C, C.map (fun _ => []), C.map (fun b => List.replicate b.nrow none)⟩

/-- zigzag/reduction.hpp:437-449; `nb = maxdim + 1` -/
def initState (C : List (CMat F)) (nb : Nat) : State F T :=
  ⟨initRed C, List.replicate nb [], List.replicate nb [], List.replicate nb ⟨0, []⟩, List.replicate nb ⟨0, []⟩, List.replicate nb false⟩

/-- the lines that follow the computation of the induced map `A` in dimension `h` in all four cases, e.g. zigzag/reduction.hpp:477-488: running change
of basis, factorisation, bookkeeping of the bars -/
def arrow (s : State F T) (e : Event T) (h : Nat) (A : CMat F) : Res (State F T) := do
  let L ← rd s.L h
  let P ← rd s.P h
  let d ← rd s.dir h
  let A' ← applyBasis A L P d e.entry
  let f ← if e.entry then pleu A' else uelp A'
  let bars ← rd s.bars h
  let m ← rd s.p2i h
  let r ← updateBars bars e h f.E m
  pure { s with bars := s.bars.set h r.1, p2i := s.p2i.set h r.2, L := s.L.set h f.L, P := s.P.set h f.P, dir := s.dir.set h e.entry }

/-- the map induced by the `(h+1)`-chain with pivot `i`, zigzag/reduction.hpp:472-475 and 524-527 -/
def boundaryMap (red : RedCpx F) (h i : Nat) : Res (CMat F) := do
  let v ← red.findPreferredRepresentative [(i, 1)] h
  let I ← rd red.I h
  pure (boundaryInsertionMap I i (SVec.select v I))

/-- zigzag/reduction.hpp:456-512: a column enters. `nb = maxdim + 1` -/
def enter (nb : Nat) (s : State F T) (e : Event T) : Res (State F T) := do
  let R ← rd s.red.R e.dim
  let U ← rd s.red.U e.dim
  let p ← rd s.red.p2c e.dim
  let r ← reduceColumn e.ind R U p
  let j := r.1
  let red := { s.red with R := s.red.R.set e.dim r.2.1, U := s.red.U.set e.dim r.2.2.1, p2c := s.red.p2c.set e.dim r.2.2.2 }
  let c ← rd r.2.1.cols j
  if e.dim < nb + 1 ∧ 0 < c.length then do
    let piv ← SVec.lastnz c
    if e.dim = 0 then .error .ub else do
      let I ← rd red.I (e.dim - 1)
      let pos := (I.takeWhile (fun x => x < piv.1)).length
      let x ← rd I pos
      if piv.1 ≠ x then .error .thrown else do
        let red := { red with I := red.I.set (e.dim - 1) (I.eraseIdx pos) }
        let A ← boundaryMap red (e.dim - 1) piv.1
        arrow { s with red := red } e (e.dim - 1) A
  else if e.dim < nb then do
    let I ← rd red.I e.dim
    let I' := I.insertIdx (I.takeWhile (fun x => x ≤ j)).length j
    let red := { red with I := red.I.set e.dim I' }
    let A ← cycleInsertionMap I' j
    arrow { s with red := red } e e.dim A
  else pure { s with red := red }

/-- zigzag/reduction.hpp:513-571: a column leaves -/
def leave (nb : Nat) (s : State F T) (e : Event T) : Res (State F T) := do
  let R ← rd s.red.R e.dim
  let U ← rd s.red.U e.dim
  let p ← rd s.red.p2c e.dim
  let c ← rd R.cols e.ind
  let _u ← rd U.cols e.ind
  let fin (s : State F T) : State F T := { s with red := { s.red with
    R := s.red.R.set e.dim ⟨R.nrow, R.cols.set e.ind []⟩, U := s.red.U.set e.dim ⟨U.nrow, U.cols.set e.ind []⟩ } }
  if e.dim < nb + 1 ∧ 0 < c.length then do
    let piv ← SVec.lastnz c
    if e.dim = 0 then .error .ub else do
      let A ← boundaryMap s.red (e.dim - 1) piv.1
      let I ← rd s.red.I (e.dim - 1)
      let red := { s.red with I := s.red.I.set (e.dim - 1) (I.insertIdx (I.takeWhile (fun x => x ≤ piv.1)).length piv.1) }
      let s' ← arrow { s with red := red } e (e.dim - 1) A
      let p' ← wr p piv.1 none
      pure (fin { s' with red := { s'.red with p2c := s'.red.p2c.set e.dim p' } })
  else if e.dim < nb then do
    let I ← rd s.red.I e.dim
    let A ← cycleInsertionMap I e.ind
    let red := { s.red with I := s.red.I.set e.dim I.dropLast }
    let s' ← arrow { s with red := red } e e.dim A
    pure (fin s')
  else pure (fin s)

/-- loop of zigzag/reduction.hpp:452-572 -/
def loop (nb : Nat) : List (Event T) → State F T → Res (State F T)
  | [], s => .ok s
  | e :: es, s => do
    let s' ← if e.entry then enter nb s e else leave nb s e
    loop nb es s'

/-- zigzag/reduction.hpp:425-576 `zigzag_barcode_reduction(C, filt_order, maxdim, …)` with the standard reduction flag; `maxdim = none` is the value
`-1`, which stands for `C.maxdim() - 1` -/
def barcodeReduction (C : List (CMat F)) (es : List (Event T)) (maxdim : Option Nat) : Res (List (List (ZPair T))) := do
  let nb := match maxdim with
    | none => C.length - 1
    | some d => d + 1
  let s ← loop nb es (initState C nb)
  pure s.bars

end Zigzag
end BATS
