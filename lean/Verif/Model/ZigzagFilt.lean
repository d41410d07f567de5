import Verif.Model.Zigzag
import Verif.Model.Chain
import Verif.Model.Simplicial
import Mathlib.Order.Defs.LinearOrder

/-!
# Model of include/zigzag/zigzag_filtration.hpp: from a zigzag filtration of a complex to its barcode

The filtration is given by the chain complex `B` of its cell complex and by the vector `vals`: `vals[k][i]` lists the intervals of cell `i` of dimension
`k` (zigzag_filtration.hpp:28). `std::sort` is a parameter: nothing is assumed about it beyond the C++ standard (`StdSort`).
-/

namespace BATS
namespace Zigzag
open CMat

variable {F : Type} [Field F] [DecidableEq F] {T : Type} [LinearOrder T]

/-- what the C++ standard requires of a comparison function on the elements of a range (a strict weak ordering) -/
structure StrictWeakOn {α : Type} (cmp : α → α → Bool) (l : List α) : Prop where
  asymm : ∀ a ∈ l, ∀ b ∈ l, cmp a b = true → cmp b a = false
  negtrans : ∀ a ∈ l, ∀ b ∈ l, ∀ c ∈ l, cmp a c = true → cmp a b = true ∨ cmp b c = true

/-- an implementation of `std::sort`: for a strict weak ordering the result is a rearrangement in which no element precedes a smaller one (the order of
equivalent elements is not specified); otherwise the behaviour is undefined -/
structure StdSort where
  sort : {α : Type} → (α → α → Bool) → List α → List α
  spec : ∀ {α : Type} (cmp : α → α → Bool) (l : List α), StrictWeakOn cmp l → (sort cmp l).Perm l ∧ (sort cmp l).Pairwise (fun a b => cmp b a = false)

/-- entry `j` of `ZigzagChainComplex::val[k]` and `cind[k]`, zigzag_filtration.hpp:180-181: one copy of the cell `orig`, present from `lo` to `hi` -/
structure Copy (T : Type) where
  orig : Nat
  lo : T
  hi : T
  deriving DecidableEq, Repr

/-- zigzag_filtration.hpp:202-208: the first `i2` among `n` copies from `i2` on which has not been removed at time `t` -/
def findCopy (t : T) (val : List (Copy T)) : Nat → Nat → Res (Option Nat)
  | 0, _ => .ok none
  | n + 1, i2 => do
    let v ← rd val i2
    if t < v.hi then .ok (some i2) else findCopy t val n (i2 + 1)

/-- body of the loop zigzag_filtration.hpp:197-211 -/
def correctEntry (t : T) (val : List (Copy T)) (extra : List Nat) (q : Nat × F) : Res (Nat × F) := do
  let v ← rd val q.1
  if v.hi < t then do
    let a ← rd extra q.1
    let b ← rd extra (q.1 + 1)
    let r ← findCopy t val (b - a) a
    pure (match r with
      | some i2 => (i2, q.2)
      | none => q)
  else pure q

/-- loop of zigzag_filtration.hpp:196-211 -/
def correctLoop (t : T) (val : List (Copy T)) (extra : List Nat) : List (Nat × F) → Res (List (Nat × F))
  | [] => .ok []
  | q :: c => do
    let q' ← correctEntry t val extra q
    let r ← correctLoop t val extra c
    pure (q' :: r)

/-- zigzag_filtration.hpp:191-213 `_correct_indices`: `t = val[k][j].first`, `val = val[k-1]`, `extra = extra_cells[k-1]` -/
def correctIndices (t : T) (val : List (Copy T)) (extra : List Nat) (c : SVec F) : Res (SVec F) := do
  let r ← correctLoop t val extra c
  pure (SVec.sort r)

/-- the columns of `C[k]` with the vectors `val[k]`, `cind[k]` -/
structure DimState (F T : Type) where
  cols : List (SVec F)
  cp : List (Copy T)

/-- zigzag_filtration.hpp:249-261: one more column for each further interval of cell `i`; `prev` are `val[k-1]` and `extra_cells[k-1]` (`none` for `k = 0`) -/
def extraLoop (prev : Option (List (Copy T) × List Nat)) (i : Nat) : List (T × T) → DimState F T → Res (DimState F T)
  | [], st => .ok st
  | v :: vs, st => do
    let c ← rd st.cols i
    let cp := st.cp ++ [⟨i, v.1, v.2⟩]
    let w ← rd cp st.cols.length
    let c' ← match prev with
      | none => .ok c
      | some p => correctIndices w.lo p.1 p.2 c
    extraLoop prev i vs ⟨st.cols ++ [c'], cp⟩

/-- zigzag_filtration.hpp:241-262: loop over the cells `i, i+1, …` of dimension `k`. Writing the first interval to `val[k][i]`, `cind[k][i]` (the vectors
were resized before the loop; nothing reads the entries `> i` in between) is modelled by `firsts`: the returned list is `extra_cells[k]` without its last
entry -/
def cellLoop (prev : Option (List (Copy T) × List Nat)) : Nat → List (List (T × T)) → DimState F T → Res (DimState F T × List Nat)
  | _, [], st => .ok (st, [])
  | i, ivs :: rest, st => do
    match ivs with
    | [] => .error .ub
    | v :: vs => do
      let cp ← wr st.cp i ⟨i, v.1, v.2⟩
      let st' ← extraLoop prev i vs ⟨st.cols, cp⟩
      let r ← cellLoop prev (i + 1) rest st'
      pure (r.1, st.cp.length :: r.2)

/-- zigzag_filtration.hpp:235-264: loop over the dimensions. `d` is an arbitrary value for the default-constructed pairs of `resize`. `Ms` are the matrices
`C[k], C[k+1], …`, `vals` the vectors `X.vals(k), X.vals(k+1), …`; rows are appended to the next matrix if there is a next dimension in `vals` -/
def buildFrom (d : T) (prev : Option (List (Copy T) × List Nat)) : List (CMat F) → List (List (List (T × T))) → Res (List (CMat F × List (Copy T)))
  | Ms, [] => .ok (Ms.map (fun M => (M, [])))
  | [], _ :: _ => .error .ub
  | M :: Ms, vk :: vals => do
    let r ← cellLoop prev 0 vk ⟨M.cols, List.replicate vk.length ⟨0, d, d⟩⟩
    let extra := r.2 ++ [r.1.cp.length]
    let Ms' := match vals, Ms with
      | _ :: _, N :: Ns => ⟨N.nrow + (r.1.cp.length - vk.length), N.cols⟩ :: Ns
      | _, Ms => Ms
    let rest ← buildFrom d (some (r.1.cp, extra)) Ms' vals
    pure ((⟨M.nrow, r.1.cols⟩, r.1.cp) :: rest)

/-- zigzag_filtration.hpp:223-265 `ZigzagChainComplex(X)` -/
def zigzagChainComplex (d : T) (B : List (CMat F)) (vals : List (List (List (T × T)))) : Res (List (CMat F × List (Copy T))) := buildFrom d none B vals

/-- util/permutation.hpp:78-117 `sortperm` with a comparator on the copies of one dimension -/
def sortpermBy (S : StdSort) (cmp : Copy T → Copy T → Bool) (cp : List (Copy T)) : List Nat :=
  (S.sort (fun x y => cmp x.1 y.1) cp.zipIdx).map Prod.snd

/-- zigzag_filtration.hpp:331-350: the two events of each copy of dimension `k`; `q = inv_perm(perm[k])` -/
def eventsOf (k : Nat) (q : List Nat) : Nat → List (Copy T) → Res (List (Event T))
  | _, [] => .ok []
  | i, c :: cs => do
    let x ← rd q i
    let r ← eventsOf k q (i + 1) cs
    pure (⟨k, x, i, c.lo, true⟩ :: ⟨k, x, i, c.hi, false⟩ :: r)

/-- zigzag_filtration.hpp:328-351: loop over the dimensions -/
def eventsFrom : Nat → List (List Nat) → List (List (Copy T)) → Res (List (Event T))
  | _, [], _ => .ok []
  | _, _ :: _, [] => .error .ub
  | k, p :: ps, cp :: cps => do
    let q ← Perm.invPerm p
    let a ← eventsOf k q 0 cp
    let r ← eventsFrom (k + 1) ps cps
    pure (a ++ r)

/-- zigzag_filtration.hpp:298-371 and 436-513 `prepare_ChainComplex`, for the comparators of one of the two overloads: `cmpCell k` compares copies of
dimension `k`, `cmpEvent cps` events -/
def prepareWith (S : StdSort) (d : T) (cmpCell : Nat → Copy T → Copy T → Bool) (cmpEvent : List (List (Copy T)) → Event T → Event T → Bool)
    (B : List (CMat F)) (vals : List (List (List (T × T)))) : Res (List (CMat F) × List (Event T)) := do
  let zc ← zigzagChainComplex d B vals
  let cps := zc.map Prod.snd
  let perms := cps.zipIdx.map (fun x => sortpermBy S (cmpCell x.2) x.1)
  let C ← Cpx.ipermuteBasis (zc.map Prod.fst) perms
  let es ← eventsFrom 0 perms cps
  pure (C, S.sort (cmpEvent cps) es)

/-- zigzag_filtration.hpp:316: decreasing removal time -/
def cmpCellPlain (_k : Nat) (a b : Copy T) : Bool := b.hi < a.hi

/-- zigzag_filtration.hpp:353-367 -/
def cmpEventPlain (_cps : List (List (Copy T))) (a b : Event T) : Bool :=
  if a.val ≠ b.val then a.val < b.val
  else if a.entry && b.entry then a.dim < b.dim
  else if a.entry ^^ b.entry then a.entry
  else if a.dim = b.dim then b.ind < a.ind
  else b.dim < a.dim

/-- zigzag_filtration.hpp:298-371 `prepare_ChainComplex(F, FT())` for a general complex -/
def prepare (S : StdSort) (d : T) (B : List (CMat F)) (vals : List (List (List (T × T)))) : Res (List (CMat F) × List (Event T)) :=
  prepareWith S d cmpCellPlain cmpEventPlain B vals

/-- zigzag_filtration.hpp:388-407 `lex_cmp`; the arguments are the vertices of the simplices from the last to the first -/
def lexLoop (dimi dimj : Nat) : List Nat → List Nat → Bool
  | x :: xs, y :: ys => if x ≠ y then x < y else lexLoop dimi dimj xs ys
  | _, _ => dimi < dimj

/-- zigzag_filtration.hpp:410-429 `rlex_cmp` -/
def rlexLoop (dimi dimj : Nat) : List Nat → List Nat → Bool
  | x :: xs, y :: ys => if x ≠ y then y < x else rlexLoop dimi dimj xs ys
  | _, _ => dimj < dimi

/-- `X.simplex_begin(k, i), X.simplex_end(k, i)` (simplicial_complex.hpp:398-403), read backwards: the block of `k + 1` entries of `spx[k]` -/
def revVerts (spx : List (List Nat)) (k i : Nat) : List Nat := (((spx.getD k []).drop ((k + 1) * i)).take (k + 1)).reverse

/-- zigzag_filtration.hpp:456 -/
def cmpCellLex (spx : List (List Nat)) (k : Nat) (a b : Copy T) : Bool :=
  if a.hi = b.hi then rlexLoop k k (revVerts spx k b.orig) (revVerts spx k a.orig) else b.hi < a.hi

/-- `ZC.cind[e.dim][e.cind]` -/
def origOf (cps : List (List (Copy T))) (e : Event T) : Nat := (((cps.getD e.dim [])[e.cind]?).map Copy.orig).getD 0

/-- zigzag_filtration.hpp:494-509 -/
def cmpEventLex (spx : List (List Nat)) (cps : List (List (Copy T))) (a b : Event T) : Bool :=
  if a.val ≠ b.val then a.val < b.val
  else if a.entry && b.entry then lexLoop a.dim b.dim (revVerts spx a.dim (origOf cps a)) (revVerts spx b.dim (origOf cps b))
  else if a.entry ^^ b.entry then a.entry
  else if a.dim = b.dim then b.ind < a.ind
  else rlexLoop a.dim b.dim (revVerts spx a.dim (origOf cps a)) (revVerts spx b.dim (origOf cps b))

/-- zigzag_filtration.hpp:436-513 `prepare_ChainComplex(F, FT())` for a simplicial complex -/
def prepareSimplicial (S : StdSort) (d : T) (X : SCpx) (B : List (CMat F)) (vals : List (List (List (T × T)))) : Res (List (CMat F) × List (Event T)) :=
  prepareWith S d (cmpCellLex X.spx) (cmpEventLex X.spx) B vals

/-- zigzag_filtration.hpp:515-526 `barcode(F, maxdim, FT(), …)` for a simplicial complex `X` -/
def barcodeSimplicial (F : Type) [Field F] [DecidableEq F] (S : StdSort) (d : T) (X : SCpx) (vals : List (List (List (T × T)))) (maxdim : Option Nat) : Res (List (List (ZPair T))) := do
  let B : List (CMat F) ← X.chainComplex
  let p ← prepareSimplicial S d X B vals
  barcodeReduction p.1 p.2 maxdim

/-- zigzag_filtration.hpp:515-526 `barcode(F, maxdim, FT(), …)` for a general complex with chain complex `B` -/
def barcode (S : StdSort) (d : T) (B : List (CMat F)) (vals : List (List (List (T × T)))) (maxdim : Option Nat) : Res (List (List (ZPair T))) := do
  let p ← prepare S d B vals
  barcodeReduction p.1 p.2 maxdim

end Zigzag
end BATS
