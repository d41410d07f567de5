import Verif.Model.Simplicial

/-!
# Model of include/complex/light_simplicial_complex.hpp

`index_type` is an unsigned integer type: arithmetic is modulo `W` (a field of the model, `2^64` for `size_t`). The hash table
`key_to_index[dim]` is a list of pairs in order of insertion, of which the first with a given key counts (`emplace` and
`try_emplace` never overwrite). In the last step of the boundary iterator (`i = 0`) the code reads `offset(i-1)`, that is
`_offset[SIZE_MAX]`, outside the vector; the value read is the parameter `stray` and the theorems hold for every value of it.
-/

namespace BATS

/-- light_simplicial_complex.hpp:28-35 `LightSimplicialComplex`; `W` is the modulus of `index_type` -/
structure Light where
  W : Nat
  n : Nat
  k : Nat
  offset : List Nat
  keys : List (List Nat)
  idx : List (List (Nat × Nat))

namespace Light

/-- light_simplicial_complex.hpp:49-52: the loop of `_initialze`, `m` entries still to compute after one with value `a` -/
def offsetLoop (W n : Nat) : Nat → Nat → List Nat
  | 0, _ => []
  | m + 1, a => (n * a % W) :: offsetLoop W n m (n * a % W)

/-- light_simplicial_complex.hpp:157-164 `LightSimplicialComplex(n, k)` with `_initialze` (46-53); `1 % W` is the stored 1 -/
def init (W n k : Nat) : Light :=
  ⟨W, n, k, (1 % W) :: offsetLoop W n k (1 % W), List.replicate (k + 1) [], List.replicate (k + 1) []⟩

/-- light_simplicial_complex.hpp:184 `maxdim()` -/
def maxdim (L : Light) : Nat := L.k

/-- light_simplicial_complex.hpp:185-187 `ncells(dim)` -/
def numCells (L : Light) (dim : Nat) : Res Nat := do
  let v ← rd L.keys dim
  pure v.length

/-- light_simplicial_complex.hpp:201-204: the loop of `simplex_key` from position `j` -/
def keyLoop (L : Light) : List Nat → Nat → Nat → Res Nat
  | [], _, key => .ok key
  | x :: s, j, key => do
    let o ← rd L.offset j
    keyLoop L s (j + 1) ((key + x * o % L.W) % L.W)

/-- light_simplicial_complex.hpp:198-206 `simplex_key` -/
def simplexKey (L : Light) (s : List Nat) : Res Nat := keyLoop L s 0 0

/-- light_simplicial_complex.hpp:61-63 `max_vertex`: integer division, undefined for a zero divisor -/
def maxVertex (L : Light) (s dim : Nat) : Res Nat := do
  let o ← rd L.offset dim
  if o = 0 then .error .ub else pure (s / o)

/-- light_simplicial_complex.hpp:208-220 `key_to_simplex(dim, key)`: `d` runs down to 1; the vertices `0..d` -/
def keyToSimplex (L : Light) : Nat → Nat → Res (List Nat)
  | 0, key => .ok [key]
  | d + 1, key => do
    let v ← L.maxVertex key (d + 1)
    let o ← rd L.offset (d + 1)
    let r ← L.keyToSimplex d (key - v * o)
    pure (r ++ [v])

/-- light_simplicial_complex.hpp:233-235 `get_simplex(dim, i)` -/
def getSimplex (L : Light) (dim i : Nat) : Res (List Nat) := do
  let v ← rd L.keys dim
  let key ← rd v i
  L.keyToSimplex dim key

/-- light_simplicial_complex.hpp:263-266 `find_idx(dim, key)`; `none` is `NO_IND` -/
def findKey (L : Light) (dim key : Nat) : Res (Option Nat) := do
  let t ← rd L.idx dim
  pure (t.lookup key)

/-- light_simplicial_complex.hpp:270-274 `find_idx(s)`; for the empty simplex `dim` wraps around -/
def findIdx (L : Light) (s : List Nat) : Res (Option Nat) := do
  let key ← L.simplexKey s
  if s = [] then .error .ub else L.findKey (s.length - 1) key

/-- one step of the boundary iterator, light_simplicial_complex.hpp:99-112 `next()`, at index `i`: the face and the new values
of `before` and `after` -/
def iterNext (L : Light) (stray i before after : Nat) : Res (Nat × Nat × Nat) := do
  let o ← rd L.offset i
  if o = 0 then .error .ub else do
    let v := before / o
    let before' := before % o
    let face := (before' + after) % L.W
    let o' ← if i = 0 then pure stray else rd L.offset (i - 1)
    pure (face, before', (after + v * o' % L.W) % L.W)

/-- the loop `while (bdry) { auto [f, c] = bdry.next(); .. }`: the faces and coefficients for the indices `i-1, .., 0` -/
def iterLoop (L : Light) (stray : Nat) : Nat → Int → Nat → Nat → Res (List (Nat × Int))
  | 0, _, _, _ => .ok []
  | i + 1, c, before, after => do
    let r ← L.iterNext stray i before after
    let rest ← L.iterLoop stray i (-c) r.2.1 r.2.2
    pure ((r.1, c) :: rest)

/-- the initial coefficient, light_simplicial_complex.hpp:82-85 -/
def startCoeff (dim : Nat) : Int := if dim % 2 = 1 then -1 else 1

/-- all faces of the simplex with key `s`, light_simplicial_complex.hpp:77-86 and 99-112 -/
def iterFaces (L : Light) (stray dim s : Nat) : Res (List (Nat × Int)) := L.iterLoop stray (dim + 1) (startCoeff dim) s 0

/-- state of a boundary iterator: index, `before`, `after` (light_simplicial_complex.hpp:67-73) -/
structure It where
  i : Nat
  before : Nat
  after : Nat
deriving DecidableEq

/-- light_simplicial_complex.hpp:375-378 `simplex_begin` -/
def iterBegin (dim s : Nat) : It := ⟨dim, s, 0⟩

/-- light_simplicial_complex.hpp:114-116 `operator*` -/
def iterDeref (L : Light) (it : It) : Res Nat := do
  let o ← rd L.offset it.i
  if o = 0 then .error .ub else pure ((it.after + it.before % o) % L.W)

/-- light_simplicial_complex.hpp:119-127 `operator++`, for `i > 0` -/
def iterIncr (L : Light) (it : It) : Res It := do
  let o ← rd L.offset it.i
  if o = 0 then .error .ub else do
    let o' ← rd L.offset (it.i - 1)
    pure ⟨it.i - 1, it.before % o, (it.after + it.before / o * o' % L.W) % L.W⟩

/-- light_simplicial_complex.hpp:130-139 `operator--` -/
def iterDecr (L : Light) (it : It) : Res It := do
  let o ← rd L.offset it.i
  if o = 0 then .error .ub else do
    let o' ← rd L.offset (it.i + 1)
    pure ⟨it.i + 1, (it.before + it.after / o * o' % L.W) % L.W, it.after % o⟩

/-- light_simplicial_complex.hpp:277-290 `add_unsafe(dim, k)`: `emplace` keeps an existing entry of the hash table -/
def addUnsafeKey (L : Light) (dim key : Nat) : Res (Light × Nat) := do
  let ks ← rd L.keys dim
  let t ← rd L.idx dim
  pure ({ L with idx := L.idx.set dim (t ++ [(key, ks.length)]), keys := L.keys.set dim (ks ++ [key]) }, ks.length)

/-- light_simplicial_complex.hpp:294-309 `add(dim, k)` -/
def addKey (L : Light) (dim key : Nat) : Res (Light × Nat) := do
  let ks ← rd L.keys dim
  let t ← rd L.idx dim
  match t.lookup key with
  | none => pure ({ L with idx := L.idx.set dim (t ++ [(key, ks.length)]), keys := L.keys.set dim (ks ++ [key]) }, ks.length)
  | some i => pure (L, i)

/-- light_simplicial_complex.hpp:316-322 `add_unsafe(s)` -/
def addUnsafe (L : Light) (s : List Nat) : Res (Light × Nat) := do
  let key ← L.simplexKey s
  if s = [] then .error .ub else L.addUnsafeKey (s.length - 1) key

/-- light_simplicial_complex.hpp:328-332 `add(s)` -/
def add (L : Light) (s : List Nat) : Res (Light × Nat) := do
  let key ← L.simplexKey s
  if s = [] then .error .ub else L.addKey (s.length - 1) key

/-- the loop over the faces in `add_recursive`, light_simplicial_complex.hpp:348-354 -/
def recLoop (rec : Light → Nat → Res (Light × List (Nat × Nat))) (stray : Nat) : Nat → Nat → Nat → Light → List (Nat × Nat) →
    Res (Light × List (Nat × Nat))
  | 0, _, _, L, new => .ok (L, new)
  | i + 1, before, after, L, new => do
    let r ← L.iterNext stray i before after
    let q ← rec L r.1
    recLoop rec stray i r.2.1 r.2.2 q.1 (new ++ q.2)

/-- light_simplicial_complex.hpp:335-366 `add_recursive(dim, k)`; returns the new cells -/
def addRecKey (stray : Nat) : Nat → Light → Nat → Res (Light × List (Nat × Nat))
  | 0, L, key => do
    let ks ← rd L.keys 0
    let t ← rd L.idx 0
    match t.lookup key with
    | none => pure ({ L with idx := L.idx.set 0 (t ++ [(key, ks.length)]), keys := L.keys.set 0 (ks ++ [key]) }, [(0, ks.length)])
    | some _ => pure (L, [])
  | d + 1, L, key => do
    let ks ← rd L.keys (d + 1)
    let t ← rd L.idx (d + 1)
    match t.lookup key with
    | none => do
      let L1 : Light := { L with idx := L.idx.set (d + 1) (t ++ [(key, ks.length)]), keys := L.keys.set (d + 1) (ks ++ [key]) }
      let q ← recLoop (addRecKey stray d) stray (d + 2) key 0 L1 []
      pure (q.1, q.2 ++ [(d + 1, ks.length)])
    | some _ => pure (L, [])

/-- light_simplicial_complex.hpp:369-373 `add_recursive(s)` -/
def addRecursive (L : Light) (stray : Nat) (s : List Nat) : Res (Light × List (Nat × Nat)) := do
  let key ← L.simplexKey s
  if s = [] then .error .ub else addRecKey stray (s.length - 1) L key

/-- `key_to_index[dim].at(f)` for a list of faces: throws if one is missing -/
def lookupFaces (t : List (Nat × Nat)) : List (Nat × Int) → Res (List (Nat × Int))
  | [] => .ok []
  | p :: ps => do
    let i ← match t.lookup p.1 with
      | none => .error .thrown
      | some i => pure i
    let r ← lookupFaces t ps
    pure ((i, p.2) :: r)

/-- light_simplicial_complex.hpp:384-399 `boundary(dim, i)`, for `dim > 0` -/
def boundary (L : Light) (stray dim i : Nat) : Res (List Nat × List Int) := do
  let ks ← rd L.keys dim
  let key ← rd ks i
  let fs ← L.iterFaces stray dim key
  let t ← rd L.idx (dim - 1)
  let ps ← lookupFaces t fs
  sortBlock 0 ps.length (ps.map Prod.fst) (ps.map Prod.snd)

/-- the loop over the simplices in `boundary_csc`, light_simplicial_complex.hpp:423-434 -/
def cscLoop (L : Light) (stray dim : Nat) (t : List (Nat × Nat)) : List Nat → Res (List (Nat × Int))
  | [] => .ok []
  | key :: ks => do
    let fs ← L.iterFaces stray dim key
    let ps ← lookupFaces t fs
    let r ← cscLoop L stray dim t ks
    pure (ps ++ r)

/-- light_simplicial_complex.hpp:403-443 `boundary_csc(dim)`, for `dim > 0` -/
def boundaryCsc (L : Light) (stray dim : Nat) : Res CSC := do
  let m ← L.numCells (dim - 1)
  let n ← L.numCells dim
  let ks ← rd L.keys dim
  let t ← rd L.idx (dim - 1)
  let ps ← cscLoop L stray dim t ks
  CSC.mk' m n ((List.range (n + 1)).map (· * (dim + 1))) (ps.map Prod.fst) (ps.map Prod.snd)

variable {F : Type} [Field F] [DecidableEq F]

/-- loop of chain_complex.hpp:30-38 for `k = k0, k0+1, ..` (`k0 > 0`) -/
def boundaries (L : Light) (stray : Nat) : Nat → Nat → Res (List (CMat F))
  | 0, _ => .ok []
  | n + 1, k => do
    let A ← L.boundaryCsc stray k
    let M ← A.toCMat
    let r ← boundaries L stray n (k + 1)
    pure (M :: r)

/-- chain_complex.hpp:26-39 `ChainComplex(X)` for a light complex -/
def chainComplex (L : Light) (stray : Nat) : Res (List (CMat F)) := do
  let n ← L.numCells 0
  let r ← L.boundaries stray L.maxdim 1
  pure (CMat.zero 1 n :: r)

/-- the calls that add simplices -/
inductive Op where
  | add (s : List Nat)
  | addRecursive (s : List Nat)

/-- run one call, dropping the returned indices -/
def step (L : Light) (stray : Nat) : Op → Res Light
  | .add s => do let r ← L.add s; pure r.1
  | .addRecursive s => do let r ← L.addRecursive stray s; pure r.1

/-- run a history of calls -/
def run (L : Light) (stray : Nat) : List Op → Res Light
  | [] => .ok L
  | o :: os => do
    let M ← L.step stray o
    run M stray os

end Light

end BATS
