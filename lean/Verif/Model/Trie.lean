import Verif.Model.Basic
import Mathlib.Data.List.Basic
import Mathlib.Algebra.Notation.Defs

/-!
# Model of include/util/trie.hpp

`SparseTrie<size_t, T>`: a node has a value and a pointer to a hash map from letters to child nodes. The hash map
(`std::unordered_map`) is modelled by an association list with at most one entry per letter; its iteration order is never
used by the functions modelled here. Node ownership (destructor, copy and move) is not modelled.
-/

namespace BATS

/-- trie.hpp:12-22 `SparseTrie`: `val`, and `children`, which is `nullptr` (`none`) or a map -/
inductive Trie (T : Type) where
  | node (val : T) (children : Option (List (Nat × Trie T)))

namespace Trie

variable {T : Type}

/-- trie.hpp:21 `val` -/
def val : Trie T → T
  | node v _ => v

/-- trie.hpp:22 `children` -/
def children : Trie T → Option (List (Nat × Trie T))
  | node _ c => c

/-- `unordered_map::count(a)` and `at(a)` together: the value stored for `a`, if any -/
def lookup (a : Nat) : List (Nat × Trie T) → Option (Trie T)
  | [] => none
  | (b, t) :: m => if b = a then some t else lookup a m

/-- the map after writing `t` at key `a` -/
def assign (a : Nat) (t : Trie T) : List (Nat × Trie T) → List (Nat × Trie T)
  | [] => [(a, t)]
  | (b, u) :: m => if b = a then (b, t) :: m else (b, u) :: assign a t m

variable [Zero T]

/-- trie.hpp:47 default constructor: value `T(0)`, no children -/
def empty : Trie T := node 0 none

/-- trie.hpp:98-108 `insert` (and `emplace`, 111-117): allocate the map and the child when missing, descend, overwrite `val` -/
def insert : List Nat → T → Trie T → Trie T
  | [], v, node _ c => node v c
  | a :: k, v, node w c =>
    let m := c.getD []
    node w (some (assign a (insert k v ((lookup a m).getD empty)) m))

/-- trie.hpp:133-149 (and 153-166 const) `get(k, def_ret)` with `NO_IND`-style default: `none` when the path is missing -/
def get? : List Nat → Trie T → Option T
  | [], t => some t.val
  | a :: k, t =>
    match t.children with
    | none => none
    | some m =>
      match lookup a m with
      | none => none
      | some c => get? k c

/-- trie.hpp:133-166 `get(k, def_ret)` -/
def getDef (k : List Nat) (d : T) (t : Trie T) : T := (get? k t).getD d

/-- trie.hpp:119-130 `get(k)` / `operator[]`: a null `children` is dereferenced (undefined behaviour), a missing letter makes
`at` throw -/
def getRef : List Nat → Trie T → Res T
  | [], t => .ok t.val
  | a :: k, t =>
    match t.children with
    | none => .error .ub
    | some m =>
      match lookup a m with
      | none => .error .thrown
      | some c => getRef k c

/-- trie.hpp:169-184 `count` -/
def count : List Nat → Trie T → Nat
  | [], _ => 1
  | a :: k, t =>
    match t.children with
    | none => 0
    | some m =>
      match lookup a m with
      | none => 0
      | some c => count k c

end Trie

end BATS
