import Verif.Model.SetVector

/-! # Specification of `SetVector` -/

namespace BATS
namespace SetVec
variable {F : Type}

/-- the indices increase: the state of a `std::set` of pairs compared by index -/
def Inc (L : List (Nat × F)) : Prop := L.Pairwise (fun p q => p.1 < q.1)

/-- the vector stored as `L` has the coordinates `f`: the pair `(i, f i)` is stored, or no pair with index `i` is stored and `f i = 0` -/
def IsVec [Zero F] (L : List (Nat × F)) (f : Nat → F) : Prop := ∀ i, (i, f i) ∈ L ∨ ((∀ p ∈ L, p.1 ≠ i) ∧ f i = 0)

/-- no explicit zero is stored -/
def NoZero [Zero F] (L : List (Nat × F)) : Prop := ∀ p ∈ L, p.2 ≠ 0

/-- calls on a `SetVector` -/
inductive Op (F : Type) where
  | set (i : Nat) (v : F)
  | permute (perm : List Nat)
  | axpy (a : F) (x : SetVec F)

/-- the arguments are allowed: no index twice in a permutation, increasing indices in a vector -/
def Op.Ok : Op F → Prop
  | .set _ _ => True
  | .permute perm => perm.Nodup
  | .axpy _ x => Inc x

/-- one call in the program -/
def Op.run [Field F] [DecidableEq F] (L : SetVec F) : Op F → Res (SetVec F)
  | .set i v => .ok (SetVec.set (i, v) L)
  | .permute perm => SetVec.permute perm L
  | .axpy a x => .ok (SetVec.axpy a x L)

/-- what one call does to the coordinates `f` (`f'` are the coordinates after it) -/
def Op.Means [Field F] (f f' : Nat → F) : Op F → Prop
  | .set i v => ∀ k, f' k = if k = i then v else f k
  | .permute perm => (∀ i (h : i < perm.length), f' perm[i] = f i) ∧ ∀ k, k ∉ perm → f' k = 0
  | .axpy a x => ∃ g, IsVec x g ∧ ∀ k, f' k = f k + a * g k

/-- the coordinates after a list of calls -/
inductive Runs [Field F] : (Nat → F) → List (Op F) → (Nat → F) → Prop
  | nil (f) : Runs f [] f
  | cons {f f' f'' : Nat → F} {o : Op F} {os : List (Op F)} : o.Means f f' → Runs f' os f'' → Runs f (o :: os) f''

end SetVec
end BATS
