import Verif.Spec.Persistence

/-!
# Specification: subcomplexes, their homology, relative homology

`inds k` lists cells of dimension `k`.
-/

namespace BATS

variable {F : Type _} [Field F]

/-- the listed cells of dimension `k` -/
def listed (B : List (CMat F)) (inds : List (List Nat)) (k : Nat) : Set (Fin (cdim B k)) := {i | i.val ∈ inds.getD k []}

/-- `inds` lists, in each dimension, distinct existing cells, and with every cell the cells of its boundary -/
structure IsSubcomplex (B : List (CMat F)) (inds : List (List Nat)) : Prop where
  len : inds.length = B.length
  lt : ∀ k, ∀ i ∈ inds.getD k [], i < cdim B k
  nodup : ∀ k, (inds.getD k []).Nodup
  closed : ∀ (k : Nat) (i : Fin (cdim B k)) (j : Fin (cdim B (k + 1))), j.val ∈ inds.getD (k + 1) [] → bdryUp B k i j ≠ 0 → i.val ∈ inds.getD k []

/-- cycles of the subcomplex -/
def subCycles (B : List (CMat F)) (inds : List (List Nat)) (k : Nat) : Submodule F (Fin (cdim B k) → F) :=
  cycles B k ⊓ supported (listed B inds k)

/-- boundaries of the subcomplex -/
def subBoundaries (B : List (CMat F)) (inds : List (List Nat)) (k : Nat) : Submodule F (Fin (cdim B k) → F) :=
  (supported (listed B inds (k + 1))).map (bdryUp B k).mulVecLin

/-- homology of the subcomplex -/
abbrev SubHomology (B : List (CMat F)) (inds : List (List Nat)) (k : Nat) : Type _ :=
  subCycles B inds k ⧸ (subBoundaries B inds k).submoduleOf (subCycles B inds k)

/-- relative cycles: chains whose boundary lies in the subcomplex -/
def relCycles (B : List (CMat F)) (inds : List (List Nat)) : (k : Nat) → Submodule F (Fin (cdim B k) → F)
  | 0 => cycles B 0
  | k + 1 => (supported (listed B inds k)).comap (bdryUp B k).mulVecLin

/-- relative boundaries: boundaries plus chains of the subcomplex -/
def relBoundaries (B : List (CMat F)) (inds : List (List Nat)) (k : Nat) : Submodule F (Fin (cdim B k) → F) :=
  boundaries B k ⊔ supported (listed B inds k)

/-- relative homology -/
abbrev RelHomology (B : List (CMat F)) (inds : List (List Nat)) (k : Nat) : Type _ :=
  relCycles B inds k ⧸ (relBoundaries B inds k).submoduleOf (relCycles B inds k)

end BATS
