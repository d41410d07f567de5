import Verif.Spec.Filtration
import Verif.Model.GenUpdate

/-! # Specification of histories of filtrations for the general update -/

namespace BATS
variable {T : Type}

/-- the step from `Φ` to `Ψ`: same number of dimensions, no new vertices (vertices may be removed; simplices of every higher dimension may be
added and removed), and at most `top` simplices in the highest dimension -/
structure UpdateStep (top : Nat) (Φ Ψ : Filt T) : Prop where
  dim : Ψ.X.maxdim = Φ.X.maxdim
  vert : ∀ v, Ψ.X.findIdx [v] ≠ none → Φ.X.findIdx [v] ≠ none
  top : ∀ n, Ψ.X.numCells Ψ.X.maxdim = .ok n → n ≤ top

/-- a history of filtrations -/
def UpdateHist (top : Nat) : Filt T → List (Filt T) → Prop
  | _, [] => True
  | Φ, Ψ :: rest => UpdateStep top Φ Ψ ∧ UpdateHist top Ψ rest

/-- the cells `L` in the order `p` -/
def inOrder (L : List (List Nat)) (p : List Nat) : List (List Nat) := p.map (fun i => L.getD i [])

end BATS
