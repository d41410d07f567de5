import Verif.Model.ZigzagHist
import Verif.Model.RipsDiagram
import Mathlib.Algebra.Order.Group.Defs

/-!
# Model of `zigzag_levelsets` (include/topology/levelset.hpp:235-291) for simplicial complexes

Times are elements of a linearly ordered commutative group; rounding is not modelled. The source and the target of the edges (lines 280-281) are computed
before the loops, which then read them from a diagram of windows; the loops run in an arbitrary schedule. The first loop has fuel; the theorems show when it
ends.
-/

namespace BATS
namespace Zigzag

variable {T : Type} [LinearOrder T] [AddCommGroup T]

/-- levelset.hpp:258-262, the loop from `si` on; `2*eps` is `eps + eps` -/
def windowLoop (eps t1 : T) : Nat → T → Res (List (T × T))
  | 0, _ => .error .diverge
  | f + 1, si =>
    if si < t1 - eps then do
      let r ← windowLoop eps t1 f (si + eps)
      pure ((si, si + (eps + eps)) :: (si + eps, si + eps + eps) :: r)
    else .ok []

/-- levelset.hpp:255-262: the vector `sets` -/
def windows (fuel : Nat) (eps t0 t1 : T) : Res (List (T × T)) := do
  let r ← windowLoop eps t1 fuel t0
  pure ((t0, t0 + eps) :: r)

/-- levelset.hpp:264-267, 280-281: windows, and source and target of every edge -/
def windowDiagram (sets : List (T × T)) : Diagram (T × T) Unit :=
  ⟨sets, List.replicate (sets.length - 1) (), (List.range (sets.length - 1)).map fun i => if i % 2 = 0 then (i, i + 1) else (i + 1, i)⟩

/-- levelset.hpp:246-291 `zigzag_levelsets(X, eps, t0, t1)` -/
def zigzagLevelsets (fuel : Nat) (sc : Schedule) (Φ : ZFilt T) (eps t0 t1 : T) : Res (Diagram SCpx (List (CMat Int))) := do
  let sets ← windows fuel eps t0 t1
  let D := windowDiagram sets
  let TD ← nodeLoop D (fun w => levelset Φ w.1 w.2) sc.nodes (Diagram.init D.node.length D.edata.length)
  edgeLoop D (fun nodes s t _ => do
    let X ← rd nodes s
    let Y ← rd nodes t
    SMap.inclusion X Y) sc.edges TD

end Zigzag
end BATS
