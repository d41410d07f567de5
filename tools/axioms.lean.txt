import Verif
open Lean
/- Prints, for every property theorem, the axioms it depends on.
   Use: copy to /tmp/Ax.lean; cd /verif/lean; lake env lean /tmp/Ax.lean -/
run_cmd do
  let env ← getEnv
  let mut out : List String := []
  for (n, c) in env.constants.map₁.toList do
    if let .thmInfo _ := c then
      let s := match n with | .str _ s => s | _ => ""
      if s.length > 4 && s.startsWith "C" && (s.toList.getD 1 ' ').isDigit && (s.toList.getD 2 ' ').isDigit then
        let ax ← collectAxioms n
        out := (s!"{n}: {ax.toList.map toString |>.mergeSort}") :: out
  for s in out.mergeSort do logInfo s
