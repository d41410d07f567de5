import Verif
open Lean
def isModel (env : Environment) (n : Name) : Bool :=
  match env.getModuleIdxFor? n with
  | some i => ((env.header.moduleNames[i.toNat]!).toString.startsWith "Verif.Model")
  | none => false
partial def close (env : Environment) (seen : NameSet) : List Name → NameSet
  | [] => seen
  | n :: ns =>
    if seen.contains n then close env seen ns else
    let seen := seen.insert n
    match env.find? n with
    | some (.defnInfo d) => close env seen (d.value.getUsedConstants.toList ++ d.type.getUsedConstants.toList ++ ns)
    | some (.inductInfo d) => close env seen (d.ctors ++ ns)
    | some (.ctorInfo d) => close env seen (d.type.getUsedConstants.toList ++ ns)
    | some (.opaqueInfo d) => close env seen (d.value.getUsedConstants.toList ++ ns)
    | _ => close env seen ns
run_cmd do
  let env ← getEnv
  let mut roots : List Name := []
  for (n, c) in env.constants.map₁.toList do
    if let .thmInfo t := c then
      let s := match n with | .str _ s => s | _ => ""
      if s.length > 4 && s.startsWith "C" && (s.toList.getD 1 ' ').isDigit && (s.toList.getD 2 ' ').isDigit then
        roots := t.type.getUsedConstants.toList ++ roots
  let seen := close env {} roots
  let mut out : List String := []
  for (n, c) in env.constants.map₁.toList do
    if isModel env n && !n.isInternal then
      if let .defnInfo _ := c then
        unless seen.contains n do out := n.toString :: out
  for s in out.mergeSort do logInfo s
