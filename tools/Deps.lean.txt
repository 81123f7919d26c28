/- Prints, for every theorem of the project, the project theorems its proof uses (transitively).
Run with `lake env lean ../tools/Deps.lean` from /verif/lean. -/
import Verif
import Lean
open Lean

def run : CoreM Unit := do
  let env ← getEnv
  let isOurs (n : Name) : Bool :=
    match env.getModuleIdxFor? n with
    | some i => (env.header.moduleNames[i.toNat]!).getRoot == `Verif
    | none => false
  let mut direct : NameMap (Array Name) := {}
  for (n, c) in env.constants.map₁.toList do
    if isOurs n then
      let us := (c.getUsedConstantsAsSet.toArray).filter isOurs
      direct := direct.insert n us
  for (n, _) in direct.toList do
    if let some (.thmInfo _) := env.find? n then
      let mut seen : NameSet := {}
      let mut todo : Array Name := #[n]
      while todo.size > 0 do
        let m := todo.back!
        todo := todo.pop
        for u in (direct.find? m).getD #[] do
          unless seen.contains u do
            seen := seen.insert u
            todo := todo.push u
      let thms := seen.toList.filter fun m => match env.find? m with
        | some (.thmInfo _) => true
        | _ => false
      let names := thms.map fun m => (privateToUserName m).toString
      IO.println s!"{privateToUserName n}\t{" ".intercalate names}"
#eval run
