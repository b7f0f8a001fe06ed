import Verif
import Lean.Elab.Command
/-! Prints, for every property theorem, the declarations of the project it depends on (used by seed.py). -/
open Lean
partial def visit (env : Environment) (acc : NameSet) (n : Name) : NameSet :=
  if acc.contains n || !(`Dsrg).isPrefixOf n then acc else
  match env.find? n with
  | none => acc
  | some c => c.getUsedConstantsAsSet.toList.foldl (visit env) (acc.insert n)
run_cmd do
  let env ← getEnv
  for (n, _) in env.constants.map₁.toList do
    if (`Dsrg).isPrefixOf n && !n.isInternal then
      let s := n.getString!.toList
      if s.head? == some (Char.ofNat 67) && ((s.drop 1).take 2).all Char.isDigit then
        if s.length > 4 then
          let d := visit env {} n
          IO.println s!"DEP {n} {",".intercalate (d.toList.map toString)}"
