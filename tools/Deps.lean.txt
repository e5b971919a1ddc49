import Verif
import Lean
open Lean
/- Prints, for every constant of the development, the constants of the development its type and value mention. -/
run_cmd do
  let env ← getEnv
  let mut out := ""
  for (n, c) in env.constants.map₁.toList do
    if (`PyV).isPrefixOf (privateToUserName n) then
      let used := (c.type.getUsedConstants ++ (c.value? (allowOpaque := true)).elim #[] (·.getUsedConstants)).filter (fun m => (`PyV).isPrefixOf (privateToUserName m))
      out := out ++ s!"{n}\t{" ".intercalate (used.toList.eraseDups.map toString)}\n"
  IO.FS.writeFile "/tmp/scratch/deps.tsv" out
