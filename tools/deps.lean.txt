import Verif
import Lean
open Lean
run_cmd do
  let env ← getEnv
  let mut out := ""
  for (n, c) in env.constants.map₁.toList do
    match env.getModuleIdxFor? n with
    | some i =>
      let m := env.header.moduleNames[i.toNat]!
      if m.getRoot == `Verif then
        let used := c.type.getUsedConstantsAsSet.toList ++ (match c.value? (allowOpaque := true) with | some v => v.getUsedConstantsAsSet.toList | none => [])
        let used := used.filter fun u => match env.getModuleIdxFor? u with
          | some j => (env.header.moduleNames[j.toNat]!).getRoot == `Verif
          | none => false
        out := out ++ s!"{n}\t{m}\t{" ".intercalate (used.map toString)}\n"
    | none => pure ()
  IO.FS.writeFile "/tmp/deps.tsv" out
