import Verif.Model.Process
import Verif.Model.BranchMeta
/-!
# `gitblamecommit.Blame`

Models `/repo/ripsrc/history3/process/gitblamecommit/gitblamecommit.go`: the state of one commit made from `git ls-tree` alone. (The package has no caller at this commit; it is exported.)
-/
namespace Ripsrc

/-- `listOfFiles` : `/repo/ripsrc/history3/process/gitblamecommit/gitblamecommit.go:33-51`; `out` is what `git ls-tree --name-only -r` prints, `none` if it fails. -/
def listOfFiles (out : Option Str) : Go (List Str) :=
  match out with
  | none => .error (.panic "exit status")
  | some b => .ok (splitByte 10 (trimSpace b))

/-- `Blame` : `/repo/ripsrc/history3/process/gitblamecommit/gitblamecommit.go:18-31`. The field `Commit` is not set. -/
def blameCommit (out : Option Str) : Go Files := do
  let files ← listOfFiles out
  .ok (files.foldl (fun m p => GoMap.set m p { commit := [], lines := [], isBinary := true }) [])

end Ripsrc
