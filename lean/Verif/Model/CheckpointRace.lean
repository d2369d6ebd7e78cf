import Verif.Model.CheckpointFS
/-!
# Model of a checkpoint directory used by two processes at once

`CheckpointFS` models the operations of one writer, which nothing disturbs. Here other operations may happen in between: a reader sees the directory at different
moments, and an operation of a writer may fail.
-/
namespace Ripsrc

/-- `CheckpointReader.Read` : `/repo/ripsrc/history3/process/repo/reader.go:34-177`, when the directory `checkpoint` changes meanwhile: `at_ i` is the directory at the
moment when the `i`-th file is opened. Files are opened by name, one after the other (`reader.go:39,57-72`, `msgp.go:66`); once open, a file keeps its content, as the writer only
removes or renames files of `checkpoint` and does not write to them. -/
def readAt (gz : Gzip) (at_ : Nat → Option Dir) (expectedCommit : Str) : Go Repo := do
  checkVersion ((at_ 0).getD []) expectedCommit
  let rows ← openMsg gz ((at_ 1).getD []) b!"repo"
  let blames ← openMsg gz ((at_ 2).getD []) b!"blames"
  let lines ← openMsg gz ((at_ 3).getD []) b!"lines"
  let lineData ← openMsg gz ((at_ 4).getD []) b!"line-data"
  readStreams { rows := rows, blames := blames, lines := lines, lineData := lineData }

/-- The operation succeeds: `os.Create`, `os.Rename` and writing need the directory and the file, `os.MkdirAll` and `os.RemoveAll` do not, except that `RemoveAll` cannot
remove a directory that is not empty. `/repo/ripsrc/history3/process/repo/writer.go:41-174`, `msgp.go:18-52`. -/
def DirOp.Succeeds : Option Dir → DirOp → Prop
  | _, .mkdir => True
  | _, .unlink _ => True
  | d, .rmdir => d = none ∨ d = some []
  | d, .create _ => d ≠ none
  | d, .append n _ => GoMap.get (d.getD []) n ≠ none
  | d, .rename a _ => GoMap.get (d.getD []) a ≠ none

/-- The same for the two directories. `os.Rename` of a directory needs the directory, and an empty or missing target. -/
def FSOp.Succeeds (s : FS) : FSOp → Prop
  | .tmp o => o.Succeeds s.tmp
  | .cp o => o.Succeeds s.cp
  | .install => s.tmp ≠ none ∧ (s.cp = none ∨ s.cp = some [])

/-- All operations succeed, executed in turn. When an operation fails, `Write` returns its error (`writer.go:42,50,54,58,62,147-174`). -/
def FS.AllSucceed : FS → List FSOp → Prop
  | _, [] => True
  | s, o :: t => o.Succeeds s ∧ FS.AllSucceed (o.run s) t

end Ripsrc
