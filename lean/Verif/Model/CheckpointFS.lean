import Verif.Model.Checkpoint
/-!
# Model of the file operations of the checkpoint writer

`/repo/ripsrc/history3/process/repo/writer.go:30-182` and `msgp.go:18-52` as a sequence of file system operations, each of which
is atomic. The process can be killed (or an operation can fail, which makes `Write` return) between any two of them. Loss of
power is not modelled: the code never calls `fsync`.
-/
namespace Ripsrc

/-- An operation in one directory. -/
inductive DirOp where
  | unlink (name : Str)
  | rmdir
  | mkdir
  | create (name : Str)
  | append (name : Str) (data : Str)
  | rename (frm to : Str)
deriving DecidableEq

/-- Its effect; `none`: the directory does not exist. An operation that fails has no effect. -/
def DirOp.run : Option Dir → DirOp → Option Dir
  | none, .mkdir => some []
  | none, _ => none
  | some d, .unlink n => some (GoMap.del d n)
  | some d, .rmdir => if d = [] then none else some d
  | some d, .mkdir => some d
  | some d, .create n => some (GoMap.set d n [])
  | some d, .append n x => some (match GoMap.get d n with
      | none => d
      | some c => GoMap.set d n (c ++ x))
  | some d, .rename a b => some (match GoMap.get d a with
      | none => d
      | some c => GoMap.set (GoMap.del d a) b c)

/-- The directory of checkpoints: its sub-directories `tmp` and `checkpoint`. -/
structure FS where
  tmp : Option Dir := none
  cp : Option Dir := none

/-- File system operations of the writer. `install` is `os.Rename(tmpDir, dir)`. -/
inductive FSOp where
  | tmp (o : DirOp)
  | cp (o : DirOp)
  | install
deriving DecidableEq

def FSOp.run (s : FS) : FSOp → FS
  | .tmp o => { s with tmp := o.run s.tmp }
  | .cp o => { s with cp := o.run s.cp }
  | .install => match s.tmp with
    | none => s
    | some d => if s.cp = none ∨ s.cp = some [] then { tmp := none, cp := some d } else s

def FS.exec (s : FS) (t : List FSOp) : FS := t.foldl FSOp.run s

/-- `os.RemoveAll` of a directory: nothing if it does not exist; else its files in some order, then the directory itself. -/
def removeAllOps (d : Option Dir) (names : List Str) : List DirOp :=
  match d with
  | none => []
  | some _ => names.map DirOp.unlink ++ [.rmdir]

/-- `s.loc + ".tmp"` : `/repo/ripsrc/history3/process/repo/msgp.go:25,52`. -/
def tmpName (kind : Str) : Str := kind ++ b!".tmp"

/-- The four files, in the order in which they are created and finished: `/repo/ripsrc/history3/process/repo/writer.go:49-64,146-161`. -/
def kinds : List Str := [b!"repo", b!"blames", b!"lines", b!"line-data"]

/-- What a `msgWriter` writes to its file, all in all. -/
def fileContent (gz : Gzip) (r : Records) (kind : Str) : Str :=
  if kind = b!"repo" then gz.compress r.streams.rows
  else if kind = b!"blames" then gz.compress r.streams.blames
  else if kind = b!"lines" then gz.compress r.streams.lines
  else gz.compress r.streams.lineData

/-- How the data gets written: both the gzip writer and the msgp writer have buffers, so pieces of any size are written to the files
while the repository is visited (`loop`), the rest when a file is finished (`fin`); `version` are the pieces of the version file. -/
structure Chunks where
  loop : List (Str × Str)
  fin : Str → List Str
  version : List Str

/-- The pieces make up the data. -/
structure Chunks.Ok (ch : Chunks) (gz : Gzip) (r : Records) (last : Str) : Prop where
  kinds : ∀ e ∈ ch.loop, e.1 ∈ kinds
  data : ∀ k ∈ Ripsrc.kinds, ((ch.loop.filter (fun e => decide (e.1 = k))).map (·.2)).flatten ++ (ch.fin k).flatten = fileContent gz r k
  version : ch.version.flatten = last

/-- From the creation of the files to the renaming of the version file: `/repo/ripsrc/history3/process/repo/writer.go:49-166,176-182`. -/
def bodyOps (ch : Chunks) : List DirOp :=
  kinds.flatMap (fun k => [.mkdir, .create (tmpName k)]) ++
  ch.loop.map (fun e => .append (tmpName e.1) e.2) ++
  kinds.flatMap (fun k => (ch.fin k).map (.append (tmpName k)) ++ [.rename (tmpName k) k]) ++
  ([.create (tmpName versionFile)] ++ ch.version.map (.append (tmpName versionFile)) ++ [.rename (tmpName versionFile) versionFile])

/-- All operations of `Write` : `/repo/ripsrc/history3/process/repo/writer.go:41-174`, started in state `s`. `rm1`, `rm2` are the orders
in which the two `RemoveAll` visit their directories. -/
def writeOps (s : FS) (ch : Chunks) (rm1 rm2 : List Str) : List FSOp :=
  (removeAllOps s.tmp rm1).map .tmp ++ (bodyOps ch).map .tmp ++ (removeAllOps s.cp rm2).map .cp ++ [.install]

end Ripsrc
