import Verif.Go.Split
/-!
# ripsrc/gitexec: `ExecWithCache`

A file system with inodes and open files, and any number of processes that call `ExecWithCache`. Each file operation is one atomic step; a process may
crash between any two of them. (`ExecWithCache` has no caller at this commit; it is exported.)
-/
namespace Ripsrc

/-- One call: the arguments, what `git rev-parse HEAD` prints (trimmed), the compressed output of the command, and whether the command fails. -/
structure GitCall where
  args : List Str
  revParse : Str
  out : Str
  fails : Bool := false

/-- `headCommit` (`/repo/ripsrc/gitexec/gitexec.go:112-123`): anything that does not have 40 bytes counts as no head. -/
def GitCall.head (c : GitCall) : Str := if c.revParse.length ≠ 40 then [] else c.revParse

/-- The text that is hashed (`/repo/ripsrc/gitexec/gitexec.go:25`); `casheVersion` is `1`. -/
def GitCall.keyText (c : GitCall) : Str := b!"1" ++ (b!"@" ++ (joinWith b!"@" c.args ++ c.head))

/-- `cacheKey` (`/repo/ripsrc/gitexec/gitexec.go:25`): the first 32 characters of the hash. -/
def GitCall.key (hash : Str → Str) (c : GitCall) : Str := (hash c.keyText).take 32

/-- A file in the cache directory: `key.txt.gz` or `key.txt.gz.tmp` (`/repo/ripsrc/gitexec/gitexec.go:27,44`). -/
structure CacheName where
  key : Str
  tmp : Bool
deriving DecidableEq, Repr

/-- The cache directory: names refer to inodes, inodes have content. -/
structure CacheFS where
  names : CacheName → Option Nat := fun _ => none
  data : Nat → Str := fun _ => []
  next : Nat := 0

/-- What a process does next. -/
inductive Phase where
  /-- before the first `os.Open` (`/repo/ripsrc/gitexec/gitexec.go:29`) -/
  | start
  /-- there was no such file (`/repo/ripsrc/gitexec/gitexec.go:33-37`) -/
  | miss
  /-- the command is running, its output goes to an open file; the bytes still to be written (`/repo/ripsrc/gitexec/gitexec.go:44,89-105`) -/
  | writing (ino off : Nat) (rem : Str)
  /-- the file was written and closed (`/repo/ripsrc/gitexec/gitexec.go:104`) -/
  | written (ino : Nat)
  /-- it was renamed (`/repo/ripsrc/gitexec/gitexec.go:49`) -/
  | renamed
  /-- the file is open for reading (`/repo/ripsrc/gitexec/gitexec.go:32,60`) -/
  | opened (ino : Nat)
  /-- the content was read -/
  | done (content : Str)
  /-- an error was returned -/
  | failed
  | crashed
deriving DecidableEq

/-- All processes, and the directory. `lossy` counts errors of the writer that were ignored. -/
structure CacheState where
  fs : CacheFS := {}
  phase : Nat → Phase := fun _ => .start
  lossy : Nat := 0

/-- Function update. -/
def upd {α β : Type} [DecidableEq α] (f : α → β) (a : α) (b : β) : α → β := fun x => if x = a then b else f x

/-- A write at an offset; a gap is filled with zeros. -/
def writeAt (d : Str) (off : Nat) (chunk : Str) : Str :=
  (d ++ List.replicate (off - d.length) 0).take off ++ chunk ++ d.drop (off + chunk.length)

/-- One step of one process. `calls i` is the call of process `i`. -/
inductive CacheStep (hash : Str → Str) (calls : Nat → GitCall) : CacheState → CacheState → Prop where
  /-- `os.Open(loc)` succeeds (`/repo/ripsrc/gitexec/gitexec.go:29-32`) -/
  | hit (s : CacheState) (i ino : Nat) (hp : s.phase i = .start) (hn : s.fs.names ⟨(calls i).key hash, false⟩ = some ino) :
      CacheStep hash calls s { s with phase := upd s.phase i (.opened ino) }
  /-- the file does not exist (`/repo/ripsrc/gitexec/gitexec.go:33-42`) -/
  | miss (s : CacheState) (i : Nat) (hp : s.phase i = .start) (hn : s.fs.names ⟨(calls i).key hash, false⟩ = none) :
      CacheStep hash calls s { s with phase := upd s.phase i .miss }
  /-- `os.Create(loc + ".tmp")` truncates an existing file (`/repo/ripsrc/gitexec/gitexec.go:90`) -/
  | createOld (s : CacheState) (i ino : Nat) (hp : s.phase i = .miss) (hn : s.fs.names ⟨(calls i).key hash, true⟩ = some ino) :
      CacheStep hash calls s { s with phase := upd s.phase i (.writing ino 0 (calls i).out), fs := { s.fs with data := upd s.fs.data ino [] } }
  /-- `os.Create` makes a new file (`/repo/ripsrc/gitexec/gitexec.go:90`) -/
  | createNew (s : CacheState) (i : Nat) (hp : s.phase i = .miss) (hn : s.fs.names ⟨(calls i).key hash, true⟩ = none) :
      CacheStep hash calls s { s with phase := upd s.phase i (.writing s.fs.next 0 (calls i).out), fs := { names := upd s.fs.names ⟨(calls i).key hash, true⟩ (some s.fs.next), data := upd s.fs.data s.fs.next [], next := s.fs.next + 1 } }
  /-- a part of the output is written at the position of the open file (`/repo/ripsrc/gitexec/gitexec.go:96-99`) -/
  | write (s : CacheState) (i ino off : Nat) (chunk rem : Str) (hp : s.phase i = .writing ino off (chunk ++ rem)) :
      CacheStep hash calls s { s with phase := upd s.phase i (.writing ino (off + chunk.length) rem), fs := { s.fs with data := upd s.fs.data ino (writeAt (s.fs.data ino) off chunk) } }
  /-- the command ends well, the writers are closed by the deferred calls (`/repo/ripsrc/gitexec/gitexec.go:91,97,104`) -/
  | close (s : CacheState) (i ino off : Nat) (hp : s.phase i = .writing ino off []) (hf : (calls i).fails = false) :
      CacheStep hash calls s { s with phase := upd s.phase i (.written ino) }
  /-- the command ends well, but the deferred `gw.Close()` cannot write the rest: its error is ignored (`/repo/ripsrc/gitexec/gitexec.go:97`) -/
  | closeLossy (s : CacheState) (i ino off : Nat) (rem : Str) (hp : s.phase i = .writing ino off rem) (hr : rem ≠ []) (hf : (calls i).fails = false) :
      CacheStep hash calls s { s with phase := upd s.phase i (.written ino), lossy := s.lossy + 1 }
  /-- the command fails (`/repo/ripsrc/gitexec/gitexec.go:45-47`) -/
  | gitFails (s : CacheState) (i ino off : Nat) (rem : Str) (hp : s.phase i = .writing ino off rem) (hf : (calls i).fails = true) :
      CacheStep hash calls s { s with phase := upd s.phase i .failed }
  /-- `os.Rename(loc + ".tmp", loc)` (`/repo/ripsrc/gitexec/gitexec.go:49`) -/
  | rename (s : CacheState) (i ino ino' : Nat) (hp : s.phase i = .written ino) (hn : s.fs.names ⟨(calls i).key hash, true⟩ = some ino') :
      CacheStep hash calls s { s with phase := upd s.phase i .renamed, fs := { s.fs with names := upd (upd s.fs.names ⟨(calls i).key hash, false⟩ (some ino')) ⟨(calls i).key hash, true⟩ none } }
  /-- somebody else has renamed it (`/repo/ripsrc/gitexec/gitexec.go:50-52`) -/
  | renameFails (s : CacheState) (i ino : Nat) (hp : s.phase i = .written ino) (hn : s.fs.names ⟨(calls i).key hash, true⟩ = none) :
      CacheStep hash calls s { s with phase := upd s.phase i .failed }
  /-- the second `os.Open(loc)` (`/repo/ripsrc/gitexec/gitexec.go:56-60`) -/
  | reopen (s : CacheState) (i ino : Nat) (hp : s.phase i = .renamed) (hn : s.fs.names ⟨(calls i).key hash, false⟩ = some ino) :
      CacheStep hash calls s { s with phase := upd s.phase i (.opened ino) }
  /-- the caller reads the file -/
  | read (s : CacheState) (i ino : Nat) (hp : s.phase i = .opened ino) :
      CacheStep hash calls s { s with phase := upd s.phase i (.done (s.fs.data ino)) }
  /-- the process dies -/
  | crash (s : CacheState) (i : Nat) : CacheStep hash calls s { s with phase := upd s.phase i .crashed }

end Ripsrc
