import Verif.Go.Map
import Verif.Go.Cut
import Verif.Go.Num
import Verif.Model.BranchMeta
/-!
# The commit metadata parser

Models `/repo/ripsrc/commitmeta/commitmeta.go`: the line parser of `git log -c --raw --numstat` and the notation of renames.
The date parser (`time.Parse(time.RFC3339, ..)`) is an arbitrary partial function. The channel `filejobs` is in
`Model/FileJobs.lean`; `limit` is never set in the code, so the branch on it is not modelled.
-/
namespace Ripsrc

/-- `CommitStatus`: `/repo/ripsrc/commitmeta/commitmeta.go:90-100`. -/
inductive FileStatus where
  | added | modified | removed
deriving DecidableEq, Repr

/-- `CommitFile`: `/repo/ripsrc/commitmeta/commitmeta.go:77-88`. -/
structure CommitFile where
  filename : Str := []
  status : FileStatus
  renamed : Bool := false
  copied : Bool := false
  renamedFrom : Str := []
  renamedTo : Str := []
  copiedFrom : Str := []
  additions : Int := 0
  deletions : Int := 0
  binary : Bool := false
deriving DecidableEq, Repr

/-- `Commit`: `/repo/ripsrc/commitmeta/commitmeta.go:50-66`. `date` is `none` for the zero time. -/
structure MetaCommit (τ : Type) where
  sha : Str
  ordinal : Nat
  parents : List Str := []
  authorName : Str := []
  authorEmail : Str := []
  committerName : Str := []
  committerEmail : Str := []
  date : Option τ := none
  message : Str := []
  files : GoMap Str CommitFile := []
deriving DecidableEq, Repr

/-- `toCommitStatus`: `/repo/ripsrc/commitmeta/commitmeta.go:238-248`. -/
def toCommitStatus (a : Str) : Go FileStatus :=
  if a = b!"A" then .ok .added
  else if a = b!"D" then .ok .removed
  else if a = b!"M" ∨ a = b!"R" ∨ a = b!"C" ∨ a = b!"MM" ∨ a = b!"T" then .ok .modified
  else .error (.panic "unknown commit status")

/-- The submatches of `renameRe`, `(.*)\{(.*) => (.*)\}(.*)`: `/repo/ripsrc/commitmeta/commitmeta.go:235`. All groups are
greedy, so each takes the longest text for which the rest still matches. Names contain no newline. -/
def renameMatch (fn : Str) : Option (Str × Str × Str × Str) :=
  (greedyCut b!"{" (greedyCut b!" => " (greedyCut b!"}" some)) fn)

/-- `getFilename`: `/repo/ripsrc/commitmeta/commitmeta.go:273-289`. Result: new name, old name, renamed. -/
def getFilename (fn : Str) : Str × Str × Bool :=
  match renameMatch fn with
  | some (m1, m2, m3, m4) => (pathJoin [m1, m3, m4], pathJoin [m1, m2, m4], true)
  | none =>
    match cut b!" => " fn with
    | none => (fn, fn, false)
    | some (s0, r) =>
      match cut b!" => " r with
      | none => (r, s0, true)
      | some (s1, _) => (s1, s0, true)

/-- `strconv.ParseInt(s, 10, 32)` with the error ignored: the value, clipped to the range on overflow, `0` for bad syntax. -/
def parseInt32 (s : Str) : Int :=
  match s with
  | 45 :: r => match parseNat r with
    | some n => if n ≤ 2 ^ 31 then -(n : Int) else -(2 ^ 31 : Int)
    | none => 0
  | 43 :: r => match parseNat r with
    | some n => if n < 2 ^ 31 then (n : Int) else 2 ^ 31 - 1
    | none => 0
  | s => match parseNat s with
    | some n => if n < 2 ^ 31 then (n : Int) else 2 ^ 31 - 1
    | none => 0

/-- `parserState`: `/repo/ripsrc/commitmeta/commitmeta.go:312-319`. -/
inductive MetaState where
  | header | files | numStats | diff
deriving DecidableEq, Repr

/-- `parser`: `/repo/ripsrc/commitmeta/commitmeta.go:321-330`; `sent` is what was sent on the channel. -/
structure MetaParser (τ : Type) where
  commit : Option (MetaCommit τ) := none
  ordinal : Nat := 0
  state : MetaState := .header
  sent : List (MetaCommit τ) := []

/-- `bytes.TrimLeft(s, " ")`. -/
def trimLeftSpaces (s : Str) : Str := s.dropWhile (fun b => b = 32)

/-- The commit with one more file. -/
def MetaCommit.putFile {τ : Type} (c : MetaCommit τ) (fn : Str) (f : CommitFile) : MetaCommit τ :=
  { c with files := c.files.set fn f }

/-- `i`-th path; index out of range panics. -/
def idx (l : List Str) (i : Nat) : Go Str :=
  match l[i]? with
  | some x => .ok x
  | none => .error (.panic "index out of range")

/-- A raw line `:100644 100644 d1a0.. a452.. M<tab>path`: `/repo/ripsrc/commitmeta/commitmeta.go:411-474`. -/
def metaRawLine {τ : Type} (c : MetaCommit τ) (buf : Str) : Go (MetaCommit τ) := do
  let tok1 := splitByte 32 buf
  let mask ← idx tok1 1
  if ¬ (mask = b!"100644" ∨ mask = b!"100755") ∧ mask ≠ b!"000000" then .ok c
  else if tok1.length < 4 then .error (.panic "slice bounds out of range")
  else
    let tok2 := splitByte 9 (joinWith b!" " (tok1.drop 4))
    let action := tok2.headD []
    let paths := tok2.drop 1
    if action.length = 1 then
      let p0 ← idx paths 0
      let fn := trimLeftSpaces p0
      let st ← toCommitStatus action
      .ok (c.putFile fn { filename := fn, status := st })
    else if startsWith action b!"R" then
      let p0 ← idx paths 0
      let p1 ← idx paths 1
      let fromFn := trimLeftSpaces p0
      let toFn := trimLeftSpaces p1
      let c := c.putFile fromFn { filename := fromFn, status := .removed, renamed := true, renamedFrom := fromFn, renamedTo := toFn }
      .ok (c.putFile toFn { filename := toFn, status := .added, renamed := true, renamedFrom := fromFn, renamedTo := toFn })
    else if startsWith action b!"C" then
      let p0 ← idx paths 0
      let p1 ← idx paths 1
      let fromFn := trimLeftSpaces p0
      let toFn := trimLeftSpaces p1
      .ok (c.putFile toFn { filename := toFn, status := .added, copied := true, copiedFrom := fromFn })
    else
      let p0 ← idx paths 0
      let fn := trimLeftSpaces p0
      let st ← toCommitStatus action
      .ok (c.putFile fn { filename := fn, status := st })

/-- A numstat line: `/repo/ripsrc/commitmeta/commitmeta.go:480-505`; `tok` are its three fields. -/
def metaNumStat {τ : Type} (c : MetaCommit τ) (a d name : Str) : MetaCommit τ :=
  let fn := (getFilename name).1
  let file := (c.files.get fn).getD { filename := fn, status := .modified }
  let file := if a = b!"-" then { file with binary := true }
    else { file with additions := parseInt32 a, deletions := parseInt32 d }
  c.putFile fn file

/-- The nil-pointer dereference of `p.commit`. -/
def needCommit {τ : Type} (p : MetaParser τ) : Go (MetaCommit τ) :=
  match p.commit with
  | some c => .ok c
  | none => .error (.panic "nil pointer dereference")

/-- The header state of `parse`: `/repo/ripsrc/commitmeta/commitmeta.go:339-409`. -/
def metaHeader {τ : Type} (parseDate : Str → Option τ) (p : MetaParser τ) (buf : Str) : Go (MetaParser τ) := do
  if startsWith buf b!"!SHA: " then
    let sha0 := buf.drop 6
    let sha := match cut b!" " sha0 with
      | some (a, _) => if a = [] then sha0 else a
      | none => sha0
    let sent := match p.commit with
      | some c => if c.sha ≠ [] then p.sent ++ [c] else p.sent
      | none => p.sent
    .ok { p with sent := sent, ordinal := p.ordinal + 1, commit := some { sha := sha, ordinal := p.ordinal + 1 } }
  else
    let p ← (if startsWith buf b!"!Parents: " ∧ buf.drop 10 ≠ [] then do
        let c ← needCommit p
        .ok { p with commit := some { c with parents := splitByte 32 (buf.drop 10) } }
      else .ok p : Go (MetaParser τ))
    if startsWith buf b!"!Date: " then
      match parseDate (trimSpace (buf.drop 7)) with
      | none => do
        let _ ← needCommit p
        .error (.error "error parsing commit")
      | some t =>
        let c ← needCommit p
        .ok { p with commit := some { c with date := some t } }
    else if startsWith buf b!"!Author: " then
      let c ← needCommit p
      .ok { p with commit := some { c with authorEmail := buf.drop 9 } }
    else if startsWith buf b!"!AName: " then
      let c ← needCommit p
      .ok { p with commit := some { c with authorName := buf.drop 8 } }
    else if startsWith buf b!"!Committer: " then
      let c ← needCommit p
      .ok { p with commit := some { c with committerEmail := buf.drop 12 } }
    else if startsWith buf b!"!CName: " then
      let c ← needCommit p
      .ok { p with commit := some { c with committerName := buf.drop 8 } }
    else if startsWith buf b!"!Message: " then
      let c ← needCommit p
      .ok { p with commit := some { c with message := buf.drop 10 }, state := .files }
    else .ok p

/-- The diff state: `/repo/ripsrc/commitmeta/commitmeta.go:510-514`. -/
def metaDiff {τ : Type} (parseDate : Str → Option τ) (p : MetaParser τ) (buf : Str) : Go (MetaParser τ) :=
  if startsWith buf b!"!" then metaHeader parseDate { p with state := .header } buf else .ok p

/-- The numstat state: `/repo/ripsrc/commitmeta/commitmeta.go:477-509`. -/
def metaNumStats {τ : Type} (parseDate : Str → Option τ) (p : MetaParser τ) (buf : Str) : Go (MetaParser τ) :=
  match splitByte 9 buf with
  | [a, d, name] => do
    let c ← needCommit p
    .ok { p with commit := some (metaNumStat c a d name) }
  | _ => metaDiff parseDate { p with state := .diff } buf

/-- The files state: `/repo/ripsrc/commitmeta/commitmeta.go:410-476`. -/
def metaFiles {τ : Type} (parseDate : Str → Option τ) (p : MetaParser τ) (buf : Str) : Go (MetaParser τ) :=
  if startsWith buf b!":" then do
    let c ← needCommit p
    let c ← metaRawLine c buf
    .ok { p with commit := some c }
  else metaNumStats parseDate { p with state := .numStats } buf

/-- `parse`: `/repo/ripsrc/commitmeta/commitmeta.go:332-519`. The `for` loop with `continue` falls through the states at most
once each. -/
def metaParse {τ : Type} (parseDate : Str → Option τ) (p : MetaParser τ) (line : Str) : Go (MetaParser τ) :=
  if line = [] then .ok p
  else match p.state with
    | .header => metaHeader parseDate p line
    | .files => metaFiles parseDate p line
    | .numStats => metaNumStats parseDate p line
    | .diff => metaDiff parseDate p line

/-- Commits sent to the channel, and the fault if any. -/
abbrev MetaOut (τ : Type) := List (MetaCommit τ) × Option Fault

/-- The scanning loop of `Run`: `/repo/ripsrc/commitmeta/commitmeta.go:157-169`. On a fault the commits already sent have been
delivered. -/
def metaLoop {τ : Type} (parseDate : Str → Option τ) (p : MetaParser τ) : List Str → MetaOut τ
  | [] => (match p.commit with
      | some c => if c.sha ≠ [] then p.sent ++ [c] else p.sent
      | none => p.sent, none)
  | l :: ls => match metaParse parseDate p l with
    | .ok p' => metaLoop parseDate p' ls
    | .error f => (p.sent, some f)

/-- The limit of a default `bufio.Scanner`: `bufio.MaxScanTokenSize`. -/
def metaMaxLine : Nat := 65536

/-- `Run` on the output of git: `/repo/ripsrc/commitmeta/commitmeta.go:135-172`. The scanner's error is not looked at. -/
def metaRun {τ : Type} (parseDate : Str → Option τ) (text : Str) : MetaOut τ :=
  metaLoop parseDate {} (scan metaMaxLine text).1

end Ripsrc
