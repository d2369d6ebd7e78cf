import Verif.Model.Incblame
/-!
# Model of package `process/parser` (the `git log -p` parser)

The channel of commits is modelled by the list of commits sent so far.
-/
namespace Ripsrc

/-- `Commit` : `/repo/ripsrc/history3/process/parser/parser.go:34-39`. `Parents` is never set by the parser and omitted;
a `Change` is its `Diff` bytes (lines 52-54). -/
structure LogCommit where
  hash : Str := []
  mergeDiffFrom : Str := []
  changes : List Str := []
deriving DecidableEq, Repr

/-- States: `/repo/ripsrc/history3/process/parser/parser.go:24-32`. -/
inductive LState where
  | notStarted
  | parentsNext
  | skipAuthor
  | skippingMessageDiffOrCommitNext
  | inDiff
  | commitNext
deriving DecidableEq, Repr

/-- `Parser` : `/repo/ripsrc/history3/process/parser/parser.go:11-22`. -/
structure LogParser where
  state : LState := .notStarted
  commit : LogCommit := {}
  diff : Str := []
  out : List LogCommit := []
deriving DecidableEq, Repr

/-- `maxLine` : `/repo/ripsrc/history3/process/parser/parser.go:65-66`. -/
def logMaxLine : Nat := 100 * (1000 * 1000)

/-- `isDiffStart` : `/repo/ripsrc/history3/process/parser/parser.go:159-161`. -/
def isDiffStart (b : Str) : Bool := decide (b.length > 4) && decide (b.take 4 = b!"diff")

/-- `startDiff` : `/repo/ripsrc/history3/process/parser/parser.go:138-143`. -/
def LogParser.startDiff (s : LogParser) (b : Str) : LogParser := { s with state := .inDiff, diff := b ++ [10] }

/-- `endDiff` : `/repo/ripsrc/history3/process/parser/parser.go:145-149`. -/
def LogParser.endDiff (s : LogParser) : LogParser :=
  { s with commit := { s.commit with changes := s.commit.changes ++ [s.diff] } }

/-- `endCommit` : `/repo/ripsrc/history3/process/parser/parser.go:151-157`. -/
def LogParser.endCommit (s : LogParser) : LogParser :=
  let s := if s.state = .inDiff then s.endDiff else s
  { s with state := .commitNext, out := s.out ++ [s.commit] }

/-- `parseCommitLine` : `/repo/ripsrc/history3/process/parser/parser.go:163-183`. -/
def LogParser.parseCommitLine (s : LogParser) (b : Str) : Go LogParser :=
  if startsWith b b!"commit " = false then .error (.panic "no 'commit ' prefix")
  else
    let data := b.drop 7
    if data.contains 32 = false then .ok { s with commit := { hash := data }, state := .parentsNext }
    else
      let i := data.idxOf 32
      let p1 := data.drop (i + 1)
      if p1.length < 7 then .error (.panic "slice bounds out of range")
      else .ok { s with
        commit := { hash := data.take i, mergeDiffFrom := (p1.drop 6).dropLast }
        state := .parentsNext }

/-- `line` : `/repo/ripsrc/history3/process/parser/parser.go:91-136`. The two places where the method calls itself after
changing the state (lines 97 and 116) are unfolded. -/
def LogParser.line (s : LogParser) (b : Str) : Go LogParser :=
  match s.state with
  | .notStarted => s.parseCommitLine b
  | .parentsNext =>
    if startsWith b b!"Merge: " then .ok s
    else .ok { s with state := .skippingMessageDiffOrCommitNext }
  | .skipAuthor => .ok { s with state := .skippingMessageDiffOrCommitNext }
  | .skippingMessageDiffOrCommitNext =>
    match b with
    | [] => .ok s
    | c :: _ =>
      if c = 32 then .ok s
      else if isDiffStart b then .ok (s.startDiff b)
      else if startsWith b b!"commit " then s.endCommit.parseCommitLine b
      else .error (.panic "stSkippingMessageDiffOrCommitNext unexpected line")
  | .inDiff =>
    if b.length = 0 then .ok s.endCommit
    else if isDiffStart b then .ok (s.endDiff.startDiff b)
    else .ok { s with diff := s.diff ++ b ++ [10] }
  | .commitNext => s.parseCommitLine b

/-- `Run` : `/repo/ripsrc/history3/process/parser/parser.go:68-89`: the commits sent on the channel and the returned
error. A panic is an `error` of the model. -/
def parseLog (text : Str) : Go (List LogCommit) := do
  let (lines, tooLong) := scan logMaxLine text
  let s ← lines.foldlM LogParser.line {}
  if tooLong then .error (.error "bufio.Scanner: token too long")
  else if s.state ≠ .notStarted then .ok s.endCommit.out
  else .ok s.out

end Ripsrc
