import Verif.Model.IterDir
import Verif.Model.CodeInfo
/-!
# The commands `ripsrc code` and `ripsrc branches`

Models `/repo/ripsrc/cmd/cmdcode/cmd.go`, `/repo/ripsrc/cmd/cmdbranches/cmd.go`, `/repo/ripsrc/cmd/cmdutils/errors.go` and `/repo/ripsrc/cmd/cmdutils/repo_run.go`. The two commands have the
same structure; `α` is what they print per record. What a repository yields is a parameter (it is the subject of the other modules). Colours, elapsed times, profiling, memory logs and the
timing statistics are not modelled.
-/
namespace Ripsrc

/-- How `ripper.CodeByCommit` or `ripper.Branches` ends: no error, an error with a text, or a panic. -/
inductive RunEnd where
  | ok | err (msg : Str) | crash
deriving DecidableEq, Repr

/-- What the command meets in one repository: the standard output of `git rev-parse HEAD`, the records that are delivered, the end of the call. -/
structure RepoRun (α : Type) where
  revParse : Str
  records : List α
  fin : RunEnd

/-- `hasHeadCommit`: `/repo/ripsrc/cmd/cmdutils/repo_run.go:38-49`. -/
def hasHeadCommit (out : Str) : Bool := (trimSpace out).length == 40

/-- What is printed. Repositories are named by their path below the directory of the command. -/
inductive CliEvent (α : Type) where
  /-- "starting processing repo" (`/repo/ripsrc/cmd/cmdutils/repo_run.go:20`) -/
  | starting (repo : RelPath)
  /-- "git rev-parse HEAD failed, happens for empty repos" (`/repo/ripsrc/cmd/cmdutils/repo_run.go:22`) -/
  | emptyRepo (repo : RelPath)
  /-- the line for a record (`/repo/ripsrc/cmd/cmdcode/cmd.go:119`, `/repo/ripsrc/cmd/cmdbranches/cmd.go:112`) -/
  | record (repo : RelPath) (r : α)
  /-- "completed repo processing in" (`/repo/ripsrc/cmd/cmdutils/repo_run.go:33`) -/
  | completed (repo : RelPath)
  /-- "completed repo processing in … err" (`/repo/ripsrc/cmd/cmdutils/repo_run.go:28`) -/
  | completedErr (repo : RelPath) (msg : Str)
  /-- "failed with error: " and `RepoError.Error()`, or another error (`/repo/ripsrc/cmd/cmdutils/errors.go:10-12`) -/
  | failedRepo (repo : RelPath) (msg : Str)
  | failedSearch (f : Fault)
  | failedNoRepos
  /-- a line per error, then "failed" (`/repo/ripsrc/cmd/cmdutils/errors.go:22-25`) -/
  | errLine (repo : RelPath) (msg : Str)
  | failed
  /-- "Warning! Skipped %v empty repos" (`/repo/ripsrc/cmd/cmdcode/cmd.go:74-76`) -/
  | warnEmpty (n : Nat)
  /-- "Finished processing repos %d entries %d" (`/repo/ripsrc/cmd/cmdcode/cmd.go:78`; `/repo/ripsrc/cmd/cmdbranches/cmd.go:75` without the entries) -/
  | finished (repos entries : Nat)
deriving DecidableEq, Repr

/-- `Stats` and `repoErrors` of `runOnDirs` with the output so far: `/repo/ripsrc/cmd/cmdcode/cmd.go:30-39`. -/
structure CliState (α : Type) where
  events : List (CliEvent α) := []
  repos : Nat := 0
  skipped : Nat := 0
  entries : Nat := 0
  errs : List (RelPath × Str) := []

/-- Does processing the repository end the program? -/
def RepoRun.crashes {α : Type} (q : RepoRun α) : Bool := hasHeadCommit q.revParse && q.fin == .crash

/-- Prints. -/
def CliState.emit {α : Type} (s : CliState α) (l : List (CliEvent α)) : CliState α := { s with events := s.events ++ l }

/-- The callback of `IterDir` with `runOnRepo` and `RunOnRepo`: `/repo/ripsrc/cmd/cmdcode/cmd.go:83-94,102-150`, `/repo/ripsrc/cmd/cmdutils/repo_run.go:18-36`. The goroutine that prints ends
when the call has closed the channel, which it does in every case. -/
def cliRepo {α : Type} (env : RelPath → RepoRun α) (s : CliState α) (p : RelPath) : CliState α :=
  let q := env p
  let s := s.emit [.starting p]
  if hasHeadCommit q.revParse = false then
    { s.emit [.emptyRepo p] with repos := s.repos + 1, skipped := s.skipped + 1 }
  else
    let s := s.emit (q.records.map (CliEvent.record p))
    match q.fin with
    | .crash => s
    | .ok => { s.emit [.completed p] with repos := s.repos + 1, entries := s.entries + q.records.length }
    | .err m => { s.emit [.completedErr p m] with repos := s.repos + 1, entries := s.entries + q.records.length, errs := s.errs ++ [(p, m)] }

/-- `ExitWithErrs`: `/repo/ripsrc/cmd/cmdutils/errors.go:14-27`: the lines and whether the program exits. One error does not exit (`ExitWithErr` prints only, errors.go:10-12). -/
def exitWithErrs {α : Type} (errs : List (RelPath × Str)) : List (CliEvent α) × Bool :=
  match errs with
  | [e] => ([.failedRepo e.1 e.2], false)
  | es => (es.map (fun e => .errLine e.1 e.2) ++ [.failed], true)

/-- The output of the command and the exit status of the program. -/
structure CliOut (α : Type) where
  events : List (CliEvent α)
  exit : Nat

/-- `Run`: `/repo/ripsrc/cmd/cmdcode/cmd.go:45-100`, `/repo/ripsrc/cmd/cmdbranches/cmd.go:42-96`. The callback never returns an error; a panic in a repository ends the program with status 2 (here: the
search stops at that repository). -/
def cliRun {α : Type} (env : RelPath → RepoRun α) (name : Str) (root : Node) : CliOut α :=
  let found := iterDir (fun _ p => !(env p).crashes) name [] 1 [] root
  let s := found.1.foldl (cliRepo env) {}
  if found.1.any (fun p => (env p).crashes) then { events := s.events, exit := 2 }
  else
    let ev := s.events ++ found.2.toList.map CliEvent.failedSearch
    let x : List (CliEvent α) × Bool := if s.errs.length ≠ 0 then exitWithErrs s.errs else ([], false)
    if x.2 then { events := ev ++ x.1, exit := 1 }
    else
      let ev := ev ++ x.1
      let ev := if s.repos = 0 then ev ++ [.failedNoRepos] else ev
      let ev := if s.skipped ≠ 0 then ev ++ [.warnEmpty s.skipped] else ev
      { events := ev ++ [.finished s.repos s.entries], exit := 0 }

/-- The fields of the line that `ripsrc code` prints for a record. -/
structure PrintedCode where
  sha8 : Str
  filename : Str
  language : Str
  license : Option License
  loc : Int
  sloc : Int
  comments : Int
  blanks : Int
  complexity : Int
  skipped : Str
  status : Option FileStatus
  author : Str
deriving DecidableEq, Repr

/-- `Commit.Author`: `/repo/ripsrc/commitmeta/commitmeta.go:69-74`. -/
def MetaCommit.author {τ : Type} (c : MetaCommit τ) : Str := if c.authorName ≠ [] then c.authorName else c.authorEmail

/-- The `Fprintf` for a record: `/repo/ripsrc/cmd/cmdcode/cmd.go:114-119`. `blanks=` is given `blame.Comments`. The status is that of the commit's file with this name (empty if there is
none). Slicing the first 8 bytes of a shorter SHA panics. The elapsed minutes and the rounding of the confidence are not modelled. -/
def printCode {τ : Type} (b : CodeRecord τ) : Go PrintedCode :=
  if b.commit.sha.length < 8 then .error (.panic "slice bounds out of range")
  else .ok {
    sha8 := b.commit.sha.take 8
    filename := b.filename
    language := b.language
    license := b.license
    loc := b.totals.lines
    sloc := b.totals.code
    comments := b.totals.comment
    blanks := b.totals.comment
    complexity := b.totals.complexity
    skipped := b.skipped
    status := (GoMap.get b.commit.files b.filename).map (·.status)
    author := b.commit.author }

end Ripsrc
