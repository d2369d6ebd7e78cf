import Verif.Model.Conc
import Verif.Model.CodeInfo
import Verif.Model.GitLog
/-!
# The goroutines of `Code` and `CodeSlice`

Five goroutines: the caller (which executes `CodeSlice`, `Code`, `CodeByCommit` and `Process.Run`, one inside the other), the log parser started by `Run`, the
goroutine of `CodeByCommit` that turns results into records, the goroutine of `Code` that flattens, the goroutine of `CodeSlice` that collects.
-/
namespace Ripsrc
open Conc (Act State)

/-- The loop of the log parser over the lines (`/repo/ripsrc/history3/process/parser/parser.go:76-79`), with the commits that were sent before a failure. -/
def LogParser.lines (s : LogParser) : List Str → LogParser × Option Fault
  | [] => (s, none)
  | b :: bs => match s.line b with
    | .ok s => s.lines bs
    | .error e =>
      -- lines 114-117: the commit is sent, then the line is examined
      if s.state = .skippingMessageDiffOrCommitNext ∧ startsWith b b!"commit " = true then (s.endCommit, some e) else (s, some e)

/-- `Run` of the log parser (`/repo/ripsrc/history3/process/parser/parser.go:68-89`): the commits that it sends, and its panic or error. -/
def parseSent (text : Str) : List LogCommit × Option Fault :=
  let (lines, tooLong) := scan logMaxLine text
  match LogParser.lines {} lines with
  | (s, some e) => (s.out, some e)
  | (s, none) =>
    if tooLong then (s.out, some (.error "bufio.Scanner: token too long"))
    else if s.state ≠ .notStarted then (s.endCommit.out, none)
    else (s.out, none)

/-- The inputs of a call of `CodeSlice`: `pre` is the error of `prepareGitExec`, `buildCommitGraph` or `getCommitInfo` (code.go:97-141), `openErr` the error of
`gitLogPatches` (process.go:151-154), `text` the log, `writeErr` the error of the checkpoint writer (a panic while preparing: Model/Unwind.lean). -/
structure Pipe (τ : Type) where
  pre : Option String := none
  openErr : Option String := none
  env : Env
  opts : RunOpts
  read : Str → Go Repo
  graph : Graph
  text : Str
  writeErr : Option String := none
  cl : Classifier
  scc : Str → Str → Str → SccRun
  orders : Nat → Files → Files
  metas : GoMap Str (MetaCommit τ)

/-- The goroutines. -/
inductive PRole where
  | caller | parser | code | flat | collect
deriving DecidableEq, Repr

/-- The channels: `res` of `Code` (code.go:195), `res2` of `Code` (code.go:67), `gitRes` (code.go:143), `commits` (process.go:158), the channels `done` of `Run`
(process.go:161), `CodeByCommit` (code.go:144), `Code` (code.go:68), `CodeSlice` (code.go:196), and the channel `Blames` of the `i`-th commit (code.go:150). -/
inductive PChan where
  | res | res2 | gitRes | commits | doneRun | doneByCommit | doneCode | doneSlice
  | blames (i : Nat)
deriving DecidableEq, Repr

/-- The values on the channels. -/
inductive PVal (τ : Type) where
  | commit (c : LogCommit)
  | result (r : Result)
  | commitCode (c : MetaCommit τ) (blames : Nat)
  | record (r : CodeRecord τ)
  | true
  | slice (rs : List (CodeRecord τ))

/-- What `Run` does after it has sent results: go on with the loop, drain the log parser and return an error, panic, or end (after the checkpoint was written). -/
inductive PAfter where
  | loop (s : Proc)
  | drain (e : Fault)
  | panic
  | end (w : Option (Repo × Str)) (e : Option Fault)

/-- The control states. `w` is the checkpoint that was written, `e` the error that is being returned. -/
inductive PLoc (τ : Type) where
  -- the caller
  | cSlice | cCode | cByCommit | cRun
  | loop (st : Option Proc)
  | sending (rs : List Result) (k : PAfter)
  | drain (e : Fault)
  | joinRun (w : Option (Repo × Str)) (e : Option Fault)
  | closeGitRes (w : Option (Repo × Str)) (e : Option Fault)
  | joinByCommit (w : Option (Repo × Str)) (e : Option Fault)
  | closeRes2 (w : Option (Repo × Str)) (e : Option Fault)
  | joinCode (w : Option (Repo × Str)) (e : Option Fault)
  | closeRes (w : Option (Repo × Str)) (e : Option Fault)
  | joinSlice (w : Option (Repo × Str)) (e : Option Fault)
  | returned (w : Option (Repo × Str)) (e : Option Fault) (res : List (CodeRecord τ))
  -- the log parser
  | parse (todo : List LogCommit) | parseDone | parsed
  -- the goroutine of CodeByCommit
  | codeRecv (n : Nat) (cache : GoMap Str Str)
  | codeHead (n : Nat) (cache : GoMap Str Str) (c : MetaCommit τ) (recs : List (CodeRecord τ))
  | codeRecs (n : Nat) (cache : GoMap Str Str) (recs : List (CodeRecord τ))
  | codeDone | codeEnd
  -- the goroutine of Code
  | flatRecv | flatRange (i : Nat) | flatSend (i : Nat) (r : CodeRecord τ) | flatDone | flatEnd
  -- the goroutine of CodeSlice
  | collect (got : List (CodeRecord τ)) | collectEnd (got : List (CodeRecord τ)) | collected (got : List (CodeRecord τ))
  | panicked (r : PRole)

variable {τ : Type}

/-- A fault in the caller: an error is returned after draining, a panic ends the goroutine. (The deferred calls of the caller during a panic are
in Model/Unwind.lean.) -/
def PAfter.fault : Fault → PAfter
  | .error w => .drain (.error w)
  | .panic _ => .panic

/-- The next control state. -/
def PAfter.loc : PAfter → PLoc τ
  | .loop s => .loop (some s)
  | .drain e => .drain e
  | .panic => .panicked .caller
  | .end w e => .joinRun w e

/-- `processCommit` in the loop of `Run` (process.go:188-194): send the results, then go on, or drain and return the error. -/
def Pipe.onCommit (p : Pipe τ) (s : Proc) (c : LogCommit) : PLoc τ :=
  let (s', f) := s.commit p.env c
  .sending (s'.sent.drop s.sent.length) (match f with
    | none => .loop s'
    | some e => .fault e)

/-- The body of the loop of `Run` (process.go:180-195): the first commit reads the checkpoint. -/
def Pipe.onFirst (p : Pipe τ) : Option Proc → LogCommit → PLoc τ
  | some s, c => p.onCommit s c
  | none, c => match initCheckpoints p.opts p.read with
    | .error e => .sending [] (.fault e)
    | .ok repo => p.onCommit { graph := p.graph, repo := repo } c

/-- The end of `Run` (process.go:197-217), after the loop. -/
def Pipe.onEnd (p : Pipe τ) : Option Proc → PLoc τ
  | none => .joinRun none none
  | some s =>
    if s.mergeParts.length > 0 then
      match s.finishMerge p.env with
      | .error _ => .panicked .caller
      | .ok s' => .sending (s'.sent.drop s.sent.length) (.end (some (s'.repo, s'.lastProcessed)) (p.writeErr.map .error))
    else .joinRun (some (s.repo, s.lastProcessed)) (p.writeErr.map .error)

/-- The body of the loop of the goroutine of `CodeByCommit` (code.go:146-160). -/
def Pipe.onResult (p : Pipe τ) (n : Nat) (cache : GoMap Str Str) (r : Result) : PLoc τ :=
  match GoMap.get p.metas r.commit with
  | none => .panicked .code
  | some c => match codeInfoFiles p.cl p.scc (p.orders n) p.metas cache r with
    | .error _ => .panicked .code
    | .ok (recs, cache) => .codeHead n cache c recs

/-- The programs. The types of the channels exclude the values for which a goroutine is sent to `panicked` here. -/
def Pipe.act (p : Pipe τ) : PLoc τ → Act PRole PChan (PVal τ) (PLoc τ)
  -- code.go:194-206
  | .cSlice => .go .collect (.collect []) .cCode
  -- code.go:64-79
  | .cCode => .go .flat .flatRecv .cByCommit
  -- code.go:94-168
  | .cByCommit => match p.pre with
    | some e => .tau (.closeRes2 none (some (.error e)))
    | none => .go .code (.codeRecv 0 []) .cRun
  -- process.go:130-172
  | .cRun => match p.openErr with
    | some e => .tau (.closeGitRes none (some (.error e)))
    | none => .go .parser (.parse (parseSent p.text).1) (.loop none)
  -- process.go:180
  | .loop st => .recv .commits fun
    | some (.commit c) => p.onFirst st c
    | none => p.onEnd st
    | _ => .panicked .caller
  -- process.go:265, 276
  | .sending (r :: rs) k => .send .gitRes (.result r) (.sending rs k)
  | .sending [] k => .tau k.loc
  -- process.go:173-177
  | .drain e => .recv .commits fun
    | some _ => .drain e
    | none => .joinRun none (some e)
  | .joinRun w e => .recv .doneRun fun _ => .closeGitRes w e
  -- process.go:131-133
  | .closeGitRes w e => .close .gitRes (.joinByCommit w e)
  -- code.go:183
  | .joinByCommit w e => .recv .doneByCommit fun _ => .closeRes2 w e
  -- code.go:95
  | .closeRes2 w e => .close .res2 (.joinCode w e)
  -- code.go:80
  | .joinCode w e => .recv .doneCode fun _ => .closeRes w e
  -- code.go:65
  | .closeRes w e => .close .res (.joinSlice w e)
  -- code.go:204: the variable `res` is read after the receive
  | .joinSlice w e => .recv .doneSlice fun
    | some (.slice rs) => .returned w e rs
    | _ => .panicked .caller
  | .returned _ _ _ => .halt
  -- parser.go:68-89; process.go:163-171: the deferred send on `done` comes before the end of the panic
  | .parse (c :: cs) => .send .commits (.commit c) (.parse cs)
  | .parse [] => .close .commits .parseDone
  | .parseDone => .send .doneRun .true (match (parseSent p.text).2 with | none => .parsed | some _ => .panicked .parser)
  | .parsed => .halt
  -- code.go:145-168
  | .codeRecv n cache => .recv .gitRes fun
    | some (.result r) => p.onResult n cache r
    | none => .codeDone
    | _ => .panicked .code
  | .codeHead n cache c recs => .send .res2 (.commitCode c n) (.codeRecs n cache recs)
  | .codeRecs n cache (r :: rs) => .send (.blames n) (.record r) (.codeRecs n cache rs)
  | .codeRecs n cache [] => .close (.blames n) (.codeRecv (n + 1) cache)
  | .codeDone => .send .doneByCommit .true .codeEnd
  | .codeEnd => .halt
  -- code.go:70-77
  | .flatRecv => .recv .res2 fun
    | some (.commitCode _ i) => .flatRange i
    | none => .flatDone
    | _ => .panicked .flat
  | .flatRange i => .recv (.blames i) fun
    | some (.record r) => .flatSend i r
    | none => .flatRecv
    | _ => .panicked .flat
  | .flatSend i r => .send .res (.record r) (.flatRange i)
  | .flatDone => .send .doneCode .true .flatEnd
  | .flatEnd => .halt
  -- code.go:197-202
  | .collect got => .recv .res fun
    | some (.record r) => .collect (got ++ [r])
    | none => .collectEnd got
    | _ => .panicked .collect
  | .collectEnd got => .send .doneSlice (.slice got) (.collected got)
  | .collected _ => .halt
  | .panicked _ => .panic

/-- `CodeSlice` is called. -/
def Pipe.init : State PRole PChan (PLoc τ) :=
  { procs := fun r => if r = .caller then some .cSlice else none, closed := fun _ => false }

end Ripsrc
