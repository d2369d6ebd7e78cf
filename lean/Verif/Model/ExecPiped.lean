import Verif.Model.CommitMeta
import Verif.Model.Graph
/-!
# Streaming the output of git: `ExecPiped` and its readers

Three goroutines: that of `ExecPiped`, which runs git and copies its output into an `io.Pipe`; the caller, which reads the pipe with a `bufio.Scanner` and handles one line after the
other; the collector, which receives what the caller sends. Everything is nondeterministic: how the output is divided into writes, how much one read takes, who moves next.
-/
namespace Ripsrc

/-- A loop over the lines of a reader: the limit of the scanner, the initial state, what happens with a line (the next state and the values that are sent), and with the end (the argument says
whether the scanner stopped at an over-long line). -/
structure LineReader (σ α : Type) where
  max : Nat
  start : σ
  line : σ → Str → Go (σ × List α)
  finish : σ → Bool → Go (List α)

variable {σ α : Type}

/-- The loop over a list of lines: what is sent, and the error or panic. -/
def LineReader.loop (r : LineReader σ α) (tooLong : Bool) (s : σ) : List Str → List α × Option Fault
  | [] => match r.finish s tooLong with
    | .ok xs => (xs, none)
    | .error f => ([], some f)
  | l :: ls => match r.line s l with
    | .ok (s', xs) => (xs ++ (r.loop tooLong s' ls).1, (r.loop tooLong s' ls).2)
    | .error f => ([], some f)

/-- The reader on a whole text, without goroutines. -/
def LineReader.run (r : LineReader σ α) (text : Str) : List α × Option Fault := r.loop (scan r.max text).2 r.start (scan r.max text).1

/-- `Run` of commitmeta: `/repo/ripsrc/commitmeta/commitmeta.go:135-172`. The values are the commits sent on `res`; the error of the scanner is not looked at. The channel `filejobs` is
added in `Model/FileJobs.lean`. -/
def metaReader {τ : Type} (parseDate : Str → Option τ) : LineReader (MetaParser τ) (MetaCommit τ) where
  max := metaMaxLine
  start := {}
  line p l := do
    let p' ← metaParse parseDate p l
    .ok (p', p'.sent.drop p.sent.length)
  finish p _ := .ok (match p.commit with
    | some c => if c.sha ≠ [] then [c] else []
    | none => [])

/-- `Run` of parentsp, called by `retrieveParents`: `/repo/ripsrc/parentsgraph/parentsp/parser.go:25-45`, `/repo/ripsrc/parentsgraph/parents.go:69-84`. Nothing is sent; the map that is returned is
modelled as the only value. -/
def parentsReader : LineReader (GoMap Str (List Str)) (GoMap Str (List Str)) where
  max := parentsMaxLine
  start := []
  line m l := do
    let m' ← parentsLine m l
    .ok (m', [])
  finish m tooLong := if tooLong then .error (.error "bufio.Scanner: token too long") else .ok [m]

/-- The goroutine of `ExecPiped` with the git process (`/repo/ripsrc/gitexec/gitexec.go:125-138,149-158`). -/
inductive GitLoc where
  /-- git has still to print `rem` -/
  | run (rem : Str)
  /-- a `Write` to the pipe is in progress: `p` was not yet taken by the reader -/
  | write (p rem : Str)
  /-- `ExecIntoWriter` has returned nil -/
  | exited
  /-- the pipe is closed -/
  | ended
  /-- `panic(err)`; `rem` was not read -/
  | panicked (rem : Str)

/-- The caller. -/
inductive CallLoc (σ α : Type) where
  /-- in `scanner.Scan()`; `buf` are the bytes in the buffer -/
  | loop (buf : Str) (s : σ)
  /-- sends, then goes on with the loop or (`none`) returns -/
  | put (xs : List α) (k : Option (Str × σ))
  /-- the deferred `r.Close()` -/
  | closePipe (e : Option Fault)
  /-- the deferred `close(res)` -/
  | closeRes (e : Option Fault)
  /-- `<-done` -/
  | join (e : Option Fault)
  | returned (e : Option Fault) (got : List α)
  | panicked (f : Fault)

/-- The collector: `/repo/ripsrc/commitmeta/commitmeta.go:106-118,124-129`. -/
inductive ColLoc (α : Type) where
  | collect (got : List α)
  | sendDone (got : List α)
  | ended (got : List α)

structure StreamSt (σ α : Type) where
  git : GitLoc
  caller : CallLoc σ α
  col : ColLoc α := .collect []
  rdClosed : Bool := false
  wrClosed : Bool := false
  resClosed : Bool := false

/-- After the loop body: an error is returned, a panic ends the goroutine. -/
def streamAfterLine (o : Go (σ × List α)) (buf : Str) : CallLoc σ α :=
  match o with
  | .ok (s, xs) => .put xs (some (buf, s))
  | .error (.error w) => .closePipe (some (.error w))
  | .error (.panic w) => .panicked (.panic w)

/-- After the loop. -/
def streamAfterLoop (o : Go (List α)) : CallLoc σ α :=
  match o with
  | .ok xs => .put xs none
  | .error (.error w) => .closePipe (some (.error w))
  | .error (.panic w) => .panicked (.panic w)

/-- The steps. `fails`: git exits with a status other than 0 after it has printed everything. -/
inductive StreamStep (r : LineReader σ α) (fails : Bool) : StreamSt σ α → StreamSt σ α → Prop where
  /-- the copying goroutine of `exec.Cmd` has got some output and calls `Write` -/
  | write {t : StreamSt σ α} (p rem : Str) (hg : t.git = .run (p ++ rem)) (hp : p ≠ []) : StreamStep r fails t { t with git := .write p rem }
  /-- git exits; `c.Run()` returns nil or an error, which is a panic (`/repo/ripsrc/gitexec/gitexec.go:128-131`) -/
  | exit {t : StreamSt σ α} (hg : t.git = .run []) (hf : fails = false) : StreamStep r fails t { t with git := .exited }
  | fail {t : StreamSt σ α} (hg : t.git = .run []) (hf : fails = true) : StreamStep r fails t { t with git := .panicked [] }
  /-- `io.ErrClosedPipe`: the copy stops, `c.Run()` returns an error, which is a panic (`/repo/ripsrc/gitexec/gitexec.go:128-131`) -/
  | broken {t : StreamSt σ α} (p rem : Str) (hg : t.git = .write p rem) (hc : t.rdClosed = true) : StreamStep r fails t { t with git := .panicked (p ++ rem) }
  /-- `wr.Close()` (`/repo/ripsrc/gitexec/gitexec.go:132`) -/
  | closeWr {t : StreamSt σ α} (hg : t.git = .exited) : StreamStep r fails t { t with git := .ended, wrClosed := true }
  /-- the scanner needs more and calls `Read`: it takes a part `n` of what is being written, for which there is room in the buffer -/
  | read {t : StreamSt σ α} (buf n p rem : Str) (s : σ) (hl : t.caller = .loop buf s) (hb : (10 : UInt8) ∉ buf) (hm : buf.length + n.length ≤ r.max) (hn : n ≠ [])
      (hg : t.git = .write (n ++ p) rem) :
      StreamStep r fails t { t with caller := .loop (buf ++ n) s, git := if p = [] then .run rem else .write p rem }
  /-- there is a whole line in the buffer -/
  | line {t : StreamSt σ α} (l rest : Str) (s : σ) (hl : t.caller = .loop (l ++ 10 :: rest) s) (hb : (10 : UInt8) ∉ l) :
      StreamStep r fails t { t with caller := streamAfterLine (r.line s (dropCR l)) rest }
  /-- the buffer is full: `ErrTooLong` -/
  | tooLong {t : StreamSt σ α} (buf : Str) (s : σ) (hl : t.caller = .loop buf s) (hb : (10 : UInt8) ∉ buf) (hm : r.max ≤ buf.length) :
      StreamStep r fails t { t with caller := streamAfterLoop (r.finish s true) }
  /-- `io.EOF` with a last line in the buffer -/
  | lastLine {t : StreamSt σ α} (buf : Str) (s : σ) (hl : t.caller = .loop buf s) (hb : (10 : UInt8) ∉ buf) (hm : buf.length < r.max) (hn : buf ≠ []) (hw : t.wrClosed = true) :
      StreamStep r fails t { t with caller := streamAfterLine (r.line s (dropCR buf)) [] }
  /-- `io.EOF` -/
  | eof {t : StreamSt σ α} (s : σ) (hl : t.caller = .loop [] s) (hw : t.wrClosed = true) : StreamStep r fails t { t with caller := streamAfterLoop (r.finish s false) }
  /-- the caller sends a value, the collector receives it -/
  | send {t : StreamSt σ α} (x : α) (xs got : List α) (k : Option (Str × σ)) (hl : t.caller = .put (x :: xs) k) (hc : t.col = .collect got) :
      StreamStep r fails t { t with caller := .put xs k, col := .collect (got ++ [x]) }
  | sent {t : StreamSt σ α} (buf : Str) (s : σ) (hl : t.caller = .put [] (some (buf, s))) : StreamStep r fails t { t with caller := .loop buf s }
  | sentLast {t : StreamSt σ α} (hl : t.caller = .put [] none) : StreamStep r fails t { t with caller := .closePipe none }
  | closePipe {t : StreamSt σ α} (e : Option Fault) (hl : t.caller = .closePipe e) : StreamStep r fails t { t with caller := .closeRes e, rdClosed := true }
  | closeRes {t : StreamSt σ α} (e : Option Fault) (hl : t.caller = .closeRes e) : StreamStep r fails t { t with caller := .join e, resClosed := true }
  | colEnd {t : StreamSt σ α} (got : List α) (hc : t.col = .collect got) (hr : t.resClosed = true) : StreamStep r fails t { t with col := .sendDone got }
  /-- the collector sends on `done`; the caller reads the variable `res` after it has received -/
  | join {t : StreamSt σ α} (e : Option Fault) (got : List α) (hl : t.caller = .join e) (hc : t.col = .sendDone got) :
      StreamStep r fails t { t with caller := .returned e got, col := .ended got }

/-- A call: git is started on an empty pipe. -/
def streamInit (r : LineReader σ α) (text : Str) : StreamSt σ α := { git := .run text, caller := .loop [] r.start }

/-- Some number of steps. -/
inductive StreamSteps (r : LineReader σ α) (fails : Bool) : Nat → StreamSt σ α → StreamSt σ α → Prop where
  | refl (t : StreamSt σ α) : StreamSteps r fails 0 t t
  | snoc {n : Nat} {t u v : StreamSt σ α} : StreamSteps r fails n t u → StreamStep r fails u v → StreamSteps r fails (n + 1) t v

/-- Nothing can move. -/
def StreamSt.Stuck (r : LineReader σ α) (fails : Bool) (t : StreamSt σ α) : Prop := ∀ u, ¬ StreamStep r fails t u

/-- A goroutine has panicked: the program crashes. -/
def StreamSt.Crashed (t : StreamSt σ α) : Prop := (∃ rem, t.git = .panicked rem) ∨ ∃ f, t.caller = .panicked f

/-- `RunMap` (`/repo/ripsrc/commitmeta/commitmeta.go:120-133`): what the collector builds. -/
def commitMap {τ : Type} (cs : List (MetaCommit τ)) : GoMap Str (MetaCommit τ) := cs.foldl (fun m c => GoMap.set m c.sha c) []

end Ripsrc
