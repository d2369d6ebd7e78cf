import Verif.Model.Pipeline
/-!
# `RunGetAll` of the log parser and of the blame processor

Two goroutines: the caller, and the one that executes `Run`. `Run` is seen from outside: it sends the values `vs` one after the other and then either returns the
error `e` or panics. The shared variable `err` is written before the send on `done` and read after the receive, so the value travels with that message.
-/
namespace Ripsrc
open Conc (Act State)

/-- What a call of `Run` does: the values it sends, and how it ends. -/
structure RunOutcome (α : Type) where
  vs : List α
  fault : Option Fault

inductive GRole where
  | caller | runner
deriving DecidableEq, Repr

/-- The channels `res` and `done` (`/repo/ripsrc/history3/process/process.go:782-783`, `/repo/ripsrc/history3/process/parser/parser.go:195-196`). -/
inductive GChan where
  | res | done
deriving DecidableEq, Repr

inductive GVal (α : Type) where
  | val (a : α)
  | done (err : Option Fault)

inductive GLoc (α : Type) where
  | start
  | collect (got : List α)
  | join (got : List α)
  | returned (got : List α) (err : Option Fault)
  | run (vs : List α)
  | sendDone (err : Option Fault)
  | ended
  | panicked

variable {α : Type}

/-- The two programs. `close(res)` is deferred in `Run` (`/repo/ripsrc/history3/process/parser/parser.go:69`, `/repo/ripsrc/history3/process/process.go:131-133`): it is executed
also during a panic. -/
def RunOutcome.act (o : RunOutcome α) : GLoc α → Act GRole GChan (GVal α) (GLoc α)
  -- `/repo/ripsrc/history3/process/process.go:784-787`, `/repo/ripsrc/history3/process/parser/parser.go:197-200`
  | .start => .go .runner (.run o.vs) (.collect [])
  -- `/repo/ripsrc/history3/process/process.go:788-791`, `/repo/ripsrc/history3/process/parser/parser.go:201-204`
  | .collect got => .recv .res fun
    | some (.val a) => .collect (got ++ [a])
    | some (.done _) => .panicked
    | none => .join got
  -- `/repo/ripsrc/history3/process/process.go:792-793`, `/repo/ripsrc/history3/process/parser/parser.go:205-206`
  | .join got => .recv .done fun
    | some (.done e) => .returned got e
    | _ => .panicked
  | .returned _ _ => .halt
  | .run (v :: vs) => .send .res (.val v) (.run vs)
  | .run [] => .close .res (match o.fault with
    | none => .sendDone none
    | some (.error w) => .sendDone (some (.error w))
    | some (.panic _) => .panicked)
  | .sendDone e => .send .done (.done e) .ended
  | .ended => .halt
  | .panicked => .panic

/-- The caller has called `RunGetAll`. -/
def RunOutcome.init : State GRole GChan (GLoc α) := { procs := fun r => if r = .caller then some .start else none, closed := fun _ => false }

/-- `Run` of the log parser on a text (`/repo/ripsrc/history3/process/parser/parser.go:68-89`). -/
def parserOutcome (text : Str) : RunOutcome LogCommit := { vs := (parseSent text).1, fault := (parseSent text).2 }

end Ripsrc
