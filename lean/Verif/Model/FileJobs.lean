import Verif.Model.ExecPiped
/-!
# The channel `filejobs` of the metadata reader

`Model/ExecPiped.lean` leaves out the buffered channel on which the parser sends every file that it reads, and the goroutine that receives from it (`/repo/ripsrc/commitmeta/commitmeta.go:148-155`).
Here they are added to that system.
-/
namespace Ripsrc

variable {τ : Type}

/-- How many values `parse` sends on `filejobs` for one line: `/repo/ripsrc/commitmeta/commitmeta.go:410-474` (lines 430, 451, 463, 471). A line for which `parse` panics or fails sends none. -/
def fileJobs (parseDate : Str → Option τ) (p : MetaParser τ) (line : Str) : Nat :=
  match metaParse parseDate p line with
  | .error _ => 0
  | .ok _ =>
    if p.state = .files ∧ startsWith line b!":" then
      match idx (splitByte 32 line) 1 with
      | .ok mask => if ¬ (mask = b!"100644" ∨ mask = b!"100755") ∧ mask ≠ b!"000000" then 0 else 1
      | .error _ => 0
    else 0

/-- The capacity of `fjChan`: `/repo/ripsrc/commitmeta/commitmeta.go:149`. -/
def fileJobsCap : Nat := 100

/-- The goroutine `for range fjChan {}`: `/repo/ripsrc/commitmeta/commitmeta.go:150-154`. -/
inductive DrainLoc where
  | recv
  | ended
deriving DecidableEq, Repr

/-- A call of `RunSlice` or `RunMap` with everything that it starts: the three goroutines of `StreamSt`, the number of values that were sent on `filejobs` for the line that is being parsed, the
number of values in the buffer of that channel, whether it is closed, and the goroutine that receives from it. The values themselves are not looked at by anyone. -/
structure JobSt (τ : Type) where
  t : StreamSt (MetaParser τ) (MetaCommit τ)
  sent : Nat := 0
  buf : Nat := 0
  closed : Bool := false
  drain : DrainLoc := .recv

/-- The caller has the line `l` and calls `parse` in the parser state `p`. -/
def AtLine (t : StreamSt (MetaParser τ) (MetaCommit τ)) (p : MetaParser τ) (l : Str) : Prop :=
  (∃ raw rest, t.caller = .loop (raw ++ 10 :: rest) p ∧ (10 : UInt8) ∉ raw ∧ l = dropCR raw) ∨
  (∃ raw, t.caller = .loop raw p ∧ (10 : UInt8) ∉ raw ∧ raw ≠ [] ∧ raw.length < metaMaxLine ∧ t.wrClosed = true ∧ l = dropCR raw)

/-- The steps of a call. `parse` sends its values before the step that has its other effects; nobody can see the difference. There is no step that closes the channel: the code has no such
statement. -/
inductive JobStep (parseDate : Str → Option τ) (fails : Bool) : JobSt τ → JobSt τ → Prop where
  /-- git or the collector moves -/
  | other {v : JobSt τ} {u : StreamSt (MetaParser τ) (MetaCommit τ)} (h : StreamStep (metaReader parseDate) fails v.t u) (hc : u.caller = v.t.caller) :
      JobStep parseDate fails v { v with t := u }
  /-- the caller moves; if it is done with a line, the line's values have been sent -/
  | caller {v : JobSt τ} {u : StreamSt (MetaParser τ) (MetaCommit τ)} (h : StreamStep (metaReader parseDate) fails v.t u) (hc : u.caller ≠ v.t.caller)
      (hj : ∀ p l, AtLine v.t p l → fileJobs parseDate p l ≤ v.sent) : JobStep parseDate fails v { v with t := u, sent := 0 }
  /-- `p.filejobs <- cf`: there is room in the buffer -/
  | put {v : JobSt τ} {p : MetaParser τ} {l : Str} (hl : AtLine v.t p l) (hs : v.sent < fileJobs parseDate p l) (hb : v.buf < fileJobsCap) (ho : v.closed = false) :
      JobStep parseDate fails v { v with sent := v.sent + 1, buf := v.buf + 1 }
  /-- `for range fjChan` takes a value -/
  | recv {v : JobSt τ} (hd : v.drain = .recv) (hb : 0 < v.buf) : JobStep parseDate fails v { v with buf := v.buf - 1 }
  /-- `for range fjChan` ends when the channel is closed and empty -/
  | drained {v : JobSt τ} (hd : v.drain = .recv) (hb : v.buf = 0) (ho : v.closed = true) : JobStep parseDate fails v { v with drain := .ended }

/-- A call begins: `/repo/ripsrc/commitmeta/commitmeta.go:106-107,135-157`. -/
def jobInit (parseDate : Str → Option τ) (text : Str) : JobSt τ := { t := streamInit (metaReader parseDate) text }

inductive JobSteps (parseDate : Str → Option τ) (fails : Bool) : Nat → JobSt τ → JobSt τ → Prop where
  | refl (v : JobSt τ) : JobSteps parseDate fails 0 v v
  | snoc {n : Nat} {v w x : JobSt τ} : JobSteps parseDate fails n v w → JobStep parseDate fails w x → JobSteps parseDate fails (n + 1) v x

def JobSt.Stuck (parseDate : Str → Option τ) (fails : Bool) (v : JobSt τ) : Prop := ∀ w, ¬ JobStep parseDate fails v w

/-- The goroutines that a call has started and that have not ended: that of `ExecPiped` (`/repo/ripsrc/gitexec/gitexec.go:125-138`), the collector, the receiver of `filejobs`. -/
def JobSt.goroutines (v : JobSt τ) : Nat :=
  (match v.t.git with | .ended => 0 | .panicked _ => 0 | _ => 1) + (match v.t.col with | .ended _ => 0 | _ => 1) + (match v.drain with | .ended => 0 | .recv => 1)

/-- A program that reads metadata again and again: a call begins when the calls before it have returned; goroutines of earlier calls may still be running. The list has the state of each call. -/
inductive FileCalls (parseDate : Str → Option τ) (fails : Bool) : List (JobSt τ) → Prop where
  | start : FileCalls parseDate fails []
  | call {cs : List (JobSt τ)} (text : Str) (h : FileCalls parseDate fails cs) (hr : ∀ v ∈ cs, ∃ e got, v.t.caller = .returned e got) :
      FileCalls parseDate fails (cs ++ [jobInit parseDate text])
  | step {a b : List (JobSt τ)} {v w : JobSt τ} (h : FileCalls parseDate fails (a ++ v :: b)) (hs : JobStep parseDate fails v w) : FileCalls parseDate fails (a ++ w :: b)

end Ripsrc
