import Verif.Model.Conc
/-!
# Happens before, and data races

The synchronisation order of the Go memory model (https://go.dev/ref/mem) for the instructions of `Model/Conc.lean`: the steps of one goroutine are ordered; a send and its receive on
an unbuffered channel complete together; `close` comes before a receive that returns because the channel is closed; `go` comes before the first step of the new goroutine; a
goroutine that has called `Done` (as the last thing that it does) comes before the return of `Wait`.

Nothing here depends on the programs of /repo.
-/
namespace Ripsrc.Conc
variable {R C V L : Type} [DecidableEq R] [DecidableEq C]

/-- What happens in one step: who moves, and on which channel. -/
inductive Event (R C : Type) where
  | tau (r : R)
  | sync (sender receiver : R) (c : C)
  | recvClosed (r : R) (c : C)
  | close (r : R) (c : C)
  | go (r new : R)
  | wait (r : R) (rs : List R)

/-- The goroutines that move. -/
def Event.actors : Event R C → List R
  | .tau r => [r]
  | .sync p q _ => [p, q]
  | .recvClosed q _ => [q]
  | .close r _ => [r]
  | .go r n => [r, n]
  | .wait r _ => [r]

/-- The goroutines whose end is waited for. -/
def Event.awaits : Event R C → List R
  | .wait _ rs => rs
  | _ => []

/-- The steps of `Step`, with what happens in them. -/
inductive LStep (act : L → Act R C V L) : State R C L → Event R C → State R C L → Prop where
  | tau {s r l k} : s.procs r = some l → act l = .tau k → LStep act s (.tau r) (s.set r k)
  | sync {s p q l m c v k f} : s.procs p = some l → act l = .send c v k → s.procs q = some m → act m = .recv c f → s.closed c = false →
      LStep act s (.sync p q c) ((s.set p k).set q (f (some v)))
  | recvClosed {s q m c f} : s.procs q = some m → act m = .recv c f → s.closed c = true → LStep act s (.recvClosed q c) (s.set q (f none))
  | close {s r l c k} : s.procs r = some l → act l = .close c k → s.closed c = false → LStep act s (.close r c) ((s.set r k).shut c)
  | go {s r l n g k} : s.procs r = some l → act l = .go n g k → s.procs n = none → LStep act s (.go r n) ((s.set n g).set r k)
  | wait {s r l rs k} : s.procs r = some l → act l = .wait rs k → (∀ x ∈ rs, ∃ m, s.procs x = some m ∧ act m = .halt) →
      LStep act s (.wait r rs) (s.set r k)

/-- A schedule from `s` to `t` and what happens in it. -/
inductive Trace (act : L → Act R C V L) : State R C L → List (Event R C) → State R C L → Prop where
  | nil {s} : Trace act s [] s
  | cons {s e t es u} : LStep act s e t → Trace act t es u → Trace act s (e :: es) u

/-- An earlier event `a` is ordered before a later event `b`: one goroutine takes part in both, or `b` receives because of the `close` in `a`, or `b` waits for a goroutine
that takes part in `a`. -/
def Event.Before (a b : Event R C) : Prop :=
  (∃ r, r ∈ a.actors ∧ r ∈ b.actors) ∨ (∃ r r' c, a = .close r c ∧ b = .recvClosed r' c) ∨ (∃ r, r ∈ a.actors ∧ r ∈ b.awaits)

/-- The `j`-th event of `es` happens after what goroutine `p` did before the first event. -/
inductive After (es : List (Event R C)) (p : R) : Nat → Prop where
  | own {j : Nat} {e : Event R C} : es[j]? = some e → p ∈ e.actors ∨ p ∈ e.awaits → After es p j
  | step {i j : Nat} {a b : Event R C} : After es p i → i < j → es[i]? = some a → es[j]? = some b → a.Before b → After es p j

/-- What goroutine `p` did before `es` happens before what goroutine `q` does after `es`. -/
def HappensBefore (es : List (Event R C)) (p q : R) : Prop := ∃ (j : Nat) (e : Event R C), es[j]? = some e ∧ After es p j ∧ q ∈ e.actors

/-- An access to a variable. -/
inductive Access (X : Type) where
  | read (x : X)
  | write (x : X)

/-- Two accesses to one variable, not both reads. -/
def Access.Conflict {X : Type} : Access X → Access X → Prop
  | .read _, .read _ => False
  | .read x, .write y | .write x, .read y | .write x, .write y => x = y

/-- No data race: whenever a goroutine makes an access, and another goroutine makes a conflicting access at the same time or later in the schedule, the first happens before the
second. `acc l` are the accesses that a goroutine makes after it has reached the control state `l` and before its next step: in a state `s` with `s.procs p = some l` these
accesses may have been made or not. -/
def RaceFree {X : Type} (act : L → Act R C V L) (acc : L → List (Access X)) (init : State R C L) : Prop :=
  ∀ es₁ s es₂ t, Trace act init es₁ s → Trace act s es₂ t → ∀ p q l m a b, p ≠ q → s.procs p = some l → t.procs q = some m → a ∈ acc l → b ∈ acc m →
    a.Conflict b → HappensBefore es₂ p q

end Ripsrc.Conc
