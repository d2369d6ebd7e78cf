/-!
# Goroutines and unbuffered channels

The part of the Go language that the pipelines of /repo use (code.go:64-190, branches.go:13-48, branches2/process.go:113-178,
branches2/name_hash.go:18-27, history3/process/process.go:130-219, parser/parser.go:68-89): goroutines, unbuffered channels, `close`, `range` over a channel
(a loop of receives that ends at the first receive from a closed channel), `go`, `sync.WaitGroup`, panics.

A goroutine is a control state `l : L`; `act l` is its next instruction. Goroutines have names (`R`), channels have names (`C`); a goroutine name is used
at most once. A schedule is a sequence of steps; nothing is assumed about fairness. `sync.WaitGroup.Wait` waits for a list of goroutines to have ended
(all uses in /repo call `Done` in a `defer` of the goroutine). There is no shared memory: what a goroutine knows is in its control state
(the shared variables of the code are in `Model/Access.lean`, C79: they are never accessed in a race).

A goroutine that panics does no further step; the other goroutines may go on for some time (the Go runtime stops them at some later point). So a theorem
about all reachable states covers every execution cut short by a panic.
-/
namespace Ripsrc.Conc

/-- The next instruction of a goroutine: `c <- v`, `x, ok := <-c`, `close(c)`, `go f()`, `wg.Wait()`, a local computation, `return`, `panic`. -/
inductive Act (R C V L : Type) where
  | send (c : C) (v : V) (k : L)
  | recv (c : C) (k : Option V → L)
  | close (c : C) (k : L)
  | go (r : R) (l : L) (k : L)
  | wait (rs : List R) (k : L)
  | tau (k : L)
  | halt
  | panic

/-- `f` changed at one point. -/
def upd {A B : Type} [DecidableEq A] (f : A → B) (a : A) (b : B) : A → B := fun x => if x = a then b else f x

/-- A state of the program: the control state of each goroutine (`none`: not started) and which channels are closed. -/
structure State (R C L : Type) where
  procs : R → Option L
  closed : C → Bool

variable {R C V L : Type} [DecidableEq R] [DecidableEq C]

/-- Goroutine `r` moves to `l`. -/
def State.set (s : State R C L) (r : R) (l : L) : State R C L := { s with procs := upd s.procs r (some l) }

/-- Channel `c` is closed. -/
def State.shut (s : State R C L) (c : C) : State R C L := { s with closed := upd s.closed c true }

/-- One step of some goroutine, or of two that meet at a channel. -/
inductive Step (act : L → Act R C V L) : State R C L → State R C L → Prop where
  | tau {s r l k} : s.procs r = some l → act l = .tau k → Step act s (s.set r k)
  | sync {s p q l m c v k f} : s.procs p = some l → act l = .send c v k → s.procs q = some m → act m = .recv c f → s.closed c = false →
      Step act s ((s.set p k).set q (f (some v)))
  | recvClosed {s q m c f} : s.procs q = some m → act m = .recv c f → s.closed c = true → Step act s (s.set q (f none))
  | close {s r l c k} : s.procs r = some l → act l = .close c k → s.closed c = false → Step act s ((s.set r k).shut c)
  | go {s r l n g k} : s.procs r = some l → act l = .go n g k → s.procs n = none → Step act s ((s.set n g).set r k)
  | wait {s r l rs k} : s.procs r = some l → act l = .wait rs k → (∀ x ∈ rs, ∃ m, s.procs x = some m ∧ act m = .halt) → Step act s (s.set r k)

/-- `n` steps. -/
inductive Steps (act : L → Act R C V L) : Nat → State R C L → State R C L → Prop where
  | refl {s} : Steps act 0 s s
  | cons {n s t u} : Step act s t → Steps act n t u → Steps act (n + 1) s u

/-- `t` can be reached from `s` by some schedule. -/
def Reach (act : L → Act R C V L) (s t : State R C L) : Prop := ∃ n, Steps act n s t

/-- Nothing can move. -/
def Stuck (act : L → Act R C V L) (s : State R C L) : Prop := ∀ t, ¬ Step act s t

/-- Some goroutine panics: explicitly, by sending on a closed channel, or by closing a closed channel. -/
def Crashed (act : L → Act R C V L) (s : State R C L) : Prop :=
  ∃ r l, s.procs r = some l ∧
    (act l = .panic ∨ (∃ c v k, act l = .send c v k ∧ s.closed c = true) ∨ (∃ c k, act l = .close c k ∧ s.closed c = true))

/-- No goroutine is left: every started goroutine has returned. -/
def AllReturned (act : L → Act R C V L) (s : State R C L) : Prop := ∀ r l, s.procs r = some l → act l = .halt

end Ripsrc.Conc
