import Verif.Model.Outlet
import Verif.Model.Stream
/-!
# The deferred calls of a panicking caller

When `Run` panics, its deferred calls run before the program dies: `r.Close()` (which does not block, and which no other goroutine of the model sees), `close(gitRes)`
(`/repo/ripsrc/history3/process/process.go:131-133`); then the deferred `close(res)` of `CodeByCommit` (`/repo/ripsrc/code.go:95`) and, if it was called by `Code`, the one of
`Code` (`/repo/ripsrc/code.go:65`). The joins `<-done` are not deferred: they are skipped. A panic while preparing (`prepareGitExec`, `buildCommitGraph`,
`getCommitInfo`, `/repo/ripsrc/code.go:97-141`) runs the last two only. Meanwhile the other goroutines go on. Model/Pipeline.lean stops the caller at the panic; here it goes on.
-/
namespace Ripsrc
open Conc (Act State)
open Spec (Seen Want)

/-- An instruction with its continuations renamed. -/
def Conc.Act.map {R C V L M : Type} (g : L → M) : Act R C V L → Act R C V M
  | .send c v k => .send c v (g k)
  | .recv c f => .recv c fun o => g (f o)
  | .close c k => .close c (g k)
  | .go r l k => .go r (g l) (g k)
  | .wait rs k => .wait rs (g k)
  | .tau k => .tau (g k)
  | .halt => .halt
  | .panic => .panic

variable {τ : Type}

/-- A control state of Model/Pipeline.lean, the caller with the deferred `close` calls that are left, or the caller after them: the program dies. -/
inductive ULoc (τ : Type) where
  | prog (l : PLoc τ)
  | unwind (cs : List PChan)
  | dead

/-- The programs of Model/Pipeline.lean (`/repo/ripsrc/code.go:64-190`, `/repo/ripsrc/history3/process/process.go:130-219`), with the deferred calls of a panicking caller. `prep`: the preparation
panics. `cs`: the channels that the callers of `Run` close in deferred calls. -/
def Pipe.uact (p : Pipe τ) (prep : Bool) (cs : List PChan) : ULoc τ → Act PRole PChan (PVal τ) (ULoc τ)
  | .prog .cByCommit => if prep then .tau (.unwind cs) else (p.act .cByCommit).map .prog
  | .prog (.panicked .caller) => .tau (.unwind (.gitRes :: cs))
  | .prog l => (p.act l).map .prog
  | .unwind (c :: cs) => .close c (.unwind cs)
  | .unwind [] => .tau .dead
  | .dead => .panic

/-- `Code` is called (`/repo/ripsrc/code.go:64`): two deferred calls. -/
def Pipe.uopen : OState PRole PChan (ULoc τ) (CodeRecord τ) :=
  { st := { procs := fun r => if r = .caller then some (.prog .cCode) else none, closed := fun _ => false } }

/-- The steps of a call of `Code` and its consumer. -/
abbrev UCodeSteps (p : Pipe τ) (prep : Bool) (ready : List (CodeRecord τ) → Prop) := OSteps (p.uact prep [.res2, .res]) .res PVal.record ready

/-- `CodeSlice` is called (`/repo/ripsrc/code.go:194-206`): it has no deferred calls of its own. -/
def Pipe.uinit : State PRole PChan (ULoc τ) :=
  { procs := fun r => if r = .caller then some (.prog .cSlice) else none, closed := fun _ => false }

/-- The goroutines of a call of `CodeByCommit` and the history of the consumer. -/
structure UState (τ : Type) where
  st : State PRole PChan (ULoc τ)
  seen : List (CodeSeen τ) := []

/-- `CodeByCommit` is called (`/repo/ripsrc/code.go:94`). -/
def UState.init : UState τ :=
  { st := { procs := fun r => if r = .caller then some (.prog .cByCommit) else none, closed := fun _ => false } }

/-- A step of a call of `CodeByCommit` (one deferred call, `/repo/ripsrc/code.go:95`) or of its consumer: as `SStep` in Model/Stream.lean. -/
inductive UStep (p : Pipe τ) (prep : Bool) (ready : List (CodeSeen τ) → Want → Prop) : UState τ → UState τ → Prop where
  | inner {s t h} : Conc.Step (p.uact prep [.res2]) s t → UStep p prep ready ⟨s, h⟩ ⟨t, h⟩
  | commit {s h r l c i k} : ready h .commit → s.procs r = some l → p.uact prep [.res2] l = .send .res2 (.commitCode c i) k → s.closed .res2 = false →
      UStep p prep ready ⟨s, h⟩ ⟨s.set r k, h ++ [.commit c i]⟩
  | record {s h r l i v k} : ready h (.blames i) → s.procs r = some l → p.uact prep [.res2] l = .send (.blames i) (.record v) k → s.closed (.blames i) = false →
      UStep p prep ready ⟨s, h⟩ ⟨s.set r k, h ++ [.record i v]⟩
  | resClosed {s h} : ready h .commit → s.closed .res2 = true → UStep p prep ready ⟨s, h⟩ ⟨s, h ++ [.resClosed]⟩
  | blamesClosed {s h i} : ready h (.blames i) → s.closed (.blames i) = true → UStep p prep ready ⟨s, h⟩ ⟨s, h ++ [.blamesClosed i]⟩

/-- `n` steps. -/
inductive USteps (p : Pipe τ) (prep : Bool) (ready : List (CodeSeen τ) → Want → Prop) : Nat → UState τ → UState τ → Prop where
  | refl {x} : USteps p prep ready 0 x x
  | snoc {n x y z} : USteps p prep ready n x y → UStep p prep ready y z → USteps p prep ready (n + 1) x z

end Ripsrc
