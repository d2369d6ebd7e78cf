import Verif.Model.Pipeline
import Verif.Spec.CommitStream
/-!
# `CodeByCommit` and its consumer

A call of `CodeByCommit(ctx, res)` (`/repo/ripsrc/code.go:94-190`) runs the goroutines caller, log parser and the goroutine that turns results into records, as in
Model/Pipeline.lean; the consumer of the channels `res` and `Blames` is not `Code` but the user of the package: any program. It is given by the channels that it
is ready to receive from, which depend on what it has seen so far. It may have several goroutines.
-/
namespace Ripsrc
open Conc (Act State)
open Spec (Seen Want)

variable {τ : Type}

/-- What the consumer sees of `CodeByCommit`. -/
abbrev CodeSeen (τ : Type) := Seen (MetaCommit τ) (CodeRecord τ)

/-- The goroutines of the call and the history of the consumer. -/
structure SState (τ : Type) where
  st : State PRole PChan (PLoc τ)
  seen : List (CodeSeen τ) := []

/-- `CodeByCommit` is called (`/repo/ripsrc/code.go:94`); there are no goroutines of `Code` or `CodeSlice`. -/
def SState.init : SState τ :=
  { st := { procs := fun r => if r = .caller then some .cByCommit else none, closed := fun _ => false } }

/-- `CodeByCommit` has returned `e` (`/repo/ripsrc/code.go:94-190`), with checkpoint `w` written: the control state in which `Code` goes on. -/
def SState.Returned (x : SState τ) (w : Option (Repo × Str)) (e : Option Fault) : Prop := x.st.procs .caller = some (.joinCode w e)

/-- A step: of the goroutines of the call, or of the consumer, which receives a commit (`res <- rc`, `/repo/ripsrc/code.go:161`), a record
(`rc.Blames <- r`, `/repo/ripsrc/code.go:163`) or finds a channel closed (`/repo/ripsrc/code.go:95`, `/repo/ripsrc/code.go:165`). -/
inductive SStep (p : Pipe τ) (ready : List (CodeSeen τ) → Want → Prop) : SState τ → SState τ → Prop where
  | inner {s t h} : Conc.Step p.act s t → SStep p ready ⟨s, h⟩ ⟨t, h⟩
  | commit {s h r l c i k} : ready h .commit → s.procs r = some l → p.act l = .send .res2 (.commitCode c i) k → s.closed .res2 = false →
      SStep p ready ⟨s, h⟩ ⟨s.set r k, h ++ [.commit c i]⟩
  | record {s h r l i v k} : ready h (.blames i) → s.procs r = some l → p.act l = .send (.blames i) (.record v) k → s.closed (.blames i) = false →
      SStep p ready ⟨s, h⟩ ⟨s.set r k, h ++ [.record i v]⟩
  | resClosed {s h} : ready h .commit → s.closed .res2 = true → SStep p ready ⟨s, h⟩ ⟨s, h ++ [.resClosed]⟩
  | blamesClosed {s h i} : ready h (.blames i) → s.closed (.blames i) = true → SStep p ready ⟨s, h⟩ ⟨s, h ++ [.blamesClosed i]⟩

/-- `n` steps. -/
inductive SSteps (p : Pipe τ) (ready : List (CodeSeen τ) → Want → Prop) : Nat → SState τ → SState τ → Prop where
  | refl {x} : SSteps p ready 0 x x
  | cons {n x y z} : SStep p ready x y → SSteps p ready n y z → SSteps p ready (n + 1) x z

end Ripsrc
