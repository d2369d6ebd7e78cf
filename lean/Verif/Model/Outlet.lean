import Verif.Model.Pipeline
import Verif.Model.Pool
/-!
# `Code` and `Branches` with any consumer

A call of `Code(ctx, res)` (`/repo/ripsrc/code.go:64-86`) or `Branches(ctx, res)` (`/repo/ripsrc/branches.go:13-48`) runs the goroutines of Model/Pipeline.lean and Model/Pool.lean without
the collector of `CodeSlice` and `BranchesSlice`: the receiver of `res` is the user of the package, any program. It is given by the histories after which it is ready to receive; it may never be.
-/
namespace Ripsrc
open Conc (Act State)

/-- The goroutines of the call, what the consumer has received, and whether it has found the channel closed. -/
structure OState (R C L A : Type) where
  st : State R C L
  seen : List A := []
  over : Bool := false

variable {R C V L A : Type} [DecidableEq R] [DecidableEq C]

/-- A step: of the goroutines of the call, or of the consumer, which receives a value on the channel `out` or finds it closed. `val` is how a value of the consumer is represented. -/
inductive OStep (act : L → Act R C V L) (out : C) (val : A → V) (ready : List A → Prop) : OState R C L A → OState R C L A → Prop where
  | inner {s t h b} : Conc.Step act s t → OStep act out val ready ⟨s, h, b⟩ ⟨t, h, b⟩
  | take {s h b r l a k} : ready h → s.procs r = some l → act l = .send out (val a) k → s.closed out = false → OStep act out val ready ⟨s, h, b⟩ ⟨s.set r k, h ++ [a], b⟩
  | over {s h} : ready h → s.closed out = true → OStep act out val ready ⟨s, h, false⟩ ⟨s, h, true⟩

/-- `n` steps. -/
inductive OSteps (act : L → Act R C V L) (out : C) (val : A → V) (ready : List A → Prop) : Nat → OState R C L A → OState R C L A → Prop where
  | refl {x} : OSteps act out val ready 0 x x
  | snoc {n x y z} : OSteps act out val ready n x y → OStep act out val ready y z → OSteps act out val ready (n + 1) x z

/-- Nothing can move. -/
def OState.Stuck (act : L → Act R C V L) (out : C) (val : A → V) (ready : List A → Prop) (x : OState R C L A) : Prop := ∀ y, ¬ OStep act out val ready x y

section
variable {τ : Type}

/-- `Code` is called: `/repo/ripsrc/code.go:64`. -/
def Pipe.open : OState PRole PChan (PLoc τ) (CodeRecord τ) :=
  { st := { procs := fun r => if r = .caller then some .cCode else none, closed := fun _ => false } }

/-- The steps of a call of `Code` and its consumer. -/
abbrev CodeSteps (p : Pipe τ) (ready : List (CodeRecord τ) → Prop) := OSteps p.act .res PVal.record ready

/-- `Code` has returned `e` (`/repo/ripsrc/code.go:80-85`; the deferred `close(res)` is done), with checkpoint `w` written: the control state in which `CodeSlice` goes on. -/
def CodeReturned (x : OState PRole PChan (PLoc τ) (CodeRecord τ)) (w : Option (Repo × Str)) (e : Option Fault) : Prop := x.st.procs .caller = some (.joinSlice w e)
end

/-- `Branches` is called: `/repo/ripsrc/branches.go:13`. -/
def Pool.open : OState BRole BChan BLoc Branch :=
  { st := { procs := fun r => if r = .caller then some .cBranches else none, closed := fun _ => false } }

/-- The steps of a call of `Branches` and its consumer. -/
abbrev BranchSteps (p : Pool) (ready : List Branch → Prop) := OSteps p.act .res BVal.branch ready

/-- `Branches` has returned `e` (`/repo/ripsrc/branches.go:46-47`; the deferred `close(res)` is done): the control state in which `BranchesSlice` goes on. -/
def BranchesReturned (x : OState BRole BChan BLoc Branch) (e : Option Fault) : Prop := x.st.procs .caller = some (.joinCollect e)

end Ripsrc
