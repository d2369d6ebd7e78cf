import Verif.Model.Ripsrc
/-!
# Calls on one object at the same time

`Model/Ripsrc.lean` has calls one after the other. Here any number of goroutines of the user call `Branches` (through `BranchesSlice`) and `Code` on one object, each at any time. The
accesses to the field `s.commitGraph` and to the graph behind it are single steps (the Go memory model promises less).
-/
namespace Ripsrc
open Conc (State)

variable {τ : Type}

/-- The part of the object that calls share: the graphs that were allocated, and the field `commitGraph` (`/repo/ripsrc/ripsrc.go:67`), a pointer to one of them or nil. -/
structure SharedObj where
  graphs : List Graph := []
  field : Option Nat := none

/-- `parentsgraph.New`: `/repo/ripsrc/parentsgraph/parents.go:26-30`. Both maps are nil. -/
def Graph.empty : Graph := { parents := [], children := [] }

/-- What is behind a pointer. -/
def SharedObj.deref (s : SharedObj) (q : Nat) : Graph := s.graphs[q]?.getD .empty

/-- An assignment to the fields of a graph. -/
def SharedObj.put (s : SharedObj) (q : Nat) (g : Graph) : SharedObj := { s with graphs := s.graphs.set q g }

/-- The last loop of `childrenFromParents`: `/repo/ripsrc/parentsgraph/parents.go:64-66`. -/
def sortChildren (ch : GoMap Str (List Str)) : GoMap Str (List Str) := ch.map (fun e => (e.1, sortStrings e.2))

/-- Where a call is. -/
inductive ObjLoc where
  /-- `/repo/ripsrc/branches.go:15-22`, `/repo/ripsrc/code.go:97-100` -/
  | start
  /-- `if s.commitGraph != nil`: `/repo/ripsrc/ripsrc.go:93` -/
  | check
  /-- `s.commitGraph = parentsgraph.New(…)`: `/repo/ripsrc/ripsrc.go:97` -/
  | store
  /-- `s.commitGraph.Read()`: `/repo/ripsrc/ripsrc.go:103`; the receiver is evaluated -/
  | read
  /-- git log runs and is parsed, then `s.Parents` is set: `/repo/ripsrc/parentsgraph/parents.go:45,69-84` -/
  | parents (q : Nat)
  /-- `s.Children = map[string][]string{}`: `/repo/ripsrc/parentsgraph/parents.go:54` -/
  | clear (q : Nat)
  /-- the loop over `s.Parents`: `/repo/ripsrc/parentsgraph/parents.go:55-63` -/
  | kids (q : Nat) (todo : List (Str × List Str))
  /-- `opts.CommitGraph = s.commitGraph`: `/repo/ripsrc/branches.go:40`, `/repo/ripsrc/code.go:178` -/
  | use
  /-- `Run` of `Branches` with the goroutines of Model/Pool.lean, on the graph behind the pointer (or the call fails with `pre`) -/
  | branches (q : Nat) (pre : Option Fault) (st : State BRole BChan BLoc)
  /-- the rest of `Code`, which does not write to the graph -/
  | code (q : Nat) (pre : Option Fault)

/-- What the worker pool of a call of `Branches` is started with: `/repo/ripsrc/branches.go:37-45` (as in `branchesCall`). -/
def callPool (e : BranchesEnv τ) (o : GitOut) (u : UserOpts) (pre : Option Fault) (g : Graph) : Pool :=
  { (branchesCall e o u {}).2 with pre := pre, graph := g }

/-- The calls: which of them are calls of `Code`, the options of the object, and for each call what git prints and what is not determined. -/
structure ObjEnv (τ : Type) where
  isCode : Nat → Bool
  u : UserOpts
  env : Nat → BranchesEnv τ
  out : Nat → GitOut

/-- The object and the calls; `none`: not yet begun. -/
structure ObjSt where
  sh : SharedObj := {}
  calls : Nat → Option ObjLoc := fun _ => none

def ObjSt.go (x : ObjSt) (i : Nat) (l : ObjLoc) : ObjSt := { x with calls := fun j => if j = i then some l else x.calls j }

/-- A new object: `New`, `/repo/ripsrc/ripsrc.go:70-81`. -/
def ObjSt.fresh : ObjSt := {}

/-- The call goes on after `buildCommitGraph` failed. -/
def ObjEnv.failed (c : ObjEnv τ) (i : Nat) (f : Fault) : ObjLoc := if c.isCode i then .code 0 (some f) else .branches 0 (some f) Pool.init

/-- What a call does before `buildCommitGraph`: `/repo/ripsrc/branches.go:15-22`, `/repo/ripsrc/code.go:97-100`. -/
def ObjEnv.begin (c : ObjEnv τ) (i : Nat) : ObjLoc :=
  if c.isCode i = false ∧ c.u.allBranches = false then c.failed i (.error "Branches call is only allowed when AllBranches=true")
  else match gitexecPrepare (c.out i) with
    | .error f => c.failed i f
    | .ok () => .check

/-- The steps. -/
inductive ObjStep (c : ObjEnv τ) : ObjSt → ObjSt → Prop where
  /-- the user calls -/
  | call {x i} : x.calls i = none → ObjStep c x (x.go i .start)
  | begin {x i} : x.calls i = some .start → ObjStep c x (x.go i (c.begin i))
  | checkNil {x i} : x.calls i = some .check → x.sh.field = none → ObjStep c x (x.go i .store)
  | checkSet {x i q} : x.calls i = some .check → x.sh.field = some q → ObjStep c x (x.go i .use)
  | store {x i} : x.calls i = some .store →
      ObjStep c x ({ x with sh := { graphs := x.sh.graphs ++ [Graph.empty], field := some x.sh.graphs.length } }.go i .read)
  | read {x i q} : x.calls i = some .read → x.sh.field = some q → ObjStep c x (x.go i (.parents q))
  | parents {x i q text m} : x.calls i = some (.parents q) → (c.out i).log = some text → parentsRun text = .ok m →
      ObjStep c x ({ x with sh := x.sh.put q { x.sh.deref q with parents := m } }.go i (.clear q))
  | parentsError {x i q text f} : x.calls i = some (.parents q) → (c.out i).log = some text → parentsRun text = .error f → ObjStep c x (x.go i (c.failed i f))
  | parentsPanic {x i q} : x.calls i = some (.parents q) → (c.out i).log = none → ObjStep c x (x.go i (c.failed i (.panic "git log failed")))
  | clear {x i q} : x.calls i = some (.clear q) →
      ObjStep c x ({ x with sh := x.sh.put q { x.sh.deref q with children := [] } }.go i (.kids q ((c.env i).iter (x.sh.deref q).parents)))
  | kids {x i q a todo} : x.calls i = some (.kids q (a :: todo)) →
      ObjStep c x ({ x with sh := x.sh.put q { x.sh.deref q with children := childrenStep (x.sh.deref q).children a } }.go i (.kids q todo))
  | sort {x i q} : x.calls i = some (.kids q []) →
      ObjStep c x ({ x with sh := x.sh.put q { x.sh.deref q with children := sortChildren (x.sh.deref q).children } }.go i .use)
  | use {x i q} : x.calls i = some .use → x.sh.field = some q → ObjStep c x (x.go i (if c.isCode i then .code q none else .branches q none Pool.init))
  /-- the goroutines of a call of `Branches`: they read the graph as it is now -/
  | run {x i q pre s t} : x.calls i = some (.branches q pre s) → Conc.Step (callPool (c.env i) (c.out i) c.u pre (x.sh.deref q)).act s t →
      ObjStep c x (x.go i (.branches q pre t))

/-- `n` steps. -/
inductive ObjSteps (c : ObjEnv τ) : Nat → ObjSt → ObjSt → Prop where
  | refl {x} : ObjSteps c 0 x x
  | snoc {n x y z} : ObjSteps c n x y → ObjStep c y z → ObjSteps c (n + 1) x z

end Ripsrc
