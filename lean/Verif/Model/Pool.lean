import Verif.Model.Conc
import Verif.Model.Branches
/-!
# The goroutines of `Branches` and `BranchesSlice`

The caller executes `BranchesSlice`, `Branches` and `Process.Run` of branches2, one inside the other; the other goroutines are the collector of `BranchesSlice`, the
forwarder of `Branches`, the feeder of `namesAndHashes.Chan` and the workers of `Run`.

`lastErr` is not modelled: `processBranch` returns nil or panics (`/repo/ripsrc/branches2/process.go:228-265`), so `lastErr` stays nil and the test of the workers
(process.go:161-166) never stops them.
-/
namespace Ripsrc
open Conc (Act State)

/-- The inputs of a call of `BranchesSlice`. `pre` is the error (or panic) of `Branches` before `Run` (`/repo/ripsrc/branches.go:15-27`), `getDefault` the outcome of
`branchmeta.GetDefault` (name and commit), `firstCommit` of `getFirstCommit`, `names` of `getNamesAndHashes`; `prOrder` is the iteration order of the map in
`uniqueStrings`, `perms` the iteration orders while an item is processed. -/
structure Pool where
  pre : Option Fault := none
  getDefault : Go (Str × Str)
  firstCommit : Go Str
  names : Go (List (Str × Str))
  prs : List Str := []
  includeDefault : Bool := true
  prOnly : Bool := false
  concurrency : Int := 0
  numCPU : Nat
  graph : Graph
  sha : Str → Str
  prOrder : List Str → List Str
  perms : Str × Str → List Str → List Str

/-- The number of workers: `/repo/ripsrc/branches2/process.go:96-103` and the loop in lines 156-175. -/
def Pool.workers (p : Pool) : Nat := (if p.concurrency = 0 then (p.numCPU : Int) * 2 else p.concurrency).toNat

inductive BRole where
  | caller | collect | fwd | feeder
  | worker (i : Nat)
deriving DecidableEq, Repr

/-- The channels: `resChan` of `BranchesSlice`, `res2` of `Branches`, `workCh`, and the two channels `done`. -/
inductive BChan where
  | res | res2 | work | doneFwd | doneCollect
deriving DecidableEq, Repr

inductive BVal where
  | branch (b : Branch)
  | item (x : Str × Str)
  | true
  | slice (bs : List Branch)

/-- The control states; `dh` is the default head, `reach` the set `reachableFromHead`. -/
inductive BLoc where
  | cSlice | cBranches | cRun
  | sendDefault (b : Branch) (dh : Str)
  | cWork (dh : Str)
  | startFeeder (dh : Str) (reach : List Str) (items : List (Str × Str))
  | spawn (dh : Str) (reach : List Str) (i : Nat)
  | closeRes2 (e : Option Fault) | joinFwd (e : Option Fault) | closeRes (e : Option Fault) | joinCollect (e : Option Fault)
  | returned (e : Option Fault) (bs : List Branch)
  | feed (items : List (Str × Str)) | fed
  | work (i : Nat) (dh : Str) (reach : List Str) | emit (i : Nat) (dh : Str) (reach : List Str) (b : Branch) | workEnd (i : Nat)
  | fwdRecv | fwdSend (b : Branch) | fwdDone | fwdEnd
  | collect (got : List Branch) | collectEnd (got : List Branch) | collected (got : List Branch)
  | panicked (r : BRole)

/-- The record of the default branch: `/repo/ripsrc/branches2/process.go:127-134`. -/
def Pool.defaultRecord (p : Pool) (name commit first : Str) : Go Branch := do
  let cs ← getAllCommits p.graph commit
  .ok { branchID := branchID p.sha name [], name := name, headSHA := commit, isDefault := true, commits := cs, firstCommit := first }

/-- An error is returned, a panic ends the goroutine. -/
def failRun : Fault → BLoc
  | .error w => .closeRes2 (some (.error w))
  | .panic _ => .panicked .caller

/-- `Branches` fails before `Run`: an error is returned, a panic (of the parser of the commit graph) ends the goroutine. -/
def failPre : Fault → BLoc
  | .error w => .closeRes (some (.error w))
  | .panic _ => .panicked .caller

/-- The first part of `Run`: `/repo/ripsrc/branches2/process.go:116-135`. -/
def Pool.onRun (p : Pool) : BLoc :=
  match p.getDefault with
  | .error e => failRun e
  | .ok (name, commit) =>
    if p.prOnly = false ∧ p.includeDefault = true then
      match p.firstCommit with
      | .error e => failRun e
      | .ok first => match p.defaultRecord name commit first with
        | .error e => failRun e
        | .ok b => .sendDefault b commit
    else .cWork commit

/-- The second part of `Run`: `/repo/ripsrc/branches2/process.go:137-150`: the reachable commits and the list of items. -/
def Pool.onWork (p : Pool) (dh : Str) : BLoc :=
  match newReachableFromHead p.graph dh with
  | .error e => failRun e
  | .ok reach => match (if p.prOnly then .ok [] else p.names) with
    | .error e => failRun e
    | .ok ns => .startFeeder dh reach (ns ++ (uniqueStrings p.prOrder p.prs).map (fun s => ([], s)))

/-- A worker has got an item: `/repo/ripsrc/branches2/process.go:160-173` and the send in line 263. -/
def Pool.onItem (p : Pool) (i : Nat) (dh : Str) (reach : List Str) (x : Str × Str) : BLoc :=
  match processBranch p.sha p.graph dh reach (p.perms x) x.1 x.2 with
  | .error _ => .panicked (.worker i)
  | .ok none => .work i dh reach
  | .ok (some b) => .emit i dh reach b

/-- The programs. The types of the channels exclude the values for which a goroutine is sent to `panicked` here. -/
def Pool.act (p : Pool) : BLoc → Act BRole BChan BVal BLoc
  -- branches.go:50-59
  | .cSlice => .go .collect (.collect []) .cBranches
  -- branches.go:13-36
  | .cBranches => match p.pre with
    | some e => .tau (failPre e)
    | none => .go .fwd .fwdRecv .cRun
  -- branches2/process.go:113-135
  | .cRun => .tau p.onRun
  | .sendDefault b dh => .send .res2 (.branch b) (.cWork dh)
  -- branches2/process.go:137-150
  | .cWork dh => .tau (p.onWork dh)
  -- branches2/name_hash.go:18-27, process.go:152
  | .startFeeder dh reach items => .go .feeder (.feed items) (.spawn dh reach 0)
  -- branches2/process.go:153-178
  | .spawn dh reach i =>
    if i < p.workers then .go (.worker i) (.work i dh reach) (.spawn dh reach (i + 1))
    else .wait ((List.range p.workers).map .worker) (.closeRes2 none)
  -- branches2/process.go:114
  | .closeRes2 e => .close .res2 (.joinFwd e)
  -- branches.go:46
  | .joinFwd e => .recv .doneFwd fun _ => .closeRes e
  -- branches.go:14
  | .closeRes e => .close .res (.joinCollect e)
  -- branches.go:60: the variable `res` is read after the receive
  | .joinCollect e => .recv .doneCollect fun
    | some (.slice bs) => .returned e bs
    | _ => .panicked .caller
  | .returned _ _ => .halt
  -- branches2/name_hash.go:20-25
  | .feed (x :: xs) => .send .work (.item x) (.feed xs)
  | .feed [] => .close .work .fed
  | .fed => .halt
  -- branches2/process.go:158-174
  | .work i dh reach => .recv .work fun
    | some (.item x) => p.onItem i dh reach x
    | none => .workEnd i
    | _ => .panicked (.worker i)
  | .emit i dh reach b => .send .res2 (.branch b) (.work i dh reach)
  | .workEnd _ => .halt
  -- branches.go:31-36
  | .fwdRecv => .recv .res2 fun
    | some (.branch b) => .fwdSend b
    | none => .fwdDone
    | _ => .panicked .fwd
  | .fwdSend b => .send .res (.branch b) .fwdRecv
  | .fwdDone => .send .doneFwd .true .fwdEnd
  | .fwdEnd => .halt
  -- branches.go:53-58
  | .collect got => .recv .res fun
    | some (.branch b) => .collect (got ++ [b])
    | none => .collectEnd got
    | _ => .panicked .collect
  | .collectEnd got => .send .doneCollect (.slice got) (.collected got)
  | .collected _ => .halt
  | .panicked _ => .panic

/-- `BranchesSlice` is called. -/
def Pool.init : State BRole BChan BLoc :=
  { procs := fun r => if r = .caller then some .cSlice else none, closed := fun _ => false }

end Ripsrc
