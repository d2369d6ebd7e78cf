import Verif.Model.Pipeline
import Verif.Model.Pool
import Verif.Model.GetAll
import Verif.Spec.HappensBefore
/-!
# The shared variables of the pipelines

`Model/Pipeline.lean`, `Model/Pool.lean` and `Model/GetAll.lean` model goroutines that share no memory. In the code they do share variables; here is which, and in which control
states a goroutine reads or writes them. `acc l` are the accesses that a goroutine makes between its arrival in `l` and its next step; what it does with a value that it has
received belongs to the state that it reaches by the receive. A compound object (a map, a struct with all that it refers to) is one variable, and a goroutine that may read or
write some part of it is taken to do so.

Not here: variables of a single goroutine; the blames inside the results (C54: no blame is written after it was sent); the options (nobody writes them); the logger and
the counters of `cmd`. A goroutine that panics makes the accesses before the panic; its deferred calls are not modelled.
-/
namespace Ripsrc
open Conc (Access)

/-- The shared variables of a call of `CodeSlice`: the result slice `res` (`/repo/ripsrc/code.go:193`), `s.commitMeta` and `s.commitGraph` (`/repo/ripsrc/commit_info.go:9-22`,
`/repo/ripsrc/ripsrc.go:92-104`), `s.fileInfo` with its cache and `s.CodeInfoTimings` (`/repo/ripsrc/code_info.go:69, 111-116`), `s.GitProcessTimings` (`/repo/ripsrc/code.go:189`), the
fields of the blame processor (`/repo/ripsrc/history3/process/process.go:25-47`), the log parser and the reader of the log
(`/repo/ripsrc/history3/process/process.go:151-159`). -/
inductive PVar where
  | result | commitMeta | commitGraph | fileInfo | codeTimings | gitTimings | processor | log
deriving DecidableEq, Repr

def PVar.all : List PVar := [.result, .commitMeta, .commitGraph, .fileInfo, .codeTimings, .gitTimings, .processor, .log]

/-- The accesses of the goroutines of `CodeSlice`. Before the call and after it the variables belong to the user. -/
def PLoc.acc {τ : Type} : PLoc τ → List (Access PVar)
  | .cSlice | .returned _ _ _ => PVar.all.map .write
  -- `/repo/ripsrc/code.go:97-141`
  | .cByCommit => [.write .commitGraph, .write .commitMeta]
  -- `/repo/ripsrc/code.go:170-182`, `/repo/ripsrc/history3/process/process.go:130-172`
  | .cRun => [.read .commitGraph, .write .processor, .write .log]
  -- `/repo/ripsrc/history3/process/process.go:180-217`
  | .loop _ | .sending _ _ | .joinRun _ _ | .panicked .caller => [.read .commitGraph, .write .processor]
  -- `/repo/ripsrc/history3/process/process.go:156`
  | .closeGitRes _ _ => [.write .log]
  -- `/repo/ripsrc/code.go:189`
  | .closeRes2 _ _ => [.read .processor, .write .gitTimings]
  -- `/repo/ripsrc/history3/process/parser/parser.go:68-89`
  | .parse _ | .parseDone => [.write .log]
  -- `/repo/ripsrc/code.go:147-160`
  | .codeHead _ _ _ _ | .panicked .code => [.read .commitMeta, .write .fileInfo, .write .codeTimings]
  -- `/repo/ripsrc/code.go:198-200`
  | .collect _ | .panicked .collect => [.write .result]
  | _ => []

/-- The shared variables of a call of `BranchesSlice`: the result slice (`/repo/ripsrc/branches.go:50`), `s.commitGraph`, the fields `defaultBranch` and `reachableFromHead` of the
processor (`/repo/ripsrc/branches2/process.go:88-94`), the list of names and hashes and `lastErr` (`/repo/ripsrc/branches2/process.go:139-155`). -/
inductive BVar where
  | result | commitGraph | default | reachable | names | lastErr
deriving DecidableEq, Repr

/-- The accesses of the goroutines of `BranchesSlice`. The local variables of `Run` are not visible to the user. `lastErr` is written only if `processBranch` fails, which
it never does (see `Model/Pool.lean`); that write is under a mutex. -/
def BLoc.acc : BLoc → List (Access BVar)
  | .cSlice => [.write .result, .write .commitGraph, .write .default, .write .reachable, .write .names, .write .lastErr]
  | .returned _ _ => [.write .result, .write .commitGraph, .write .default, .write .reachable]
  -- `/repo/ripsrc/branches.go:24`
  | .cBranches => [.write .commitGraph]
  -- `/repo/ripsrc/branches2/process.go:116-135`
  | .cRun | .sendDefault _ _ => [.read .commitGraph, .write .default]
  -- `/repo/ripsrc/branches2/process.go:137-150`
  | .cWork _ => [.read .commitGraph, .read .default, .write .reachable, .write .names]
  -- `/repo/ripsrc/branches2/process.go:152-155`
  | .startFeeder _ _ _ => [.read .names, .write .lastErr]
  -- `/repo/ripsrc/branches2/process.go:177`
  | .closeRes2 _ => [.read .lastErr]
  -- `/repo/ripsrc/branches2/name_hash.go:20-25`
  | .feed _ => [.read .names]
  -- `/repo/ripsrc/branches2/process.go:160-173, 228-265`
  | .work _ _ _ | .emit _ _ _ _ | .panicked (.worker _) => [.read .commitGraph, .read .default, .read .reachable, .read .lastErr]
  -- `/repo/ripsrc/branches.go:54-56`
  | .collect _ | .panicked .collect => [.write .result]
  | _ => []

/-- The shared variables of `RunGetAll`: its result `err` (`/repo/ripsrc/history3/process/process.go:781`, `/repo/ripsrc/history3/process/parser/parser.go:194`) and the object whose
`Run` is called. -/
inductive GVar where
  | err | object
deriving DecidableEq, Repr

/-- The accesses of the goroutines of `RunGetAll`. -/
def GLoc.acc {α : Type} : GLoc α → List (Access GVar)
  | .start | .returned _ _ => [.write .err, .write .object]
  | .run _ => [.write .object]
  -- `/repo/ripsrc/history3/process/process.go:785-786`, `/repo/ripsrc/history3/process/parser/parser.go:198-199`
  | .sendDone _ => [.write .object, .write .err]
  | .panicked => [.write .object]
  | _ => []

end Ripsrc
