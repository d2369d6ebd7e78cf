import Verif.Model.Conc
import Verif.Spec.HappensBefore
/-!
# The memory log of the commands

`StartMemLogs` (`/repo/ripsrc/cmd/cmdutils/memstats.go:12-37`). Two goroutines call `log`; the mutex is a third goroutine that takes turns (`Lock` is a send on `lock`, `Unlock` a
send on `unlock`). Only the variable `allocatedMem` is modelled; a tick may come at any time.
-/
namespace Ripsrc
open Conc (Act State Access)

inductive MRole where
  | main | ticker | mutex
deriving DecidableEq, Repr

inductive MChan where
  | lock | unlock
deriving DecidableEq, Repr

/-- `log` is called, has the lock, prints. -/
inductive MLoc where
  | start
  | log (r : MRole) | locked (r : MRole) | printing (r : MRole)
  | ticking | ended
  | free | held

/-- The programs: `/repo/ripsrc/cmd/cmdutils/memstats.go:18-37`. -/
def memLogs : MLoc → Act MRole MChan Unit MLoc
  -- lines 26-31
  | .start => .go .ticker .ticking (.log .main)
  | .ticking => .tau (.log .ticker)
  -- lines 18-24
  | .log r => .send .lock () (.locked r)
  | .locked r => .send .unlock () (.printing r)
  | .printing .main => .tau .ended
  | .printing _ => .tau .ticking
  | .ended => .halt
  | .free => .recv .lock fun _ => .held
  | .held => .recv .unlock fun _ => .free

def memLogsInit : State MRole MChan MLoc :=
  { procs := fun r => match r with | .main => some .start | .ticker => none | .mutex => some .free, closed := fun _ => false }

/-- Accesses to `allocatedMem`: written with the lock (line 20), read for the output without it (line 23). -/
def MLoc.acc : MLoc → List (Access Unit)
  | .start => [.write ()]
  | .locked _ => [.write ()]
  | .printing _ => [.read ()]
  | _ => []

end Ripsrc
