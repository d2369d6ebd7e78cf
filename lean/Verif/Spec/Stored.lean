import Verif.Model.Process
import Verif.Spec.Graph
import Verif.Spec.Run
/-!
# Which paths the stored state keeps

For C75: the state kept in memory and written to the checkpoint.
-/
namespace Ripsrc.Spec

/-- The log entry has a file diff whose new path is `f`: it creates, changes or renames a file to `f`. -/
def WritesPath (e : LogCommit) (f : Str) : Prop := f ≠ [] ∧ ∃ ch ∈ e.changes, ∃ d, parseDiff ch = .ok d ∧ d.path = f

/-- The log entry has a file diff that deletes `f`; a rename away from `f` is not a deletion. -/
def RemovesPath (e : LogCommit) (f : Str) : Prop := ∃ ch ∈ e.changes, ∃ d, parseDiff ch = .ok d ∧ d.path = [] ∧ d.pathPrev = f

/-- The commits whose stored files include `f`: those that write it, those with one parent that inherit it and do not delete it - also if they rename it -
and all merges with a parent that has it - also if they delete it. -/
inductive KeepsPath (g : Graph) (log : List LogCommit) (f : Str) : Str → Prop
  | written {h : Str} : (g.parentsOf h).length ≤ 1 → (∀ e ∈ log, e.hash = h → WritesPath e f) → KeepsPath g log f h
  | inherited {h p : Str} : g.parentsOf h = [p] → KeepsPath g log f p → (∀ e ∈ log, e.hash = h → ¬ RemovesPath e f) → KeepsPath g log f h
  | merged {h p : Str} : 1 < (g.parentsOf h).length → p ∈ g.parentsOf h → KeepsPath g log f p → KeepsPath g log f h

/-- The graph of a run is part of `g`: it differs only in commits of which the run knows nothing. -/
def PartGraph (g gk : Graph) (log : List LogCommit) : Prop := ∀ h, gk.parentsOf h = g.parentsOf h ∨ (gk.parentsOf h = [] ∧ ∀ e ∈ log, e.hash ≠ h)

/-- `R` is what the last of a sequence of runs writes to the checkpoint: the first one starts from nothing, each of the others from the checkpoint of the one before. `L` are
the logs of all runs; `g` is the graph of the commits, of which each run may know a part. Options, log and order of iteration may differ from run to run. -/
inductive RunsOn (g : Graph) : List LogCommit → Repo → Prop
  | first {env : Env} {opts : RunOpts} {read : Str → Go Repo} {gk : Graph} {log : List LogCommit} {R : Repo} {last : Str} :
      (∀ n k l, (env.order n k l).Perm l) → opts.commitFromIncl = [] → PartGraph g gk log → (run env opts read gk log).written = some (R, last) → RunsOn g log R
  | next {env : Env} {opts : RunOpts} {read : Str → Go Repo} {gk : Graph} {L log : List LogCommit} {R R' R2 : Repo} {last : Str} :
      RunsOn g L R → Restored R R' → (∀ n k l, (env.order n k l).Perm l) → initCheckpoints opts read = .ok R' → PartGraph g gk log →
      (run env opts read gk log).written = some (R2, last) → RunsOn g (L ++ log) R2

end Ripsrc.Spec
