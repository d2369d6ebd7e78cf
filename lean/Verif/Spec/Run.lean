import Verif.Spec.History
import Verif.Spec.Graph
import Verif.Model.Process
import Verif.Lib.Apply
/-!
# Specification: the circumstances of a run over a git history
-/
namespace Ripsrc.Spec

/-- A run over a part of the well formed history `H`: hunks get sorted, maps are iterated in some order, `git blame` works, and the
commit graph is made of the parents of all commits reachable from any ref (`m`): those of `H`, and possibly others. `order` is the
order in which the graph was built. -/
structure Setting (env : Env) (H : History) (G : Str → Str → List Str) (m : GoMap Str (List Str)) (order : List (Str × List Str)) : Prop where
  sorts : SortsHunks env.srt
  orders : ∀ n k l, (env.order n k l).Perm l
  history : History.Ok [] H
  blame : BlameWorks H G env.blameOut
  wf : m.WF
  perm : order.Perm m
  parents : ∀ c ∈ H, GoMap.get m c.hash = some c.parents

/-- The blame has the content `n` of a file: line by line, but for trailing carriage returns. -/
def HasContent (b : Blame) (n : List Str) : Prop :=
  b.lines.length = n.length ∧ ∀ (j : Nat) (l : Line), b.lines[j]? = some l → ∃ a, n[j]? = some a ∧ SameLine l.line a

/-- Every line of the blame names the commit it originates from. -/
def Attributed (H : History) (G : Str → Str → List Str) (c p : Str) (b : Blame) : Prop :=
  ∀ (j : Nat) (l : Line), b.lines[j]? = some l → Origin H G c p j l.commit

/-- Some commit of `H` has parent `p`. -/
def HasChildIn (H : History) (p : Str) : Prop := ∃ d ∈ H, p ∈ d.parents

/-- Two results are the same: same commit, same files with the same blame. -/
def SameResult (r r' : Result) : Prop := r'.commit = r.commit ∧ ∀ p, GoMap.get r'.files p = GoMap.get r.files p

/-- No path is both deleted (against one parent) and written by the same merge. -/
def NoTypeChange (H : History) (c : HCommit) : Prop := c.Regular ∨ ∀ p, ¬ (c.Deletes p ∧ c.Writes H p)

/-- What a resumed run finds: `R'` is `R` as restored from a checkpoint. Commits without files are lost. -/
structure Restored (R R' : Repo) : Prop where
  sound : ∀ h fs', GoMap.get R' h = some fs' → ∃ fs, GoMap.get R h = some fs ∧ ∀ p, GoMap.get fs' p = GoMap.get fs p
  complete : ∀ h fs, GoMap.get R h = some fs → fs ≠ [] → ∃ fs', GoMap.get R' h = some fs'

/-- The commits of a log: adjacent entries of one merge count once. `cur` is the merge the entries before belong to. -/
def logCommits (isMerge : Str → Bool) : Option Str → List LogCommit → List Str
  | _, [] => []
  | cur, e :: es =>
    if cur = some e.hash then logCommits isMerge cur es
    else e.hash :: logCommits isMerge (if isMerge e.hash then some e.hash else none) es

/-- The graph says that the commit is a merge. -/
def isMergeIn (g : Graph) (h : Str) : Bool := decide ((g.parentsOf h).length > 1)

end Ripsrc.Spec
