import Verif.Spec.Run
/-!
# A commit graph that is older than the log

The commit graph is read once per object, and before the log. Commits made after that are in the log but not in the graph.
-/
namespace Ripsrc.Spec

/-- The log is that of the history `H = a ++ c :: r`; the commit graph (`m`) knows the commits `a`, and the commit `c` was made after the graph was read. (Nothing is said about the commits after `c`, and the graph
may know commits that are not in the log.) git and `git blame` work. -/
structure Stale (env : Env) (H : History) (G : Str → Str → List Str) (m : GoMap Str (List Str)) (order : List (Str × List Str)) (a : History) (c : HCommit) (r : History) : Prop where
  sorts : SortsHunks env.srt
  orders : ∀ n k l, (env.order n k l).Perm l
  history : History.Ok [] H
  blame : BlameWorks H G env.blameOut
  wf : m.WF
  perm : order.Perm m
  split : H = a ++ c :: r
  known : ∀ x ∈ a, GoMap.get m x.hash = some x.parents
  unknown : GoMap.get m c.hash = none

/-- A patch that shows a line of the old version of the file. -/
def FileChange.ShowsOld (f : FileChange) : Prop := ∃ cut heads, f.body = .text cut heads ∧ ∃ s ∈ cut.segs, oldLines (edits s.2) ≠ []

/-- The file is renamed. -/
def FileChange.Renames (f : FileChange) : Prop := f.kind.prev ≠ [] ∧ f.kind.next ≠ [] ∧ f.kind.prev ≠ f.kind.next

/-- The change cannot be understood without the old version: a text file is changed or renamed. -/
def FileChange.NeedsOld (f : FileChange) : Prop := f.kind.next ≠ [] ∧ f.body ≠ .binary ∧ (f.Renames ∨ f.ShowsOld)

/-- The change can be understood without the old version: the file is created, deleted, or binary. -/
def FileChange.Standalone (f : FileChange) : Prop := f.kind.prev = [] ∨ f.kind.next = [] ∨ f.body = .binary

/-- Only the mode of the file changes. -/
def FileChange.ModeOnly (f : FileChange) : Prop := f.kind.prev = f.kind.next ∧ f.body = .empty

/-- Lines are added to a text file that was empty. -/
def FileChange.FromEmpty (f : FileChange) : Prop := f.kind.prev ≠ [] ∧ f.kind.prev = f.kind.next ∧ ∃ cut heads, f.body = .text cut heads ∧ oldLines cut.script = []

/-- The blame lists exactly the lines `n`, each as written in the commit `c`. -/
def AllNew (c : Str) (n : List Str) (b : Blame) : Prop :=
  b.isBinary = false ∧ b.commit = c ∧ b.lines.length = n.length ∧ ∀ (j : Nat) (l : Line), b.lines[j]? = some l → l.commit = c ∧ ∃ a, n[j]? = some a ∧ SameLine l.line a

end Ripsrc.Spec
