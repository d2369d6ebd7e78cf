import Verif.Go.Cut
import Mathlib.Logic.Relation
/-!
# Which commits `git log` prints

The part of gitrevisions(7) and of git-log(1) that the commands use: names of commits, `x^` (first parent), `a..b`, `--all`,
and HEAD when no revision is given.
-/
namespace Ripsrc.Spec
open Relation

/-- A repository: commits with their parents, the commit of HEAD, the commits of all refs, and what names mean. -/
structure RevRepo where
  commits : List (Str × List Str)
  head : Str
  tips : List Str
  named : Str → Option Str

namespace RevRepo
variable (r : RevRepo)

/-- `p` is a parent of `c`. -/
def Parent (c p : Str) : Prop := ∃ ps, (c, ps) ∈ r.commits ∧ p ∈ ps
/-- `a` is `c` or one of its ancestors. -/
def Reach : Str → Str → Prop := ReflTransGen r.Parent

/-- `x^`. -/
def firstParent (c : Str) : Option Str :=
  match r.commits.find? (fun e => decide (e.1 = c)) with
  | some (_, p :: _) => some p
  | _ => none

/-- The commit a revision (given reversed) stands for. -/
def commitOf : Str → Option Str
  | 94 :: t => (commitOf t).bind r.firstParent
  | t => if t = [] ∨ t.reverse = b!"HEAD" then some r.head else r.named t.reverse

/-- One argument after `log`: commits to begin from, and commits to exclude with all their ancestors. Options other than
`--all` do not select commits. `none`: git refuses the argument. -/
def argument (s : Str) : Option (List Str × List Str) :=
  if s = b!"--all" then some (r.head :: r.tips, [])
  else if startsWith s b!"-" then some ([], [])
  else match cut b!".." s with
    | some (a, b) => match r.commitOf a.reverse, r.commitOf b.reverse with
      | some a, some b => some ([b], [a])
      | _, _ => none
    | none => (r.commitOf s.reverse).map (fun c => ([c], []))

/-- All arguments after `log`. -/
def arguments : List Str → Option (List Str × List Str)
  | [] => some ([], [])
  | s :: ss => match r.argument s, arguments ss with
    | some (i, e), some (i', e') => some (i ++ i', e ++ e')
    | _, _ => none

/-- The arguments after the word `log`. -/
def afterLog : List Str → List Str
  | [] => []
  | s :: ss => if s = b!"log" then ss else afterLog ss

/-- Without any revision, HEAD. -/
def orHead : Option (List Str × List Str) → Option (List Str × List Str)
  | some ([], []) => some ([r.head], [])
  | x => x

/-- The revisions of a `git log` command. -/
def revisions (cmd : List Str) : Option (List Str × List Str) := r.orHead (r.arguments (afterLog cmd))

/-- git refuses the command (exit status 128). -/
def Refuses (cmd : List Str) : Prop := r.revisions cmd = none

/-- The command prints the commit `c`. -/
def Prints (cmd : List Str) (c : Str) : Prop :=
  ∃ from_ excl, r.revisions cmd = some (from_, excl) ∧ (∃ s ∈ from_, r.Reach s c) ∧ ∀ e ∈ excl, ¬ r.Reach e c

/-- A repository as git stores it: no commit twice, no cycles, commits can be named by their hash and a hash that is no commit
names nothing. -/
structure Ok : Prop where
  once : (r.commits.map Prod.fst).Nodup
  acyclic : ∀ c, ¬ TransGen r.Parent c c
  complete : ∀ c p, r.Parent c p → ∃ ps, (p, ps) ∈ r.commits
  head : ∃ ps, (r.head, ps) ∈ r.commits
  hash : ∀ e ∈ r.commits, (∀ b ∈ e.1, (48 ≤ b ∧ b ≤ 57) ∨ (97 ≤ b ∧ b ≤ 102)) ∧ e.1 ≠ [] ∧ r.named e.1 = some e.1
  tips : ∀ t ∈ r.tips, ∃ ps, (t, ps) ∈ r.commits

/-- The history of HEAD has no merges. -/
def Linear : Prop := ∀ c, r.Reach r.head c → ∀ p q, r.Parent c p → r.Parent c q → p = q

end RevRepo
end Ripsrc.Spec
