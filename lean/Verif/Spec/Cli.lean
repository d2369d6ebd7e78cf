import Verif.Model.Cli
import Verif.Spec.IterDir
/-!
# Vocabulary for the commands
-/
namespace Ripsrc.Spec
open Ripsrc

/-- `git rev-parse HEAD` does not print 40 characters. -/
def RepoRun.Empty {α : Type} (q : RepoRun α) : Prop := (trimSpace q.revParse).length ≠ 40
/-- Processing the repository ends with an error. -/
def RepoRun.Fails {α : Type} (q : RepoRun α) : Prop := ¬ RepoRun.Empty q ∧ ∃ m, q.fin = .err m
/-- Processing the repository ends with a panic. -/
def RepoRun.Panics {α : Type} (q : RepoRun α) : Prop := ¬ RepoRun.Empty q ∧ q.fin = .crash

/-- `l` lists the repositories in the directory and one level below, each once. -/
def ReposAtTop (root : Node) (name : Str) (l : List RelPath) : Prop :=
  l.Nodup ∧ ∀ q, q ∈ l ↔ ∃ m nm, Walk root name q m nm ∧ IsRepo m nm ∧ q.length ≤ 1

/-- The record printed for repository `q`, if the line is one. -/
def recordOf {α : Type} (q : RelPath) : CliEvent α → Option α
  | .record p r => if p = q then some r else none
  | _ => none

/-- The repository whose processing starts with the line, if it is such a line. -/
def startOf {α : Type} : CliEvent α → Option RelPath
  | .starting p => some p
  | _ => none

end Ripsrc.Spec
