import Verif.Spec.GitLog
import Verif.Spec.Patch
import Verif.Spec.Stored
/-!
# What git prints when the user has configured it

`git log -p -m --pretty=short` is run with the configuration of the user in force (`/repo/ripsrc/history3/process/process.go:795-842` only sets
`core.attributesFile` and `diff.renameLimit`). This file describes the log under the settings `log.decorate`, `log.showSignature`, `color.ui`, `diff.noprefix`
(`diff.srcPrefix`, `diff.dstPrefix`), `log.diffMerges`, `diff.submodule`, `diff.renames=copies`, independently of the parser.
-/
namespace Ripsrc.Spec

/-- A log: blocks of lines separated by an empty line. -/
def joinBlank : List (List Str) → List Str
  | [] => []
  | [b] => b
  | b :: bs => b ++ [[]] ++ joinBlank bs

/-- `log.decorate = short`: names of branches and tags that point to the commit, in parentheses at the end of the commit line. -/
def decorated (e : LogEntry) : Option Str → List Str
  | none => e.lines
  | some names => (e.commitLine ++ b!" (" ++ names ++ b!")") :: e.lines.tail

/-- What the program learns from an entry with decoration: hash and file diffs are right, the name of the parent is not. -/
def decoratedMeaning (e : LogEntry) : Option Str → LogCommit
  | none => e.meaning
  | some names => { e.meaning with
      mergeDiffFrom := match e.from? with
        | none => names.drop 5
        | some p => p ++ b!") (" ++ names }

/-- Names without newline or carriage return. -/
structure NamesOk (e : LogEntry) (names : Str) : Prop where
  nonl : NoNL names
  short : e.commitLine.length + names.length + 3 < logMaxLine

/-- A declaration line with the prefixes `s` and `d` in front of the two names (`diff.noprefix`: both empty). -/
def declLineWith (s d p q : Str) : Str := b!"diff --git " ++ (s ++ p) ++ b!" " ++ (d ++ q)

/-- `diff.renames=copies`: the diff of the file `q` that starts as a copy of `p`. -/
def copyLines (before after : List Str) (p q : Str) (body : Body) : List Str :=
  FileChange.lines { kind := .copy p q, before := before, after := after, body := body }

/-- A change that is read from one of the entries of a merge. -/
def ReadsChange (parts : GoMap Str LogCommit) (d : Diff) : Prop := ∃ h e, GoMap.get parts h = some e ∧ ∃ ch ∈ e.changes, parseDiff ch = .ok d

/-- The changes of a merge to the path `k`: there is one, none of them deletes `k`, none is of a binary file, and an old version of the file that they name is, in
the first parent, not binary. -/
structure PlainChange (repo : Repo) (parts : GoMap Str LogCommit) (p1 k : Str) : Prop where
  any : ∃ d, ReadsChange parts d ∧ d.path = k
  kept : ∀ d, ReadsChange parts d → d.path = [] → d.pathPrev ≠ k
  path : k ≠ [] ∧ ¬ deletedPrefix <+: k
  text : ∀ d, ReadsChange parts d → d.path = k → d.isBinary = false
  old : ∀ d, ReadsChange parts d → d.path = k → d.pathPrev ≠ [] → ∀ fs b, GoMap.get repo p1 = some fs → GoMap.get fs d.pathPrev = some b → b.isBinary = false

/-- The parents after the first, in order: the first one that stores `f`. -/
def firstStored (repo : Repo) (f : Str) : List Str → Option Blame
  | [] => none
  | p :: ps => match (GoMap.get repo p).bind (fun fs => GoMap.get fs f) with
    | some b => some b
    | none => firstStored repo f ps

/-- Same commits and changes; the name of the parent may differ, but not for merges. -/
def SameButFrom (g : Graph) (a b : LogCommit) : Prop :=
  a.hash = b.hash ∧ a.changes = b.changes ∧ ((g.parentsOf a.hash).length > 1 → a.mergeDiffFrom = b.mergeDiffFrom)

end Ripsrc.Spec
