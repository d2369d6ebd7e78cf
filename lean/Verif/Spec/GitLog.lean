import Verif.Spec.Patch
import Verif.Model.GitLog
/-!
# What `git log -p -m --pretty=short` prints

Independent of the parser: a log is a list of entries, an entry is a header, a message and the file diffs.
-/
namespace Ripsrc.Spec

/-- A line of the message part of an entry: git indents text by four blanks, an empty line may be left empty. -/
inductive MsgLine where
  | blank
  | text (t : Str)
deriving DecidableEq

def MsgLine.render : MsgLine → Str
  | .blank => []
  | .text t => b!"    " ++ t

/-- One entry of the log. A merge appears once for each parent against which it has a diff, with `(from parent)`. -/
structure LogEntry where
  hash : Str
  from? : Option Str := none
  /-- abbreviated parents on the `Merge:` line of a merge -/
  mergeOf : Option Str := none
  author : Str
  message : List MsgLine
  /-- the file diffs, as lines -/
  diffs : List (List Str)

def LogEntry.commitLine (e : LogEntry) : Str :=
  b!"commit " ++ e.hash ++ (match e.from? with
    | none => []
    | some p => b!" (from " ++ p ++ b!")")

/-- The lines of one entry. -/
def LogEntry.lines (e : LogEntry) : List Str :=
  [e.commitLine] ++
  (match e.mergeOf with
    | none => []
    | some m => [b!"Merge: " ++ m]) ++
  [b!"Author: " ++ e.author] ++ [[]] ++ e.message.map MsgLine.render ++
  (if e.diffs = [] then [] else [] :: e.diffs.flatten)

/-- The whole log: entries separated by an empty line. -/
def logLines : List LogEntry → List Str
  | [] => []
  | [e] => e.lines
  | e :: es => e.lines ++ [[]] ++ logLines es

def logText (es : List LogEntry) : Str := unlines (logLines es)

/-- A line of a file diff after its first: never empty (a patch line carries its sign, a header line its keyword), and
never the start of another file diff. -/
structure DiffLineOk (l : Str) : Prop where
  nonempty : l ≠ []
  first : l.head? ≠ some 13
  notDiff : startsWith l b!"diff" = false
  nonl : NoNL l
  short : l.length < logMaxLine

/-- A file diff: a `diff --git` line followed by other lines. -/
structure FileDiffOk (d : List Str) : Prop where
  first : ∃ r, d.head? = some (b!"diff --git " ++ r) ∧ NoNL r ∧ r.length + 11 < logMaxLine
  rest : ∀ l ∈ d.tail, DiffLineOk l

def MsgLine.Ok (m : MsgLine) : Prop := NoNL m.render ∧ m.render.length < logMaxLine

structure LogEntry.Ok (e : LogEntry) : Prop where
  hash : NoNL e.hash ∧ 32 ∉ e.hash ∧ 13 ∉ e.hash
  from? : ∀ p, e.from? = some p → NoNL p
  header : e.commitLine.length < logMaxLine
  merge : ∀ m, e.mergeOf = some m → NoNL m ∧ m.length + 7 < logMaxLine
  author : NoNL e.author ∧ e.author.length + 8 < logMaxLine
  message : ∀ m ∈ e.message, m.Ok
  diffs : ∀ d ∈ e.diffs, FileDiffOk d

/-- What a reader of the log should learn from an entry. Line endings of the diffs are normalised: one carriage return
before a newline is dropped. -/
def LogEntry.meaning (e : LogEntry) : LogCommit where
  hash := e.hash
  mergeDiffFrom := e.from?.getD []
  changes := e.diffs.map (fun d => unlines (d.map dropCR))

/-- A file change in which every shown line (and heading) lost one trailing carriage return. -/
def FileChange.norm (f : FileChange) : FileChange :=
  { f with body := match f.body with
    | .text cut heads => .text cut.norm (fun o => dropCR (heads o))
    | b => b }

end Ripsrc.Spec
