import Verif.Spec.Patch
import Verif.Spec.GitLog
import Verif.Spec.GitBlame
import Mathlib.Logic.Relation
/-!
# Specification: a git history, its log, and the origin of a line

Independent of the model of the processor. A history is a list of commits, parents first. A commit has a tree (the lines of each
file) and, against each parent, the list of file changes that git prints. From this the *origin* of every line is defined by
following the changes back.
-/
namespace Ripsrc.Spec

/-- The files of a commit and their lines. -/
abbrev Tree := Str → Option (List Str)

def emptyTree : Tree := fun _ => none

/-- A commit: `diffs` has one list of changes for each parent; a root commit has one, against the empty tree. -/
structure HCommit where
  hash : Str
  parents : List Str
  tree : Tree
  diffs : List (List FileChange)

/-- Commits in the order of the log, parents before children. -/
abbrev History := List HCommit

def History.commit? (H : History) (h : Str) : Option HCommit := H.find? (fun c => decide (c.hash = h))

/-- The tree of a commit given by its hash. -/
def History.treeOf (H : History) (h : Str) : Tree :=
  match H.commit? h with
  | some c => c.tree
  | none => emptyTree

/-- `p` is the hash of a parent of the commit with hash `c`. -/
def History.Parent (H : History) (c p : Str) : Prop := ∃ x ∈ H, x.hash = c ∧ p ∈ x.parents

/-- `a` is `c` or one of its ancestors. -/
def History.Reach (H : History) : Str → Str → Prop := Relation.ReflTransGen H.Parent

/-! ## Changes between two trees -/

/-- The content at a path, no lines if there is no file. -/
def content (t : Tree) (p : Str) : List Str := if p = [] then [] else (t p).getD []

/-- The body of a change takes the old lines to the new ones. Nothing can be read off a binary change. A text body is cut by git
with at least two lines of context. -/
def Body.Takes : Body → List Str → List Str → Prop
  | .empty, o, n => o = n
  | .binary, _, _ => True
  | .text cut _, o, n => oldLines cut.script = o ∧ newLines cut.script = n ∧ segsOk 0 cut.segs

/-- What a change is about: a deleted path or a resulting path. -/
def FileChange.target (f : FileChange) : Bool × Str := if f.kind.next = [] then (true, f.kind.prev) else (false, f.kind.next)

/-- The change that results in path `p`. -/
def changeOf (cs : List FileChange) (p : Str) : Option FileChange := cs.find? (fun f => decide (f.kind.next = p))

/-- The list of changes describes the difference of two trees. -/
structure Describes (old new : Tree) (cs : List FileChange) : Prop where
  ok : ∀ f ∈ cs, f.Ok
  prev : ∀ f ∈ cs, f.kind.prev ≠ [] → (old f.kind.prev).isSome
  next : ∀ f ∈ cs, f.kind.next ≠ [] → (new f.kind.next).isSome
  body : ∀ f ∈ cs, f.body.Takes (content old f.kind.prev) (content new f.kind.next)
  /-- each path results from one change, and is deleted at most once -/
  once : (cs.map FileChange.target).Nodup
  /-- a deleted path is gone, or a file is created there again (change of type) -/
  gone : ∀ f ∈ cs, f.kind.next = [] → (new f.kind.prev).isSome → (changeOf cs f.kind.prev).isSome
  /-- … after the deletion -/
  order : cs.Pairwise (fun f g => g.kind.next = [] → f.kind.next ≠ g.kind.prev)
  /-- other files are unchanged -/
  rest : ∀ p, (new p).isSome → changeOf cs p = none → old p = new p

/-! ## Histories -/

/-- A commit with at most one parent. -/
def HCommit.Regular (c : HCommit) : Prop := c.parents.length ≤ 1

instance (c : HCommit) : Decidable c.Regular := inferInstanceAs (Decidable (_ ≤ _))

/-- `p` is deleted by the commit (for a merge: against some parent). -/
def HCommit.Deletes (c : HCommit) (p : Str) : Prop := ∃ cs ∈ c.diffs, ∃ f ∈ cs, f.kind.next = [] ∧ f.kind.prev = p

/-- Paths are not empty. For a merge: if it deletes a file `q` (against some parent), then it has no file whose name is `q` with the
marker in front that the program uses internally. -/
def HCommit.PathsOk (c : HCommit) : Prop :=
  ∀ p, (c.tree p).isSome → p ≠ [] ∧ (¬ c.Regular → ∀ q, c.Deletes q → p ≠ b!"@@@del@@@" ++ q)

/-- A commit is well formed in the history of the commits before it. -/
structure HCommit.Ok (before : History) (c : HCommit) : Prop where
  new : ∀ x ∈ before, x.hash ≠ c.hash
  parentsKnown : ∀ p ∈ c.parents, ∃ x ∈ before, x.hash = p
  parentsOnce : c.parents.Nodup
  paths : c.PathsOk
  root : c.parents = [] → ∃ cs, c.diffs = [cs] ∧ Describes emptyTree c.tree cs
  count : c.parents ≠ [] → c.diffs.length = c.parents.length
  diffs : ∀ x ∈ c.parents.zip c.diffs, Describes (before.treeOf x.1) c.tree x.2

/-- All commits are well formed. -/
def History.Ok : History → History → Prop
  | _, [] => True
  | before, c :: rest => c.Ok before ∧ History.Ok (before ++ [c]) rest

/-! ## Which files are treated as binary -/

/-- No hunks are printed. -/
def Body.noPatch : Body → Bool
  | .empty => true
  | .binary => true
  | .text cut _ => cut.segs.isEmpty

/-- The parents against which `p` has a change, and which change. -/
def HCommit.changesAt (c : HCommit) (p : Str) : List (Str × Option FileChange) :=
  (c.parents.zip c.diffs).map (fun x => (x.1, changeOf x.2 p))

/-- The file `p` of commit `c` is only known as binary: git printed its change as binary, or it was moved or left as it is since
then. In a merge it is enough that it is so against one of the parents. -/
inductive IsBin (H : History) : Str → Str → Prop
  | change {c cs f p} : c ∈ H → c.Regular → c.diffs = [cs] → p ≠ [] → changeOf cs p = some f → f.body = .binary → IsBin H c.hash p
  | moved {c cs f p q} : c ∈ H → c.parents = [q] → c.diffs = [cs] → p ≠ [] → changeOf cs p = some f →
      f.kind.prev ≠ [] → f.kind.prev ≠ p → f.body.noPatch = true → IsBin H q f.kind.prev → IsBin H c.hash p
  | untouched {c cs p q} : c ∈ H → c.parents = [q] → c.diffs = [cs] → changeOf cs p = none → IsBin H q p → IsBin H c.hash p
  | mergeChange {c p q f} : c ∈ H → ¬ c.Regular → p ≠ [] → (q, some f) ∈ c.changesAt p → f.body = .binary → IsBin H c.hash p
  | mergeParent {c p q f} : c ∈ H → ¬ c.Regular → p ≠ [] → (q, some f) ∈ c.changesAt p → f.kind.prev ≠ [] →
      IsBin H q f.kind.prev → IsBin H c.hash p
  | mergeSame {c p q} : c ∈ H → ¬ c.Regular → (∃ x ∈ c.changesAt p, x.2 ≠ none) →
      (c.changesAt p).find? (fun x => x.2.isNone) = some (q, none) → IsBin H q p → IsBin H c.hash p
  | mergeUntouched {c p q} : c ∈ H → ¬ c.Regular → (∀ x ∈ c.changesAt p, x.2 = none) → c.parents.getLast? = some q →
      IsBin H q p → IsBin H c.hash p

/-! ## The files a commit reports -/

/-- `p` is a file printed as deleted binary file. -/
def HCommit.DeletesBinary (c : HCommit) (p : Str) : Prop :=
  ∃ cs ∈ c.diffs, ∃ f ∈ cs, f.kind.next = [] ∧ f.kind.prev = p ∧ f.body = .binary

/-- `p` is a file of the commit that has changed: created, modified or renamed to. A file of a merge has changed if it differs from
all parents, and also if it is a binary file against a parent it differs from. -/
def HCommit.Writes (H : History) (c : HCommit) (p : Str) : Prop :=
  p ≠ [] ∧ (∃ x ∈ c.diffs, changeOf x p ≠ none) ∧
  (c.Regular ∨ (∀ x ∈ c.diffs, changeOf x p ≠ none) ∨
    ∃ q f, (q, some f) ∈ c.changesAt p ∧ (f.body = .binary ∨ f.kind.prev ≠ [] ∧ IsBin H q f.kind.prev))

/-! ## Origin of a line -/

/-- For each line of the new version the index it had in the old one, `none` if it is added; `i` old lines came before. -/
def sources : List Edit → Nat → List (Option Nat)
  | [], _ => []
  | .keep _ :: es, i => some i :: sources es (i + 1)
  | .del _ :: es, i => sources es (i + 1)
  | .add _ :: es, i => none :: sources es i

/-- Where line `j` of the result of a change comes from. -/
def Body.source : Body → Nat → Option Nat
  | .text cut _, j => ((sources cut.script 0)[j]?).getD none
  | _, j => some j

/-- Line `j` of file `p` of commit `c` was last changed by commit `o`. `G c p` is what `git blame` answers; it is consulted when
a regular commit changes a file that is only known as binary. In a merge, a file that is the same in some parents and differs
from others is taken from the first parent with the same file, a file unchanged against all parents from the last; in a file that
differs from all parents each line comes from the first parent that has it, and else from the merge. -/
inductive Origin (H : History) (G : Str → Str → List Str) : Str → Str → Nat → Str → Prop
  | added {c cs f p j} : c ∈ H → c.Regular → c.diffs = [cs] → ¬ IsBin H c.hash p → changeOf cs p = some f →
      (f.kind.prev ≠ [] → ∀ q ∈ c.parents, ¬ IsBin H q f.kind.prev) → f.body.source j = none →
      Origin H G c.hash p j c.hash
  | kept {c cs f p q i j o} : c ∈ H → c.parents = [q] → c.diffs = [cs] → ¬ IsBin H c.hash p → changeOf cs p = some f →
      f.kind.prev ≠ [] → ¬ IsBin H q f.kind.prev → f.body.source j = some i → Origin H G q f.kind.prev i o →
      Origin H G c.hash p j o
  | blamed {c cs f p q j o} : c ∈ H → c.parents = [q] → c.diffs = [cs] → ¬ IsBin H c.hash p → changeOf cs p = some f →
      f.kind.prev ≠ [] → IsBin H q f.kind.prev → (G c.hash p)[j]? = some o → Origin H G c.hash p j o
  | untouched {c cs p q j o} : c ∈ H → c.parents = [q] → c.diffs = [cs] → ¬ IsBin H c.hash p → changeOf cs p = none →
      Origin H G q p j o → Origin H G c.hash p j o
  | mergeSame {c p q j o} : c ∈ H → ¬ c.Regular → ¬ IsBin H c.hash p → (∃ x ∈ c.changesAt p, x.2 ≠ none) →
      (c.changesAt p).find? (fun x => x.2.isNone) = some (q, none) → Origin H G q p j o → Origin H G c.hash p j o
  | mergeUntouched {c p q j o} : c ∈ H → ¬ c.Regular → ¬ IsBin H c.hash p → (∀ x ∈ c.changesAt p, x.2 = none) →
      c.parents.getLast? = some q → Origin H G q p j o → Origin H G c.hash p j o
  | mergeKept {c p pre q f post i j o} : c ∈ H → ¬ c.Regular → ¬ IsBin H c.hash p → (∀ x ∈ c.changesAt p, x.2 ≠ none) →
      c.changesAt p = pre ++ (q, some f) :: post → (∀ x ∈ pre, ∀ g, x.2 = some g → g.body.source j = none) →
      f.body.source j = some i → Origin H G q f.kind.prev i o → Origin H G c.hash p j o
  | mergeAdded {c p j} : c ∈ H → ¬ c.Regular → ¬ IsBin H c.hash p →
      (∀ x ∈ c.changesAt p, ∃ g, x.2 = some g ∧ g.body.source j = none) → Origin H G c.hash p j c.hash

/-! ## The log -/

/-- The log entry for the changes `cs` of commit `c` (against parent `frm`, printed for merges). -/
def EntryFor (c : HCommit) (frm : Option Str) (cs : List FileChange) (e : LogEntry) : Prop :=
  e.Ok ∧ e.hash = c.hash ∧ e.from? = frm ∧ e.diffs = cs.map FileChange.lines

/-- The entries of a merge: one for each parent with differences; if there is none, a single entry without a parent. -/
def MergeEntries (c : HCommit) (es : List LogEntry) : Prop :=
  let ds := (c.parents.zip c.diffs).filter (fun x => !x.2.isEmpty)
  if ds = [] then ∃ e, es = [e] ∧ EntryFor c none [] e
  else es.length = ds.length ∧ ∀ x ∈ ds.zip es, EntryFor c (some x.1.1) x.1.2 x.2

/-- The entries printed for one commit: a single one, or those of a merge. -/
def Printed (c : HCommit) (ec : List LogEntry) : Prop :=
  (c.Regular ∧ ∃ cs e, c.diffs = [cs] ∧ EntryFor c none cs e ∧ ec = [e]) ∨ (¬ c.Regular ∧ MergeEntries c ec)

/-- What `git log -p -m --reverse` prints for a history. -/
inductive LogOf : History → List LogEntry → Prop
  | nil : LogOf [] []
  | cons {c ec H es} : Printed c ec → LogOf H es → LogOf (c :: H) (ec ++ es)

/-! ## Stored lines -/

/-- A stored line is the line of the file without at most three trailing carriage returns. -/
def SameLine (stored actual : Str) : Prop := ∃ k ≤ 3, actual = stored ++ List.replicate k 13

/-- The blame `b` is right for file `p`, with lines `n`, of commit `c`. -/
structure Right (H : History) (G : Str → Str → List Str) (c p : Str) (n : List Str) (b : Blame) : Prop where
  binary : b.isBinary = true ↔ IsBin H c p
  length : b.isBinary = false → b.lines.length = n.length
  line : b.isBinary = false → ∀ (j : Nat) (l : Line), b.lines[j]? = some l →
    (∃ a, n[j]? = some a ∧ SameLine l.line a) ∧ Origin H G c p j l.commit

/-- Commit `c` changes a file that was binary, under its old name, in the only parent, and `p` is not binary any more: its diff does not say that it is (because the file
became text, or because the diff has no content: the mode changed). This is the one case in which the program asks `git blame`: neither the old lines nor the patch say
where the lines come from. -/
def HCommit.AsksBlame (H : History) (c : HCommit) (p : Str) : Prop :=
  p ≠ [] ∧ ∃ q cs f, c.parents = [q] ∧ c.diffs = [cs] ∧ changeOf cs p = some f ∧ f.kind.prev ≠ [] ∧ IsBin H q f.kind.prev ∧ ¬ IsBin H c.hash p

/-- What `git blame` answers for the file `p`, with lines `n`, of the commit `c`: one entry per line, with the lines of the file,
naming the commits `G`. -/
def BlameAnswers (G : Str → Str → List Str) (out : Str → Str → Option Str) (c p : Str) (n : List Str) : Prop :=
  ∃ es : List BlameEntry, (∀ e ∈ es, e.Ok) ∧ out c p = some (blameText es) ∧ es.map (·.content) = n ∧ es.map (·.hash) = G c p

/-- `git blame` answers all that it is asked about the commit `c`. -/
def HCommit.Answered (H : History) (G : Str → Str → List Str) (out : Str → Str → Option Str) (c : HCommit) : Prop :=
  ∀ p n, c.tree p = some n → c.AsksBlame H p → BlameAnswers G out c.hash p n

/-- `git blame` works: it answers for every file that it is asked for; `G` are the commits it names, each of them the commit asked
for or one of its ancestors. -/
structure BlameWorks (H : History) (G : Str → Str → List Str) (out : Str → Str → Option Str) : Prop where
  text : ∀ c ∈ H, c.Answered H G out
  ancestors : ∀ c ∈ H, ∀ p, ∀ o ∈ G c.hash p, H.Reach c.hash o

end Ripsrc.Spec
