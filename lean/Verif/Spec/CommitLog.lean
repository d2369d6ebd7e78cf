import Verif.Spec.CommitMeta
import Verif.Model.CommitMeta
/-!
# The output of `git log -c --raw --numstat` with the `!SHA: ...` format

Only the type `CommitFile` of the reported files is taken from the model.
-/
namespace Ripsrc.Spec

/-- What happened to a file. -/
inductive RawKind where
  | added | deleted | modified | typeChanged
  | renamed (src score : Str)
  | copied (src score : Str)

/-- A `--raw` line. -/
structure RawRec where
  oldMode : Str
  newMode : Str
  oldId : Str
  newId : Str
  kind : RawKind
  path : Str

/-- No white space or control bytes. -/
def Token (s : Str) : Prop := ∀ b ∈ s, 32 < b
/-- Printable ASCII without blanks. -/
def Graphic (s : Str) : Prop := ∀ b ∈ s, 32 < b ∧ b < 127
/-- A path as git prints it: control bytes only occur quoted. -/
def Printable (s : Str) : Prop := ∀ b ∈ s, 32 ≤ b
/-- A path in a raw line that survives the trimming of leading spaces (see `C38_leading_space`). -/
def RawName (s : Str) : Prop := Printable s ∧ s.head? ≠ some 32

namespace RawRec

/-- status letter, tab, path(s) -/
def tail (r : RawRec) : Str :=
  match r.kind with
  | .added => b!"A" ++ 9 :: r.path
  | .deleted => b!"D" ++ 9 :: r.path
  | .modified => b!"M" ++ 9 :: r.path
  | .typeChanged => b!"T" ++ 9 :: r.path
  | .renamed src score => (82 :: score) ++ 9 :: (src ++ 9 :: r.path)
  | .copied src score => (67 :: score) ++ 9 :: (src ++ 9 :: r.path)

def line (r : RawRec) : Str :=
  (58 :: r.oldMode) ++ 32 :: (r.newMode ++ 32 :: (r.oldId ++ 32 :: (r.newId ++ 32 :: r.tail)))

structure Ok (r : RawRec) : Prop where
  modes : Token r.oldMode ∧ Token r.newMode ∧ Token r.oldId ∧ Token r.newId
  path : RawName r.path
  src : match r.kind with
    | .renamed src score => RawName src ∧ Token score ∧ score ≠ []
    | .copied src score => RawName src ∧ Token score ∧ score ≠ []
    | _ => True

/-- After the commit the path is a regular file, or it is gone. -/
def Regular (r : RawRec) : Prop := r.newMode = b!"100644" ∨ r.newMode = b!"100755" ∨ r.newMode = b!"000000"

instance (r : RawRec) : Decidable r.Regular := inferInstanceAs (Decidable (_ ∨ _))

/-- The files to be reported for a raw line: a rename is reported as a removal of the old and an addition of the new path. -/
def entries (r : RawRec) : List (Str × CommitFile) :=
  if r.Regular then
    match r.kind with
    | .added => [(r.path, { filename := r.path, status := .added })]
    | .deleted => [(r.path, { filename := r.path, status := .removed })]
    | .modified => [(r.path, { filename := r.path, status := .modified })]
    | .typeChanged => [(r.path, { filename := r.path, status := .modified })]
    | .renamed src _ =>
      [(src, { filename := src, status := .removed, renamed := true, renamedFrom := src, renamedTo := r.path }),
       (r.path, { filename := r.path, status := .added, renamed := true, renamedFrom := src, renamedTo := r.path })]
    | .copied src _ => [(r.path, { filename := r.path, status := .added, copied := true, copiedFrom := src })]
  else []

end RawRec

/-- How `--numstat` prints the path `path`, renamed from `src` if given. -/
inductive NumName : Option Str → Str → Str → Prop
  | same (path : Str) (h : ¬ b!" => " <:+: path) : NumName none path path
  | brace (pre old new post : List Str) (h : BraceOk pre old new post) :
      NumName (some (pathOf (pre ++ old ++ post))) (pathOf (pre ++ new ++ post)) (braceRename pre old new post)
  | arrow (old new : Str) (hb : (123 : UInt8) ∉ old ++ new ∨ (125 : UInt8) ∉ old ++ new) (ho : FirstAt b!" => " old)
      (hn : ¬ b!" => " <:+: new) : NumName (some old) new (plainRename old new)

/-- A `--numstat` line; no counts for a binary file. -/
structure StatRec where
  src : Option Str := none
  path : Str
  name : Str
  counts : Option (Nat × Nat)

namespace StatRec

def line (s : StatRec) : Str :=
  match s.counts with
  | none => b!"-" ++ 9 :: (b!"-" ++ 9 :: s.name)
  | some (a, d) => itoa a ++ 9 :: (itoa d ++ 9 :: s.name)

structure Ok (s : StatRec) : Prop where
  name : NumName s.src s.path s.name
  printed : Printable s.name
  counts : ∀ a d, s.counts = some (a, d) → a < 2 ^ 31 ∧ d < 2 ^ 31

/-- The counts entered into a file record. -/
def enter (s : StatRec) (f : CommitFile) : CommitFile :=
  match s.counts with
  | none => { f with binary := true }
  | some (a, d) => { f with additions := a, deletions := d }

end StatRec

/-- A commit in the log. -/
structure CommitRec (τ : Type) where
  sha : Str
  parents : List Str
  committerEmail : Str
  committerName : Str
  authorEmail : Str
  authorName : Str
  dateText : Str
  date : τ
  message : Str
  /-- blank lines after the header -/
  blank1 : Nat := 1
  raws : List RawRec := []
  stats : List StatRec := []
  /-- for merges git prints the combined raw lines (`::100644 ...`) after the numstat lines -/
  combined : List Str := []
  /-- blank lines before the next commit -/
  blank2 : Nat := 1

namespace CommitRec
variable {τ : Type}

def headLines (c : CommitRec τ) : List Str :=
  [b!"!SHA: " ++ c.sha, b!"!Parents: " ++ joinWith b!" " c.parents, b!"!Committer: " ++ c.committerEmail,
   b!"!CName: " ++ c.committerName, b!"!Author: " ++ c.authorEmail, b!"!AName: " ++ c.authorName,
   b!"!Date: " ++ c.dateText, b!"!Message: " ++ c.message]

def lines (c : CommitRec τ) : List Str :=
  c.headLines ++ (List.replicate c.blank1 [] ++ (c.raws.map RawRec.line ++ (c.stats.map StatRec.line ++
    (c.combined ++ List.replicate c.blank2 []))))

/-- What the raw lines say. -/
def entries (c : CommitRec τ) : List (Str × CommitFile) := c.raws.flatMap RawRec.entries

/-- The record to be reported for a path: what the raw line says with the counts of the numstat line; a path that only has a
numstat line (merges, symbolic links, submodules) is reported as modified. -/
def file (c : CommitRec τ) (p : Str) : Option CommitFile :=
  let base := (c.entries.find? (fun e => decide (e.1 = p))).map Prod.snd
  match c.stats.find? (fun s => decide (s.path = p)) with
  | some s => some (s.enter (base.getD { filename := p, status := .modified }))
  | none => base

/-- Well-formed text. -/
structure Ok (parseDate : Str → Option τ) (c : CommitRec τ) : Prop where
  sha : c.sha ≠ [] ∧ Token c.sha
  parents : ∀ p ∈ c.parents, p ≠ [] ∧ Token p
  text : NoNL c.committerEmail ∧ NoNL c.committerName ∧ NoNL c.authorEmail ∧ NoNL c.authorName ∧ NoNL c.message
  date : parseDate c.dateText = some c.date ∧ c.dateText ≠ [] ∧ Graphic c.dateText
  raws : ∀ r ∈ c.raws, r.Ok
  stats : ∀ s ∈ c.stats, s.Ok
  combined : ∀ l ∈ c.combined, NoNL l ∧ (13 : UInt8) ∉ l ∧ l.head? = some 58 ∧ (splitByte 9 l).length = 2
  combinedStats : c.combined ≠ [] → c.stats ≠ []
  distinct : (c.entries.map Prod.fst).Nodup ∧ (c.stats.map StatRec.path).Nodup

end CommitRec

def metaLogText {τ : Type} (cs : List (CommitRec τ)) : Str := unlines (cs.flatMap CommitRec.lines)

/-- The commit `c`, the `n`-th of the log, as the user should see it. Text fields lose one carriage return at the end of the
line. -/
structure Reported {τ : Type} (c : CommitRec τ) (n : Nat) (m : MetaCommit τ) : Prop where
  sha : m.sha = c.sha
  ordinal : m.ordinal = n
  parents : m.parents = c.parents
  committerEmail : m.committerEmail = dropCR c.committerEmail
  committerName : m.committerName = dropCR c.committerName
  authorEmail : m.authorEmail = dropCR c.authorEmail
  authorName : m.authorName = dropCR c.authorName
  date : m.date = some c.date
  message : m.message = dropCR c.message
  files : ∀ p, m.files.get p = c.file p
  filesWF : m.files.WF

end Ripsrc.Spec
