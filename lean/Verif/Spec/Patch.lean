import Verif.Spec.Edit
/-!
# Specification: how git prints the diff of one file

Independent of the parser: only text is built here.
-/
namespace Ripsrc.Spec

/-! ## Hunk headers -/

/-- A range in a hunk header: `-12,5`, or `-12` when git omits the count (which then is one line). -/
structure Range where
  op : UInt8
  start : Nat
  count : Option Nat
deriving DecidableEq

def Range.text (r : Range) : Str :=
  [r.op] ++ itoa r.start ++ (match r.count with | none => [] | some n => b!"," ++ itoa n)

/-- What the program returns for a range: with a count, start and count; without, offset 0 and the *start* as count. -/
def Range.read (r : Range) : HunkLocation :=
  match r.count with
  | some n => { op := r.op, offset := r.start, lines := n }
  | none => { op := r.op, offset := 0, lines := r.start }

def Range.Ok (r : Range) : Prop := (r.op = 43 ∨ r.op = 45) ∧ r.start < 2 ^ 63 ∧ ∀ n, r.count = some n → n < 2 ^ 63

/-- `@@ -a,b +c,d @@ heading`, in general with `k` at-signs on each side (`k = 2` for an ordinary diff, one more than the
number of parents for a combined diff). -/
def headerText (k : Nat) (rs : List Range) (heading : Str) : Str :=
  List.replicate k 64 ++ b!" " ++ joinWith b!" " (rs.map Range.text) ++ b!" " ++ List.replicate k 64 ++ heading

/-- The range git prints for `n` lines that start after `before` lines. -/
def gitRange (op : UInt8) (before n : Nat) : Range :=
  if n = 1 then { op := op, start := before + 1, count := none }
  else if n = 0 then { op := op, start := before, count := some 0 }
  else { op := op, start := before + 1, count := some n }

/-! ## Hunks -/

/-- The lines of all hunks of a cut; `heads` gives the (arbitrary) text git prints after the second `@@`. -/
def segLines (heads : Nat → Str) : Nat → Nat → List (List Str × List BodyLine) → List Str
  | _, _, [] => []
  | o, n, (gap, body) :: r =>
    let o := o + gap.length
    let n := n + gap.length
    let oc := (oldLines (edits body)).length
    let nc := (newLines (edits body)).length
    (headerText 2 [gitRange 45 o oc, gitRange 43 n nc] (heads o) :: body.map BodyLine.text)
      ++ segLines heads (o + oc) (n + nc) r

/-- A body line without one trailing carriage return. -/
def BodyLine.norm : BodyLine → BodyLine
  | .edit (.keep l) => .edit (.keep (dropCR l))
  | .edit (.del l) => .edit (.del (dropCR l))
  | .edit (.add l) => .edit (.add (dropCR l))
  | .noNewline => .noNewline

/-- A cut in which every shown line lost one trailing carriage return. -/
def Cut.norm (c : Cut) : Cut := { c with segs := c.segs.map (fun s => (s.1, s.2.map BodyLine.norm)) }

/-! ## File diffs -/

/-- A path that git prints without quoting. -/
def Plain (p : Str) : Prop := p ≠ [] ∧ ∀ b ∈ p, 32 ≤ b ∧ b ≠ 34 ∧ b ≠ 92 ∧ b ≠ 127

instance (p : Str) : Decidable (Plain p) := inferInstanceAs (Decidable (_ ∧ _))

/-- A path that git prints in double quotes (by default every name with a byte outside ASCII, and always one with a quote, a backslash or a control character), without
a space. Such a path is represented by what git prints between the quotes, so the escape sequences show: `\303\244` for `ä`. -/
def QuotedName (p : Str) : Prop := (92 : UInt8) ∈ p ∧ p.head? ≠ some 34 ∧ ∀ b ∈ p, 32 < b ∧ b < 127

instance (p : Str) : Decidable (QuotedName p) := inferInstanceAs (Decidable (_ ∧ _ ∧ _))

/-- A path as git spells it has an escape sequence exactly if git puts it in quotes. -/
def isQuoted (p : Str) : Bool := decide ((92 : UInt8) ∈ p)

/-- A path that is printed plainly, or quoted without a space. -/
def NameOk (p : Str) : Prop := Plain p ∨ QuotedName p

instance (p : Str) : Decidable (NameOk p) := inferInstanceAs (Decidable (_ ∨ _))

/-- A name possibly put in double quotes. -/
def quoteIf (q : Bool) (s : Str) : Str := if q then [34] ++ s ++ [34] else s

/-- What happens to the file. A copy - `q` starts as a copy of `p`, which may stay as it is - is only printed with the setting `diff.renames=copies`. -/
inductive Kind where
  | modify (p : Str)
  | create (p mode : Str)
  | delete (p mode : Str)
  | rename (p q : Str)
  | copy (p q : Str)

/-- Path before the change, empty for a created file. -/
def Kind.prev : Kind → Str
  | .modify p => p
  | .create _ _ => []
  | .delete p _ => p
  | .rename p _ => p
  | .copy p _ => p

/-- Path after the change, empty for a deleted file. -/
def Kind.next : Kind → Str
  | .modify p => p
  | .create p _ => p
  | .delete _ _ => []
  | .rename _ q => q
  | .copy _ q => q

/-- The two names in the declaration line. -/
def Kind.names : Kind → Str × Str
  | .modify p => (p, p)
  | .create p _ => (p, p)
  | .delete p _ => (p, p)
  | .rename p q => (p, q)
  | .copy p q => (p, q)

def Kind.lines : Kind → List Str
  | .modify _ => []
  | .create _ m => [b!"new file mode " ++ m]
  | .delete _ m => [b!"deleted file mode " ++ m]
  | .rename p q => [b!"rename from " ++ p, b!"rename to " ++ q]
  | .copy p q => [b!"copy from " ++ quoteIf (isQuoted p) p, b!"copy to " ++ quoteIf (isQuoted q) q]

def Kind.isDelete : Kind → Bool
  | .delete _ _ => true
  | _ => false

inductive Body where
  /-- only modes or names change, or the file is empty -/
  | empty
  | binary
  | text (cut : Cut) (heads : Nat → Str)

/-- The diff of one file; `before` and `after` are the other extended header lines, printed before and after the lines
that depend on the kind. -/
structure FileChange where
  kind : Kind
  before : List Str
  after : List Str
  body : Body

def declLine (p q : Str) : Str := b!"diff --git a/" ++ p ++ b!" b/" ++ q

/-- Declaration line in which either name may be quoted. -/
def declLineQ (q₁ q₂ : Bool) (p q : Str) : Str :=
  b!"diff --git " ++ quoteIf q₁ (b!"a/" ++ p) ++ b!" " ++ quoteIf q₂ (b!"b/" ++ q)

/-- Name in a `---` or `+++` line: git adds a tab if the name contains a space. -/
def nameText (pfx p : Str) : Str :=
  if p = [] then b!"/dev/null" else quoteIf (isQuoted p) (pfx ++ p) ++ (if (32 : UInt8) ∈ p then b!"\t" else [])

def Body.lines (k : Kind) : Body → List Str
  | .empty => []
  | .binary => [b!"Binary files " ++ nameText b!"a/" k.prev ++ b!" and " ++ nameText b!"b/" k.next ++ b!" differ"]
  | .text cut heads => [b!"--- " ++ nameText b!"a/" k.prev, b!"+++ " ++ nameText b!"b/" k.next] ++ segLines heads 0 0 cut.segs

def FileChange.lines (f : FileChange) : List Str :=
  [declLineQ (isQuoted f.kind.names.1) (isQuoted f.kind.names.2) f.kind.names.1 f.kind.names.2] ++ f.before ++ f.kind.lines ++ f.after ++ f.body.lines f.kind

/-- The text of the diff. -/
def FileChange.text (f : FileChange) : Str := unlines f.lines

/-- Other extended header lines of git. -/
def OtherHeader (l : Str) : Prop :=
  (13 : UInt8) ∉ l ∧ ((∃ r, l = b!"index " ++ r) ∨ (∃ r, l = b!"old mode " ++ r) ∨ (∃ r, l = b!"new mode " ++ r) ∨
    (∃ r, l = b!"similarity index " ++ r) ∨ (∃ r, l = b!"dissimilarity index " ++ r))

/-- The text of a file mode. -/
def ModeText (m : Str) : Prop := m ≠ [] ∧ ∀ b ∈ m, 48 ≤ b ∧ b ≤ 57

/-- Both names of a rename are printed plainly (what happens otherwise is C53). The names of a copy have no space (what happens otherwise is C76). -/
def Kind.Ok : Kind → Prop
  | .modify p => NameOk p
  | .create p m => NameOk p ∧ ModeText m
  | .delete p m => NameOk p ∧ ModeText m
  | .rename p q => Plain p ∧ Plain q
  | .copy p q => NameOk p ∧ NameOk q ∧ (32 : UInt8) ∉ p ∧ (32 : UInt8) ∉ q

/-- Number of lines small enough for `int`. -/
def Body.Ok : Body → Prop
  | .text cut _ => (oldLines cut.script).length < 2 ^ 63 ∧ (newLines cut.script).length < 2 ^ 63
  | _ => True

def FileChange.Ok (f : FileChange) : Prop :=
  f.kind.Ok ∧ (∀ l ∈ f.before, OtherHeader l) ∧ (∀ l ∈ f.after, OtherHeader l) ∧ f.body.Ok ∧
  ∀ l ∈ f.lines, NoNL l ∧ l.length < 100000000

/-- The hunks of a body, as the program stores them. -/
def Body.hunks : Body → List Hunk
  | .text cut _ => cut.norm.hunks
  | _ => []

def Body.isBinary : Body → Bool
  | .binary => true
  | _ => false

/-- What the change means. -/
def FileChange.meaning (f : FileChange) : Diff where
  pathPrev := f.kind.prev
  path := f.kind.next
  isBinary := f.body.isBinary
  hunks := if f.kind.isDelete then [] else f.body.hunks

end Ripsrc.Spec
