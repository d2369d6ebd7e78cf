import Verif.Model.Incblame
/-!
# Specification: edit scripts and how git cuts them into hunks

Independent of the model's functions (only the data types `Line`, `Hunk`, ... are shared).
-/
namespace Ripsrc.Spec

/-- One step of an edit script from an old to a new version of a file. -/
inductive Edit where
  | keep (l : Str)
  | del (l : Str)
  | add (l : Str)
deriving DecidableEq, Repr

/-- Lines of the old version. -/
def oldLines : List Edit → List Str
  | [] => []
  | .keep l :: es => l :: oldLines es
  | .del l :: es => l :: oldLines es
  | .add _ :: es => oldLines es

/-- Lines of the new version. -/
def newLines : List Edit → List Str
  | [] => []
  | .keep l :: es => l :: newLines es
  | .del _ :: es => newLines es
  | .add l :: es => l :: newLines es

/-- Lines of the new version as stored in a blame: kept lines unchanged, added lines without one trailing CR. -/
def newStored : List Edit → List Str
  | [] => []
  | .keep l :: es => l :: newStored es
  | .del _ :: es => newStored es
  | .add l :: es => dropCR l :: newStored es

/-- What blame means: kept lines keep their record, added lines belong to `commit`, deleted lines vanish. -/
def blameEdit (commit : Str) : List Edit → List Line → List Line
  | .keep _ :: es, l :: ls => l :: blameEdit commit es ls
  | .del _ :: es, _ :: ls => blameEdit commit es ls
  | .add t :: es, ls => { line := dropCR t, commit := commit } :: blameEdit commit es ls
  | _, _ => []

/-- A line of a hunk body: an edit or git's end-of-file marker. -/
inductive BodyLine where
  | edit (e : Edit)
  | noNewline
deriving DecidableEq, Repr

/-- Text of a body line. -/
def BodyLine.text : BodyLine → Str
  | .edit (.keep l) => b!" " ++ l
  | .edit (.del l) => b!"-" ++ l
  | .edit (.add l) => b!"+" ++ l
  | .noNewline => b!"\\ No newline at end of file"

/-- The edits of a body. -/
def edits : List BodyLine → List Edit
  | [] => []
  | .edit e :: r => e :: edits r
  | .noNewline :: r => edits r

/-- A file change cut into hunks: each hunk is preceded by unchanged lines that are not shown; after the last hunk come
more unchanged lines. -/
structure Cut where
  segs : List (List Str × List BodyLine)
  tail : List Str

/-- The whole edit script of a cut. -/
def segScript : List (List Str × List BodyLine) → List Edit
  | [] => []
  | (gap, body) :: r => gap.map Edit.keep ++ edits body ++ segScript r

def Cut.script (c : Cut) : List Edit := segScript c.segs ++ c.tail.map Edit.keep

/-- The location printed in a hunk header for a range of `n` lines that starts after `before` lines: git prints
`before+1,n`, for `n = 0` `before,0`, and for `n = 1` just `before+1`. This is what the program reads from it: where the
count is omitted the *start* is taken for the count and the offset is left 0. -/
def readLocation (op : UInt8) (before n : Nat) : HunkLocation :=
  if n = 1 then { op := op, offset := 0, lines := before + 1 }
  else if n = 0 then { op := op, offset := before, lines := 0 }
  else { op := op, offset := before + 1, lines := n }

/-- The hunks of a cut, as the program reads them: `o`, `n` are the numbers of old / new lines before. -/
def segHunks : Nat → Nat → List (List Str × List BodyLine) → List Hunk
  | _, _, [] => []
  | o, n, (gap, body) :: r =>
    let o := o + gap.length
    let n := n + gap.length
    let oc := (oldLines (edits body)).length
    let nc := (newLines (edits body)).length
    { locations := [readLocation 45 o oc, readLocation 43 n nc], data := unlines (body.map BodyLine.text) }
      :: segHunks (o + oc) (n + nc) r

def Cut.hunks (c : Cut) : List Hunk := segHunks 0 0 c.segs

/-- How git cuts with at least two lines of context (its default is three): hunks are separated by unshown lines, and a
hunk that does not start at the first line of the file shows at least two old lines. -/
def segsOk : Nat → List (List Str × List BodyLine) → Prop
  | _, [] => True
  | o, (gap, body) :: r =>
    (o + gap.length = 0 ∨ 2 ≤ (oldLines (edits body)).length) ∧
    (∀ s, r.head? = some s → s.1 ≠ []) ∧
    segsOk (o + gap.length + (oldLines (edits body)).length) r

instance : (o : Nat) → (r : List (List Str × List BodyLine)) → Decidable (segsOk o r)
  | _, [] => isTrue trivial
  | o, (gap, body) :: r =>
    have := instDecidableSegsOk (o + gap.length + (oldLines (edits body)).length) r
    have : Decidable (∀ s, r.head? = some s → s.1 ≠ []) := by
      cases r with
      | nil => exact isTrue (by simp)
      | cons s r => exact decidable_of_iff (s.1 ≠ []) (by simp)
    inferInstanceAs (Decidable (_ ∧ _ ∧ _))

/-- All texts of a cut are lines (no newline inside) and short enough for the scanner. -/
def LinesOk (c : Cut) : Prop :=
  ∀ s ∈ c.segs, ∀ b ∈ s.2, NoNL b.text ∧ b.text.length < 100000000

def Cut.Ok (c : Cut) : Prop := segsOk 0 c.segs ∧ LinesOk c

/-- For each line of the new version: the commit it carried before if it is kept, nothing if it is added. -/
def attributions : List Edit → List Line → List (Option Str)
  | .keep _ :: es, l :: ls => some l.commit :: attributions es ls
  | .del _ :: es, _ :: ls => attributions es ls
  | .add _ :: es, ls => none :: attributions es ls
  | _, _ => []

/-- The first parent (in order) that has an answer. -/
def firstSome : List (Option Str) → Option Str
  | [] => none
  | some c :: _ => some c
  | none :: r => firstSome r

/-- The lines a patch may contain: context (marked by a space or a tab), deletion, addition, end-of-file marker. -/
def PatchLine (b : Str) : Prop :=
  (∃ d, b = b!" " ++ d) ∨ (∃ d, b = b!"\t" ++ d) ∨ (∃ d, b = b!"-" ++ d) ∨ (∃ d, b = b!"+" ++ d) ∨
    b = b!"\\ No newline at end of file"

/-- Lines of a patch that stand for a line of the old file. -/
def usesOld (b : Str) : Bool := b.head? = some 32 || b.head? = some 9 || b.head? = some 45

/-- Lines of a hunk's body, as read by the scanner. -/
def hunkLines (h : Hunk) : List Str := (scan 100000000 h.data).1

/-- Number of old lines before a hunk, according to its header (`0` also stands for "no line before"). -/
def linesBefore (h : Hunk) : Int :=
  match h.locations with
  | [] => 0
  | l :: _ => if l.offset = 0 then 0 else l.offset - 1

/-- Hunks follow each other without overlap and stay inside a file of `n` lines; `i` lines are already used. -/
def Fits (n : Nat) : Int → List Hunk → Prop
  | i, [] => i ≤ n
  | i, h :: r => i ≤ linesBefore h ∧ Fits n (linesBefore h + ((hunkLines h).countP usesOld : Nat)) r

end Ripsrc.Spec
