import Verif.Model.Checkpoint
/-!
# Specification: what four streams of records mean

Every record is named by its pointer; a later record replaces an earlier one with the same name.
-/
namespace Ripsrc.Spec

/-- The last record with a given name. -/
def lastNamed {α κ : Type} [DecidableEq κ] (name : α → κ) (k : κ) (l : List α) : Option α := l.reverse.find? (fun a => decide (name a = k))

/-- The line behind a line pointer: its content is in another stream. -/
def lineOf (r : Records) (k : UInt64) : Option Line := do
  let l ← lastNamed DLine.pointer k r.lines
  let d ← lastNamed DLineData.pointer l.lineDataPointer r.lineData
  some { line := d.data, commit := l.commit }

/-- The blame behind a blame pointer, with all its lines. -/
def blameOf (r : Records) (k : UInt64) : Option Blame := do
  let b ← lastNamed DBlame.pointer k r.blames
  let ls ← b.linePointers.mapM (lineOf r)
  some { commit := b.commit, lines := ls, isBinary := b.isBinary }

/-- The blame of a file in a commit. -/
def fileOf (r : Records) (c f : Str) : Option Blame := do
  let row ← lastNamed (fun x : DRow => (x.commit, x.path)) (c, f) r.rows
  blameOf r row.blamePointer

/-- No pointer dangles. -/
structure Resolved (r : Records) : Prop where
  lines : ∀ l ∈ r.lines, ∃ d ∈ r.lineData, d.pointer = l.lineDataPointer
  blames : ∀ b ∈ r.blames, ∀ k ∈ b.linePointers, ∃ l ∈ r.lines, l.pointer = k
  rows : ∀ x ∈ r.rows, ∃ b ∈ r.blames, b.pointer = x.blamePointer

end Ripsrc.Spec
