import Verif.Spec.Patch
/-!
# Specification: how git prints a combined diff of one file (`git log -p -c` for a merge)
-/
namespace Ripsrc.Spec

/-- A hunk of a combined diff: one range per parent and one for the result, the text after the header, and the body lines (with their columns of signs). -/
structure CHunk where
  ranges : List Range
  heading : Str
  body : List Str

/-- A body line begins with a space, `+`, `-` or (for `\ No newline at end of file`) a backslash. -/
def CBodyLine (l : Str) : Prop := ∃ c r, l = c :: r ∧ (c = 32 ∨ c = 43 ∨ c = 45 ∨ c = 92)

def CHunk.Ok (h : CHunk) : Prop := h.ranges ≠ [] ∧ (∀ r ∈ h.ranges, r.Ok) ∧ ∀ l ∈ h.body, CBodyLine l

/-- The lines of a hunk: as many at-signs as ranges. -/
def CHunk.lines (h : CHunk) : List Str := headerText h.ranges.length h.ranges h.heading :: h.body

/-- The lines of the combined diff of the file `p`. -/
def combinedLines (p : Str) (headers : List Str) (hs : List CHunk) : List Str :=
  [b!"diff --combined " ++ p] ++ headers ++ [b!"--- " ++ nameText b!"a/" p, b!"+++ " ++ nameText b!"b/" p] ++ hs.flatMap CHunk.lines

/-- What the program keeps of a hunk. -/
def CHunk.kept (h : CHunk) : Hunk := { locations := h.ranges.map Range.read, data := unlines (h.body.map dropCR) }

end Ripsrc.Spec
