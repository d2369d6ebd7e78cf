import Verif.Go.Split
/-!
# What git prints (small specification, independent of the model)
-/
namespace Ripsrc.Spec

/-- A lower-case hexadecimal digit. -/
def isHex (b : UInt8) : Bool := (48 ≤ b && b ≤ 57) || (97 ≤ b && b ≤ 102)

/-- A git object name: a non-empty string of lower-case hexadecimal digits. -/
def IsHash (h : Str) : Prop := h ≠ [] ∧ ∀ b ∈ h, isHex b = true

instance (h : Str) : Decidable (IsHash h) := inferInstanceAs (Decidable (_ ∧ _))

/-- One line of `git log --pretty=format:%H@%P`. -/
def parentsLineOf (c : Str × List Str) : Str := c.1 ++ b!"@" ++ joinWith b!" " c.2

/-- Output of `git log --pretty=format:%H@%P`: lines *separated* by newlines. -/
def parentsText (cs : List (Str × List Str)) : Str := joinWith b!"\n" (cs.map parentsLineOf)

theorem IsHash.not_mem {h : Str} (hh : IsHash h) {b : UInt8} (hb : isHex b = false) : b ∉ h := by
  intro hc
  have := hh.2 b hc
  simp [hb] at this

end Ripsrc.Spec
