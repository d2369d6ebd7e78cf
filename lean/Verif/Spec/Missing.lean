import Verif.Model.Process
import Verif.Spec.Edit
/-!
# What a change needs

For C65: an incomplete checkpoint.
-/
namespace Ripsrc.Spec

/-- The change needs the old version of the file: a rename without patch, or a patch with a line that is kept or removed. -/
def NeedsFile (d : Diff) : Prop :=
  d.isBinary = false ∧ d.path ≠ [] ∧ d.pathPrev ≠ [] ∧
    ((d.pathPrev ≠ d.path ∧ d.hunks = []) ∨ ∃ h ∈ d.hunks, ∃ l ∈ hunkLines h, usesOld l = true)

/-- The stored state has no file `f` for commit `c` (or does not have `c`). -/
def Lacks (r : Repo) (c f : Str) : Prop := ∀ fs, GoMap.get r c = some fs → GoMap.get fs f = none

end Ripsrc.Spec
