import Verif.Model.Checkpoint
import Verif.Spec.StaleGraph
import Verif.Spec.Missing
/-!
# Specification: loss of power after a checkpoint was written

The writer never calls `fsync` (`/repo/ripsrc/history3/process/repo/writer.go`, `msgp.go`), so after a loss of power the files can be there under their final names with only a beginning of what was written to
them, each file independently of the others.
-/
namespace Ripsrc.Spec

/-- After a loss of power: the same names, of each file any beginning. -/
def Torn (d d' : Dir) : Prop :=
  ∀ n, (GoMap.get d' n = none ↔ GoMap.get d n = none) ∧ ∀ x x', GoMap.get d n = some x → GoMap.get d' n = some x' → x' <+: x

/-- What is used of gzip (a stream format with a header): a file gives back the data; a beginning of a file cannot be opened or gives a beginning of the data; the header alone can be opened. -/
structure GzipStream (gz : Gzip) : Prop where
  whole : ∀ d, gz.openFile (gz.compress d) = some d
  part : ∀ d x y, x <+: gz.compress d → gz.openFile x = some y → y <+: d
  header : ∀ d, ∃ x, x <+: gz.compress d ∧ gz.openFile x = some []

/-- `R'` is a part of `R`: for some of the commits some of the files, each with the right blame. -/
def PartOfRepo (R' R : Repo) : Prop :=
  ∀ c fs', GoMap.get R' c = some fs' → ∃ fs, GoMap.get R c = some fs ∧ ∀ f b, GoMap.get fs' f = some b → GoMap.get fs f = some b

/-- The change is understood without the old version (created, deleted, binary), or needs it. What is excluded: a change of the mode only, and a patch that only adds lines to a file that was empty. -/
def Definite (d : Diff) : Prop := d.isBinary = true ∨ d.path = [] ∨ d.pathPrev = [] ∨ NeedsFile d

/-- The same, of a change as git describes it: the file is created, deleted or binary, or renamed without a change, or the patch shows a line of the old version. -/
def FileChange.Telling (f : FileChange) : Prop := f.Standalone ∨ (f.Renames ∧ f.body = .empty) ∨ f.ShowsOld

end Ripsrc.Spec
