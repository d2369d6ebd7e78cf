import Verif.Go.Split
/-!
# What a log may look like
-/
namespace Ripsrc.Spec

/-- A log line. -/
def logLine (text : Str) : Str := text ++ b!"\n"

/-- `chunks` is what a goroutine that wants to print the lines `texts` has printed: the first few lines, perhaps followed by a part of the next one without its
newline (only if the goroutine panicked because the writer returned an error). -/
def PrintedBy (panicked : Bool) (texts chunks : List Str) : Prop :=
  ∃ k, chunks = (texts.take k).map logLine ∨ (panicked = true ∧ ∃ x p, texts[k]? = some x ∧ p <+: x ∧ chunks = (texts.take k).map logLine ++ [p])

/-- The elements of `log` that come from goroutine `i`. -/
def ofThread {α : Type} (i : Nat) (log : List (Nat × α)) : List α := (log.filter fun x => x.1 == i).map fun x => x.2

/-- What one call prints when its arguments are the pairs `kvs`. -/
def goodRecord (kind msg : Str) (kvs : List (Str × Str)) : Str :=
  kind ++ b!" " ++ msg ++ b!" [" ++ joinWith b!" " (kvs.map fun p => b!"{" ++ p.1 ++ b!" " ++ p.2 ++ b!"}") ++ b!"]"

end Ripsrc.Spec
