import Verif.Model.Validate
import Verif.Spec.Run
/-!
# Vocabulary for the validation of blames
-/
namespace Ripsrc.Spec
open Ripsrc

/-- The line of the blame agrees with that of git blame: the same text up to surrounding white space, and the same commit unless the text has at most 10 bytes. -/
def LineAgrees (l : Line) (e : Str × Str) : Prop := trimSpace l.line = trimSpace e.2 ∧ (l.commit = e.1 ∨ (trimSpace l.line).length ≤ 10)

/-- The whole blames agree. -/
def BlamesAgree (b : Blame) (es : List (Str × Str)) : Prop :=
  b.lines.length = es.length ∧ ∀ (j : Nat) l e, b.lines[j]? = some l → es[j]? = some e → LineAgrees l e

/-- The line is a complaint. -/
def IsComplaint : ValMsg → Bool
  | .lenMismatch => true
  | .failed => true
  | .invalidCommit _ => true
  | .invalidContent _ => true
  | _ => false

/-- The names that git blame gives for the lines of every file are those that following the changes back gives. -/
def BlameFollows (H : History) (G : Str → Str → List Str) : Prop :=
  ∀ c ∈ H, ∀ p n, c.tree p = some n → ∀ (j : Nat) o, j < n.length → Origin H G c.hash p j o → (G c.hash p)[j]? = some o

end Ripsrc.Spec
