import Verif.Model.ExecPiped
/-!
# Specification: readers that stop early
-/
namespace Ripsrc.Spec
variable {σ α : Type}

/-- From the state `s`, with `text` still to come, the reader stops (at an over-long line, or at a line it cannot handle) while more than its buffer can hold, or something after a full buffer, is
still to come. -/
inductive StopsEarly (r : LineReader σ α) : σ → Str → Prop where
  /-- a line that fills the buffer, and something after these bytes -/
  | long {s : σ} (l more : Str) : NoNL l → l.length = r.max → more ≠ [] → StopsEarly r s (l ++ more)
  /-- a line with an error (or a panic), and at least a buffer after it -/
  | fault {s : σ} (l more : Str) (f : Fault) : NoNL l → l.length < r.max → r.line s (dropCR l) = .error f → r.max ≤ more.length → StopsEarly r s (l ++ 10 :: more)
  /-- a line that is handled, and then one of these -/
  | next {s s' : σ} (l more : Str) (xs : List α) : NoNL l → l.length < r.max → r.line s (dropCR l) = .ok (s', xs) → StopsEarly r s' more → StopsEarly r s (l ++ 10 :: more)

end Ripsrc.Spec
