import Verif.Spec.CheckpointFS
import Verif.Model.CheckpointRace
/-!
# Specification: a checkpoint directory used by two processes at once
-/
namespace Ripsrc.Spec

/-- The files of a checkpoint, in the order in which a reader opens them. -/
def readOrder : List Str := [b!"checkpoint-version", b!"repo", b!"blames", b!"lines", b!"line-data"]

/-- In `d`, the first `k` files are those of `old`, the others those of `new`. -/
def Mixture (k : Nat) (old new d : Dir) : Prop :=
  ∀ i n, readOrder[i]? = some n → GoMap.get d n = if i < k then GoMap.get old n else GoMap.get new n

/-- The moments at which a reader opens the files, while a writer executes `t` from `s`: `n i` operations of `t` are done when the `i`-th file is opened. -/
def Moments (n : Nat → Nat) : Prop := ∀ i j, i ≤ j → n i ≤ n j

/-- What the reader finds. -/
def during (s : FS) (t : List FSOp) (n : Nat → Nat) (i : Nat) : Option Dir := (s.exec (t.take (n i))).cp

end Ripsrc.Spec
