import Verif.Model.Timing
/-!
# What "the ten slowest commits" means

Independent of the way they are computed.
-/
namespace Ripsrc.Spec

/-- `top` are the `k` slowest of `all` (all of them if there are fewer), slowest first: `all` is `top` and a rest none of which is slower than
one of `top`. -/
structure Slowest (k : Nat) (all top : List CommitDur) : Prop where
  length : top.length = min k all.length
  sorted : top.Pairwise (fun a b => b.dur ≤ a.dur)
  largest : ∃ rest, (top ++ rest).Perm all ∧ ∀ a ∈ top, ∀ b ∈ rest, b.dur ≤ a.dur

end Ripsrc.Spec
