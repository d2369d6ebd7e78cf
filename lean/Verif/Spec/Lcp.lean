import Verif.Model.Lcp
/-!
# Specification: common ancestors
-/
namespace Ripsrc.Spec

/-- `a` is reached from `c` by going to a parent `k` times. -/
inductive StepsTo (g : GoMap Str (List Str)) : Nat → Str → Str → Prop
  | zero (c) : StepsTo g 0 c c
  | succ {k c b a} : StepsTo g k c b → a ∈ (GoMap.get g b).getD [] → StepsTo g (k + 1) c a

/-- `a` is `c` or an ancestor of it. -/
def AncestorOf (g : GoMap Str (List Str)) (c a : Str) : Prop := ∃ k, StepsTo g k c a

/-- `a` can be reached in at most `k` steps. -/
def Within (g : GoMap Str (List Str)) (k : Nat) (c a : Str) : Prop := ∃ j, j ≤ k ∧ StepsTo g j c a

/-- No commit is an ancestor of itself. -/
def AcyclicMap (g : GoMap Str (List Str)) : Prop := ∀ k c, ¬ StepsTo g (k + 1) c c

/-- `a` is a lowest common ancestor: a common ancestor no proper descendant of which is a common ancestor. -/
def LowestCommon (g : GoMap Str (List Str)) (heads : List Str) (a : Str) : Prop :=
  (∀ h ∈ heads, AncestorOf g h a) ∧ ¬ ∃ b k, (∀ h ∈ heads, AncestorOf g h b) ∧ StepsTo g (k + 1) b a

end Ripsrc.Spec
