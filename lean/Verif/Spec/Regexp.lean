import Verif.Model.Regexp
/-!
# Specification: what a regular expression matches

The usual meaning, independent of any search: the expression matches the part `mid` of the text `pre ++ mid ++ post`. Only the syntax trees are taken from the model.
-/
namespace Ripsrc.Spec

/-- The bytes of a class. -/
def InCls (c : Cls) (b : UInt8) : Prop := if c.neg then ∀ r ∈ c.ranges, b < r.1 ∨ r.2 < b else ∃ r ∈ c.ranges, r.1 ≤ b ∧ b ≤ r.2

/-- `r` matches `mid` between `pre` and `post`. -/
inductive Matches : Rx → Str → Str → Str → Prop where
  | eps {pre post : Str} : Matches .eps pre [] post
  | one {c : Cls} {b : UInt8} {pre post : Str} : InCls c b → Matches (.one c) pre [b] post
  | bol {post : Str} : Matches .bol [] [] post
  | eol {pre : Str} : Matches .eol pre [] []
  | seq {a b : Rx} {pre x y post : Str} : Matches a pre x (y ++ post) → Matches b (pre ++ x) y post → Matches (.seq a b) pre (x ++ y) post
  | altL {a b : Rx} {pre x post : Str} : Matches a pre x post → Matches (.alt a b) pre x post
  | altR {a b : Rx} {pre x post : Str} : Matches b pre x post → Matches (.alt a b) pre x post
  | optSome {a : Rx} {pre x post : Str} : Matches a pre x post → Matches (.opt a) pre x post
  | optNone {a : Rx} {pre post : Str} : Matches (.opt a) pre [] post
  | star {c : Cls} {g : Bool} {pre x post : Str} : (∀ b ∈ x, InCls c b) → Matches (.star c g) pre x post
  | group {n : Nat} {a : Rx} {pre x post : Str} : Matches a pre x post → Matches (.group n a) pre x post

/-- The expression matches somewhere in the text. -/
def Occurs (r : Rx) (text : Str) : Prop := ∃ pre mid post, text = pre ++ mid ++ post ∧ Matches r pre mid post

end Ripsrc.Spec
