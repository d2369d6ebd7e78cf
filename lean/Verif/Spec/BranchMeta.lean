import Verif.Go.Cut
/-!
# What `git for-each-ref --format %(objectname)@@@%(refname:short)@@@%(committerdate)` prints
-/
namespace Ripsrc.Spec

/-- A ref. -/
structure RefEntry where
  commit : Str
  name : Str
  date : Str

namespace RefEntry

def line (r : RefEntry) : Str := r.commit ++ (b!"@@@" ++ (r.name ++ (b!"@@@" ++ r.date)))

/-- A hexadecimal object name, a date that does not end in white space, and a name in which the separator `@@@` does not occur
and which does not end in `@` (see the counter-examples). -/
structure Ok (r : RefEntry) : Prop where
  commit : r.commit ≠ [] ∧ ∀ b ∈ r.commit, (48 ≤ b ∧ b ≤ 57) ∨ (97 ≤ b ∧ b ≤ 102)
  name : NoNL r.name ∧ FirstAt b!"@@@" r.name
  date : NoNL r.date ∧ ∃ d c, r.date = d ++ [c] ∧ 48 ≤ c ∧ c ≤ 57

/-- The branch name shown to the user. -/
def shown (useOrigin : Bool) (r : RefEntry) : Str := if useOrigin then r.name.drop 7 else r.name

/-- Whether the branch is to be listed. -/
def Wanted (useOrigin includeDefault : Bool) (deflt : Str) (r : RefEntry) : Prop :=
  r.shown useOrigin ≠ b!"HEAD" ∧ (includeDefault = false → r.shown useOrigin ≠ deflt)

instance (u i : Bool) (d : Str) (r : RefEntry) : Decidable (Wanted u i d r) := inferInstanceAs (Decidable (_ ∧ _))

end RefEntry

def refText (rs : List RefEntry) : Str := unlines (rs.map RefEntry.line)

end Ripsrc.Spec
