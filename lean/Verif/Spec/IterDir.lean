import Verif.Model.IterDir
/-!
# Which directories are repositories that a search should report
-/
namespace Ripsrc

/-- The entries of a directory as a list. -/
def Entries.toList : Entries → List (Str × Node)
  | .nil => []
  | .cons x n rest => (x, n) :: rest.toList

namespace Spec

/-- `sub` exists below `n` and is a directory, or a link to one. -/
def HasDir (n : Node) (sub : Str) : Prop :=
  ∃ lookup list es m, n = .dir lookup list es ∧ (sub, m) ∈ es.toList ∧ ((∃ a b c, m = .dir a b c) ∨ m = .link .dir)

/-- A repository: it contains `.git`, or is called `*.git` and contains `objects`. -/
def IsRepo (n : Node) (name : Str) : Prop := HasDir n b!".git" ∨ ((∃ pre, name = pre ++ b!".git") ∧ HasDir n b!"objects")

/-- The real directories (not links) below `n`, without looking into directories that contain `.git`: `Walk n name p m name'` says that the path `p` leads to the
directory `m` with the name `name'`. -/
inductive Walk : Node → Str → RelPath → Node → Str → Prop where
  | here (lookup list : Bool) (es : Entries) (name : Str) : Walk (.dir lookup list es) name [] (.dir lookup list es) name
  | down {lookup list : Bool} {es : Entries} {name x : Str} {child : Node} {p : RelPath} {m : Node} {name' : Str} :
      ¬ HasDir (.dir lookup list es) b!".git" → (x, child) ∈ es.toList → Walk child x p m name' → Walk (.dir lookup list es) name (x :: p) m name'

/-- At most `max` levels down; no limit if it is negative. -/
def InDepth (max : Int) (p : RelPath) : Prop := max < 0 ∨ (p.length : Int) ≤ max

mutual
/-- The names in every directory are different. -/
def NamesDistinct : Node → Prop
  | .dir _ _ es => (es.toList.map (·.1)).Nodup ∧ EntriesDistinct es
  | _ => True
def EntriesDistinct : Entries → Prop
  | .nil => True
  | .cons _ n rest => NamesDistinct n ∧ EntriesDistinct rest
end

end Ripsrc.Spec
