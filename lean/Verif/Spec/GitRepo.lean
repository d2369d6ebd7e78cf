import Verif.Spec.GitText
import Verif.Spec.BranchMeta
import Verif.Model.Ripsrc
import Mathlib.Logic.Relation
/-!
# A git repository, what git prints about it, and what the records of its branches must say

`Verif.Model.Ripsrc` is imported only for the types of the records and of the outputs of git.
-/
namespace Ripsrc.Spec
open Relation

/-- The commits with their parents (of all refs), the current branch and its commit, the refs that `git for-each-ref` lists (of `refs/heads` or of `refs/remotes/origin`), and the
root commits of the current branch, in the order of `git rev-list`. -/
structure GitRepo where
  commits : List (Str × List Str)
  branch : Str
  head : Str
  refs : List RefEntry
  roots : List Str

namespace GitRepo
variable (r : GitRepo)

/-- `c` is a commit of the repository. -/
def Has (c : Str) : Prop := ∃ ps, (c, ps) ∈ r.commits
/-- `p` is a parent of `c`. -/
def Parent (c p : Str) : Prop := ∃ ps, (c, ps) ∈ r.commits ∧ p ∈ ps
/-- `a` is `c` or one of its ancestors. -/
def Reach : Str → Str → Prop := ReflTransGen r.Parent
/-- `a` is a strict ancestor of `c`. -/
def Anc : Str → Str → Prop := TransGen r.Parent
/-- `x` is reachable from the current branch by a path that does not continue through `b`. -/
def OnDefaultWithout (b x : Str) : Prop := ReflTransGen (fun c p => c ≠ b ∧ r.Parent c p) r.head x

/-- A repository with full history whose refs are branches. -/
structure Ok (useOrigin : Bool) : Prop where
  hash : ∀ c ∈ r.commits, IsHash c.1 ∧ ∀ p ∈ c.2, IsHash p
  -- content addressing
  same : ∀ c ∈ r.commits, ∀ d ∈ r.commits, c.1 = d.1 → c = d
  acyclic : ∀ c, ¬ r.Anc c c
  -- no shallow clone
  complete : ∀ c p, r.Parent c p → r.Has p
  -- a merge has fewer than 24000 parents
  short : ∀ c ∈ r.commits, (parentsLineOf c).length < 1000000
  head : r.Has r.head ∧ r.head.length = 40
  -- HEAD is not detached; the name does not begin or end with white space (git forbids ASCII white space, but not the other code points)
  branch : r.branch ≠ [] ∧ r.branch ≠ b!"HEAD" ∧ Trimmed r.branch
  refs : ∀ x ∈ r.refs, x.Ok ∧ r.Has x.commit ∧ (useOrigin = true → ∃ n, x.name = b!"origin/" ++ n)
  distinct : (r.refs.map RefEntry.name).Nodup
  roots : r.roots.Nodup ∧ ∀ x, x ∈ r.roots ↔ r.Reach r.head x ∧ (x, []) ∈ r.commits

/-- What the git commands print about the repository. -/
structure Prints (useOrigin : Bool) (o : GitOut) : Prop where
  head : o.head = some (r.head ++ b!"\n")
  log : o.log = some (parentsText r.commits)
  abbrevRef : o.abbrevRef = some (r.branch ++ b!"\n")
  roots : o.roots = some (unlines r.roots)
  symref : o.symref = some (r.branch ++ b!"\n")
  refs : o.refs useOrigin = some (refText r.refs)

/-- The record of the default branch. -/
structure DefaultRecord (sha : Str → Str) (b : Branch) : Prop where
  name : b.name = r.branch
  headSHA : b.headSHA = r.head
  isDefault : b.isDefault = true ∧ b.isPullRequest = false ∧ b.isMerged = false
  id : b.branchID = sha r.branch
  commits : b.commits.Nodup ∧ b.commits.getLast? = some r.head ∧ ∀ x, x ∈ b.commits ↔ r.Reach r.head x
  -- one line per root commit
  firstCommit : b.firstCommit = joinWith b!"\n" r.roots
  rest : b.branchedFromCommits = [] ∧ b.mergeCommit = [] ∧ b.behindDefaultCount = 0 ∧ b.aheadDefaultCount = 0

/-- A branch point: on the default branch (without this branch) and a parent of a commit of the branch. -/
def Meets (b : Branch) (x : Str) : Prop := r.OnDefaultWithout b.headSHA x ∧ ∃ c ∈ b.commits, r.Parent c x

/-- A fork of the branch with head `h`: on the default branch, and a parent of a commit of the branch that is not. -/
def Fork (h x : Str) : Prop := r.Reach r.head x ∧ ∃ c, r.Reach h c ∧ ¬ r.Reach r.head c ∧ r.Parent c x

/-- Reachable from the current branch along commits none of which, the last included, is a fork. -/
def ShortOfFork (h x : Str) : Prop := ReflTransGen (fun c p => ¬ r.Fork h c ∧ r.Parent c p) r.head x ∧ ¬ r.Fork h x

/-- The record of another branch (or of a pull request, which has no name). -/
structure BranchRecord (sha : Str → Str) (b : Branch) : Prop where
  flags : b.isDefault = false ∧ (b.isPullRequest = true ↔ b.name = [])
  commits : b.commits.Nodup ∧ b.commits.getLast? = some b.headSHA ∧
    ∀ x, x ∈ b.commits ↔ x = b.headSHA ∨ (r.Anc b.headSHA x ∧ ¬ r.OnDefaultWithout b.headSHA x)
  -- every commit but the head stands before one of its children
  order : ∀ as x cs, b.commits = as ++ x :: cs → (x = b.headSHA ∧ cs = []) ∨ ∃ y ∈ cs, r.Parent y x
  firstCommit : b.commits.head? = some b.firstCommit
  ahead : b.aheadDefaultCount = b.commits.length
  -- the oldest commits where the branch and the default branch meet: no other such commit is an ancestor
  branchedFrom : b.branchedFromCommits.Nodup ∧ Sorted strLe b.branchedFromCommits ∧
    ∀ x, x ∈ b.branchedFromCommits ↔ r.Meets b x ∧ ∀ y, r.Meets b y → ¬ r.Anc x y
  merged : b.isMerged = true ↔ r.Reach r.head b.headSHA
  -- the child of the head of the branch that is on the default branch; of several, the smallest hash
  mergeCommit : (b.isMerged = true → b.headSHA ≠ r.head → r.Parent b.mergeCommit b.headSHA ∧ r.Reach r.head b.mergeCommit ∧
      ∀ c, r.Parent c b.headSHA → r.Reach r.head c → strLe b.mergeCommit c = true) ∧
    (b.isMerged = false ∨ b.headSHA = r.head → b.mergeCommit = [])
  behind : (b.isMerged = true → b.behindDefaultCount = 0) ∧
    (b.branchedFromCommits = [] → b.behindDefaultCount = 0) ∧
    (b.isMerged = false → b.branchedFromCommits ≠ [] →
      (∀ l : List Str, l.Nodup → (∀ x ∈ l, r.Reach r.head x ∧ ¬ r.Reach b.headSHA x) → l.length ≤ b.behindDefaultCount) ∧
      ∃ l : List Str, l.Nodup ∧ (∀ x, x ∈ l ↔ r.ShortOfFork b.headSHA x) ∧ l.length = b.behindDefaultCount)
  id : b.branchID = (if b.name = [] then [] else sha (b.name ++ (b.branchedFromCommits.head?.getD [])))

end GitRepo
end Ripsrc.Spec
