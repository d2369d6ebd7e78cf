import Verif.Model.Graph
import Mathlib.Logic.Relation
/-!
# Vocabulary for statements about the commit graph
-/
namespace Ripsrc

/-- The children recorded for `p` (none is the same as an empty list for every user of the map). -/
def Graph.childrenOf (g : Graph) (p : Str) : List Str := (g.children.get p).getD []
/-- The parents recorded for `c`. -/
def Graph.parentsOf (g : Graph) (c : Str) : List Str := (g.parents.get c).getD []

/-- `p` is a parent of `c` in the graph. -/
def Graph.Parent (g : Graph) (c p : Str) : Prop := p ∈ g.parentsOf c

/-- `a` is `c` or one of its ancestors. -/
def Graph.Reach (g : Graph) : Str → Str → Prop := Relation.ReflTransGen g.Parent

/-- `a` is a strict ancestor of `c`. -/
def Graph.Anc (g : Graph) : Str → Str → Prop := Relation.TransGen g.Parent

/-- No commit is its own ancestor (guaranteed by git's content addressing). -/
def Graph.Acyclic (g : Graph) : Prop := ∀ c, ¬ g.Anc c c

/-- The commit has an entry in the graph. -/
def Graph.Known (g : Graph) (c : Str) : Prop := (g.parents.get c).isSome

/-- Every parent mentioned in the graph has itself an entry (not a shallow clone). -/
def Graph.Complete (g : Graph) : Prop := ∀ c p, g.Parent c p → g.Known p

/-- `x` can be reached from `d` by a path that does not continue *through* `b` (it may end in `b`). -/
def Graph.ReachWithout (g : Graph) (b d x : Str) : Prop :=
  Relation.ReflTransGen (fun c p => c ≠ b ∧ g.Parent c p) d x

/-- `x` is an intersection of the branch (with these commits and this head) and the default branch: a parent of a
branch commit that belongs to the default branch independently of this branch. -/
def Graph.Intersection (g : Graph) (defaultHead branchHead : Str) (commits : List Str) (x : Str) : Prop :=
  g.ReachWithout branchHead defaultHead x ∧ ∃ c ∈ commits, g.Parent c x

/-- `x` can be reached from `d` along a path all of whose commits, `d` and `x` included, are outside `S`. -/
def Graph.ReachAvoiding (g : Graph) (S : Str → Prop) (d x : Str) : Prop :=
  Relation.ReflTransGen (fun c p => ¬ S c ∧ g.Parent c p) d x ∧ ¬ S x

/-- `m` is a meeting point of a branch with the default branch: it is on the default branch and is a parent of a commit
of the branch that is not. -/
def Graph.Meets (g : Graph) (defaultHead branchHead m : Str) : Prop :=
  g.Reach defaultHead m ∧ ∃ c, g.Reach branchHead c ∧ ¬ g.Reach defaultHead c ∧ g.Parent c m

/-- The default branch has no merges: each of its commits has at most one parent. -/
def Graph.LinearFrom (g : Graph) (d : Str) : Prop :=
  ∀ c, g.Reach d c → ∀ p q, g.Parent c p → g.Parent c q → p = q

/-- A numbering that decreases from each commit to its parents shows acyclicity. -/
theorem Graph.acyclic_of_rank (g : Graph) (rank : Str → Nat)
    (h : ∀ e ∈ g.parents, ∀ p ∈ e.2, rank p < rank e.1) : g.Acyclic := by
  have key : ∀ c p, g.Parent c p → rank p < rank c := by
    intro c p hp
    unfold Graph.Parent Graph.parentsOf at hp
    cases hg : g.parents.get c with
    | none => simp [hg] at hp
    | some ps =>
      simp only [hg, Option.getD_some] at hp
      exact h (c, ps) (GoMap.mem_of_get hg) p hp
  have key2 : ∀ c p, g.Anc c p → rank p < rank c := by
    intro c p hp
    induction hp with
    | single h => exact key _ _ h
    | tail _ h ih => exact Nat.lt_trans (key _ _ h) ih
  intro c hc
  exact Nat.lt_irrefl _ (key2 c c hc)

end Ripsrc
