import Verif.Spec.GitRepo
/-!
# A repository at two moments
-/
namespace Ripsrc.Spec

/-- Content addressing: a hash that both repositories have names the same commit, with the same parents in the same order. Nothing else is said about the two: commits, branches and
the current branch may come and go. -/
def GitRepo.SameHashes (r₁ r₂ : GitRepo) : Prop := ∀ c ps qs, (c, ps) ∈ r₁.commits → (c, qs) ∈ r₂.commits → ps = qs

end Ripsrc.Spec
