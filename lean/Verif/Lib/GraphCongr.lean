import Verif.Model.Branches
/-!
# The records depend on the graph only through its parents and the lookups of children
-/
namespace Ripsrc

section
variable {m : GoMap Str (List Str)} {c₁ c₂ : GoMap Str (List Str)}

theorem reachRec_congr : ∀ n, reachRec ⟨m, c₁⟩ n = reachRec ⟨m, c₂⟩ n
  | 0 => by funext h s; rfl
  | n + 1 => by funext h s; simp only [reachRec, reachRec_congr n]; rfl

theorem reachStopRec_congr (b : Str) : ∀ n, reachStopRec ⟨m, c₁⟩ b n = reachStopRec ⟨m, c₂⟩ b n
  | 0 => by funext h s; rfl
  | n + 1 => by funext h s; simp only [reachStopRec, reachStopRec_congr b n]; rfl

theorem branchRec_congr (r : List Str) : ∀ n, branchRec ⟨m, c₁⟩ r n = branchRec ⟨m, c₂⟩ r n
  | 0 => by funext h s; rfl
  | n + 1 => by funext h s; simp only [branchRec, branchRec_congr r n]; rfl

theorem deepRec_congr (r : List Str) : ∀ n, deepRec ⟨m, c₁⟩ r n = deepRec ⟨m, c₂⟩ r n
  | 0 => by funext h s; rfl
  | n + 1 => by funext h s; simp only [deepRec, deepRec_congr r n]; rfl

theorem rfbRec_congr (r : List Str) : ∀ n, rfbRec ⟨m, c₁⟩ r n = rfbRec ⟨m, c₂⟩ r n
  | 0 => by funext h s; rfl
  | n + 1 => by funext h s; simp only [rfbRec, rfbRec_congr r n]; rfl

theorem behindRec_congr (r : List Str) : ∀ n, behindRec ⟨m, c₁⟩ r n = behindRec ⟨m, c₂⟩ r n
  | 0 => by funext h s; rfl
  | n + 1 => by funext h s; simp only [behindRec, behindRec_congr r n]; rfl

theorem allRec_congr : ∀ n, allRec ⟨m, c₁⟩ n = allRec ⟨m, c₂⟩ n
  | 0 => by funext h s; rfl
  | n + 1 => by funext h s; simp only [allRec, allRec_congr n]; rfl

theorem getAllCommits_congr (h : Str) : getAllCommits ⟨m, c₁⟩ h = getAllCommits ⟨m, c₂⟩ h := by
  simp only [getAllCommits, allRec_congr (c₁ := c₁) (c₂ := c₂)]; rfl

theorem runBranch_congr (hc : ∀ k, c₁.get k = c₂.get k) (sha : Str → Str) (dh : Str) (perm : List Str → List Str) (name bh : Str) :
    runBranch sha ⟨m, c₁⟩ dh perm name bh = runBranch sha ⟨m, c₂⟩ dh perm name bh := by
  simp only [runBranch, newReachableFromHead, processBranch, branchCommits, dedupLinearFromHead, getMergeCommit, behindBranch, reachableFromBranchStopOnDefault, hc,
    reachRec_congr (c₁ := c₁) (c₂ := c₂), reachStopRec_congr (c₁ := c₁) (c₂ := c₂), branchRec_congr (c₁ := c₁) (c₂ := c₂), deepRec_congr (c₁ := c₁) (c₂ := c₂),
    rfbRec_congr (c₁ := c₁) (c₂ := c₂), behindRec_congr (c₁ := c₁) (c₂ := c₂)]
  rfl
end
end Ripsrc
