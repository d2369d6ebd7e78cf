import Verif.Lib.BranchRec
import Verif.Props.Graph
/-!
# C14–C21, C23: branches

`runBranch sha gr defaultHead perm name commit` is what the code emits for one branch or pull request. `perm` is the
(arbitrary) order in which Go iterates over the set in `dedupLinearFromHead`; the theorems hold for each.
-/
namespace Ripsrc
open Relation

/-- The graph used in the examples: `m1 ← m2 ← m3` is the default branch, `b1 ← b2` starts at `m1`. -/
def exGraph : Graph := Graph.newFromMap
  [(b!"m1", []), (b!"m2", [b!"m1"]), (b!"m3", [b!"m2"]), (b!"b1", [b!"m1"]), (b!"b2", [b!"b1"])]
  [(b!"m1", []), (b!"m2", [b!"m1"]), (b!"m3", [b!"m2"]), (b!"b1", [b!"m1"]), (b!"b2", [b!"b1"])]

/-- Rank by position in a list, for acyclicity of examples. -/
def rankIn (l : List Str) (h : Str) : Nat := l.idxOf h

theorem exGraph_acyclic : exGraph.Acyclic :=
  exGraph.acyclic_of_rank (rankIn [b!"m1", b!"m2", b!"m3", b!"b1", b!"b2"]) (by decide)

theorem exGraph_b2 : runBranch id exGraph b!"m3" id b!"br" b!"b2" = .ok (some
    { branchID := b!"brm1", name := b!"br", headSHA := b!"b2", branchedFromCommits := [b!"m1"],
      commits := [b!"b1", b!"b2"], behindDefaultCount := 2, aheadDefaultCount := 2, firstCommit := b!"b1" }) := by
  decide

/-! ## C14 -/

/-- **C14.** `getAllCommits` (the `Commits` of the default branch) returns exactly the commits reachable from the head,
each once, the head last; it fails only by the panic "commit not found in tree", and does so iff a reachable commit is
missing from the graph. -/
theorem C14_default_branch (gr : Graph) (head : Str) :
    (∀ cs, getAllCommits gr head = .ok cs →
      cs.Nodup ∧ cs.getLast? = some head ∧ ∀ x, x ∈ cs ↔ gr.Reach head x) ∧
    ((∃ cs, getAllCommits gr head = .ok cs) ↔ ∀ x, gr.Reach head x → gr.Known x) ∧
    (∀ f, getAllCommits gr head = .error f → f = .panic "commit not found in tree") := by
  obtain ⟨h1, h2⟩ := dfs_top (closed_must gr head) (gr.mem_univ_self head) (gr.univ_length head)
  have e : allRec gr gr.fuel head ⟨[], []⟩ = _ := allRec_eq gr gr.fuel head []
  unfold getAllCommits
  rw [e]
  cases hd : dfs (expMust gr) gr.fuel head [] with
  | error f =>
    obtain ⟨x, hx, he⟩ := h2 f hd
    rw [step_must] at hx
    have hk : f = notInTree ∧ ¬ gr.Known x := by
      unfold expMust at he
      cases hm : gr.parentsMust x with
      | ok qs => rw [hm] at he; cases he
      | error e => rw [hm] at he; cases he; exact gr.parentsMust_error hm
    refine ⟨fun cs hcs => (by cases hcs), ⟨fun ⟨cs, hcs⟩ => (by cases hcs), fun h => absurd (h x hx) hk.2⟩, ?_⟩
    intro f' hf'
    cases hf'
    exact hk.1
  | ok t =>
    obtain ⟨nd, hh, hr, hk⟩ := h1 t hd
    rw [step_must] at hr
    have hknown : ∀ x, gr.Reach head x → gr.Known x := by
      intro x hx
      obtain ⟨ps, hps⟩ := hk x ((hr x).2 hx)
      unfold expMust at hps
      cases hm : gr.parentsMust x with
      | error e => rw [hm] at hps; cases hps
      | ok qs => exact (gr.parentsMust_ok hm).2
    refine ⟨?_, ⟨fun _ => hknown, fun _ => ⟨_, rfl⟩⟩, fun f hf => by cases hf⟩
    intro cs hcs
    cases hcs
    refine ⟨(List.reverse_perm _).nodup_iff.2 nd, ?_, ?_⟩
    · show (t.reverse).getLast? = _
      rw [List.getLast?_reverse]; exact hh
    · intro x
      show x ∈ t.reverse ↔ _
      rw [List.mem_reverse]; exact hr x

example : getAllCommits exGraph b!"m3" = .ok [b!"m1", b!"m2", b!"m3"] := by decide

/-! ## C15, C16 -/

/-- **C15.** A branch whose head is not reachable from the default head: its commits are exactly the commits reachable
from its head and not from the default head, each once, the head last. -/
theorem C15_unmerged_commits {sha : Str → Str} {gr : Graph} {dh name bh : Str} {perm : List Str → List Str} {b : Branch}
    (hac : gr.Acyclic) (hperm : ∀ s, (perm s).Perm s)
    (hb : runBranch sha gr dh perm name bh = .ok (some b)) (hun : ¬ gr.Reach dh bh) :
    b.commits.Nodup ∧ b.commits.getLast? = some bh ∧
    ∀ x, x ∈ b.commits ↔ gr.Reach bh x ∧ ¬ gr.Reach dh x := by
  obtain ⟨_, _, _, _, h1, h2, h3, _⟩ := runBranch_inv hac hperm hb
  refine ⟨h1, h2, ?_⟩
  intro x
  rw [h3, branch_mem hac, reachWithout_of_not_reach hun]
  constructor
  · rintro (rfl | ⟨h4, h5⟩)
    · exact ⟨ReflTransGen.refl, hun⟩
    · exact ⟨h4.to_reflTransGen, h5⟩
  · rintro ⟨h4, h5⟩
    rcases reflTransGen_iff_eq_or_transGen.1 h4 with h6 | h6
    · exact Or.inl h6
    · exact Or.inr ⟨h6, h5⟩

example : ∃ b, runBranch id exGraph b!"m3" id b!"br" b!"b2" = .ok (some b) ∧ b.commits = [b!"b1", b!"b2"] ∧
    exGraph.Acyclic ∧ (∀ s : List Str, (id s).Perm s) := ⟨_, exGraph_b2, rfl, exGraph_acyclic, fun s => List.Perm.refl s⟩

/-- **C16.** A branch whose head is reachable from the default head: its commits are the head and exactly those of its
ancestors that the default head can reach *only* through the branch head; each once, the head last. -/
theorem C16_merged_commits {sha : Str → Str} {gr : Graph} {dh name bh : Str} {perm : List Str → List Str} {b : Branch}
    (hac : gr.Acyclic) (hperm : ∀ s, (perm s).Perm s)
    (hb : runBranch sha gr dh perm name bh = .ok (some b)) (_hm : gr.Reach dh bh) :
    b.commits.Nodup ∧ b.commits.getLast? = some bh ∧
    ∀ x, x ∈ b.commits ↔ x = bh ∨ (gr.Anc bh x ∧ ¬ gr.ReachWithout bh dh x) := by
  obtain ⟨_, _, _, _, h1, h2, h3, _⟩ := runBranch_inv hac hperm hb
  exact ⟨h1, h2, fun x => by rw [h3, branch_mem hac]⟩

/-- A merged branch `b1 ← b2`, merged by `m3`. -/
def exMerged : Graph := Graph.newFromMap
  [(b!"m1", []), (b!"m2", [b!"m1"]), (b!"m3", [b!"m2", b!"b2"]), (b!"b1", [b!"m1"]), (b!"b2", [b!"b1"]), (b!"m4", [b!"m3"])]
  [(b!"m1", []), (b!"m2", [b!"m1"]), (b!"m3", [b!"m2", b!"b2"]), (b!"b1", [b!"m1"]), (b!"b2", [b!"b1"]), (b!"m4", [b!"m3"])]

theorem exMerged_b2 : runBranch id exMerged b!"m4" id b!"br" b!"b2" = .ok (some
    { branchID := b!"brm1", name := b!"br", headSHA := b!"b2", branchedFromCommits := [b!"m1"], isMerged := true,
      mergeCommit := b!"m3", commits := [b!"b1", b!"b2"], aheadDefaultCount := 2, firstCommit := b!"b1" }) := by
  decide

theorem exMerged_acyclic : exMerged.Acyclic :=
  exMerged.acyclic_of_rank (rankIn [b!"m1", b!"m2", b!"b1", b!"b2", b!"m3", b!"m4"]) (by decide)

example : exMerged.Reach b!"m4" b!"b2" ∧ exMerged.Acyclic ∧
    ∃ b, runBranch id exMerged b!"m4" id b!"br" b!"b2" = .ok (some b) :=
  ⟨ReflTransGen.tail (ReflTransGen.single (b := b!"m3") (by unfold Graph.Parent; decide))
    (by unfold Graph.Parent; decide), exMerged_acyclic, _, exMerged_b2⟩

/-! ## C17 -/

/-- **C17.** `BranchedFromCommits` is sorted, free of duplicates, and holds exactly the *oldest* intersections of the
branch with the default branch: the intersections that have no other intersection among their ancestors. (For an
unmerged branch `ReachWithout` in `Intersection` is plain reachability, see `C17_unmerged`.) The right-hand side does
not mention `perm`: the result does not depend on the map iteration order. -/
theorem C17_branch_points {sha : Str → Str} {gr : Graph} {dh name bh : Str} {perm : List Str → List Str} {b : Branch}
    (hac : gr.Acyclic) (hperm : ∀ s, (perm s).Perm s)
    (hb : runBranch sha gr dh perm name bh = .ok (some b)) :
    b.branchedFromCommits.Nodup ∧ Sorted strLe b.branchedFromCommits ∧
    ∀ x, x ∈ b.branchedFromCommits ↔
      gr.Intersection dh bh b.commits x ∧ ∀ y, gr.Intersection dh bh b.commits y → ¬ gr.Anc x y := by
  obtain ⟨_, _, _, _, _, _, _, _, _, h1, h2, h3, _⟩ := runBranch_inv hac hperm hb
  exact ⟨h1, h2, h3⟩

/-- C17 for an unmerged branch, in terms of plain reachability. -/
theorem C17_unmerged {sha : Str → Str} {gr : Graph} {dh name bh : Str} {perm : List Str → List Str} {b : Branch}
    (hac : gr.Acyclic) (hperm : ∀ s, (perm s).Perm s)
    (hb : runBranch sha gr dh perm name bh = .ok (some b)) (hun : ¬ gr.Reach dh bh) (x : Str) :
    x ∈ b.branchedFromCommits ↔
      (gr.Reach dh x ∧ ∃ c ∈ b.commits, gr.Parent c x) ∧
      ∀ y, (gr.Reach dh y ∧ ∃ c ∈ b.commits, gr.Parent c y) → ¬ gr.Anc x y := by
  have := (C17_branch_points hac hperm hb).2.2 x
  unfold Graph.Intersection at this
  simpa only [reachWithout_of_not_reach hun] using this

/-- **C17, order independence.** The whole record (or failure) is the same for every map iteration order. -/
theorem C17_order_independent (sha : Str → Str) (gr : Graph) (dh name bh : Str) (perm₁ perm₂ : List Str → List Str)
    (h₁ : ∀ s, (perm₁ s).Perm s) (h₂ : ∀ s, (perm₂ s).Perm s) :
    runBranch sha gr dh perm₁ name bh = runBranch sha gr dh perm₂ name bh := by
  have hd : ∀ l h, dedupLinearFromHead gr l h perm₁ = dedupLinearFromHead gr l h perm₂ := by
    intro l h
    unfold dedupLinearFromHead
    simp only
    cases deepRec gr (toSet l) gr.fuel h ⟨[], []⟩ with
    | error e => rfl
    | ok s =>
      show Except.ok _ = Except.ok _
      congr 1
      exact sortStrings_congr (((h₁ _).trans (h₂ _).symm).filter _)
  have hbc : ∀ R, branchCommits gr dh R bh perm₁ = branchCommits gr dh R bh perm₂ := by
    intro R
    unfold branchCommits
    simp only [hd]
  unfold runBranch processBranch
  simp only [hbc]

/-- The master was merged into the branch: two intersections, only the oldest is reported. -/
example : (runBranch id (Graph.newFromMap
      [(b!"m1", []), (b!"m2", [b!"m1"]), (b!"b1", [b!"m1"]), (b!"b2", [b!"b1", b!"m2"])] [])
      b!"m2" id b!"br" b!"b2").map (Option.map Branch.branchedFromCommits) = .ok (some [b!"m1"]) := by
  decide

/-! ## C18 -/

/-- **C18, lower bound.** For an unmerged branch with a branch point, `BehindDefaultCount` is at least the number of
default-branch commits that are not in the branch (`l` enumerates them). -/
theorem C18_behind_lower {sha : Str → Str} {gr : Graph} {dh name bh : Str} {perm : List Str → List Str} {b : Branch}
    (hac : gr.Acyclic) (hperm : ∀ s, (perm s).Perm s)
    (hb : runBranch sha gr dh perm name bh = .ok (some b)) (hun : ¬ gr.Reach dh bh)
    (hbp : b.branchedFromCommits ≠ [])
    (l : List Str) (hl : l.Nodup) (hlm : ∀ x, x ∈ l ↔ gr.Reach dh x ∧ ¬ gr.Reach bh x) :
    l.length ≤ b.behindDefaultCount := by
  obtain ⟨_, _, _, _, _, _, _, _, _, _, _, _, _, _, _, R, _, hRm, _, hu⟩ := runBranch_inv hac hperm hb
  have hbe := (hu hun).2.2.2 hbp
  obtain ⟨rfb, t, _, hrfb, tnd, htm, hcount⟩ := behind_spec gr R bh dh
  rw [hcount] at hbe
  have hbe := Except.ok.inj hbe
  rw [← hbe]
  apply nodup_length_le hl
  intro x hx
  obtain ⟨hx1, hx2⟩ := (hlm x).1 hx
  have hrfbsub : ∀ y, y ∈ rfb → gr.Reach bh y := fun y hy => rtg_mono (fun a b h => h.2) ((hrfb y).1 hy)
  have hnot : ∀ y, gr.Reach dh y → gr.Reach y x → y ∉ rfb := fun y _ hyx hc =>
    hx2 (ReflTransGen.trans (hrfbsub y hc) hyx)
  rw [List.mem_filter]
  refine ⟨?_, by simpa using hnot x hx1 ReflTransGen.refl⟩
  rw [htm]
  have aux : ∀ y, gr.Reach dh y → gr.Reach y x → ReflTransGen (fun a b => a ∉ rfb ∧ gr.Parent a b) dh y := by
    intro y hy
    induction hy with
    | refl => intro _; exact ReflTransGen.refl
    | @tail y z hy hp ih =>
      intro hzx
      have hyx := ReflTransGen.head hp hzx
      exact ReflTransGen.tail (ih hyx) ⟨hnot y hy hyx, hp⟩
  exact aux x hx1 ReflTransGen.refl

/-- **C18, exactness on linear default history.** If the default branch has no merges the count is exact. -/
theorem C18_behind_exact_linear {sha : Str → Str} {gr : Graph} {dh name bh : Str} {perm : List Str → List Str}
    {b : Branch} (hac : gr.Acyclic) (hperm : ∀ s, (perm s).Perm s)
    (hb : runBranch sha gr dh perm name bh = .ok (some b)) (hun : ¬ gr.Reach dh bh)
    (hbp : b.branchedFromCommits ≠ []) (hlin : gr.LinearFrom dh)
    (l : List Str) (hl : l.Nodup) (hlm : ∀ x, x ∈ l ↔ gr.Reach dh x ∧ ¬ gr.Reach bh x) :
    b.behindDefaultCount = l.length := by
  apply Nat.le_antisymm _ (C18_behind_lower hac hperm hb hun hbp l hl hlm)
  obtain ⟨_, _, _, _, _, _, _, _, _, _, _, _, _, _, _, R, _, hRm, _, hu⟩ := runBranch_inv hac hperm hb
  have hbe := (hu hun).2.2.2 hbp
  obtain ⟨rfb, t, _, hrfb, tnd, htm, hcount⟩ := behind_spec gr R bh dh
  rw [hcount] at hbe
  have hbe := Except.ok.inj hbe
  rw [← hbe]
  apply nodup_length_le (tnd.filter _)
  intro x hx
  rw [List.mem_filter] at hx
  obtain ⟨hxt, hxr⟩ := hx
  have hxr : x ∉ rfb := by simpa using hxr
  have hpath := (htm x).1 hxt
  have hdx : gr.Reach dh x := rtg_mono (fun a b h => h.2) hpath
  rw [hlm]
  refine ⟨hdx, fun hbx => ?_⟩
  -- the first default-branch commit `y` on the path from the branch head to `x`
  have hfirst : ∀ y, gr.Reach bh y → gr.Reach dh y → ∃ z ∈ rfb, gr.Reach dh z ∧ gr.Reach z y := by
    have aux : ∀ y, gr.Reach bh y → (y ∈ rfb ∨ ∃ z ∈ rfb, gr.Reach dh z ∧ gr.Reach z y) := by
      intro y hy
      induction hy with
      | refl => exact Or.inl ((hrfb bh).2 ReflTransGen.refl)
      | @tail y z hy hp ih =>
        rcases ih with ih | ⟨w, hw, hw1, hw2⟩
        · by_cases hyR : y ∈ R
          · exact Or.inr ⟨y, ih, (hRm y).1 hyR, ReflTransGen.single hp⟩
          · exact Or.inl ((hrfb z).2 (ReflTransGen.tail ((hrfb y).1 ih) ⟨hyR, hp⟩))
        · exact Or.inr ⟨w, hw, hw1, ReflTransGen.tail hw2 hp⟩
    intro y hy hdy
    rcases aux y hy with h | h
    · exact ⟨y, h, hdy, ReflTransGen.refl⟩
    · exact h
  obtain ⟨y, hyr, hdy, hyx⟩ := hfirst x hbx hdx
  have claim : gr.Reach x y := by
    have aux : ∀ z, ReflTransGen (fun a b => a ∉ rfb ∧ gr.Parent a b) dh z → gr.Reach z y := by
      intro z hz
      induction hz with
      | refl => exact hdy
      | @tail z w hz hs ih =>
        rcases ReflTransGen.cases_head ih with rfl | ⟨v, hv, hvy⟩
        · exact absurd hyr hs.1
        · have : v = w := hlin z (rtg_mono (fun a b h => h.2) hz) v w hv hs.2
          exact this ▸ hvy
    exact aux x hpath
  rcases reflTransGen_iff_eq_or_transGen.1 claim with h | h
  · exact hxr (h ▸ hyr)
  · exact hac x (TransGen.trans_left h hyx)

/-- **C18, what is counted.** For an unmerged branch with a branch point `BehindDefaultCount` is exactly the number of
default-branch commits that can be reached from the default head along a path containing no meeting point of the two
branches (`l` enumerates them), the end of the path included. -/
theorem C18_behind_exact {sha : Str → Str} {gr : Graph} {dh name bh : Str} {perm : List Str → List Str}
    {b : Branch} (hac : gr.Acyclic) (hperm : ∀ s, (perm s).Perm s)
    (hb : runBranch sha gr dh perm name bh = .ok (some b)) (hun : ¬ gr.Reach dh bh)
    (hbp : b.branchedFromCommits ≠ [])
    (l : List Str) (hl : l.Nodup) (hlm : ∀ x, x ∈ l ↔ gr.ReachAvoiding (gr.Meets dh bh) dh x) :
    b.behindDefaultCount = l.length := by
  obtain ⟨_, _, _, _, _, _, _, _, _, _, _, _, _, _, _, R, _, hRm, _, hu⟩ := runBranch_inv hac hperm hb
  have hbe := (hu hun).2.2.2 hbp
  obtain ⟨rfb, t, _, hrfb, tnd, htm, hcount⟩ := behind_spec gr R bh dh
  rw [hcount] at hbe
  have hbe := Except.ok.inj hbe
  rw [← hbe]
  have hmeet : ∀ x, gr.Reach dh x → (x ∈ rfb ↔ gr.Meets dh bh x) := by
    intro x hx
    rw [hrfb]
    constructor
    · intro h
      rcases ReflTransGen.cases_tail h with h | ⟨c, hc, hcR, hcx⟩
      · exact absurd (h ▸ hx) hun
      · exact ⟨hx, c, rtg_mono (fun _ _ h => h.2) hc, fun h => hcR ((hRm c).2 h), hcx⟩
    · rintro ⟨_, c, hc, hcd, hcx⟩
      have aux : ∀ c, gr.Reach bh c → ¬ gr.Reach dh c →
          ReflTransGen (fun a b => a ∉ R ∧ gr.Parent a b) bh c := by
        intro c hc
        induction hc with
        | refl => intro _; exact ReflTransGen.refl
        | @tail y z _ hp ih =>
          intro hz
          have hy : ¬ gr.Reach dh y := fun h => hz (ReflTransGen.tail h hp)
          exact ReflTransGen.tail (ih hy) ⟨fun h => hy ((hRm y).1 h), hp⟩
      exact ReflTransGen.tail (aux c hc hcd) ⟨fun h => hcd ((hRm c).1 h), hcx⟩
  have hset : ∀ x, x ∈ t.filter (fun x => decide (x ∉ rfb)) ↔ x ∈ l := by
    intro x
    rw [List.mem_filter, htm, hlm]
    unfold Graph.ReachAvoiding
    simp only [decide_eq_true_eq]
    constructor
    · rintro ⟨h1, h2⟩
      have h1' := h1
      have hd : gr.Reach dh x := rtg_mono (fun _ _ h => h.2) h1
      refine ⟨?_, fun hm => h2 ((hmeet x hd).2 hm)⟩
      clear h2 hd h1'
      induction h1 with
      | refl => exact ReflTransGen.refl
      | @tail y z hy hp ih =>
        have hdy : gr.Reach dh y := rtg_mono (fun _ _ h => h.2) hy
        exact ReflTransGen.tail ih ⟨fun hm => hp.1 ((hmeet y hdy).2 hm), hp.2⟩
    · rintro ⟨h1, h2⟩
      have hd : gr.Reach dh x := rtg_mono (fun _ _ h => h.2) h1
      refine ⟨?_, fun hm => h2 ((hmeet x hd).1 hm)⟩
      clear h2 hd
      induction h1 with
      | refl => exact ReflTransGen.refl
      | @tail y z hy hp ih =>
        have hdy : gr.Reach dh y := rtg_mono (fun _ _ h => h.2) hy
        exact ReflTransGen.tail ih ⟨fun hm => hp.1 ((hmeet y hdy).1 hm), hp.2⟩
  apply Nat.le_antisymm
  · exact nodup_length_le (tnd.filter _) (fun x hx => (hset x).1 hx)
  · exact nodup_length_le hl (fun x hx => (hset x).2 hx)

/-- **C18, when the documented equality holds.** `BehindDefaultCount` is the number of default-branch commits not in the
branch (`l` enumerates those) if and only if no ancestor of the branch head can be reached from the default head around
the meeting points. -/
theorem C18_behind_exact_iff {sha : Str → Str} {gr : Graph} {dh name bh : Str} {perm : List Str → List Str}
    {b : Branch} (hac : gr.Acyclic) (hperm : ∀ s, (perm s).Perm s)
    (hb : runBranch sha gr dh perm name bh = .ok (some b)) (hun : ¬ gr.Reach dh bh)
    (hbp : b.branchedFromCommits ≠ [])
    (l : List Str) (hl : l.Nodup) (hlm : ∀ x, x ∈ l ↔ gr.Reach dh x ∧ ¬ gr.Reach bh x) :
    b.behindDefaultCount = l.length ↔ ∀ x, gr.ReachAvoiding (gr.Meets dh bh) dh x → ¬ gr.Reach bh x := by
  classical
  obtain ⟨D, _, hDnd, hDm⟩ := newReachable_spec gr dh
  let k := D.filter (fun x => decide (gr.ReachAvoiding (gr.Meets dh bh) dh x))
  have hknd : k.Nodup := hDnd.filter _
  have hkm : ∀ x, x ∈ k ↔ gr.ReachAvoiding (gr.Meets dh bh) dh x := by
    intro x
    simp only [k, List.mem_filter, hDm, decide_eq_true_eq, and_iff_right_iff_imp]
    exact fun h => rtg_mono (fun _ _ h => h.2) h.1
  rw [C18_behind_exact hac hperm hb hun hbp k hknd hkm]
  have hsub : ∀ x, x ∈ l → x ∈ k := by
    intro x hx
    obtain ⟨h1, h2⟩ := (hlm x).1 hx
    rw [hkm]
    have hnm : ∀ y, gr.Reach y x → ¬ gr.Meets dh bh y := by
      rintro y hyx ⟨_, c, hc, _, hcy⟩
      exact h2 (ReflTransGen.trans (ReflTransGen.tail hc hcy) hyx)
    refine ⟨?_, hnm x ReflTransGen.refl⟩
    clear hx h2
    have aux : ∀ y, gr.Reach dh y → gr.Reach y x →
        ReflTransGen (fun a p => ¬ gr.Meets dh bh a ∧ gr.Parent a p) dh y := by
      intro y hy
      induction hy with
      | refl => intro _; exact ReflTransGen.refl
      | @tail y z _ hp ih =>
        intro hzx
        have hyx := ReflTransGen.head hp hzx
        exact ReflTransGen.tail (ih hyx) ⟨hnm y hyx, hp⟩
    exact aux x h1 ReflTransGen.refl
  constructor
  · intro he x hx hbx
    -- `l` is a proper part of `k`
    have hxl : x ∉ l := fun h => ((hlm x).1 h).2 hbx
    have := nodup_length_le (l := x :: l) (List.nodup_cons.2 ⟨hxl, hl⟩) (m := k) (by
      intro y hy
      rcases List.mem_cons.1 hy with rfl | hy
      · exact (hkm y).2 hx
      · exact hsub y hy)
    simp only [List.length_cons] at this
    omega
  · intro h
    apply Nat.le_antisymm _ (nodup_length_le hl hsub)
    apply nodup_length_le hknd
    intro x hx
    have hx := (hkm x).1 hx
    exact (hlm x).2 ⟨rtg_mono (fun _ _ h => h.2) hx.1, h x hx⟩

/-- The documented equality without the side condition is false of the code.
Default history `m1 ← m2 ← m3`, `m1 ← x ← m3` (m3 merges x), branch `b` off `m2`: commits of the default branch not in
the branch are `m3` and `x`, but the code reports 3 because it walks around the branch point `m2` down to `m1`. -/
def exAround : Graph := Graph.newFromMap
  [(b!"m1", []), (b!"m2", [b!"m1"]), (b!"x", [b!"m1"]), (b!"m3", [b!"m2", b!"x"]), (b!"b", [b!"m2"])] []

theorem exAround_acyclic : exAround.Acyclic :=
  exAround.acyclic_of_rank (rankIn [b!"m1", b!"m2", b!"x", b!"m3", b!"b"]) (by decide)

theorem C18_exact_is_false : ∃ (gr : Graph) (dh bh : Str) (b : Branch) (l : List Str),
    gr.Acyclic ∧ gr.Complete ∧ runBranch id gr dh id b!"br" bh = .ok (some b) ∧ ¬ gr.Reach dh bh ∧
    b.branchedFromCommits ≠ [] ∧ l.Nodup ∧ (∀ x, x ∈ l ↔ gr.Reach dh x ∧ ¬ gr.Reach bh x) ∧
    b.behindDefaultCount ≠ l.length := by
  obtain ⟨R, hR, _, hRm⟩ := newReachable_spec exAround b!"m3"
  obtain ⟨B, hB, _, hBm⟩ := newReachable_spec exAround b!"b"
  have e1 : newReachableFromHead exAround b!"m3" = .ok [b!"m3", b!"m2", b!"m1", b!"x"] := by decide
  have e2 : newReachableFromHead exAround b!"b" = .ok [b!"b", b!"m2", b!"m1"] := by decide
  rw [hR] at e1; cases e1
  rw [hB] at e2; cases e2
  refine ⟨exAround, b!"m3", b!"b",
    { branchID := b!"brm2", name := b!"br", headSHA := b!"b", branchedFromCommits := [b!"m2"],
      commits := [b!"b"], behindDefaultCount := 3, aheadDefaultCount := 1, firstCommit := b!"b" },
    [b!"m3", b!"x"], exAround_acyclic, ?_, by decide, ?_, by decide, by decide, ?_, by decide⟩
  · intro c p hp
    unfold Graph.Parent Graph.parentsOf at hp
    unfold Graph.Known
    cases hg : exAround.parents.get c with
    | none => simp [hg] at hp
    | some ps =>
      simp only [hg, Option.getD_some] at hp
      have : ∀ e ∈ exAround.parents, ∀ p ∈ e.2, (exAround.parents.get p).isSome := by decide
      exact this (c, ps) (GoMap.mem_of_get hg) p hp
  · rw [← hRm]; decide
  · intro x
    rw [← hRm, ← hBm]
    constructor
    · intro h
      simp only [List.mem_cons, List.not_mem_nil, or_false] at h
      rcases h with rfl | rfl <;> decide
    · rintro ⟨h1, h2⟩
      simp only [List.mem_cons, List.not_mem_nil, or_false] at h1
      rcases h1 with rfl | rfl | rfl | rfl
      · decide
      · exact absurd (by decide) h2
      · exact absurd (by decide) h2
      · decide

/-- The graph above meets the hypotheses of `C18_behind_exact` (three commits avoid the meeting point `m2`) and fails the
side condition of `C18_behind_exact_iff` at `m1`. -/
example : ∃ b, runBranch id exAround b!"m3" id b!"br" b!"b" = .ok (some b) ∧ b.branchedFromCommits ≠ [] ∧
    b.behindDefaultCount = [b!"m3", b!"x", b!"m1"].length ∧
    exAround.ReachAvoiding (exAround.Meets b!"m3" b!"b") b!"m3" b!"m1" ∧ exAround.Reach b!"b" b!"m1" := by
  obtain ⟨B, hB, _, hBm⟩ := newReachable_spec exAround b!"b"
  have e2 : newReachableFromHead exAround b!"b" = .ok [b!"b", b!"m2", b!"m1"] := by decide
  rw [hB] at e2; cases e2
  obtain ⟨R, hR, _, hRm⟩ := newReachable_spec exAround b!"m3"
  have e1 : newReachableFromHead exAround b!"m3" = .ok [b!"m3", b!"m2", b!"m1", b!"x"] := by decide
  rw [hR] at e1; cases e1
  have hm : ∀ m, exAround.Meets b!"m3" b!"b" m → m = b!"m2" := by
    rintro m ⟨_, c, hc, hcd, hcm⟩
    rw [← hBm] at hc
    rw [← hRm] at hcd
    simp only [List.mem_cons, List.not_mem_nil, or_false] at hc
    rcases hc with rfl | rfl | rfl
    · have : exAround.parentsOf b!"b" = [b!"m2"] := by decide
      unfold Graph.Parent at hcm
      rw [this] at hcm
      simpa using hcm
    · exact absurd (by decide) hcd
    · exact absurd (by decide) hcd
  refine ⟨
    { branchID := b!"brm2", name := b!"br", headSHA := b!"b", branchedFromCommits := [b!"m2"],
      commits := [b!"b"], behindDefaultCount := 3, aheadDefaultCount := 1, firstCommit := b!"b" },
    by decide, by decide, by decide, ⟨?_, fun h => absurd (hm _ h) (by decide)⟩, (hBm _).1 (by decide)⟩
  have s1 : exAround.Parent b!"m3" b!"x" := by unfold Graph.Parent; decide
  have s2 : exAround.Parent b!"x" b!"m1" := by unfold Graph.Parent; decide
  exact Relation.ReflTransGen.tail (Relation.ReflTransGen.single ⟨fun h => absurd (hm _ h) (by decide), s1⟩)
    ⟨fun h => absurd (hm _ h) (by decide), s2⟩

/-- A branch without branch point (unrelated history) reports 0, whatever the default branch contains. -/
theorem C18_no_branch_point {sha : Str → Str} {gr : Graph} {dh name bh : Str} {perm : List Str → List Str} {b : Branch}
    (hac : gr.Acyclic) (hperm : ∀ s, (perm s).Perm s)
    (hb : runBranch sha gr dh perm name bh = .ok (some b)) (hbp : b.branchedFromCommits = []) :
    b.behindDefaultCount = 0 := by
  obtain ⟨_, _, _, _, _, _, _, _, _, _, _, _, _, _, _, R, _, hRm, hm, hu⟩ := runBranch_inv hac hperm hb
  by_cases h : gr.Reach dh bh
  · exact (hm h).2.1
  · exact (hu h).2.2.1 hbp

/-! ## C19 -/

/-- **C19.** For a graph built by the code from a parents map (any iteration order) and a merged branch whose head is
not the default head: `MergeCommit` is a child of the branch head, reachable from the default head, and it is the
smallest such hash. -/
theorem C19_merge_commit {sha : Str → Str} {parents : GoMap Str (List Str)} (hwf : parents.WF)
    {order : List (Str × List Str)} (horder : order.Perm parents)
    {dh name bh : Str} {perm : List Str → List Str} {b : Branch}
    (hac : (Graph.newFromMap parents order).Acyclic) (hperm : ∀ s, (perm s).Perm s)
    (hb : runBranch sha (Graph.newFromMap parents order) dh perm name bh = .ok (some b))
    (hm : (Graph.newFromMap parents order).Reach dh bh) (hne : bh ≠ dh) :
    let gr := Graph.newFromMap parents order
    gr.Parent b.mergeCommit bh ∧ gr.Reach dh b.mergeCommit ∧
    ∀ c, gr.Parent c bh → gr.Reach dh c → strLe b.mergeCommit c = true := by
  intro gr
  obtain ⟨_, _, _, _, _, _, _, _, _, _, _, _, _, _, _, R, _, hRm, hmm, _⟩ := runBranch_inv hac hperm hb
  have hmc := (hmm hm).2.2
  obtain ⟨c1, _, c3⟩ := C13_children_inverse parents hwf order horder
  have hchild : ∀ c, c ∈ gr.childrenOf bh ↔ gr.Parent c bh := by
    intro c
    have := c1 bh c
    rw [← List.count_pos_iff, Graph.Parent, ← List.count_pos_iff]
    exact this ▸ Iff.rfl
  unfold getMergeCommit at hmc
  cases hg : (Graph.newFromMap parents order).children.get bh with
  | none => rw [hg] at hmc; cases hmc
  | some ch =>
    rw [hg] at hmc
    have hch : gr.childrenOf bh = ch := by
      show ((Graph.newFromMap parents order).children.get bh).getD [] = ch
      rw [hg]; rfl
    have hsorted : Sorted strLe ch := hch ▸ c3 bh
    -- some child is reachable
    obtain ⟨c, hc, hcr⟩ : ∃ c, gr.Parent c bh ∧ gr.Reach dh c := by
      rcases ReflTransGen.cases_tail hm with h | ⟨c, hc, hp⟩
      · exact absurd h hne
      · exact ⟨c, hp, hc⟩
    have hfind : ∀ (l : List Str), (∃ c ∈ l, c ∈ R) → Sorted strLe l →
        ∃ m ∈ l, l.find? (fun ch => decide (ch ∈ R)) = some m ∧ m ∈ R ∧ ∀ c ∈ l, c ∈ R → strLe m c = true := by
      intro l
      induction l with
      | nil => rintro ⟨c, hc, _⟩; cases hc
      | cons a l ih =>
        intro hex hs
        by_cases ha : a ∈ R
        · refine ⟨a, by simp, by simp [ha], ha, ?_⟩
          intro c hc _
          rcases List.mem_cons.1 hc with rfl | hc
          · exact strLe_refl c
          · exact (List.pairwise_cons.1 hs).1 c hc
        · obtain ⟨m, h1, h2, h3, h4⟩ := ih (by
            obtain ⟨c, hc, hcR⟩ := hex
            rcases List.mem_cons.1 hc with rfl | hc
            · exact absurd hcR ha
            · exact ⟨c, hc, hcR⟩) (List.pairwise_cons.1 hs).2
          refine ⟨m, by simp [h1], by simp [ha, h2], h3, ?_⟩
          intro c hc hcR
          rcases List.mem_cons.1 hc with rfl | hc
          · exact absurd hcR ha
          · exact h4 c hc hcR
    obtain ⟨m, h1, h2, h3, h4⟩ := hfind ch ⟨c, hch ▸ (hchild c).2 hc, (hRm c).2 hcr⟩ hsorted
    simp only [h2, Option.getD_some, Except.ok.injEq] at hmc
    subst hmc
    refine ⟨(hchild _).1 (hch ▸ h1), (hRm _).1 h3, ?_⟩
    intro x hx hxr
    exact h4 x (hch ▸ (hchild x).2 hx) ((hRm x).2 hxr)

example : ∃ b, runBranch id exMerged b!"m4" id b!"br" b!"b2" = .ok (some b) ∧ b.mergeCommit = b!"m3" :=
  ⟨_, exMerged_b2, rfl⟩

/-- **C19, the exception.** When the branch head is the default head itself, the branch is reported as merged with an
*empty* `MergeCommit` (contrary to the comment "Set if IsMerged=true"). -/
theorem C19_head_is_default {sha : Str → Str} {parents : GoMap Str (List Str)} (hwf : parents.WF)
    {order : List (Str × List Str)} (horder : order.Perm parents)
    {dh name : Str} {perm : List Str → List Str} {b : Branch}
    (hac : (Graph.newFromMap parents order).Acyclic) (hperm : ∀ s, (perm s).Perm s)
    (hb : runBranch sha (Graph.newFromMap parents order) dh perm name dh = .ok (some b)) :
    b.isMerged = true ∧ b.mergeCommit = [] := by
  obtain ⟨_, _, _, _, _, _, _, _, _, _, _, _, _, _, _, R, _, hRm, hmm, _⟩ := runBranch_inv hac hperm hb
  obtain ⟨h1, _, hmc⟩ := hmm ReflTransGen.refl
  refine ⟨h1, ?_⟩
  obtain ⟨c1, _, _⟩ := C13_children_inverse parents hwf order horder
  unfold getMergeCommit at hmc
  cases hg : (Graph.newFromMap parents order).children.get dh with
  | none => rw [hg] at hmc; cases hmc
  | some ch =>
    rw [hg] at hmc
    have hnone : ch.find? (fun ch => decide (ch ∈ R)) = none := by
      rw [List.find?_eq_none]
      intro c hc
      simp only [decide_eq_true_eq]
      intro hcR
      have hcount := c1 dh c
      have hpos : 0 < ((Graph.newFromMap parents order).childrenOf dh).count c := by
        rw [List.count_pos_iff]
        unfold Graph.childrenOf
        rw [hg]; exact hc
      rw [hcount, List.count_pos_iff] at hpos
      exact hac dh (TransGen.tail' ((hRm c).1 hcR) hpos)
    simp only [hnone, Option.getD_none, Except.ok.injEq] at hmc
    exact hmc.symm

example : (runBranch id exMerged b!"m4" id b!"same" b!"m4").map (Option.map (fun b => (b.isMerged, b.mergeCommit)))
    = .ok (some (true, [])) := by decide

/-! ## C20 -/

/-- **C20.** Every commit of the branch other than its head is listed before at least one of its children on the branch;
and a commit that is listed after one of its own children has another child on the branch after it. -/
theorem C20_before_a_child {sha : Str → Str} {gr : Graph} {dh name bh : Str} {perm : List Str → List Str} {b : Branch}
    (hac : gr.Acyclic) (hperm : ∀ s, (perm s).Perm s)
    (hb : runBranch sha gr dh perm name bh = .ok (some b)) :
    (∀ p ∈ b.commits, p ≠ bh → ∃ d ∈ b.commits, gr.Parent d p ∧ b.commits.idxOf p < b.commits.idxOf d) ∧
    (∀ c p, c ∈ b.commits → p ∈ b.commits → gr.Parent c p → b.commits.idxOf p < b.commits.idxOf c ∨
      ∃ d ∈ b.commits, d ≠ c ∧ gr.Parent d p ∧ b.commits.idxOf p < b.commits.idxOf d) := by
  obtain ⟨_, _, _, _, hnd, hlast, hmem, _, htree, _⟩ := runBranch_inv hac hperm hb
  have main : ∀ p ∈ b.commits, p ≠ bh → ∃ d ∈ b.commits, gr.Parent d p ∧ b.commits.idxOf p < b.commits.idxOf d := by
    intro p hp hne
    obtain ⟨a, d, hsplit⟩ := List.append_of_mem (List.mem_reverse.2 hp)
    rcases htree a p d hsplit with ⟨rfl, _⟩ | ⟨y, hy, hyp⟩
    · exact absurd rfl hne
    · have hyc : y ∈ b.commits := List.mem_reverse.1 (by rw [hsplit]; simp [hy])
      refine ⟨y, hyc, hyp, ?_⟩
      have hb' : b.commits = d.reverse ++ p :: a.reverse := by
        have := congrArg List.reverse hsplit
        simpa using this
      have hpd : p ∉ d.reverse := by
        rw [hb', List.nodup_append] at hnd
        intro h; exact hnd.2.2 p h p (by simp) rfl
      have hyd : y ∉ d.reverse ∧ y ≠ p := by
        rw [hb', List.nodup_append] at hnd
        refine ⟨fun h => hnd.2.2 y h y (by simp [hy]) rfl, ?_⟩
        rintro rfl
        exact (List.nodup_cons.1 hnd.2.1).1 (by simpa using hy)
      rw [hb', List.idxOf_append, List.idxOf_append, if_neg hpd, if_neg hyd.1, List.idxOf_cons_self, List.idxOf_cons]
      have : (p == y) = false := by simpa using Ne.symm hyd.2
      simp [this]
  refine ⟨main, ?_⟩
  intro c p hc hp hcp
  have hne : p ≠ bh := by
    rintro rfl
    have : gr.Reach p c := rtg_mono (fun _ _ h => h.1) ((hmem c).1 hc)
    exact absurd (TransGen.tail' this hcp) (hac p)
  obtain ⟨d, hd, hdp, hlt⟩ := main p hp hne
  by_cases h : d = c
  · exact Or.inl (h ▸ hlt)
  · exact Or.inr ⟨d, hd, h, hdp, hlt⟩

/-- **C20, tree-shaped branches.** If within the branch each commit has at most one child, every commit in `Commits` comes after
all its parents on the branch; so `FirstCommit = Commits[0]` has no parent on the branch. -/
theorem C20_order_tree {sha : Str → Str} {gr : Graph} {dh name bh : Str} {perm : List Str → List Str} {b : Branch}
    (hac : gr.Acyclic) (hperm : ∀ s, (perm s).Perm s)
    (hb : runBranch sha gr dh perm name bh = .ok (some b))
    (hone : ∀ x ∈ b.commits, ∀ c ∈ b.commits, ∀ d ∈ b.commits, gr.Parent c x → gr.Parent d x → c = d) :
    (∀ c p, c ∈ b.commits → p ∈ b.commits → gr.Parent c p → b.commits.idxOf p < b.commits.idxOf c) ∧
    (∀ p ∈ b.commits, ¬ gr.Parent b.firstCommit p) := by
  obtain ⟨_, _, _, _, _, _, _, _, _, _, _, _, _, hfirst, _⟩ := runBranch_inv hac hperm hb
  have main : ∀ c p, c ∈ b.commits → p ∈ b.commits → gr.Parent c p → b.commits.idxOf p < b.commits.idxOf c := by
    intro c p hc hp hcp
    rcases (C20_before_a_child hac hperm hb).2 c p hc hp hcp with h | ⟨d, hd, hne, hdp, _⟩
    · exact h
    · exact absurd (hone p hp d hd c hc hdp hcp) hne
  refine ⟨main, ?_⟩
  intro p hp hpar
  cases hcs : b.commits with
  | nil => rw [hcs] at hp; cases hp
  | cons c cs =>
    rw [hcs] at hfirst
    simp only [List.head?_cons, Option.some.injEq] at hfirst
    have := main b.firstCommit p (by rw [hcs, ← hfirst]; simp) hp hpar
    rw [hcs, ← hfirst, List.idxOf_cons_self] at this
    omega

example : ∃ b, runBranch id exGraph b!"m3" id b!"br" b!"b2" = .ok (some b) ∧
    (∀ x ∈ b.commits, ∀ c ∈ b.commits, ∀ d ∈ b.commits, exGraph.Parent c x → exGraph.Parent d x → c = d) :=
  ⟨_, exGraph_b2, by unfold Graph.Parent; decide⟩

/-- Without the one-child hypothesis the order is not topological, and `Commits[0]` is not the
first commit of the branch. Branch `b1 ← b2 ← b4`, `b1 ← b3 ← b4`: the code returns `[b2, b1, b3, b4]`. -/
def exDiamond : Graph := Graph.newFromMap
  [(b!"m1", []), (b!"b1", [b!"m1"]), (b!"b2", [b!"b1"]), (b!"b3", [b!"b1"]), (b!"b4", [b!"b2", b!"b3"])] []

theorem C20_order_is_false : ∃ (gr : Graph) (dh bh : Str) (b : Branch), gr.Acyclic ∧
    runBranch id gr dh id b!"br" bh = .ok (some b) ∧ ∃ p ∈ b.commits, gr.Parent b.firstCommit p := by
  refine ⟨exDiamond, b!"m1", b!"b4",
    { branchID := b!"brm1", name := b!"br", headSHA := b!"b4",
      branchedFromCommits := [b!"m1"], commits := [b!"b2", b!"b1", b!"b3", b!"b4"], aheadDefaultCount := 4,
      firstCommit := b!"b2" }, ?_, by decide, b!"b1", by decide, by unfold Graph.Parent; decide⟩
  exact exDiamond.acyclic_of_rank (rankIn [b!"m1", b!"b1", b!"b2", b!"b3", b!"b4"]) (by decide)

/-! ## C21 -/

/-- **C21.** Consistency of every emitted branch record. -/
theorem C21_record {sha : Str → Str} {gr : Graph} {dh name bh : Str} {perm : List Str → List Str} {b : Branch}
    (hac : gr.Acyclic) (hperm : ∀ s, (perm s).Perm s)
    (hb : runBranch sha gr dh perm name bh = .ok (some b)) :
    b.name = name ∧ b.headSHA = bh ∧ (b.isPullRequest = true ↔ name = []) ∧ b.isDefault = false ∧
    b.aheadDefaultCount = b.commits.length ∧ 1 ≤ b.commits.length ∧
    b.commits.head? = some b.firstCommit ∧ b.commits.getLast? = some b.headSHA ∧
    (b.isMerged = true ↔ gr.Reach dh bh) ∧
    (b.isMerged = true → b.behindDefaultCount = 0) ∧ (b.isMerged = false → b.mergeCommit = []) ∧
    b.branchID = (if name = [] then [] else branchID sha name b.branchedFromCommits) := by
  obtain ⟨h1, h2, h3, h4, _, h6, _, _, _, _, _, _, h13, h14, h15, R, _, hRm, hm, hu⟩ := runBranch_inv hac hperm hb
  refine ⟨h2, h1, by simp [h3], h4, h13, ?_, h14, by rw [h1]; exact h6, ?_, ?_, ?_, ?_⟩
  · cases hc : b.commits with
    | nil => rw [hc] at h14; cases h14
    | cons _ _ => simp
  · by_cases h : gr.Reach dh bh
    · simp [h, (hm h).1]
    · simp [h, (hu h).1]
  · intro h
    by_cases h' : gr.Reach dh bh
    · exact (hm h').2.1
    · rw [(hu h').1] at h; cases h
  · intro h
    by_cases h' : gr.Reach dh bh
    · rw [(hm h').1] at h; cases h
    · exact (hu h').2.1
  · rw [h15]; by_cases hn : name = [] <;> simp [hn]

/-- **C21, unknown pull request.** A pull-request sha that is not in the graph yields no record and no failure. -/
theorem C21_unknown_pr (sha : Str → Str) (gr : Graph) (dh bh : Str) (perm : List Str → List Str)
    (h : ¬ gr.Known bh) : runBranch sha gr dh perm [] bh = .ok none := by
  obtain ⟨R, hR, _⟩ := newReachable_spec gr dh
  unfold runBranch
  rw [hR]
  unfold Graph.Known at h
  have : gr.parents.get bh = none := by
    cases hg : gr.parents.get bh with
    | none => rfl
    | some _ => simp [hg] at h
  simp [processBranch, this, bind, Except.bind]

/-- **C21, success.** On a complete acyclic graph every known branch head yields a record (with the children map built
by the code). -/
theorem C21_succeeds (sha : Str → Str) {parents : GoMap Str (List Str)} (hwf : parents.WF)
    {order : List (Str × List Str)} (horder : order.Perm parents) (dh name bh : Str) {perm : List Str → List Str}
    (hac : (Graph.newFromMap parents order).Acyclic) (hcomp : (Graph.newFromMap parents order).Complete)
    (hperm : ∀ s, (perm s).Perm s)
    (hk : (Graph.newFromMap parents order).Known bh) (hkd : (Graph.newFromMap parents order).Known dh) :
    ∃ b, runBranch sha (Graph.newFromMap parents order) dh perm name bh = .ok (some b) := by
  have hreach : ∀ x y, (Graph.newFromMap parents order).Known x → (Graph.newFromMap parents order).Reach x y →
      (Graph.newFromMap parents order).Known y := by
    intro x y hx hxy
    induction hxy with
    | refl => exact hx
    | tail _ hp _ => exact hcomp _ _ hp
  obtain ⟨R, hR, hRnd, hRm⟩ := newReachable_spec (Graph.newFromMap parents order) dh
  obtain ⟨_, c2, _⟩ := C13_children_inverse parents hwf order horder
  unfold runBranch
  rw [hR]
  simp only [bind, Except.bind]
  unfold processBranch
  rw [if_neg (fun h => by
    have h2 := h.2
    unfold Graph.Known at hk
    rw [h2] at hk; cases hk)]
  simp only [bind, Except.bind]
  cases hbc : branchCommits (Graph.newFromMap parents order) dh R bh perm with
  | error f =>
    obtain ⟨_, x, hx, hnx⟩ := branchCommits_error hac hperm hRm hbc
    rcases hx with hx | hx
    · exact absurd (hreach _ _ hk hx) hnx
    · exact absurd (hreach _ _ hkd hx) hnx
  | ok r =>
    obtain ⟨cs, bf⟩ := r
    have hset := branchCommits_spec hac hperm hRm hbc
    have hlast := hset.last
    simp only at hlast ⊢
    by_cases hm : bh ∈ R
    · rw [if_pos hm]
      unfold getMergeCommit
      obtain ⟨ch, hch⟩ := Option.isSome_iff_exists.1 ((c2 bh).2 (Or.inl hk))
      rw [hch]
      cases cs with
      | nil => cases hlast
      | cons c cs => exact ⟨_, rfl⟩
    · rw [if_neg hm]
      by_cases hlen : bf.length ≥ 1
      · rw [if_pos hlen]
        obtain ⟨rfb, t, _, _, _, _, hcount⟩ := behind_spec (Graph.newFromMap parents order) R bh dh
        rw [hcount]
        cases cs with
        | nil => cases hlast
        | cons c cs => exact ⟨_, rfl⟩
      · rw [if_neg hlen]
        cases cs with
        | nil => cases hlast
        | cons c cs => exact ⟨_, rfl⟩

/-! ## C23 -/

/-- **C23.** The text hashed into `BranchID` depends only on the name and the first branch point, and for branch points
of equal length it determines both. -/
theorem C23_branch_id (n₁ n₂ p₁ p₂ : Str) (r₁ r₂ : List Str) (hlen : p₁.length = p₂.length) :
    branchIDInput n₁ (p₁ :: r₁) = branchIDInput n₂ (p₂ :: r₂) ↔ n₁ = n₂ ∧ p₁ = p₂ := by
  simp only [branchIDInput, joinWith, List.append_nil]
  constructor
  · intro h
    have := List.append_inj' h hlen
    exact this
  · rintro ⟨rfl, rfl⟩; rfl

/-- Without branch point the hashed text is the name alone. -/
theorem C23_branch_id_none (n₁ n₂ : Str) : branchIDInput n₁ [] = branchIDInput n₂ [] ↔ n₁ = n₂ := by
  simp [branchIDInput, joinWith]

/-- C23, ambiguity: a branch without branch point whose name ends in the hash of another branch's branch point gets
the same ID as that branch, for every name and hash. -/
theorem C23_ambiguous (sha : Str → Str) (n p : Str) (r : List Str) :
    branchID sha n (p :: r) = branchID sha (n ++ p) [] := by
  simp [branchID, branchIDInput, joinWith]

end Ripsrc
