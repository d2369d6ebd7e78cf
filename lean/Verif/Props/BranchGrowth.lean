import Verif.Spec.BranchGrowth
import Verif.Lib.BranchFrame
import Verif.Props.Ripsrc
/-!
# C91: the record of a branch while the repository grows
-/
namespace Ripsrc
open Conc Relation Spec

/-- `BranchesSlice` on the repository can return the record `d` of the current branch and the records `bs`: with some options, schedule, map iteration orders and sorts, on an object that is new
or has been used on this repository. -/
inductive BranchesGive (sha : Str → Str) (r : GitRepo) (d : Branch) (bs : List Branch) : Prop
  | call {τ : Type} {e : BranchesEnv τ} {u : UserOpts} {o : GitOut} {s : RipsrcObj} {m : Nat} {t : Conc.State BRole BChan BLoc} :
      e.Possible → e.sha = sha → u.allBranches = true → r.Ok u.useOrigin → r.Prints u.useOrigin o → (∀ x ∈ r.refs, ∃ t, e.parseDate x.date = some t) →
      UsedOn (τ := τ) r u s → Steps (branchesCall e o u s).2.act m Pool.init t → Stuck (branchesCall e o u s).2.act t →
      t.procs .caller = some (.returned none (d :: bs)) → BranchesGive sha r d bs

variable {sha : Str → Str} {r r₁ r₂ : GitRepo} {d d₁ d₂ b b₁ b₂ : Branch} {bs bs₁ bs₂ : List Branch}

/-- The graph behind a result. -/
structure Behind (sha : Str → Str) (r : GitRepo) (d : Branch) (bs : List Branch) (m : GoMap Str (List Str)) (o : List (Str × List Str)) : Prop where
  ok : ∃ uo, r.Ok uo
  wf : m.WF
  ord : o.Perm m
  mem : ∀ h ps, m.get h = some ps ↔ (h, ps) ∈ r.commits
  parent : (Graph.newFromMap m o).Parent = r.Parent
  acyclic : (Graph.newFromMap m o).Acyclic
  default : ∃ cs, d = { branchID := branchID sha r.branch [], name := r.branch, headSHA := r.head, isDefault := true, commits := cs, firstCommit := joinWith b!"\n" r.roots } ∧
    getAllCommits (Graph.newFromMap m o) r.head = .ok cs
  run : ∀ b ∈ bs, runBranch sha (Graph.newFromMap m o) r.head id b.name b.headSHA = .ok (some b)
  record : ∀ b ∈ bs, r.BranchRecord sha b
  heads : ∀ b ∈ bs, r.Has b.headSHA

theorem BranchesGive.behind (h : BranchesGive sha r d bs) : ∃ m o, Behind sha r d bs m o := by
  obtain ⟨he, rfl, hu, hr, ho, hd, hs, hst, hstuck, hret⟩ := h
  obtain ⟨mm, ord, l, _, _, hwf, hord, hmem, hac, _, hlp, _, hrun⟩ := branches_core he hu hr ho hd hs
  obtain ⟨_, cs, bs', a1, a2, ⟨prs, _, a4, a5⟩, a6⟩ := (hrun _ _ hst).2.2 hstuck
  obtain ⟨_, d', bs'', c1, _, c3, _⟩ := ((C58_branches_of_repo he hu hr ho hd hs).2 _ _ hst).2.2 hstuck
  rw [hret] at a1 c1
  simp only [Option.some.injEq, BLoc.returned.injEq, List.cons.injEq, true_and] at a1 c1
  obtain ⟨rfl, rfl⟩ := a1
  obtain ⟨rfl, rfl⟩ := c1
  refine ⟨mm, ord, ⟨_, hr⟩, hwf, hord, hmem, holds_parent hmem, hac, ⟨cs, rfl, a2⟩, fun b hb => a6 b hb id (fun s => .refl s), c3, fun b hb => ?_⟩
  have hk : b.key ∈ l ++ prs.map (fun c => (([] : Str), c)) := a5.mem_iff.1 (List.mem_map_of_mem hb)
  rcases List.mem_append.1 hk with hk | hk
  · have hk := hlp.mem_iff.1 hk
    unfold GitRepo.wanted at hk
    obtain ⟨y, hy, hye⟩ := List.mem_map.1 hk
    have : y.commit = b.headSHA := congrArg Prod.snd hye
    exact this ▸ (hr.refs y (List.mem_filter.1 hy).1).2.1
  · obtain ⟨c, hc, hce⟩ := List.mem_map.1 hk
    have : c = b.headSHA := congrArg Prod.snd hce
    exact this ▸ ((a4 c).1 hc).2

namespace Behind
variable {m m₁ m₂ : GoMap Str (List Str)} {o o₁ o₂ : List (Str × List Str)}

theorem reach (h : Behind sha r d bs m o) : (Graph.newFromMap m o).Reach = r.Reach := by unfold Graph.Reach GitRepo.Reach; rw [h.parent]
theorem anc (h : Behind sha r d bs m o) : (Graph.newFromMap m o).Anc = r.Anc := by unfold Graph.Anc GitRepo.Anc; rw [h.parent]
theorem without (h : Behind sha r d bs m o) (b x : Str) : (Graph.newFromMap m o).ReachWithout b r.head x ↔ r.OnDefaultWithout b x := by
  unfold Graph.ReachWithout GitRepo.OnDefaultWithout; rw [h.parent]
theorem has (h : Behind sha r d bs m o) {c x : Str} (hc : r.Has c) (hx : r.Reach c x) : r.Has x := by
  obtain ⟨_, hr⟩ := h.ok
  induction hx with
  | refl => exact hc
  | tail _ h2 _ => exact hr.complete _ _ h2
theorem headHas (h : Behind sha r d bs m o) : r.Has r.head := h.ok.elim fun _ hr => hr.head.1

theorem sameBelow (h₁ : Behind sha r₁ d₁ bs₁ m₁ o₁) (h₂ : Behind sha r₂ d₂ bs₂ m₂ o₂) (hh : r₁.SameHashes r₂) {c : Str} (hc₁ : r₁.Has c) (hc₂ : r₂.Has c) :
    SameBelow (Graph.newFromMap m₁ o₁) (Graph.newFromMap m₂ o₂) c := by
  intro x hx
  rw [h₁.reach] at hx
  obtain ⟨_, hr₂⟩ := h₂.ok
  have key : r₁.Has x ∧ r₂.Has x := by
    induction hx with
    | refl => exact ⟨hc₁, hc₂⟩
    | @tail y z hy hz ih =>
      refine ⟨h₁.has ih.1 (.single hz), ?_⟩
      obtain ⟨ps, hps, hzp⟩ := hz
      obtain ⟨_, qs, hqs⟩ := ih
      have := hh _ _ _ hps hqs
      subst this
      exact hr₂.complete y z ⟨ps, hqs, hzp⟩
  obtain ⟨⟨ps, hps⟩, ⟨qs, hqs⟩⟩ := key
  have e := hh _ _ _ hps hqs
  subst e
  exact ((h₁.mem _ _).2 hps).trans ((h₂.mem _ _).2 hqs).symm

end Behind

/-- **C91, the same current commit.** Two results of `Branches`, on the repository at two moments (or on two clones), in which the current branch is at the same commit and a branch, or a pull request, at the
same commit too: its record is the same in all fields, whatever happened to the other branches and pull requests and whatever commits came or went. -/
theorem C91_same_default (h₁ : BranchesGive sha r₁ d₁ bs₁) (h₂ : BranchesGive sha r₂ d₂ bs₂) (hh : r₁.SameHashes r₂) (hd : r₁.head = r₂.head)
    (hb₁ : b₁ ∈ bs₁) (hb₂ : b₂ ∈ bs₂) (hn : b₁.name = b₂.name) (hs : b₁.headSHA = b₂.headSHA) : b₁ = b₂ := by
  obtain ⟨m₁, o₁, g₁⟩ := h₁.behind
  obtain ⟨m₂, o₂, g₂⟩ := h₂.behind
  have k₁ := g₁.run b₁ hb₁
  have k₂ := g₂.run b₂ hb₂
  rw [hn, hs, hd] at k₁
  refine runBranch_same g₁.wf g₂.wf g₁.ord g₂.ord g₁.acyclic g₂.acyclic (fun s => .refl s) (fun s => .refl s) k₁ k₂ ?_ ?_
  · exact g₁.sameBelow g₂ hh (hs ▸ g₁.heads b₁ hb₁) (g₂.heads b₂ hb₂)
  · exact g₁.sameBelow g₂ hh (hd ▸ g₁.headHas) g₂.headHas

/-- **C91, the record of the current branch.** It depends on the name, the commit and the order in which git lists the root commits. -/
theorem C91_default_record (h₁ : BranchesGive sha r₁ d₁ bs₁) (h₂ : BranchesGive sha r₂ d₂ bs₂) (hh : r₁.SameHashes r₂) (hd : r₁.head = r₂.head)
    (hn : r₁.branch = r₂.branch) (hr : r₁.roots = r₂.roots) : d₁ = d₂ := by
  obtain ⟨m₁, o₁, g₁⟩ := h₁.behind
  obtain ⟨m₂, o₂, g₂⟩ := h₂.behind
  obtain ⟨cs₁, rfl, e₁⟩ := g₁.default
  obtain ⟨cs₂, rfl, e₂⟩ := g₂.default
  have hs := g₁.sameBelow g₂ hh g₁.headHas (hd ▸ g₂.headHas)
  have hcs : cs₁ = cs₂ := by
    rw [← hd] at e₂
    unfold getAllCommits at e₁ e₂
    rw [show (⟨[], []⟩ : ReachSt) = dup2 [] from rfl, allRec_eq] at e₁ e₂
    cases w₁ : dfs (expMust (Graph.newFromMap m₁ o₁)) (Graph.newFromMap m₁ o₁).fuel r₁.head [] with
    | error f => rw [w₁] at e₁; cases e₁
    | ok t₁ =>
      cases w₂ : dfs (expMust (Graph.newFromMap m₂ o₂)) (Graph.newFromMap m₂ o₂).fuel r₁.head [] with
      | error f => rw [w₂] at e₂; cases e₂
      | ok t₂ =>
        rw [w₁] at e₁; rw [w₂] at e₂
        cases e₁; cases e₂
        have h1 : dfs (expMust (Graph.newFromMap m₂ o₂)) (Graph.newFromMap m₁ o₁).fuel r₁.head [] = .ok t₁ := by
          refine dfs_congr _ _ _ _ ?_ w₁
          intro x hx
          rw [step_must] at hx
          unfold expMust Graph.parentsMust
          rw [hs x hx]
        have h2 := dfs_mono _ (max (Graph.newFromMap m₁ o₁).fuel (Graph.newFromMap m₂ o₂).fuel) _ _ _ (Nat.le_max_left _ _) h1
        have h3 := dfs_mono _ (max (Graph.newFromMap m₁ o₁).fuel (Graph.newFromMap m₂ o₂).fuel) _ _ _ (Nat.le_max_right _ _) w₂
        have := Except.ok.inj (h2.symm.trans h3)
        subst this
        rfl
  subst hcs
  rw [hn, hd, hr]

/-- **C91, merged stays merged.** The current branch has moved to a commit that contains where it was: a merged branch that has not moved is still merged. -/
theorem C91_stays_merged (h₁ : BranchesGive sha r₁ d₁ bs₁) (h₂ : BranchesGive sha r₂ d₂ bs₂) (hh : r₁.SameHashes r₂) (hd : r₂.Reach r₂.head r₁.head)
    (hb₁ : b₁ ∈ bs₁) (hb₂ : b₂ ∈ bs₂) (hs : b₁.headSHA = b₂.headSHA) (hm : b₁.isMerged = true) : b₂.isMerged = true := by
  obtain ⟨m₁, o₁, g₁⟩ := h₁.behind
  obtain ⟨m₂, o₂, g₂⟩ := h₂.behind
  have hsame := g₁.sameBelow g₂ hh g₁.headHas (g₂.has g₂.headHas hd)
  have := (g₁.record b₁ hb₁).merged.1 hm
  rw [← g₁.reach, hsame.reach, g₂.reach] at this
  exact (g₂.record b₂ hb₂).merged.2 (hs ▸ hd.trans this)

/-- **C91, an unmerged branch while the current branch moves on.** Its list of commits only loses those that the current branch has got; the others keep their order. -/
theorem C91_commits_shrink (h₁ : BranchesGive sha r₁ d₁ bs₁) (h₂ : BranchesGive sha r₂ d₂ bs₂) (hh : r₁.SameHashes r₂) (hd : r₂.Reach r₂.head r₁.head)
    (hb₁ : b₁ ∈ bs₁) (hb₂ : b₂ ∈ bs₂) (hn : b₁.name = b₂.name) (hs : b₁.headSHA = b₂.headSHA) (hm : b₂.isMerged = false) :
    (∃ keep : Str → Bool, (∀ x ∈ b₁.commits, keep x = true ↔ ¬ r₂.Reach r₂.head x) ∧ b₂.commits = b₁.commits.filter keep) ∧
    b₂.aheadDefaultCount ≤ b₁.aheadDefaultCount := by
  classical
  obtain ⟨m₁, o₁, g₁⟩ := h₁.behind
  obtain ⟨m₂, o₂, g₂⟩ := h₂.behind
  have hm₁ : b₁.isMerged = false := by
    cases h : b₁.isMerged with
    | false => rfl
    | true => rw [C91_stays_merged h₁ h₂ hh hd hb₁ hb₂ hs h] at hm; cases hm
  have k₁ := g₁.run b₁ hb₁
  have k₂ := g₂.run b₂ hb₂
  rw [hn, hs] at k₁
  have hsame := g₁.sameBelow g₂ hh (hs ▸ g₁.heads b₁ hb₁) (g₂.heads b₂ hb₂)
  have hsd := g₁.sameBelow g₂ hh g₁.headHas (g₂.has g₂.headHas hd)
  have hu₁ : ¬ (Graph.newFromMap m₁ o₁).Reach r₁.head b₂.headSHA := by
    rw [g₁.reach, ← hs]; intro h; rw [(g₁.record b₁ hb₁).merged.2 h] at hm₁; cases hm₁
  have hu₂ : ¬ (Graph.newFromMap m₂ o₂).Reach r₂.head b₂.headSHA := by
    rw [g₂.reach]; intro h; rw [(g₂.record b₂ hb₂).merged.2 h] at hm; cases hm
  have key := runBranch_shrink k₁ k₂ hsame (fun x _ hx => by
    rw [hsd.reach, g₂.reach] at hx
    rw [g₂.reach]; exact hd.trans hx) hu₁ hu₂ (fun x => decide (¬ r₂.Reach r₂.head x)) (fun x _ => by rw [g₂.reach]; simp)
  refine ⟨⟨_, fun x _ => by simp, key⟩, ?_⟩
  rw [(g₁.record b₁ hb₁).ahead, (g₂.record b₂ hb₂).ahead, key]
  exact List.length_filter_le _ _

/-- **C91, work on the current branch beside the branch.** The branch was not merged. The current branch has moved on from where it was without going through the head of the branch, and it has nothing that
was built on a commit of the branch, except commits built on the head of the branch (which merge it). Then the record keeps the list of commits with its order, the first commit, the count, the branch points and
the identity; only whether and by what it was merged, and how far it is behind, can change. -/
theorem C91_work_kept (h₁ : BranchesGive sha r₁ d₁ bs₁) (h₂ : BranchesGive sha r₂ d₂ bs₂) (hh : r₁.SameHashes r₂)
    (hb₁ : b₁ ∈ bs₁) (hb₂ : b₂ ∈ bs₂) (hn : b₁.name = b₂.name) (hs : b₁.headSHA = b₂.headSHA) (hm : b₁.isMerged = false)
    (hd : r₂.OnDefaultWithout b₁.headSHA r₁.head) (hhead : r₂.head ∉ b₁.commits)
    (hout : ∀ c p, r₂.Reach r₂.head c → r₂.Parent c p → p ∈ b₁.commits → p ≠ b₁.headSHA → c ∈ b₁.commits) : SameWork b₁ b₂ := by
  obtain ⟨m₁, o₁, g₁⟩ := h₁.behind
  obtain ⟨m₂, o₂, g₂⟩ := h₂.behind
  have hd' : r₂.Reach r₂.head r₁.head := rtg_mono (fun _ _ h => h.2) hd
  have k₁ := g₁.run b₁ hb₁
  have k₂ := g₂.run b₂ hb₂
  have hsame := g₁.sameBelow g₂ hh (g₁.heads b₁ hb₁) (hs ▸ g₂.heads b₂ hb₂)
  have hsd := g₁.sameBelow g₂ hh g₁.headHas (g₂.has g₂.headHas hd')
  have hu₁ : ¬ r₁.Reach r₁.head b₁.headSHA := by
    intro h; rw [(g₁.record b₁ hb₁).merged.2 h] at hm; cases hm
  have hcs := (g₁.record b₁ hb₁).commits.2.2
  have hrw : ∀ x, r₁.OnDefaultWithout b₁.headSHA x ↔ r₁.Reach r₁.head x := by
    intro x
    rw [← g₁.without, ← g₁.reach]
    exact reachWithout_of_not_reach (by rw [g₁.reach]; exact hu₁) x
  rw [← hn, ← hs] at k₂
  refine runBranch_frame g₁.acyclic g₂.acyclic (fun s => .refl s) (fun s => .refl s) k₁ k₂ hsame ?_
  intro x hx
  rw [g₁.without, hrw, g₂.without]
  constructor
  · intro h
    -- along the old history
    induction h with
    | refl => exact hd
    | @tail y z hy hz ih =>
      have hz' : r₂.Parent y z := by
        have := (hsd.parent (by rw [g₁.reach]; exact hy)).1 (by rw [g₁.parent]; exact hz)
        rw [g₂.parent] at this; exact this
      by_cases hya : (Graph.newFromMap m₁ o₁).Anc b₁.headSHA y
      · exact ReflTransGen.tail (ih hya) ⟨fun hc => hu₁ (hc ▸ hy), hz'⟩
      · -- the part of the path before the history of the branch
        have aux : ∀ y, r₁.Reach r₁.head y → r₂.OnDefaultWithout b₁.headSHA y := by
          intro y hy
          induction hy with
          | refl => exact hd
          | @tail u v hu hv ih =>
            have hv' : r₂.Parent u v := by
              have := (hsd.parent (by rw [g₁.reach]; exact hu)).1 (by rw [g₁.parent]; exact hv)
              rw [g₂.parent] at this; exact this
            exact ReflTransGen.tail ih ⟨fun hc => hu₁ (hc ▸ hu), hv'⟩
        exact ReflTransGen.tail (aux y hy) ⟨fun hc => hu₁ (hc ▸ hy), hz'⟩
  · intro h
    refine Classical.byContradiction (fun hno => ?_)
    have hx1 : x ∈ b₁.commits := (hcs x).2 (.inr ⟨by rw [← g₁.anc]; exact hx, fun hc => hno ((hrw x).1 hc)⟩)
    have hxne : x ≠ b₁.headSHA := fun hc => g₁.acyclic _ (hc ▸ hx)
    have aux : ∀ y, r₂.OnDefaultWithout b₁.headSHA y → y ∈ b₁.commits → y ≠ b₁.headSHA → False := by
      intro y hy
      induction hy with
      | refl => exact fun h _ => hhead h
      | @tail u v hu hv ih =>
        intro h1 h2
        exact ih (hout u v (rtg_mono (fun _ _ h => h.2) hu) hv.2 h1 h2) hv.1
    exact aux x h hx1 hxne

/-- **C91, how far behind.** Commits are pushed on top of the current branch (each built on others of them or on its old commit), none of which is part of the branch: the branch, not merged and with a branch
point, is behind by exactly that many more commits. -/
theorem C91_behind_grows (h₁ : BranchesGive sha r₁ d₁ bs₁) (h₂ : BranchesGive sha r₂ d₂ bs₂) (hh : r₁.SameHashes r₂) (hd : r₂.Reach r₂.head r₁.head)
    (hb₁ : b₁ ∈ bs₁) (hb₂ : b₂ ∈ bs₂) (hn : b₁.name = b₂.name) (hs : b₁.headSHA = b₂.headSHA) (hm : b₁.isMerged = false) (hbp : b₁.branchedFromCommits ≠ [])
    {l : List Str} (hl : l.Nodup) (hlm : ∀ x, x ∈ l ↔ r₂.Reach r₂.head x ∧ ¬ r₁.Reach r₁.head x)
    (htop : ∀ c p, c ∈ l → r₂.Parent c p → p ∈ l ∨ p = r₁.head) (hnot : ∀ c ∈ l, ¬ r₂.Reach b₁.headSHA c) :
    SameWork b₁ b₂ ∧ b₂.isMerged = false ∧ b₂.behindDefaultCount = b₁.behindDefaultCount + l.length := by
  obtain ⟨m₁, o₁, g₁⟩ := h₁.behind
  obtain ⟨m₂, o₂, g₂⟩ := h₂.behind
  obtain ⟨_, hr₁⟩ := g₁.ok
  have k₁ := g₁.run b₁ hb₁
  have k₂ := g₂.run b₂ hb₂
  have hsame := g₁.sameBelow g₂ hh (g₁.heads b₁ hb₁) (hs ▸ g₂.heads b₂ hb₂)
  have hsd := g₁.sameBelow g₂ hh g₁.headHas (g₂.has g₂.headHas hd)
  have hu₁ : ¬ r₁.Reach r₁.head b₁.headSHA := by
    intro h; rw [(g₁.record b₁ hb₁).merged.2 h] at hm; cases hm
  -- the two repositories agree on the old part and on the branch
  have hp : ∀ c x, r₁.Reach r₁.head c → (r₁.Parent c x ↔ r₂.Parent c x) := by
    intro c x hc
    have := hsd.parent (x := c) (y := x) (by rw [g₁.reach]; exact hc)
    rw [g₁.parent, g₂.parent] at this; exact this
  have hpb : ∀ c x, r₁.Reach b₁.headSHA c → (r₁.Parent c x ↔ r₂.Parent c x) := by
    intro c x hc
    have := hsame.parent (x := c) (y := x) (by rw [g₁.reach]; exact hc)
    rw [g₁.parent, g₂.parent] at this; exact this
  have hrb : ∀ x, r₁.Reach b₁.headSHA x ↔ r₂.Reach b₁.headSHA x := by
    intro x; have := hsame.reach x; rw [g₁.reach, g₂.reach] at this; exact this
  have hold : ∀ x, r₁.Reach r₁.head x → r₂.Reach r₂.head x := by
    intro x hx
    have := (hsd.reach x).1 (by rw [g₁.reach]; exact hx)
    rw [g₂.reach] at this
    exact hd.trans this
  have hin : ∀ x, r₂.Reach b₁.headSHA x → (r₂.Reach r₂.head x ↔ r₁.Reach r₁.head x) := by
    intro x hx
    exact ⟨fun h => Classical.byContradiction (fun hc => hnot x ((hlm x).2 ⟨h, hc⟩) hx), hold x⟩
  have hu₂ : ¬ r₂.Reach r₂.head b₁.headSHA := fun h => hu₁ ((hin _ .refl).1 h)
  have hm₂ : b₂.isMerged = false := by
    cases h : b₂.isMerged with
    | false => rfl
    | true => exact absurd ((g₂.record b₂ hb₂).merged.1 h) (hs ▸ hu₂)
  have hw : SameWork b₁ b₂ := by
    rw [← hn, ← hs] at k₂
    refine runBranch_frame g₁.acyclic g₂.acyclic (fun s => .refl s) (fun s => .refl s) k₁ k₂ hsame ?_
    intro x hx
    have hx2 : r₂.Reach b₁.headSHA x := by
      have := (hsame.reach x).1 hx.to_reflTransGen
      rw [g₂.reach] at this; exact this
    rw [reachWithout_of_not_reach (by rw [g₁.reach]; exact hu₁), reachWithout_of_not_reach (by rw [g₂.reach]; exact hu₂), g₁.reach, g₂.reach]
    exact (hin x hx2).symm
  refine ⟨hw, hm₂, ?_⟩
  obtain ⟨_, l₁, n₁, q₁, e₁⟩ := (g₁.record b₁ hb₁).behind.2.2 hm hbp
  obtain ⟨_, l₂, n₂, q₂, e₂⟩ := (g₂.record b₂ hb₂).behind.2.2 hm₂ (hw.branchedFrom ▸ hbp)
  rw [← hs] at q₂
  have hF : ∀ x, r₁.Fork b₁.headSHA x ↔ r₂.Fork b₁.headSHA x := by
    intro x
    constructor
    · rintro ⟨f1, c, f2, f3, f4⟩
      have f2' := (hrb c).1 f2
      exact ⟨hold x f1, c, f2', fun h => f3 ((hin c f2').1 h), (hpb c x f2).1 f4⟩
    · rintro ⟨f1, c, f2, f3, f4⟩
      have hc := (hrb c).2 f2
      exact ⟨(hin x (f2.tail f4)).1 f1, c, hc, fun h => f3 (hold c h), (hpb c x hc).2 f4⟩
  have hFo : ∀ x, r₂.Fork b₁.headSHA x → r₁.Reach r₁.head x := fun x hx => ((hF x).2 hx).1
  -- new commits are short of the forks
  have hnewS : ∀ x, r₂.Reach r₂.head x → x ∈ l → ReflTransGen (fun c p => ¬ r₂.Fork b₁.headSHA c ∧ r₂.Parent c p) r₂.head x := by
    intro x hx
    induction hx with
    | refl => exact fun _ => .refl
    | @tail y z hy hz ih =>
      intro hzl
      have hyl : ¬ r₁.Reach r₁.head y := fun h => ((hlm z).1 hzl).2 (h.tail ((hp y z h).2 hz))
      exact ReflTransGen.tail (ih ((hlm y).2 ⟨hy, hyl⟩)) ⟨fun h => hyl (hFo y h), hz⟩
  -- so is the way to the old commit
  have hway : ReflTransGen (fun c p => ¬ r₂.Fork b₁.headSHA c ∧ r₂.Parent c p) r₂.head r₁.head := by
    rcases ReflTransGen.cases_tail hd with h | ⟨y, hy, hyz⟩
    · rw [h]
    · have hyl : ¬ r₁.Reach r₁.head y := fun h => hr₁.acyclic r₁.head (TransGen.tail' h ((hp y _ h).2 hyz))
      exact ReflTransGen.tail (hnewS y hy ((hlm y).2 ⟨hy, hyl⟩)) ⟨fun h => hyl (hFo y h), hyz⟩
  have hS : ∀ x, r₂.ShortOfFork b₁.headSHA x ↔ x ∈ l ∨ r₁.ShortOfFork b₁.headSHA x := by
    intro x
    constructor
    · rintro ⟨w, f⟩
      have aux : x ∈ l ∨ (r₁.Reach r₁.head x ∧ ReflTransGen (fun c p => ¬ r₁.Fork b₁.headSHA c ∧ r₁.Parent c p) r₁.head x) := by
        clear f
        induction w with
        | refl =>
          by_cases h : r₁.Reach r₁.head r₂.head
          · rcases ReflTransGen.cases_head h with h' | ⟨y, hy, hyc⟩
            · rw [← h']; exact .inr ⟨.refl, .refl⟩
            · exfalso
              -- the old commit would be its own ancestor
              have h2 : r₂.Reach r₁.head r₂.head := by
                have := (hsd.reach r₂.head).1 (by rw [g₁.reach]; exact h)
                rw [g₂.reach] at this; exact this
              have h3 : r₁.Reach r₂.head r₁.head := by
                have := ((hsd.below (x := r₂.head) (by rw [g₁.reach]; exact h)).reach r₁.head).2 (by rw [g₂.reach]; exact hd)
                rw [g₁.reach] at this; exact this
              exact hr₁.acyclic _ (TransGen.head' hy (hyc.trans h3))
          · exact .inl ((hlm _).2 ⟨.refl, h⟩)
        | @tail y z hy hz ih =>
          rcases ih with ih | ⟨ih1, ih2⟩
          · rcases htop y z ih hz.2 with h | h
            · exact .inl h
            · subst h; exact .inr ⟨.refl, .refl⟩
          · have := (hp y z ih1).2 hz.2
            exact .inr ⟨ih1.tail this, ih2.tail ⟨fun h => hz.1 ((hF y).1 h), this⟩⟩
      rcases aux with h | ⟨_, h⟩
      · exact .inl h
      · exact .inr ⟨h, fun hc => f ((hF x).1 hc)⟩
    · rintro (h | ⟨w, f⟩)
      · exact ⟨hnewS x ((hlm x).1 h).1 h, fun hc => ((hlm x).1 h).2 (hFo x hc)⟩
      · refine ⟨?_, fun hc => f ((hF x).2 hc)⟩
        have aux : r₁.Reach r₁.head x ∧ ReflTransGen (fun c p => ¬ r₂.Fork b₁.headSHA c ∧ r₂.Parent c p) r₂.head x := by
          clear f
          induction w with
          | refl => exact ⟨.refl, hway⟩
          | @tail y z hy hz ih => exact ⟨ih.1.tail hz.2, ih.2.tail ⟨fun h => hz.1 ((hF y).2 h), (hp y z ih.1).1 hz.2⟩⟩
        exact aux.2
  have hperm : l₂.Perm (l₁ ++ l) := by
    rw [List.perm_ext_iff_of_nodup n₂]
    · intro x
      rw [q₂, hS, List.mem_append, q₁, or_comm]
    · rw [List.nodup_append]
      refine ⟨n₁, hl, fun x hx y hy hxy => ?_⟩
      subst hxy
      exact ((hlm x).1 hy).2 (rtg_mono (fun _ _ h => h.2) ((q₁ x).1 hx).1)
  rw [← e₁, ← e₂, hperm.length_eq, List.length_append]

/-- **C91, merging.** An unmerged branch is merged by one new commit on the current branch, with the old commit and the head of the branch as its parents: the record says so, the branch is no longer behind,
and nothing else changes. -/
theorem C91_merge (h₁ : BranchesGive sha r₁ d₁ bs₁) (h₂ : BranchesGive sha r₂ d₂ bs₂) (hh : r₁.SameHashes r₂)
    (hb₁ : b₁ ∈ bs₁) (hb₂ : b₂ ∈ bs₂) (hn : b₁.name = b₂.name) (hs : b₁.headSHA = b₂.headSHA) (hm : b₁.isMerged = false)
    (hmerge : (r₂.head, [r₁.head, b₁.headSHA]) ∈ r₂.commits) :
    b₂ = { b₁ with isMerged := true, mergeCommit := r₂.head, behindDefaultCount := 0 } := by
  obtain ⟨m₁, o₁, g₁⟩ := h₁.behind
  obtain ⟨m₂, o₂, g₂⟩ := h₂.behind
  obtain ⟨_, hr₁⟩ := g₁.ok
  obtain ⟨_, hr₂⟩ := g₂.ok
  have hpar : ∀ p, r₂.Parent r₂.head p ↔ p = r₁.head ∨ p = b₁.headSHA := by
    intro p
    constructor
    · rintro ⟨ps, h1, h2⟩
      have := congrArg Prod.snd (hr₂.same _ h1 _ hmerge rfl)
      simp only at this
      subst this
      simpa using h2
    · intro h
      exact ⟨_, hmerge, by simpa using h⟩
  have hu₁ : ¬ r₁.Reach r₁.head b₁.headSHA := by
    intro h; rw [(g₁.record b₁ hb₁).merged.2 h] at hm; cases hm
  have hcs := (g₁.record b₁ hb₁).commits.2.2
  have hbne : r₂.head ≠ b₁.headSHA := by
    intro hc
    exact hr₂.acyclic r₂.head (.single ((hpar _).2 (.inr hc)))
  have hsame := g₁.sameBelow g₂ hh (g₁.heads b₁ hb₁) (hs ▸ g₂.heads b₂ hb₂)
  have hsd := g₁.sameBelow g₂ hh g₁.headHas (g₂.has g₂.headHas (.single ((hpar _).2 (.inl rfl))))
  -- the new commit is not an ancestor of the old ones
  have hnew : ∀ c, r₂.Parent r₂.head c → ¬ r₂.Reach c r₂.head := fun c hc h => hr₂.acyclic _ (TransGen.head' hc h)
  have hreach : ∀ c, b₁.headSHA = c ∨ r₁.Anc b₁.headSHA c → r₂.Reach b₁.headSHA c := by
    rintro c (rfl | hc)
    · exact .refl
    · rw [← g₂.reach, ← hsame.reach, g₁.reach]; exact hc.to_reflTransGen
  have hcr : ∀ c ∈ b₁.commits, r₂.Reach b₁.headSHA c := by
    intro c hc
    rcases (hcs c).1 hc with h | h
    · exact hreach c (.inl h.symm)
    · exact hreach c (.inr h.1)
  have hhead : r₂.head ∉ b₁.commits := fun h => hnew _ ((hpar _).2 (.inr rfl)) (hcr _ h)
  have hw := C91_work_kept h₁ h₂ hh hb₁ hb₂ hn hs hm (.single ⟨hbne, (hpar _).2 (.inl rfl)⟩) hhead (by
    intro c p hc hp hpc hpne
    have hpb := (hcs p).1 hpc
    have hpanc : r₁.Anc b₁.headSHA p ∧ ¬ r₁.OnDefaultWithout b₁.headSHA p := hpb.resolve_left hpne
    have hno : ¬ r₁.Reach r₁.head p := by
      intro h
      refine hpanc.2 ?_
      rw [← g₁.without, reachWithout_of_not_reach (by rw [g₁.reach]; exact hu₁), g₁.reach]
      exact h
    have old : ∀ y, r₂.Reach r₁.head y → r₁.Reach r₁.head y := by
      intro y hy; rw [← g₁.reach, hsd.reach, g₂.reach]; exact hy
    have oldb : ∀ y, r₂.Reach b₁.headSHA y → r₁.Reach b₁.headSHA y := by
      intro y hy; rw [← g₁.reach, hsame.reach, g₂.reach]; exact hy
    rcases ReflTransGen.cases_head hc with rfl | ⟨q, hq, hqc⟩
    · rcases (hpar p).1 hp with rfl | rfl
      · exact absurd .refl hno
      · exact absurd rfl hpne
    · rcases (hpar q).1 hq with rfl | rfl
      · exact absurd (old p (hqc.tail hp)) hno
      · have hc1 := oldb c hqc
        refine (hcs c).2 ?_
        rcases ReflTransGen.cases_head hc1 with h | ⟨y, hy, hyc⟩
        · exact .inl h.symm
        · refine .inr ⟨TransGen.head' hy hyc, fun hon => ?_⟩
          rw [← g₁.without, reachWithout_of_not_reach (by rw [g₁.reach]; exact hu₁), g₁.reach] at hon
          have hp1 : r₁.Parent c p := by
            have := (hsame.parent (x := c) (y := p) (by rw [g₁.reach]; exact hc1)).2 (by rw [g₂.parent]; exact hp)
            rw [g₁.parent] at this; exact this
          exact hno (hon.tail hp1))
  have hrec := g₂.record b₂ hb₂
  have hreachb : r₂.Reach r₂.head b₂.headSHA := .single ((hpar _).2 (.inr hs.symm))
  have hmerged := hrec.merged.2 hreachb
  have hmc : b₂.mergeCommit = r₂.head := by
    obtain ⟨q1, q2, _⟩ := hrec.mergeCommit.1 hmerged (fun hc => hbne (hc.symm.trans hs.symm))
    rcases ReflTransGen.cases_head q2 with h | ⟨q, hq, hqc⟩
    · exact h.symm
    · exfalso
      rcases (hpar q).1 hq with rfl | rfl
      · apply hu₁
        rw [← g₁.reach, hsd.reach, g₂.reach, hs]
        exact hqc.tail q1
      · rw [hs] at hqc
        exact hr₂.acyclic _ (TransGen.tail' hqc q1)
  have hbeh := hrec.behind.1 hmerged
  cases b₁; cases b₂
  obtain ⟨w1, w2, ⟨w3, w3'⟩, w4, w5, w6, w7, w8⟩ := hw
  simp only at *
  subst w1 w2 w3 w3' w4 w5 w6 w7 w8 hmerged hmc hbeh
  rfl

/-- **C91 (finding), merging by fast-forward.** If nothing on the current branch was built on the history of the branch except commits of that history and commits built on its head — the current branch was moved
to the head of the branch, or further along the same line — then the record of the branch lists its whole history as its work: every ancestor of the head, back to the roots, and no branch point; the identity is
the one of a branch without branch points. -/
theorem C91_fast_forward (h : BranchesGive sha r d bs) (hb : b ∈ bs) (hm : b.isMerged = true)
    (hff : ∀ c p, r.Reach r.head c → r.Parent c p → r.Anc b.headSHA p → r.Reach b.headSHA c) :
    (∀ x, x ∈ b.commits ↔ r.Reach b.headSHA x) ∧ b.branchedFromCommits = [] ∧ b.aheadDefaultCount = b.commits.length ∧
    b.branchID = (if b.name = [] then [] else sha b.name) := by
  obtain ⟨m, o, g⟩ := h.behind
  obtain ⟨_, hr⟩ := g.ok
  have hrec := g.record b hb
  have hreach := hrec.merged.1 hm
  -- nothing of the history can be reached around the head
  have hno : ∀ x, r.OnDefaultWithout b.headSHA x → ¬ r.Anc b.headSHA x := by
    intro x hx
    induction hx with
    | refl =>
      intro hc
      exact hr.acyclic _ (TransGen.trans_right hreach hc)
    | @tail u v hu hv ih =>
      intro hc
      have := hff u v (rtg_mono (fun _ _ h => h.2) hu) hv.2 hc
      rcases ReflTransGen.cases_head this with h | ⟨y, hy, hyc⟩
      · exact hv.1 h.symm
      · exact ih (TransGen.head' hy hyc)
  have hcs : ∀ x, x ∈ b.commits ↔ r.Reach b.headSHA x := by
    intro x
    rw [hrec.commits.2.2]
    constructor
    · rintro (rfl | ⟨h, _⟩)
      · exact .refl
      · exact h.to_reflTransGen
    · intro h
      rcases ReflTransGen.cases_head h with h | ⟨y, hy, hyc⟩
      · exact .inl h.symm
      · exact .inr ⟨TransGen.head' hy hyc, fun hc => hno x hc (TransGen.head' hy hyc)⟩
  have hbf : b.branchedFromCommits = [] := by
    cases hl : b.branchedFromCommits with
    | nil => rfl
    | cons x l =>
      obtain ⟨⟨h1, c, h2, h3⟩, _⟩ := (hrec.branchedFrom.2.2 x).1 (by rw [hl]; simp)
      exact absurd (TransGen.tail' ((hcs c).1 h2) h3) (hno x h1)
  refine ⟨hcs, hbf, hrec.ahead, ?_⟩
  rw [hrec.id, hbf]
  simp

/-- **C91 (finding), the merge commit can change.** `MergeCommit` is the smallest hash among the commits of the current branch that have the head of the branch as a parent, not the first of them in time and not
necessarily a merge. -/
theorem C91_merge_commit_smallest (h : BranchesGive sha r d bs) (hb : b ∈ bs) (hm : b.isMerged = true) (hne : b.headSHA ≠ r.head) :
    r.Parent b.mergeCommit b.headSHA ∧ r.Reach r.head b.mergeCommit ∧
    ∀ c, r.Parent c b.headSHA → r.Reach r.head c → strLe b.mergeCommit c = true := by
  obtain ⟨m, o, g⟩ := h.behind
  have := C19_merge_commit g.wf g.ord g.acyclic (fun s => .refl s) (g.run b hb) (by rw [g.reach]; exact (g.record b hb).merged.1 hm) hne
  simp only [g.parent, g.reach] at this
  exact this

/-- So it changes when, later, a commit with a smaller hash that was started at the head of the branch gets onto the current branch. -/
theorem C91_merge_commit_changes (h₁ : BranchesGive sha r₁ d₁ bs₁) (h₂ : BranchesGive sha r₂ d₂ bs₂) (hh : r₁.SameHashes r₂) (hd : r₂.Reach r₂.head r₁.head)
    (hb₁ : b₁ ∈ bs₁) (hb₂ : b₂ ∈ bs₂) (hs : b₁.headSHA = b₂.headSHA) (hm : b₁.isMerged = true) {c : Str}
    (hc : r₂.Parent c b₂.headSHA) (hcr : r₂.Reach r₂.head c) (hlt : strLe b₁.mergeCommit c = false) : b₂.mergeCommit ≠ b₁.mergeCommit := by
  have hm₂ := C91_stays_merged h₁ h₂ hh hd hb₁ hb₂ hs hm
  have hne : b₂.headSHA ≠ r₂.head := by
    intro he
    obtain ⟨_, _, g₂⟩ := h₂.behind
    obtain ⟨_, hr₂⟩ := g₂.ok
    rw [he] at hc
    exact hr₂.acyclic _ (TransGen.tail' hcr hc)
  have := (C91_merge_commit_smallest h₂ hb₂ hm₂ hne).2.2 c hc hcr
  intro he
  rw [he] at this
  rw [this] at hlt; cases hlt

/-! ## Repositories that meet the hypotheses -/

/-- The options of the examples give a result, with one record per wanted ref. -/
theorem BranchesGive.of_ok (hr : r.Ok false) {o : GitOut} (ho : r.Prints false o) : ∃ d bs, BranchesGive exEnv1.sha r d bs ∧ (bs.map (fun b => (b.name, b.headSHA))).Perm (r.wanted false) := by
  have h := C58_branches_of_repo (τ := Str) (e := exEnv1) (u := {}) exEnv1_possible rfl hr ho (fun x _ => ⟨x.date, rfl⟩) .new
  obtain ⟨k, v, hv, hs⟩ := (h.2 0 _ .refl).2.1
  obtain ⟨_, d, bs, h1, _, _, prs, _, h5, h6⟩ := (h.2 k v hv).2.2 hs
  have : prs = [] := by
    cases prs with
    | nil => rfl
    | cons c l => exact absurd ((h5 c).1 (by simp)).1 (by simp)
  subst this
  exact ⟨d, bs, .call exEnv1_possible rfl rfl hr ho (fun x _ => ⟨x.date, rfl⟩) .new hv hs h1, by simpa using h6⟩

theorem BranchesGive.record_of {d : Branch} {bs : List Branch} {l : List (Str × Str)} (h : (bs.map (fun b => (b.name, b.headSHA))).Perm l) {x : Str × Str} (hx : x ∈ l) :
    ∃ b ∈ bs, b.name = x.1 ∧ b.headSHA = x.2 := by
  obtain ⟨b, hb, rfl⟩ := List.mem_map.1 (h.mem_iff.2 hx)
  exact ⟨b, hb, rfl, rfl⟩

/-- A clone of `exRepo1` whose current branch is where `dev` is. -/
def exRepo0 : GitRepo where
  commits := exRepo1.commits
  branch := b!"main"
  head := exSHA 99
  refs := exRepo1.refs
  roots := [exSHA 97]

/-- `exRepo1` after the merge of `dev`, with a branch `rel` at the merge. -/
def exRepo2 : GitRepo where
  commits := (exSHA 100, [exSHA 98, exSHA 99]) :: exRepo1.commits
  branch := b!"main"
  head := exSHA 100
  refs := ⟨exSHA 100, b!"rel", b!"Tue Jan 2 10:00:00 2018 +0100"⟩ :: exRepo1.refs
  roots := [exSHA 97]

theorem exRepo0_prints : exRepo0.Prints false { exOut1 with head := some (exSHA 99 ++ b!"\n") } := ⟨rfl, rfl, rfl, rfl, rfl, rfl⟩
theorem exRepo2_prints : exRepo2.Prints false { exOut1 with head := some (exSHA 100 ++ b!"\n"), log := some (parentsText exRepo2.commits), refs := fun _ => some (refText exRepo2.refs) } :=
  ⟨rfl, rfl, rfl, rfl, rfl, rfl⟩

theorem exRepo0_ok : exRepo0.Ok false where
  hash := exRepo1_ok.hash
  same := exRepo1_ok.same
  acyclic := exRepo1_ok.acyclic
  complete := exRepo1_ok.complete
  short := exRepo1_ok.short
  head := ⟨⟨[exSHA 97], by simp [exRepo0, exRepo1]⟩, by decide⟩
  branch := by decide
  refs := exRepo1_ok.refs
  distinct := exRepo1_ok.distinct
  roots := by
    refine ⟨by decide, fun x => ?_⟩
    have h97 : exRepo0.Reach (exSHA 99) (exSHA 97) := .single ⟨[exSHA 97], by simp [exRepo0, exRepo1], by simp⟩
    constructor
    · intro h
      simp only [exRepo0, List.mem_cons, List.not_mem_nil, or_false] at h
      subst h
      exact ⟨h97, by simp [exRepo0, exRepo1]⟩
    · rintro ⟨_, h⟩
      simp only [exRepo0, exRepo1, List.mem_cons, Prod.mk.injEq, List.not_mem_nil, or_false] at h
      rcases h with ⟨rfl, _⟩ | ⟨_, h⟩ | ⟨_, h⟩
      · simp [exRepo0]
      · cases h
      · cases h

theorem exRepo2_parent {c p : Str} (h : exRepo2.Parent c p) : (c = exSHA 100 ∧ (p = exSHA 98 ∨ p = exSHA 99)) ∨ ((c = exSHA 98 ∨ c = exSHA 99) ∧ p = exSHA 97) := by
  obtain ⟨ps, h1, h2⟩ := h
  rcases List.mem_cons.1 h1 with h1 | h1
  · cases h1
    exact .inl ⟨rfl, by simpa using h2⟩
  · exact .inr (exRepo1_parent ⟨ps, h1, h2⟩)

theorem exRepo2_ok : exRepo2.Ok false where
  hash := by
    intro c hc
    rcases List.mem_cons.1 hc with rfl | hc
    · refine ⟨by decide, ?_⟩
      simp
      decide
    · exact exRepo1_ok.hash c hc
  same := by
    intro c hc d hd
    simp only [exRepo2, exRepo1, List.mem_cons, List.not_mem_nil, or_false] at hc hd
    rcases hc with rfl | rfl | rfl | rfl <;> rcases hd with rfl | rfl | rfl | rfl <;> intro h <;> first | rfl | exact absurd h (by decide)
  acyclic := by
    let rank : Str → Nat := fun c => if c = exSHA 100 then 2 else if c = exSHA 97 then 0 else 1
    have h1 : ∀ c p, exRepo2.Parent c p → rank p < rank c := by
      intro c p h
      rcases exRepo2_parent h with ⟨rfl, rfl | rfl⟩ | ⟨rfl | rfl, rfl⟩ <;> decide
    have h2 : ∀ c p, exRepo2.Anc c p → rank p < rank c := by
      intro c p h
      induction h with
      | single h => exact h1 _ _ h
      | tail _ h ih => exact Nat.lt_trans (h1 _ _ h) ih
    exact fun c hc => Nat.lt_irrefl _ (h2 c c hc)
  complete := by
    intro c p h
    rcases exRepo2_parent h with ⟨_, rfl | rfl⟩ | ⟨_, rfl⟩
    · exact ⟨[exSHA 97], by simp [exRepo2, exRepo1]⟩
    · exact ⟨[exSHA 97], by simp [exRepo2, exRepo1]⟩
    · exact ⟨[], by simp [exRepo2, exRepo1]⟩
  short := by
    intro c hc
    rcases List.mem_cons.1 hc with rfl | hc
    · decide
    · exact exRepo1_ok.short c hc
  head := ⟨⟨[exSHA 98, exSHA 99], by simp [exRepo2]⟩, by decide⟩
  branch := by decide
  refs := by
    intro x hx
    rcases List.mem_cons.1 hx with rfl | hx
    · refine ⟨⟨by decide, ⟨by decide, by unfold FirstAt; decide⟩, by decide, b!"Tue Jan 2 10:00:00 2018 +010", 48, by decide, by decide, by decide⟩, ?_, by simp⟩
      exact ⟨[exSHA 98, exSHA 99], by simp [exRepo2]⟩
    · obtain ⟨h1, ⟨ps, h2⟩, h3⟩ := exRepo1_ok.refs x hx
      exact ⟨h1, ⟨ps, List.mem_cons_of_mem _ h2⟩, h3⟩
  distinct := by decide
  roots := by
    refine ⟨by decide, fun x => ?_⟩
    have h98 : exRepo2.Reach (exSHA 100) (exSHA 98) := .single ⟨[exSHA 98, exSHA 99], by simp [exRepo2], by simp⟩
    have h97 : exRepo2.Reach (exSHA 100) (exSHA 97) := h98.tail ⟨[exSHA 97], by simp [exRepo2, exRepo1], by simp⟩
    constructor
    · intro h
      simp only [exRepo2, List.mem_cons, List.not_mem_nil, or_false] at h
      subst h
      exact ⟨h97, by simp [exRepo2, exRepo1]⟩
    · rintro ⟨_, h⟩
      simp only [exRepo2, exRepo1, List.mem_cons, Prod.mk.injEq, List.not_mem_nil, or_false] at h
      rcases h with ⟨_, h⟩ | ⟨rfl, _⟩ | ⟨_, h⟩ | ⟨_, h⟩
      · cases h
      · simp [exRepo2]
      · cases h
      · cases h

theorem exSame12 : exRepo1.SameHashes exRepo2 := by
  intro c ps qs h1 h2
  simp only [exRepo1, exRepo2, List.mem_cons, Prod.mk.injEq, List.not_mem_nil, or_false] at h1 h2
  rcases h1 with ⟨rfl, rfl⟩ | ⟨rfl, rfl⟩ | ⟨rfl, rfl⟩ <;> rcases h2 with ⟨h, rfl⟩ | ⟨h, rfl⟩ | ⟨h, rfl⟩ | ⟨h, rfl⟩ <;>
    first | rfl | exact absurd h (by decide)

theorem exRepo1_reach {x : Str} (h : exRepo1.Reach (exSHA 98) x) : x = exSHA 98 ∨ x = exSHA 97 := by
  induction h with
  | refl => exact .inl rfl
  | tail _ h _ => exact .inr (exRepo1_parent h).2

/-- The merge of `dev`: before, its record says unmerged; after, the same with the merge. -/
example : ∃ d₁ bs₁ d₂ bs₂ b₁ b₂, BranchesGive exEnv1.sha exRepo1 d₁ bs₁ ∧ BranchesGive exEnv1.sha exRepo2 d₂ bs₂ ∧ b₁ ∈ bs₁ ∧ b₂ ∈ bs₂ ∧ b₁.name = b!"dev" ∧
    b₁.isMerged = false ∧ b₂ = { b₁ with isMerged := true, mergeCommit := exSHA 100, behindDefaultCount := 0 } := by
  obtain ⟨d₁, bs₁, h₁, p₁⟩ := BranchesGive.of_ok exRepo1_ok exRepo1_prints
  obtain ⟨d₂, bs₂, h₂, p₂⟩ := BranchesGive.of_ok exRepo2_ok exRepo2_prints
  obtain ⟨b₁, m₁, n₁, s₁⟩ := BranchesGive.record_of (d := d₁) p₁ (x := (b!"dev", exSHA 99)) (by decide)
  obtain ⟨b₂, m₂, n₂, s₂⟩ := BranchesGive.record_of (d := d₂) p₂ (x := (b!"dev", exSHA 99)) (by decide)
  obtain ⟨_, _, g₁⟩ := h₁.behind
  have hun : b₁.isMerged = false := by
    cases h : b₁.isMerged with
    | false => rfl
    | true =>
      have := (g₁.record b₁ m₁).merged.1 h
      rw [s₁] at this
      rcases exRepo1_reach this with h | h <;> exact absurd h (by decide)
  refine ⟨d₁, bs₁, d₂, bs₂, b₁, b₂, h₁, h₂, m₁, m₂, n₁, hun, ?_⟩
  exact C91_merge h₁ h₂ exSame12 m₁ m₂ (n₁.trans n₂.symm) (s₁.trans s₂.symm) hun (by rw [s₁]; simp [exRepo1, exRepo2])

/-- The branch `rel` at the current commit: its record lists all four commits as its own work. -/
example : ∃ d bs b, BranchesGive exEnv1.sha exRepo2 d bs ∧ b ∈ bs ∧ b.name = b!"rel" ∧ (∀ x, x ∈ b.commits ↔ exRepo2.Reach (exSHA 100) x) ∧ exSHA 97 ∈ b.commits ∧ b.branchID = b!"rel" := by
  obtain ⟨d, bs, h, p⟩ := BranchesGive.of_ok exRepo2_ok exRepo2_prints
  obtain ⟨b, m, n, s⟩ := BranchesGive.record_of (d := d) p (x := (b!"rel", exSHA 100)) (by decide)
  obtain ⟨_, _, g⟩ := h.behind
  have hh : exRepo2.head = b.headSHA := s.symm
  obtain ⟨h1, _, _, h4⟩ := C91_fast_forward h m ((g.record b m).merged.2 (by rw [hh]; exact .refl)) (fun c p hc _ _ => by rw [← hh]; exact hc)
  rw [s] at h1
  refine ⟨d, bs, b, h, m, n, h1, (h1 _).2 ?_, by rw [h4, n]; rfl⟩
  have h98 : exRepo2.Reach (exSHA 100) (exSHA 98) := .single ⟨[exSHA 98, exSHA 99], by simp [exRepo2], by simp⟩
  exact h98.tail ⟨[exSHA 97], by simp [exRepo2, exRepo1], by simp⟩

/-- The merge commit of `old` changes when the other commit with that parent gets onto the current branch. -/
example : ∃ d₁ bs₁ d₂ bs₂ b₁ b₂, BranchesGive exEnv1.sha exRepo0 d₁ bs₁ ∧ BranchesGive exEnv1.sha exRepo2 d₂ bs₂ ∧ b₁ ∈ bs₁ ∧ b₂ ∈ bs₂ ∧ b₁.name = b!"old" ∧
    b₁.isMerged = true ∧ b₁.mergeCommit = exSHA 99 ∧ b₂.name = b!"old" ∧ b₂.mergeCommit ≠ exSHA 99 := by
  obtain ⟨d₁, bs₁, h₁, p₁⟩ := BranchesGive.of_ok exRepo0_ok exRepo0_prints
  obtain ⟨d₂, bs₂, h₂, p₂⟩ := BranchesGive.of_ok exRepo2_ok exRepo2_prints
  obtain ⟨b₁, m₁, n₁, s₁⟩ := BranchesGive.record_of (d := d₁) p₁ (x := (b!"old", exSHA 97)) (by decide)
  obtain ⟨b₂, m₂, n₂, s₂⟩ := BranchesGive.record_of (d := d₂) p₂ (x := (b!"old", exSHA 97)) (by decide)
  obtain ⟨_, _, g₁⟩ := h₁.behind
  have hmer : b₁.isMerged = true := (g₁.record b₁ m₁).merged.2 (by rw [s₁]; exact .single ⟨[exSHA 97], by simp [exRepo0, exRepo1], by simp⟩)
  have hmc : b₁.mergeCommit = exSHA 99 := by
    obtain ⟨q1, q2, _⟩ := C91_merge_commit_smallest h₁ m₁ hmer (by rw [s₁]; decide)
    have hr : ∀ x, exRepo0.Reach (exSHA 99) x → x = exSHA 99 ∨ x = exSHA 97 := by
      intro x h
      induction h with
      | refl => exact .inl rfl
      | tail _ h _ => exact .inr (exRepo1_parent (show exRepo1.Parent _ _ from h)).2
    rcases hr _ q2 with h | h
    · exact h
    · rw [h] at q1
      rcases (exRepo1_parent (show exRepo1.Parent _ _ from q1)).1 with h | h <;> exact absurd h (by decide)
  refine ⟨d₁, bs₁, d₂, bs₂, b₁, b₂, h₁, h₂, m₁, m₂, n₁, hmer, hmc, n₂, ?_⟩
  have h98 : exRepo2.Reach (exSHA 100) (exSHA 98) := .single ⟨[exSHA 98, exSHA 99], by simp [exRepo2], by simp⟩
  have := C91_merge_commit_changes h₁ h₂ (show exRepo0.SameHashes exRepo2 from exSame12) (.single ⟨[exSHA 98, exSHA 99], by simp [exRepo2], by simp [exRepo0]⟩) m₁ m₂ (s₁.trans s₂.symm) hmer
    (c := exSHA 98) (by rw [s₂]; exact ⟨[exSHA 97], by simp [exRepo2, exRepo1], by simp⟩) h98 (by rw [hmc]; decide)
  rw [hmc] at this
  exact this

/-- The commits of `exRepo2` and one more built on the old `dev`, which is the head of a branch `next`; the current branch is at `h`. -/
def exRepo3 (h : Str) : GitRepo where
  commits := (exSHA 101, [exSHA 99]) :: exRepo2.commits
  branch := b!"main"
  head := h
  refs := [⟨exSHA 101, b!"next", b!"Tue Jan 2 10:00:00 2018 +0100"⟩]
  roots := [exSHA 97]

theorem exRepo3_prints (h : Str) : (exRepo3 h).Prints false { exOut1 with head := some (h ++ b!"\n"), log := some (parentsText (exRepo3 h).commits), refs := fun _ => some (refText (exRepo3 h).refs) } :=
  ⟨rfl, rfl, rfl, rfl, rfl, rfl⟩

theorem exRepo3_parent {h c p : Str} (hp : (exRepo3 h).Parent c p) :
    (c = exSHA 101 ∧ p = exSHA 99) ∨ (c = exSHA 100 ∧ (p = exSHA 98 ∨ p = exSHA 99)) ∨ ((c = exSHA 98 ∨ c = exSHA 99) ∧ p = exSHA 97) := by
  obtain ⟨ps, h1, h2⟩ := hp
  rcases List.mem_cons.1 h1 with h1 | h1
  · cases h1
    exact .inl ⟨rfl, by simpa using h2⟩
  · exact .inr (exRepo2_parent ⟨ps, h1, h2⟩)

theorem exRepo3_ok {h : Str} (hh : h = exSHA 98 ∨ h = exSHA 100) : (exRepo3 h).Ok false where
  hash := by
    intro c hc
    rcases List.mem_cons.1 hc with rfl | hc
    · refine ⟨by decide, ?_⟩
      simp
      decide
    · exact exRepo2_ok.hash c hc
  same := by
    intro c hc d hd
    simp only [exRepo3, exRepo2, exRepo1, List.mem_cons, List.not_mem_nil, or_false] at hc hd
    rcases hc with rfl | rfl | rfl | rfl | rfl <;> rcases hd with rfl | rfl | rfl | rfl | rfl <;> intro h <;> first | rfl | exact absurd h (by decide)
  acyclic := by
    let rank : Str → Nat := fun c => if c = exSHA 101 then 3 else if c = exSHA 100 then 2 else if c = exSHA 97 then 0 else 1
    have h1 : ∀ c p, (exRepo3 h).Parent c p → rank p < rank c := by
      intro c p h
      rcases exRepo3_parent h with ⟨rfl, rfl⟩ | ⟨rfl, rfl | rfl⟩ | ⟨rfl | rfl, rfl⟩ <;> decide
    have h2 : ∀ c p, (exRepo3 h).Anc c p → rank p < rank c := by
      intro c p h
      induction h with
      | single h => exact h1 _ _ h
      | tail _ h ih => exact Nat.lt_trans (h1 _ _ h) ih
    exact fun c hc => Nat.lt_irrefl _ (h2 c c hc)
  complete := by
    intro c p h
    rcases exRepo3_parent h with ⟨_, rfl⟩ | ⟨_, rfl | rfl⟩ | ⟨_, rfl⟩
    · exact ⟨[exSHA 97], by simp [exRepo3, exRepo2, exRepo1]⟩
    · exact ⟨[exSHA 97], by simp [exRepo3, exRepo2, exRepo1]⟩
    · exact ⟨[exSHA 97], by simp [exRepo3, exRepo2, exRepo1]⟩
    · exact ⟨[], by simp [exRepo3, exRepo2, exRepo1]⟩
  short := by
    intro c hc
    rcases List.mem_cons.1 hc with rfl | hc
    · decide
    · exact exRepo2_ok.short c hc
  head := by
    rcases hh with rfl | rfl
    · exact ⟨⟨[exSHA 97], by simp [exRepo3, exRepo2, exRepo1]⟩, by simp [exRepo3, exSHA]⟩
    · exact ⟨⟨[exSHA 98, exSHA 99], by simp [exRepo3, exRepo2]⟩, by simp [exRepo3, exSHA]⟩
  branch := ⟨by simp [exRepo3], by simp [exRepo3], (show Trimmed b!"main" by decide)⟩
  refs := by
    intro x hx
    simp only [exRepo3, List.mem_cons, List.not_mem_nil, or_false] at hx
    subst hx
    refine ⟨⟨by decide, ⟨by decide, by unfold FirstAt; decide⟩, by decide, b!"Tue Jan 2 10:00:00 2018 +010", 48, by decide, by decide, by decide⟩, ?_, by simp⟩
    exact ⟨[exSHA 99], by simp [exRepo3]⟩
  distinct := by simp [exRepo3]
  roots := by
    refine ⟨by simp [exRepo3], fun x => ?_⟩
    have h97 : (exRepo3 h).Reach h (exSHA 97) := by
      have h1 : (exRepo3 h).Reach (exSHA 98) (exSHA 97) := .single ⟨[exSHA 97], by simp [exRepo3, exRepo2, exRepo1], by simp⟩
      rcases hh with rfl | rfl
      · exact h1
      · exact .head ⟨[exSHA 98, exSHA 99], by simp [exRepo3, exRepo2], by simp⟩ h1
    constructor
    · intro h
      simp only [exRepo3, List.mem_cons, List.not_mem_nil, or_false] at h
      subst h
      exact ⟨h97, by simp [exRepo3, exRepo2, exRepo1]⟩
    · rintro ⟨_, h⟩
      simp only [exRepo3, exRepo2, exRepo1, List.mem_cons, Prod.mk.injEq, List.not_mem_nil, or_false] at h
      rcases h with ⟨_, h⟩ | ⟨_, h⟩ | ⟨rfl, _⟩ | ⟨_, h⟩ | ⟨_, h⟩
      · cases h
      · cases h
      · simp [exRepo3]
      · cases h
      · cases h

/-- The branch `next` loses the commit that the merge brought to the current branch and keeps the other. -/
example : ∃ d₁ bs₁ d₂ bs₂ b₁ b₂, BranchesGive exEnv1.sha (exRepo3 (exSHA 98)) d₁ bs₁ ∧ BranchesGive exEnv1.sha (exRepo3 (exSHA 100)) d₂ bs₂ ∧ b₁ ∈ bs₁ ∧ b₂ ∈ bs₂ ∧
    exSHA 99 ∈ b₁.commits ∧ (∃ keep : Str → Bool, b₂.commits = b₁.commits.filter keep ∧ keep (exSHA 99) = false) ∧ exSHA 101 ∈ b₂.commits := by
  obtain ⟨d₁, bs₁, h₁, p₁⟩ := BranchesGive.of_ok (exRepo3_ok (.inl rfl)) (exRepo3_prints _)
  obtain ⟨d₂, bs₂, h₂, p₂⟩ := BranchesGive.of_ok (exRepo3_ok (.inr rfl)) (exRepo3_prints _)
  obtain ⟨b₁, m₁, n₁, s₁⟩ := BranchesGive.record_of (d := d₁) p₁ (x := (b!"next", exSHA 101)) (by decide)
  obtain ⟨b₂, m₂, n₂, s₂⟩ := BranchesGive.record_of (d := d₂) p₂ (x := (b!"next", exSHA 101)) (by decide)
  obtain ⟨_, _, g₁⟩ := h₁.behind
  obtain ⟨_, _, g₂⟩ := h₂.behind
  have r98 : ∀ x, (exRepo3 (exSHA 98)).Reach (exSHA 98) x → x = exSHA 98 ∨ x = exSHA 97 := by
    intro x h
    induction h with
    | refl => exact .inl rfl
    | @tail y z _ h ih =>
      rcases exRepo3_parent h with ⟨rfl, _⟩ | ⟨rfl, _⟩ | ⟨_, h⟩
      · rcases ih with h | h <;> exact absurd h (by decide)
      · rcases ih with h | h <;> exact absurd h (by decide)
      · exact .inr h
  have r100 : ∀ x, (exRepo3 (exSHA 100)).Reach (exSHA 100) x → x ≠ exSHA 101 := by
    intro x h
    cases h with
    | refl => decide
    | @tail y z _ h =>
      rcases exRepo3_parent h with ⟨_, rfl⟩ | ⟨_, rfl | rfl⟩ | ⟨_, rfl⟩ <;> decide
  have hun : b₂.isMerged = false := by
    cases h : b₂.isMerged with
    | false => rfl
    | true => exact absurd s₂ (r100 _ ((g₂.record b₂ m₂).merged.1 h))
  have h99 : (exRepo3 (exSHA 100)).Reach (exSHA 100) (exSHA 99) := .single ⟨[exSHA 98, exSHA 99], by simp [exRepo3, exRepo2], by simp⟩
  obtain ⟨⟨keep, k1, k2⟩, _⟩ := C91_commits_shrink h₁ h₂ (by
      intro c ps qs q1 q2
      have := congrArg Prod.snd ((exRepo3_ok (.inl rfl)).same _ q1 _ q2 rfl)
      exact this)
    (.single ⟨[exSHA 98, exSHA 99], by simp [exRepo3, exRepo2], by simp [exRepo3]⟩) m₁ m₂ (n₁.trans n₂.symm) (s₁.trans s₂.symm) hun
  have hin : exSHA 99 ∈ b₁.commits := by
    refine ((g₁.record b₁ m₁).commits.2.2 _).2 (.inr ⟨?_, ?_⟩)
    · rw [s₁]; exact .single ⟨[exSHA 99], by simp [exRepo3], by simp⟩
    · intro h
      rcases r98 _ (rtg_mono (fun _ _ h => h.2) h) with h | h <;> exact absurd h (by decide)
  refine ⟨d₁, bs₁, d₂, bs₂, b₁, b₂, h₁, h₂, m₁, m₂, hin, ⟨keep, k2, ?_⟩, ?_⟩
  · cases hk : keep (exSHA 99) with
    | false => rfl
    | true => exact absurd h99 ((k1 _ hin).1 hk)
  · exact ((g₂.record b₂ m₂).commits.2.2 _).2 (.inl s₂.symm)

/-- `exRepo1` has no merges; a commit pushed on `main` makes `dev` one more commit behind. -/
def exRepo4 : GitRepo where
  commits := (exSHA 100, [exSHA 98]) :: exRepo1.commits
  branch := b!"main"
  head := exSHA 100
  refs := exRepo1.refs
  roots := [exSHA 97]

theorem exRepo4_prints : exRepo4.Prints false { exOut1 with head := some (exSHA 100 ++ b!"\n"), log := some (parentsText exRepo4.commits) } := ⟨rfl, rfl, rfl, rfl, rfl, rfl⟩

theorem exRepo4_parent {c p : Str} (h : exRepo4.Parent c p) : (c = exSHA 100 ∧ p = exSHA 98) ∨ ((c = exSHA 98 ∨ c = exSHA 99) ∧ p = exSHA 97) := by
  obtain ⟨ps, h1, h2⟩ := h
  rcases List.mem_cons.1 h1 with h1 | h1
  · cases h1
    exact .inl ⟨rfl, by simpa using h2⟩
  · exact .inr (exRepo1_parent ⟨ps, h1, h2⟩)

theorem exRepo4_ok : exRepo4.Ok false where
  hash := by
    intro c hc
    rcases List.mem_cons.1 hc with rfl | hc
    · refine ⟨by decide, ?_⟩
      simp
      decide
    · exact exRepo1_ok.hash c hc
  same := by
    intro c hc d hd
    simp only [exRepo4, exRepo1, List.mem_cons, List.not_mem_nil, or_false] at hc hd
    rcases hc with rfl | rfl | rfl | rfl <;> rcases hd with rfl | rfl | rfl | rfl <;> intro h <;> first | rfl | exact absurd h (by decide)
  acyclic := by
    let rank : Str → Nat := fun c => if c = exSHA 100 then 2 else if c = exSHA 97 then 0 else 1
    have h1 : ∀ c p, exRepo4.Parent c p → rank p < rank c := by
      intro c p h
      rcases exRepo4_parent h with ⟨rfl, rfl⟩ | ⟨rfl | rfl, rfl⟩ <;> decide
    have h2 : ∀ c p, exRepo4.Anc c p → rank p < rank c := by
      intro c p h
      induction h with
      | single h => exact h1 _ _ h
      | tail _ h ih => exact Nat.lt_trans (h1 _ _ h) ih
    exact fun c hc => Nat.lt_irrefl _ (h2 c c hc)
  complete := by
    intro c p h
    rcases exRepo4_parent h with ⟨_, rfl⟩ | ⟨_, rfl⟩
    · exact ⟨[exSHA 97], by simp [exRepo4, exRepo1]⟩
    · exact ⟨[], by simp [exRepo4, exRepo1]⟩
  short := by
    intro c hc
    rcases List.mem_cons.1 hc with rfl | hc
    · decide
    · exact exRepo1_ok.short c hc
  head := ⟨⟨[exSHA 98], by simp [exRepo4]⟩, by decide⟩
  branch := by decide
  refs := by
    intro x hx
    obtain ⟨h1, ⟨ps, h2⟩, h3⟩ := exRepo1_ok.refs x hx
    exact ⟨h1, ⟨ps, List.mem_cons_of_mem _ h2⟩, h3⟩
  distinct := by decide
  roots := by
    refine ⟨by decide, fun x => ?_⟩
    have h98 : exRepo4.Reach (exSHA 100) (exSHA 98) := .single ⟨[exSHA 98], by simp [exRepo4], by simp⟩
    have h97 : exRepo4.Reach (exSHA 100) (exSHA 97) := h98.tail ⟨[exSHA 97], by simp [exRepo4, exRepo1], by simp⟩
    constructor
    · intro h
      simp only [exRepo4, List.mem_cons, List.not_mem_nil, or_false] at h
      subst h
      exact ⟨h97, by simp [exRepo4, exRepo1]⟩
    · rintro ⟨_, h⟩
      simp only [exRepo4, exRepo1, List.mem_cons, Prod.mk.injEq, List.not_mem_nil, or_false] at h
      rcases h with ⟨_, h⟩ | ⟨rfl, _⟩ | ⟨_, h⟩ | ⟨_, h⟩
      · cases h
      · simp [exRepo4]
      · cases h
      · cases h

example : ∃ d₁ bs₁ d₂ bs₂ b₁ b₂, BranchesGive exEnv1.sha exRepo1 d₁ bs₁ ∧ BranchesGive exEnv1.sha exRepo4 d₂ bs₂ ∧ b₁ ∈ bs₁ ∧ b₂ ∈ bs₂ ∧ b₁.name = b!"dev" ∧ b₂.name = b!"dev" ∧
    b₁.branchedFromCommits = [exSHA 97] ∧ b₂.behindDefaultCount = b₁.behindDefaultCount + 1 := by
  obtain ⟨d₁, bs₁, h₁, p₁⟩ := BranchesGive.of_ok exRepo1_ok exRepo1_prints
  obtain ⟨d₂, bs₂, h₂, p₂⟩ := BranchesGive.of_ok exRepo4_ok exRepo4_prints
  obtain ⟨b₁, m₁, n₁, s₁⟩ := BranchesGive.record_of (d := d₁) p₁ (x := (b!"dev", exSHA 99)) (by decide)
  obtain ⟨b₂, m₂, n₂, s₂⟩ := BranchesGive.record_of (d := d₂) p₂ (x := (b!"dev", exSHA 99)) (by decide)
  obtain ⟨_, _, g₁⟩ := h₁.behind
  have hrec := g₁.record b₁ m₁
  have hun : b₁.isMerged = false := by
    cases h : b₁.isMerged with
    | false => rfl
    | true =>
      have := hrec.merged.1 h
      rw [s₁] at this
      rcases exRepo1_reach this with h | h <;> exact absurd h (by decide)
  have r99 : ∀ x, exRepo4.Reach (exSHA 99) x → x = exSHA 99 ∨ x = exSHA 97 := by
    intro x h
    induction h with
    | refl => exact .inl rfl
    | tail _ h ih =>
      rcases exRepo4_parent h with ⟨rfl, _⟩ | ⟨_, h⟩
      · rcases ih with h | h <;> exact absurd h (by decide)
      · exact .inr h
  have h97 : exRepo1.Reach (exSHA 98) (exSHA 97) := .single ⟨[exSHA 97], by simp [exRepo1], by simp⟩
  have hbf : b₁.branchedFromCommits = [exSHA 97] := by
    have hmem : ∀ x, x ∈ b₁.branchedFromCommits ↔ x = exSHA 97 := by
      intro x
      have hm : ∀ x, exRepo1.Meets b₁ x ↔ x = exSHA 97 := by
        intro x
        constructor
        · rintro ⟨_, c, _, h⟩; exact (exRepo1_parent h).2
        · rintro rfl
          refine ⟨.single ⟨?_, ⟨[exSHA 97], by simp [exRepo1], by simp⟩⟩, exSHA 99, ?_, ⟨[exSHA 97], by simp [exRepo1], by simp⟩⟩
          · rw [s₁]; decide
          · exact (hrec.commits.2.2 _).2 (.inl s₁.symm)
      rw [hrec.branchedFrom.2.2, hm]
      constructor
      · exact fun h => h.1
      · rintro rfl
        refine ⟨rfl, fun y hy hc => ?_⟩
        rw [(hm y).1 hy] at hc
        exact exRepo1_ok.acyclic _ hc
    have hnd := hrec.branchedFrom.1
    match hq : b₁.branchedFromCommits with
    | [] => exact absurd ((hmem (exSHA 97)).2 rfl) (by rw [hq]; simp)
    | [x] => rw [(hmem x).1 (by rw [hq]; simp)]
    | x :: y :: t =>
      rw [hq] at hnd
      have h1 := (hmem x).1 (by rw [hq]; simp)
      have h2 := (hmem y).1 (by rw [hq]; simp)
      rw [h1, h2] at hnd
      simp at hnd
  have hR : ∀ x, exRepo4.Reach (exSHA 100) x ↔ x = exSHA 100 ∨ exRepo1.Reach (exSHA 98) x := by
    intro x
    constructor
    · intro h
      induction h with
      | refl => exact .inl rfl
      | @tail y z _ h ih =>
        rcases exRepo4_parent h with ⟨_, rfl⟩ | ⟨_, rfl⟩
        · exact .inr .refl
        · exact .inr h97
    · have h98 : exRepo4.Reach (exSHA 100) (exSHA 98) := .single ⟨[exSHA 98], by simp [exRepo4], by simp⟩
      rintro (rfl | h)
      · exact .refl
      · rcases exRepo1_reach h with rfl | rfl
        · exact h98
        · exact h98.tail ⟨[exSHA 97], by simp [exRepo4, exRepo1], by simp⟩
  have hl : ∀ x, x ∈ [exSHA 100] ↔ exRepo4.Reach (exSHA 100) x ∧ ¬ exRepo1.Reach (exSHA 98) x := by
    intro x
    rw [hR, List.mem_singleton]
    constructor
    · rintro rfl
      refine ⟨.inl rfl, fun h => ?_⟩
      rcases exRepo1_reach h with h | h <;> exact absurd h (by decide)
    · rintro ⟨h | h, hn⟩
      · exact h
      · exact absurd h hn
  have := C91_behind_grows (l := [exSHA 100]) h₁ h₂ (by
      intro c ps qs q1 q2
      exact congrArg Prod.snd (exRepo4_ok.same (c, ps) (List.mem_cons_of_mem _ q1) (c, qs) q2 rfl))
    ((hR _).2 (.inr .refl)) m₁ m₂ (n₁.trans n₂.symm) (s₁.trans s₂.symm) hun (by rw [hbf]; simp) (by simp) hl
    (by
      intro c p hc hp
      rw [List.mem_singleton] at hc
      subst hc
      rcases exRepo4_parent hp with ⟨_, rfl⟩ | ⟨h, _⟩
      · exact .inr rfl
      · rcases h with h | h <;> exact absurd h (by decide))
    (by
      intro c hc h
      rw [List.mem_singleton] at hc
      subst hc
      rw [s₁] at h
      rcases r99 _ h with h | h <;> exact absurd h (by decide))
  exact ⟨d₁, bs₁, d₂, bs₂, b₁, b₂, h₁, h₂, m₁, m₂, n₁, n₂, hbf, this.2.2⟩

end Ripsrc
