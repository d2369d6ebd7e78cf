import Verif.Lib.Branches
/-! # Inversion of a successful `runBranch` -/
namespace Ripsrc
open Relation

theorem rtg_mono {r q : Str → Str → Prop} (h : ∀ a b, r a b → q a b) {x y : Str} (hx : ReflTransGen r x y) :
    ReflTransGen q x y := by
  induction hx with
  | refl => exact ReflTransGen.refl
  | tail _ hs ih => exact ReflTransGen.tail ih (h _ _ hs)

theorem reachWithout_of_not_reach {gr : Graph} {bh dh : Str} (h : ¬ gr.Reach dh bh) (x : Str) :
    gr.ReachWithout bh dh x ↔ gr.Reach dh x := by
  constructor
  · intro hx
    induction hx with
    | refl => exact ReflTransGen.refl
    | tail _ hs ih => exact ReflTransGen.tail ih hs.2
  · intro hx
    induction hx with
    | refl => exact ReflTransGen.refl
    | tail hp hs ih => exact ReflTransGen.tail ih ⟨fun hc => h (hc ▸ hp), hs⟩

theorem reachWithout_reach {gr : Graph} {bh dh x : Str} (h : gr.ReachWithout bh dh x) : gr.Reach dh x := by
  induction h with
  | refl => exact ReflTransGen.refl
  | tail _ hs ih => exact ReflTransGen.tail ih hs.2

/-- If the head is reached, it is reached without going through it. -/
theorem reachWithout_self {gr : Graph} {bh dh : Str} (h : gr.Reach dh bh) : gr.ReachWithout bh dh bh := by
  have aux : ∀ x, gr.Reach dh x → gr.ReachWithout bh dh x ∨ gr.ReachWithout bh dh bh := by
    intro x hx
    induction hx with
    | refl => exact Or.inl ReflTransGen.refl
    | @tail y z _ hs ih =>
      rcases ih with ih | ih
      · by_cases hy : y = bh
        · exact Or.inr (hy ▸ ih)
        · exact Or.inl (ReflTransGen.tail ih ⟨hy, hs⟩)
      · exact Or.inr ih
  rcases aux bh h with h | h <;> exact h

/-- Characterisation of the two lists computed by `branchCommits`. -/
structure BranchSet (gr : Graph) (dh bh : Str) (cs bf : List Str) : Prop where
  nodup : cs.Nodup
  last : cs.getLast? = some bh
  mem : ∀ x, x ∈ cs ↔ ReflTransGen (fun a c => gr.Parent a c ∧ ¬ gr.ReachWithout bh dh c) bh x
  known : ∀ x ∈ cs, gr.Known x
  tree : ∀ a x c, cs.reverse = a ++ x :: c → (x = bh ∧ a = []) ∨ ∃ y ∈ a, gr.Parent y x
  bfNodup : bf.Nodup
  bfSorted : Sorted strLe bf
  bfMem : ∀ x, x ∈ bf ↔ gr.Intersection dh bh cs x ∧ ∀ y, gr.Intersection dh bh cs y → ¬ gr.Anc x y

/-- The second half of `branchCommits`, given the reachable set. -/
theorem branchCommits_tail {gr : Graph} {dh bh : Str} {perm : List Str → List Str} (hac : gr.Acyclic)
    (hperm : ∀ s, (perm s).Perm s) {R' : List Str} (hR' : ∀ x, x ∈ R' ↔ gr.ReachWithout bh dh x) :
    (∀ f, ((do
      let s ← branchRec gr R' gr.fuel bh ⟨[], [], []⟩
      let branchedFrom ← dedupLinearFromHead gr s.branchedFrom bh perm
      return (s.commits.reverse, branchedFrom)) : Go (List Str × List Str)) = .error f →
      f = notInTree ∧ ∃ x, gr.Reach bh x ∧ ¬ gr.Known x) ∧
    (∀ cs bf, ((do
      let s ← branchRec gr R' gr.fuel bh ⟨[], [], []⟩
      let branchedFrom ← dedupLinearFromHead gr s.branchedFrom bh perm
      return (s.commits.reverse, branchedFrom)) : Go (List Str × List Str)) = .ok (cs, bf) →
      BranchSet gr dh bh cs bf) := by
  obtain ⟨w1, w2⟩ := branchWalk_spec gr R' bh
  cases hw : branchRec gr R' gr.fuel bh ⟨[], [], []⟩ with
  | error e =>
    refine ⟨fun f hf => ?_, fun _ _ hrun => by cases hrun⟩
    cases hf
    obtain ⟨h1, x, h2, h3⟩ := w1 e hw
    exact ⟨h1, x, rtg_mono (fun a b h => h.1) h2, h3⟩
  | ok s =>
    simp only [bind, Except.bind]
    obtain ⟨v1, v2, v3, v4, v5, v6⟩ := w2 s hw
    have hrel : (fun a b => gr.Parent a b ∧ b ∉ R') = (fun a c => gr.Parent a c ∧ ¬ gr.ReachWithout bh dh c) := by
      funext a c; rw [hR' c]
    rw [hrel] at v3
    have hreach : ∀ c ∈ s.commits, gr.Reach bh c := by
      intro c hc
      exact rtg_mono (fun a b h => h.1) ((v3 c).1 hc)
    obtain ⟨r, d1, d2, d3, d4⟩ := dedup_spec gr hac s.branchedFrom bh perm hperm (by
      intro x hx
      obtain ⟨_, c, hc, hp⟩ := (v5 x).1 hx
      exact ReflTransGen.tail (hreach c hc) hp)
    rw [d1]
    refine ⟨fun f hf => (by cases hf), fun cs bf hrun => ?_⟩
    simp only [pure, Except.pure, Except.ok.injEq, Prod.mk.injEq] at hrun
    obtain ⟨rfl, rfl⟩ := hrun
    have hint : ∀ x, x ∈ s.branchedFrom ↔ gr.Intersection dh bh s.commits.reverse x := by
      intro x
      rw [v5 x, hR' x]
      simp [Graph.Intersection]
    refine ⟨?_, ?_, ?_, ?_, ?_, d2, d3, ?_⟩
    · exact (List.reverse_perm _).nodup_iff.2 v1
    · rw [List.getLast?_reverse]; exact v2
    · intro x; rw [List.mem_reverse]; exact v3 x
    · intro x hx; exact v4 x (List.mem_reverse.1 hx)
    · rw [List.reverse_reverse]; exact v6
    · intro x
      rw [d4 x, hint x]
      constructor
      · rintro ⟨h1, h2⟩; exact ⟨h1, fun y hy => h2 y ((hint y).2 hy)⟩
      · rintro ⟨h1, h2⟩; exact ⟨h1, fun y hy => h2 y ((hint y).1 hy)⟩

theorem branchCommits_spec {gr : Graph} {dh bh : Str} {perm : List Str → List Str} (hac : gr.Acyclic)
    (hperm : ∀ s, (perm s).Perm s) {R : List Str} (hRm : ∀ x, x ∈ R ↔ gr.Reach dh x) {r : List Str × List Str}
    (hbc : branchCommits gr dh R bh perm = .ok r) : BranchSet gr dh bh r.1 r.2 := by
  unfold branchCommits at hbc
  by_cases hm : bh ∈ R
  · rw [if_pos hm] at hbc
    obtain ⟨_, s2⟩ := reachStop_spec gr bh dh
    cases hs : reachStopRec gr bh gr.fuel dh ⟨[], []⟩ with
    | error e => rw [hs] at hbc; cases hbc
    | ok s =>
      rw [hs] at hbc
      exact (branchCommits_tail hac hperm (s2 s hs).1).2 r.1 r.2 hbc
  · rw [if_neg hm] at hbc
    exact (branchCommits_tail hac hperm (R' := R) (fun x => by
      rw [hRm, reachWithout_of_not_reach (fun hc => hm ((hRm bh).2 hc))])).2 r.1 r.2 hbc

/-- `branchCommits` fails only on a graph with a missing commit. -/
theorem branchCommits_error {gr : Graph} {dh bh : Str} {perm : List Str → List Str} (hac : gr.Acyclic)
    (hperm : ∀ s, (perm s).Perm s) {R : List Str} (hRm : ∀ x, x ∈ R ↔ gr.Reach dh x) {f : Fault}
    (hbc : branchCommits gr dh R bh perm = .error f) :
    f = notInTree ∧ ∃ x, (gr.Reach bh x ∨ gr.Reach dh x) ∧ ¬ gr.Known x := by
  unfold branchCommits at hbc
  by_cases hm : bh ∈ R
  · rw [if_pos hm] at hbc
    obtain ⟨s1, s2⟩ := reachStop_spec gr bh dh
    cases hs : reachStopRec gr bh gr.fuel dh ⟨[], []⟩ with
    | error e =>
      rw [hs] at hbc; cases hbc
      obtain ⟨h1, x, h2, h3⟩ := s1 f hs
      exact ⟨h1, x, Or.inr (reachWithout_reach h2), h3⟩
    | ok s =>
      rw [hs] at hbc
      obtain ⟨h1, x, h2, h3⟩ := (branchCommits_tail hac hperm (s2 s hs).1).1 f hbc
      exact ⟨h1, x, Or.inl h2, h3⟩
  · rw [if_neg hm] at hbc
    obtain ⟨h1, x, h2, h3⟩ := (branchCommits_tail hac hperm (R' := R) (fun x => by
      rw [hRm, reachWithout_of_not_reach (fun hc => hm ((hRm bh).2 hc))])).1 f hbc
    exact ⟨h1, x, Or.inl h2, h3⟩

/-- What a successful run for one branch consists of. -/
theorem runBranch_inv {sha : Str → Str} {gr : Graph} {dh name bh : Str} {perm : List Str → List Str} {b : Branch}
    (hac : gr.Acyclic) (hperm : ∀ s, (perm s).Perm s)
    (hb : runBranch sha gr dh perm name bh = .ok (some b)) :
    b.headSHA = bh ∧ b.name = name ∧ b.isPullRequest = decide (name = []) ∧ b.isDefault = false ∧
    b.commits.Nodup ∧ b.commits.getLast? = some bh ∧
    (∀ x, x ∈ b.commits ↔ ReflTransGen (fun a c => gr.Parent a c ∧ ¬ gr.ReachWithout bh dh c) bh x) ∧
    (∀ x ∈ b.commits, gr.Known x) ∧
    (∀ a x c, b.commits.reverse = a ++ x :: c → (x = bh ∧ a = []) ∨ ∃ y ∈ a, gr.Parent y x) ∧
    b.branchedFromCommits.Nodup ∧ Sorted strLe b.branchedFromCommits ∧
    (∀ x, x ∈ b.branchedFromCommits ↔
      gr.Intersection dh bh b.commits x ∧ ∀ y, gr.Intersection dh bh b.commits y → ¬ gr.Anc x y) ∧
    b.aheadDefaultCount = b.commits.length ∧ b.commits.head? = some b.firstCommit ∧
    b.branchID = (if name ≠ [] then branchID sha name b.branchedFromCommits else []) ∧
    ∃ R, newReachableFromHead gr dh = .ok R ∧ (∀ x, x ∈ R ↔ gr.Reach dh x) ∧
      (gr.Reach dh bh → b.isMerged = true ∧ b.behindDefaultCount = 0 ∧
        getMergeCommit gr R bh = .ok b.mergeCommit) ∧
      (¬ gr.Reach dh bh → b.isMerged = false ∧ b.mergeCommit = [] ∧
        (b.branchedFromCommits = [] → b.behindDefaultCount = 0) ∧
        (b.branchedFromCommits ≠ [] → behindBranch gr R bh dh = .ok b.behindDefaultCount)) := by
  obtain ⟨R, hR, hRnd, hRm⟩ := newReachable_spec gr dh
  unfold runBranch at hb
  rw [hR] at hb
  simp only [bind, Except.bind] at hb
  unfold processBranch at hb
  split at hb
  · cases hb
  simp only [bind, Except.bind] at hb
  obtain ⟨cs, bf, hbc, hcs1, hcs2, hcs3, hcs4, hcs5, hbf1, hbf2, hbf3⟩ : ∃ cs bf,
      branchCommits gr dh R bh perm = .ok (cs, bf) ∧ BranchSet gr dh bh cs bf := by
    cases hbc : branchCommits gr dh R bh perm with
    | error e => rw [hbc] at hb; cases hb
    | ok r => exact ⟨r.1, r.2, rfl, branchCommits_spec hac hperm hRm hbc⟩
  rw [hbc] at hb
  simp only at hb
  by_cases hm : bh ∈ R
  · rw [if_pos hm] at hb
    have hmr := (hRm bh).1 hm
    cases hg : getMergeCommit gr R bh with
    | error e => rw [hg] at hb; cases hb
    | ok mc =>
      rw [hg] at hb
      simp only [pure, Except.pure] at hb
      cases cs with
      | nil => cases hb
      | cons c0 cs =>
        simp only [Except.ok.injEq, Option.some.injEq] at hb
        subst hb
        refine ⟨rfl, rfl, rfl, rfl, hcs1, hcs2, hcs3, hcs4, hcs5, hbf1, hbf2, hbf3, rfl, rfl, rfl, R, hR, hRm, ?_, ?_⟩
        · intro _; exact ⟨rfl, rfl, hg⟩
        · intro h; exact absurd hmr h
  · rw [if_neg hm] at hb
    have hmr : ¬ gr.Reach dh bh := fun h => hm ((hRm bh).2 h)
    by_cases hlen : bf.length ≥ 1
    · rw [if_pos hlen] at hb
      cases hg : behindBranch gr R bh dh with
      | error e => rw [hg] at hb; cases hb
      | ok k =>
        rw [hg] at hb
        simp only [pure, Except.pure] at hb
        cases cs with
        | nil => cases hb
        | cons c0 cs =>
          simp only [Except.ok.injEq, Option.some.injEq] at hb
          subst hb
          refine ⟨rfl, rfl, rfl, rfl, hcs1, hcs2, hcs3, hcs4, hcs5, hbf1, hbf2, hbf3, rfl, rfl, rfl, R, hR, hRm, ?_, ?_⟩
          · intro h; exact absurd h hmr
          · intro _
            refine ⟨rfl, rfl, ?_, fun _ => hg⟩
            intro h
            simp only at h
            subst h; simp at hlen
    · rw [if_neg hlen] at hb
      simp only [pure, Except.pure] at hb
      have hbf : bf = [] := by cases bf with
        | nil => rfl
        | cons _ _ => simp at hlen
      cases cs with
      | nil => cases hb
      | cons c0 cs =>
        simp only [Except.ok.injEq, Option.some.injEq] at hb
        subst hb
        refine ⟨rfl, rfl, rfl, rfl, hcs1, hcs2, hcs3, hcs4, hcs5, hbf1, hbf2, hbf3, rfl, rfl, rfl, R, hR, hRm, ?_, ?_⟩
        · intro h; exact absurd h hmr
        · intro _
          exact ⟨rfl, rfl, fun _ => rfl, fun h => absurd hbf h⟩

/-- The walk visits exactly the ancestors not reachable around the branch. -/
theorem branch_mem {gr : Graph} {bh dh : Str} (hac : gr.Acyclic) (x : Str) :
    ReflTransGen (fun a c => gr.Parent a c ∧ ¬ gr.ReachWithout bh dh c) bh x ↔
      x = bh ∨ (gr.Anc bh x ∧ ¬ gr.ReachWithout bh dh x) := by
  constructor
  · intro h
    rcases ReflTransGen.cases_tail h with h | ⟨y, hy, hs⟩
    · exact Or.inl h
    · refine Or.inr ⟨?_, hs.2⟩
      exact TransGen.tail' (rtg_mono (fun a b h => h.1) hy) hs.1
  · rintro (rfl | ⟨h, hn⟩)
    · exact ReflTransGen.refl
    · -- every node on the path is outside the set
      have aux : ∀ y, gr.Anc bh y → gr.Reach y x → 
          ReflTransGen (fun a c => gr.Parent a c ∧ ¬ gr.ReachWithout bh dh c) bh y := by
        intro y hy
        induction hy with
        | single hp =>
          intro hyx
          refine ReflTransGen.single ⟨hp, fun hc => hn ?_⟩
          exact reachWithout_ext hac (TransGen.single hp) hc hyx
        | @tail y z hy hp ih =>
          intro hzx
          refine ReflTransGen.tail (ih (ReflTransGen.head hp hzx)) ⟨hp, fun hc => hn ?_⟩
          exact reachWithout_ext hac (TransGen.tail hy hp) hc hzx
      exact aux x h ReflTransGen.refl
where
  reachWithout_ext {gr : Graph} {bh dh : Str} (hac : gr.Acyclic) {y x : Str} (hy : gr.Anc bh y)
      (hc : gr.ReachWithout bh dh y) (hyx : gr.Reach y x) : gr.ReachWithout bh dh x := by
    induction hyx with
    | refl => exact hc
    | @tail z w hz hp ih =>
      refine ReflTransGen.tail ih ⟨fun hzb => ?_, hp⟩
      subst hzb
      exact hac z (TransGen.trans_left hy hz)

end Ripsrc
