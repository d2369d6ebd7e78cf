import Verif.Lib.Pool
import Verif.Lib.PoolErr
import Verif.Props.Branches
/-!
# C22: `Branches` with its worker pool
-/
namespace Ripsrc
open Conc

section
variable {p : Pool} {d : Option Branch} {dh : Str} {reach : List Str} {items : List (Str × Str)}

theorem sum_zero : ∀ (l : List Nat), (∀ x ∈ l, x = 0) → l.sum = 0
  | [], _ => rfl
  | a :: l, h => by rw [List.sum_cons, h a (by simp), sum_zero l (fun x hx => h x (by simp [hx]))]

theorem deliveredB_set (s : State BRole BChan BLoc) (r : BRole) (l : BLoc) (h : r ≠ .collect) : deliveredB (s.set r l) = deliveredB s := by
  unfold deliveredB; rw [set_procs, if_neg (Ne.symm h)]

/-- The invariant holds in all states of a run; the length of the run is bounded; records are conserved. -/
theorem poolRun (hpl : Plan p d dh reach items) {m : Nat} {u : State BRole BChan BLoc} (hst : Steps p.act m Pool.init u) :
    (∃ a, PoolInv p d dh reach items u a) ∧ m + total p (BLoc.measure p items) u ≤ total p (BLoc.measure p items) Pool.init ∧
    (∀ b, total p (BLoc.holds p d dh reach items b) u = total p (BLoc.holds p d dh reach items b) Pool.init) := by
  have gen : ∀ {k : Nat} {s t : State BRole BChan BLoc}, Steps p.act k s t → ∀ a, PoolInv p d dh reach items s a →
      (∃ a, PoolInv p d dh reach items t a) ∧ k + total p (BLoc.measure p items) t ≤ total p (BLoc.measure p items) s ∧
      (∀ b, total p (BLoc.holds p d dh reach items b) t = total p (BLoc.holds p d dh reach items b) s) := by
    intro k s t h
    induction h with
    | refl => intro a ha; exact ⟨⟨a, ha⟩, by omega, fun _ => rfl⟩
    | cons h1 _ ih =>
      intro a ha
      have hb := bstep hpl ha.placed ha.good ⟨ha.cFwd, ha.cCol⟩ h1
      obtain ⟨a', ha'⟩ := ha.step hb
      obtain ⟨g1, g2, g3⟩ := ih a' ha'
      have := measure_step ha hb
      exact ⟨g1, by omega, fun b => (g3 b).trans (holds_step b ha hb)⟩
  exact gen hst _ poolInv_init

/-- The caller does not go back. -/
theorem stage_mono {s t : State BRole BChan BLoc} {a a' : BLoc} (h : PoolInv p d dh reach items s a) (h' : PoolInv p d dh reach items t a')
    (hst : BStep p d dh reach items s t) : a.stage ≤ a'.stage := by
  have hc := h.caller
  have hc' := h'.caller
  cases hst <;> simp only [set_procs, shut_procs, reduceCtorEq, if_false, if_true, Option.some.injEq, hc] at * <;>
    first
    | (subst_vars; simp [BLoc.stage]; done)
    | simp_all [BLoc.stage]

/-- The record of the default branch, if there is one, is the first of the stream. -/
theorem stream_first {b0 : Branch} (hpl : Plan p (some b0) dh reach items) {m : Nat} {u : State BRole BChan BLoc} (hst : Steps p.act m Pool.init u) :
    stream u = [] ∨ (stream u).head? = some b0 := by
  have gen : ∀ {k : Nat} {s t : State BRole BChan BLoc}, Steps p.act k s t → ∀ a, PoolInv p (some b0) dh reach items s a →
      ((a.stage ≤ 3 ∧ stream s = []) ∨ (4 ≤ a.stage ∧ (stream s).head? = some b0)) → stream t = [] ∨ (stream t).head? = some b0 := by
    intro k s t h
    induction h with
    | refl => intro a _ hs; rcases hs with h | h; exact .inl h.2; exact .inr h.2
    | cons h1 _ ih =>
      rename_i n s t u _
      intro a ha hs
      have hb := bstep hpl ha.placed ha.good ⟨ha.cFwd, ha.cCol⟩ h1
      obtain ⟨a', ha'⟩ := ha.step hb
      refine ih a' ha' ?_
      have hstream := stream_step ha hb
      have hc := ha.caller
      have hc' := ha'.caller
      have hmono := stage_mono ha ha' hb
      rcases hs with ⟨h3, hnil⟩ | ⟨h4, hh⟩
      · have hw : ∀ i l, s.procs (.worker i) = some l → False := by
          intro i l hl
          have := (ha.workerS i).2
          rw [hl] at this
          have h0 : a.spawned p = 0 := by cases a <;> simp [BLoc.stage] at h3 <;> rfl
          exact absurd (this (by omega)) (by simp)
        have hfe : ∀ l, s.procs .feeder = some l → False := by
          intro l hl
          have := ha.feederS.2 (by omega)
          rw [hl] at this; cases this
        cases hb with
        | goCollect q1 q2 =>
          rw [set_procs, if_pos rfl] at hc'; cases hc'
          refine .inl ⟨by simp [BLoc.stage], ?_⟩
          have hn := ha.fwdS.2 (by rw [hc] at q1; cases q1; simp [BLoc.stage])
          simp [stream, deliveredB, set_procs, optOut, BLoc.out, hn]
        | goFwd q1 q2 =>
          rw [set_procs, if_pos rfl] at hc'; cases hc'
          refine .inl ⟨by simp [BLoc.stage], ?_⟩
          have e : stream s = optOut (s.procs .collect) := by unfold stream deliveredB; rw [q2]; exact List.append_nil _
          rw [e] at hnil
          show optOut (s.procs .collect) ++ [] = []
          rw [hnil]; rfl
        | run1 q1 q2 =>
          rw [set_procs, if_pos rfl] at hc'; cases hc'
          refine .inl ⟨by simp [BLoc.stage], ?_⟩
          simpa [stream, deliveredB, set_procs] using hnil
        | run2 q1 q2 => cases q2
        | sendDefault q1 q2 q3 q4 =>
          rw [set_procs, if_neg (by decide), set_procs, if_pos rfl] at hc'; cases hc'
          cases q2
          refine .inr ⟨by simp [BLoc.stage], ?_⟩
          have e : stream s = optOut (s.procs .collect) := by unfold stream deliveredB; rw [q3]; exact List.append_nil _
          rw [e] at hnil
          show (optOut (s.procs .collect) ++ [b0]).head? = some b0
          rw [hnil]; rfl
        | work q1 => rw [hc] at q1; cases q1; simp [BLoc.stage] at h3
        | goFeeder q1 q2 => rw [hc] at q1; cases q1; simp [BLoc.stage] at h3
        | goWorker q1 q2 => rw [hc] at q1; cases q1; simp [BLoc.stage] at h3
        | wait q1 q2 => rw [hc] at q1; cases q1; simp [BLoc.stage] at h3
        | closeRes2 q1 q2 => rw [hc] at q1; cases q1; simp [BLoc.stage] at h3
        | joinFwd q1 q2 => rw [hc] at q1; cases q1; simp [BLoc.stage] at h3
        | closeRes q1 q2 => rw [hc] at q1; cases q1; simp [BLoc.stage] at h3
        | joinCollect q1 q2 => rw [hc] at q1; cases q1; simp [BLoc.stage] at h3
        | feed q1 => exact (hfe _ q1).elim
        | feedClose q1 => exact (hfe _ q1).elim
        | workEnd q1 => exact (hw _ _ q1).elim
        | emit q1 => exact (hw _ _ q1).elim
        | fwdDone q1 q2 => have := ha.cRes2.1 q2; omega
        | fwdSend q1 => simp [stream, q1, optOut, BLoc.out] at hnil
        | collectEnd q1 q2 => have := ha.cRes.1 q2; omega
      · refine .inr ⟨by omega, ?_⟩
        rcases hstream with h | ⟨b, h⟩ <;> rw [h]
        · exact hh
        · rw [List.head?_append, hh]; rfl
  refine gen hst _ poolInv_init (.inl ⟨by simp [BLoc.stage], ?_⟩)
  simp [stream, deliveredB, Pool.init, optOut]

/-- What the caller returns is what the collector has collected. -/
theorem returned_step {s t : State BRole BChan BLoc} {a : BLoc} (h : PoolInv p d dh reach items s a)
    (hst : BStep p d dh reach items s t) (hs : ∀ got, s.procs .caller = some (.returned none got) → s.procs .collect = some (.collected got)) :
    ∀ got, t.procs .caller = some (.returned none got) → t.procs .collect = some (.collected got) := by
  intro got hgot
  cases hst with
  | joinCollect q1 q2 =>
    simp only [set_procs, reduceCtorEq, if_false, if_true, Option.some.injEq, BLoc.returned.injEq] at hgot ⊢
    rw [hgot.2]
  | fwdSend q1 q2 q3 =>
    simp only [set_procs, reduceCtorEq, if_false] at hgot
    rw [hs got hgot] at q2; cases q2
  | collectEnd q1 q2 =>
    simp only [set_procs, reduceCtorEq, if_false] at hgot
    rw [hs got hgot] at q1; cases q1
  | _ => simp only [set_procs, shut_procs, reduceCtorEq, if_false, if_true, Option.some.injEq] at hgot ⊢ <;> exact hs got hgot

theorem returned_collected (hpl : Plan p d dh reach items) {m : Nat} {u : State BRole BChan BLoc} (hst : Steps p.act m Pool.init u) :
    ∀ got, u.procs .caller = some (.returned none got) → u.procs .collect = some (.collected got) := by
  have gen : ∀ {k : Nat} {s t : State BRole BChan BLoc}, Steps p.act k s t → ∀ a, PoolInv p d dh reach items s a →
      (∀ got, s.procs .caller = some (.returned none got) → s.procs .collect = some (.collected got)) →
      ∀ got, t.procs .caller = some (.returned none got) → t.procs .collect = some (.collected got) := by
    intro k s t h
    induction h with
    | refl => intro _ _ h; exact h
    | cons h1 _ ih =>
      intro a ha hs
      have hb := bstep hpl ha.placed ha.good ⟨ha.cFwd, ha.cCol⟩ h1
      obtain ⟨a', ha'⟩ := ha.step hb
      exact ih a' ha' (returned_step ha hb hs)
  exact gen hst _ poolInv_init (by intro got h; simp [Pool.init] at h)

/-- The end of a run. -/
theorem poolEnd (hpl : Plan p d dh reach items) {m : Nat} {u : State BRole BChan BLoc} (hst : Steps p.act m Pool.init u) (hs : Stuck p.act u) :
    AllReturned p.act u ∧ ∃ bs, u.procs .caller = some (.returned none bs) ∧ bs.Perm (p.expected d dh reach items) ∧ (∀ b, d = some b → bs.head? = some b) := by
  obtain ⟨⟨a, ha⟩, _, hb⟩ := poolRun hpl hst
  obtain ⟨got, rfl⟩ := ha.progress hpl hs
  have hcol := returned_collected hpl hst got ha.caller
  have hfwd := ha.fEnd.2 (by simp [BLoc.stage])
  have hperm : got.Perm (p.expected d dh reach items) := by
    rw [List.perm_iff_count]
    intro b
    have hb := hb b
    have hw := ha.ended (by simp [BLoc.stage])
    have e1 : total p (BLoc.holds p d dh reach items b) u = got.count b := by
      unfold total bRoles
      rw [List.map_append, List.sum_append]
      have e2 : ((List.map BRole.worker (List.range p.workers)).map fun r => opt (BLoc.holds p d dh reach items b) (u.procs r)).sum = 0 := by
        rw [List.map_map, sum_zero]
        intro x hx
        obtain ⟨i, hi, rfl⟩ := List.mem_map.1 hx
        simp only [Function.comp]
        rw [hw i (List.mem_range.1 hi)]; rfl
      rw [e2]
      simp only [List.map_cons, List.map_nil, List.sum_cons, List.sum_nil]
      rw [ha.caller, hcol, hfwd, ha.wEnd 0 (hw 0 hpl.workers)]
      simp [opt, BLoc.holds]
    have e3 : total p (BLoc.holds p d dh reach items b) Pool.init = (p.expected d dh reach items).count b := by
      unfold total bRoles
      rw [List.map_append, List.sum_append]
      have e2 : ((List.map BRole.worker (List.range p.workers)).map fun r => opt (BLoc.holds p d dh reach items b) (Pool.init.procs r)).sum = 0 := by
        rw [List.map_map, sum_zero]
        intro x hx
        obtain ⟨i, hi, rfl⟩ := List.mem_map.1 hx
        simp [Pool.init, opt]
      rw [e2]
      simp [Pool.init, opt, BLoc.holds]
    omega
  refine ⟨ha.all_returned hpl, got, ha.caller, hperm, ?_⟩
  intro b hd
  subst hd
  have hst' : stream u = got := by unfold stream deliveredB; rw [hcol, hfwd]; exact List.append_nil _
  rcases stream_first hpl hst with h | h
  · rw [hst'] at h
    subst h
    have := hperm.length_eq
    simp [Pool.expected] at this
  · rw [hst'] at h; exact h

/-- Every run can be continued to its end. -/
theorem poolEnds (hpl : Plan p d dh reach items) {m : Nat} {u : State BRole BChan BLoc} (hst : Steps p.act m Pool.init u) :
    ∃ k v, Steps p.act k u v ∧ Stuck p.act v := by
  have key : ∀ n m (u : State BRole BChan BLoc), Steps p.act m Pool.init u → total p (BLoc.measure p items) Pool.init ≤ m + n →
      ∃ k v, Steps p.act k u v ∧ Stuck p.act v := by
    intro n
    induction n with
    | zero =>
      intro m u h hle
      refine ⟨0, u, .refl, fun t ht => ?_⟩
      have := (poolRun hpl (h.snoc ht)).2.1
      omega
    | succ n ih =>
      intro m u h hle
      by_cases hs : Stuck p.act u
      · exact ⟨0, u, .refl, hs⟩
      · have : ∃ t, Conc.Step p.act u t := Classical.byContradiction fun hno => hs fun t ht => hno ⟨t, ht⟩
        obtain ⟨t, ht⟩ := this
        obtain ⟨k, v, h1, h2⟩ := ih (m + 1) t (h.snoc ht) (by omega)
        exact ⟨k + 1, v, .cons ht h1, h2⟩
  exact key _ m u hst (Nat.le_add_left _ _)

/-- `processBranch` with the reachable set of `Run` is `runBranch`. -/
theorem runBranch_eq {sha : Str → Str} {gr : Graph} {dh : Str} {R : List Str} (hR : newReachableFromHead gr dh = .ok R) (perm : List Str → List Str) (name bh : Str) :
    runBranch sha gr dh perm name bh = processBranch sha gr dh R perm name bh := by
  unfold runBranch; rw [hR]; rfl

/-- The identity of a branch for a user: name (empty for a pull request) and head. -/
def Branch.key (b : Branch) : Str × Str := (b.name, b.headSHA)

theorem map_filterMap_key {f : Str × Str → Option Branch} {g : Str × Str → Bool} : ∀ {l : List (Str × Str)},
    (∀ x ∈ l, (g x = true ∧ ∃ b, f x = some b ∧ b.key = x) ∨ (g x = false ∧ f x = none)) → (l.filterMap f).map Branch.key = l.filter g
  | [], _ => rfl
  | x :: l, h => by
    have ih := map_filterMap_key (f := f) (g := g) (l := l) (fun y hy => h y (by simp [hy]))
    rcases h x (by simp) with ⟨h1, b, h2, h3⟩ | ⟨h1, h2⟩
    · rw [List.filterMap_cons, h2, List.filter_cons, if_pos h1, List.map_cons, h3, ih]
    · rw [List.filterMap_cons, h2, List.filter_cons, if_neg (by simp [h1]), ih]

/-- **C22.** `BranchesSlice` (with its collector, the forwarder of `Branches`, the feeder and the workers, any number of them) over a complete acyclic graph, whatever the
schedule, the iteration orders of the maps and the options: all runs are finite, no goroutine panics (no send on or close of a closed channel), the only states without a next step
are those where all goroutines have returned, and there the caller has got exactly one record per branch (none with `PullRequestsOnly`), one per distinct known pull request, and
that of the default branch, which comes first (if it is wanted). -/
theorem C22_worker_pool (p : Pool) {parents : GoMap Str (List Str)} (hwf : parents.WF) {order : List (Str × List Str)} (horder : order.Perm parents)
    (hg : p.graph = Graph.newFromMap parents order) (hac : p.graph.Acyclic) (hcomp : p.graph.Complete)
    (hperms : ∀ x s, (p.perms x s).Perm s) (hpr : ∀ s, (p.prOrder s).Perm s)
    {name dh first : Str} {branches : List (Str × Str)}
    (hpre : p.pre = none) (hdef : p.getDefault = .ok (name, dh)) (hfirst : p.prOnly = false → p.includeDefault = true → p.firstCommit = .ok first)
    (hnames : p.prOnly = false → p.names = .ok branches) (honly : p.prOnly = true → branches = [])
    (hkd : p.graph.Known dh) (hkb : ∀ x ∈ branches, p.graph.Known x.2) (hworkers : 1 ≤ p.concurrency ∨ p.concurrency = 0 ∧ 1 ≤ p.numCPU) :
    (∃ N, ∀ m u, Steps p.act m Pool.init u → m ≤ N) ∧
    ∀ m u, Steps p.act m Pool.init u →
      ¬ Crashed p.act u ∧
      (∃ k v, Steps p.act k u v ∧ Stuck p.act v) ∧
      (Stuck p.act u → AllReturned p.act u ∧ ∃ cs ds bs, u.procs .caller = some (.returned none (ds ++ bs)) ∧
        getAllCommits p.graph dh = .ok cs ∧
        ds = (if p.prOnly = false ∧ p.includeDefault = true then
          [{ branchID := branchID p.sha name [], name := name, headSHA := dh, isDefault := true, commits := cs, firstCommit := first }] else []) ∧
        (∃ prs : List Str, prs.Nodup ∧ (∀ s, s ∈ prs ↔ s ∈ p.prs ∧ p.graph.Known s) ∧ (bs.map Branch.key).Perm (branches ++ prs.map (fun s => ([], s)))) ∧
        ∀ b ∈ bs, ∀ perm : List Str → List Str, (∀ s, (perm s).Perm s) → runBranch p.sha p.graph dh perm b.name b.headSHA = .ok (some b)) := by
  have hreach : ∀ x, p.graph.Reach dh x → p.graph.Known x := by
    intro y hxy
    induction hxy with
    | refl => exact hkd
    | tail _ hp _ => exact hcomp _ _ hp
  obtain ⟨cs, hcs⟩ := (C14_default_branch p.graph dh).2.1.2 hreach
  obtain ⟨R, hR, _, _⟩ := newReachable_spec p.graph dh
  have hw : 0 < p.workers := by
    unfold Pool.workers
    split <;> omega
  generalize hd0 : ({ branchID := branchID p.sha name [], name := name, headSHA := dh, isDefault := true, commits := cs, firstCommit := first } : Branch) = d0
  generalize hit : branches ++ (uniqueStrings p.prOrder p.prs).map (fun s => (([] : Str), s)) = items
  have hrec : ∀ x ∈ items, (p.graph.Known x.2 ∧ ∃ b, processBranch p.sha p.graph dh R (p.perms x) x.1 x.2 = .ok (some b)) ∨
      (x.1 = [] ∧ ¬ p.graph.Known x.2 ∧ processBranch p.sha p.graph dh R (p.perms x) x.1 x.2 = .ok none) := by
    intro x hx
    by_cases hk : p.graph.Known x.2
    · left
      refine ⟨hk, ?_⟩
      rw [← runBranch_eq hR, hg]
      exact C21_succeeds p.sha hwf horder dh x.1 x.2 (hg ▸ hac) (hg ▸ hcomp) (hperms x) (hg ▸ hk) (hg ▸ hkd)
    · right
      have h0 : x.1 = [] := by
        rw [← hit] at hx
        rcases List.mem_append.1 hx with h | h
        · exact absurd (hkb x h) hk
        · obtain ⟨s, _, rfl⟩ := List.mem_map.1 h; rfl
      refine ⟨h0, hk, ?_⟩
      rw [← runBranch_eq hR, h0]
      exact C21_unknown_pr p.sha p.graph dh x.2 (p.perms x) hk
  have hpl : Plan p (if p.prOnly = false ∧ p.includeDefault = true then some d0 else none) dh R items := by
    refine ⟨hpre, ?_, ?_, ?_, hw⟩
    · by_cases hc : p.prOnly = false ∧ p.includeDefault = true
      · simp only [Pool.onRun, hdef, hfirst hc.1 hc.2, hc, Pool.defaultRecord, hcs, bind, Except.bind, and_self, if_true, hd0]
      · simp only [Pool.onRun, hdef, if_neg hc]
    · cases ho : p.prOnly with
      | false => simp only [Pool.onWork, hR, hnames ho, ho, Bool.false_eq_true, if_false, hit]
      | true =>
        rw [honly ho] at hit
        simp only [Pool.onWork, hR, ho, if_true, hit]
    · intro x hx
      rcases hrec x hx with ⟨_, b, h⟩ | ⟨_, _, h⟩
      · exact ⟨_, h⟩
      · exact ⟨_, h⟩
  refine ⟨⟨_, fun m u h => Nat.le_trans (Nat.le_add_right m _) (poolRun hpl h).2.1⟩, ?_⟩
  intro m u hst
  obtain ⟨⟨a, ha⟩, _, _⟩ := poolRun hpl hst
  refine ⟨ha.not_crashed hpl, poolEnds hpl hst, fun hs => ?_⟩
  obtain ⟨hall, bs, hbs, hperm, hhead⟩ := poolEnd hpl hst hs
  refine ⟨hall, ?_⟩
  have hsplit : ∃ bs', bs = (if p.prOnly = false ∧ p.includeDefault = true then [d0] else []) ++ bs' ∧ bs'.Perm (items.filterMap (p.recordOf dh R)) := by
    by_cases hc : p.prOnly = false ∧ p.includeDefault = true
    · simp only [if_pos hc] at hperm hhead ⊢
      have hh := hhead d0 rfl
      cases bs with
      | nil => cases hh
      | cons b bs => cases hh; exact ⟨bs, rfl, (List.perm_cons _).1 hperm⟩
    · simp only [if_neg hc] at hperm hhead ⊢
      exact ⟨bs, rfl, hperm⟩
  clear hperm hhead
  obtain ⟨bs', rfl, hperm⟩ := hsplit
  refine ⟨cs, _, bs', hbs, hcs, by rw [hd0], ?_, ?_⟩
  · refine ⟨(uniqueStrings p.prOrder p.prs).filter (fun s => (p.graph.parents.get s).isSome), ?_, ?_, ?_⟩
    · exact ((hpr _).nodup_iff.2 (nodup_toSet p.prs)).filter _
    · intro s
      rw [List.mem_filter]
      unfold uniqueStrings Graph.Known
      rw [(hpr _).mem_iff, mem_toSet]
    · have e := map_filterMap_key (f := p.recordOf dh R) (g := fun x => (p.graph.parents.get x.2).isSome) (l := items) (by
        intro x hx
        rcases hrec x hx with ⟨hk, b', hb'⟩ | ⟨_, hk, hb'⟩
        · left
          refine ⟨hk, b', by unfold Pool.recordOf; rw [hb'], ?_⟩
          rw [← runBranch_eq hR] at hb'
          have := C21_record hac (hperms x) hb'
          exact Prod.ext this.1 this.2.1
        · exact .inr ⟨by simpa [Graph.Known] using hk, by unfold Pool.recordOf; rw [hb']⟩)
      have e2 : items.filter (fun x => (p.graph.parents.get x.2).isSome) =
          branches ++ ((uniqueStrings p.prOrder p.prs).filter (fun s => (p.graph.parents.get s).isSome)).map (fun s => (([] : Str), s)) := by
        rw [← hit, List.filter_append, List.filter_map]
        congr 1
        exact List.filter_eq_self.2 (fun x hx => hkb x hx)
      rw [← e2, ← e]
      exact hperm.map _
  · intro b' hb' perm hp
    obtain ⟨x, hx, hxb⟩ := List.mem_filterMap.1 (hperm.mem_iff.1 hb')
    have hrun : runBranch p.sha p.graph dh (p.perms x) x.1 x.2 = .ok (some b') := by
      rw [runBranch_eq hR]
      unfold Pool.recordOf at hxb
      split at hxb
      · rename_i o ho; rw [ho, hxb]
      · cases hxb
    have hr := C21_record hac (hperms x) hrun
    rw [C17_order_independent p.sha p.graph dh b'.name b'.headSHA perm (p.perms x) hp (hperms x), hr.1, hr.2.1]
    exact hrun
end

/-- A user's call with two branches, a pull request given twice and one that is not in the repository. -/
def exPool (c : Int) : Pool where
  getDefault := .ok (b!"master", b!"m3")
  firstCommit := .ok b!"m1"
  names := .ok [(b!"br", b!"b2"), (b!"old", b!"m2")]
  prs := [b!"b1", b!"gone", b!"b1"]
  concurrency := c
  numCPU := 4
  graph := exGraph
  sha := id
  prOrder := List.reverse
  perms := fun _ => id

theorem exGraph_complete : exGraph.Complete := by
  intro c q hq
  unfold Graph.Parent Graph.parentsOf at hq
  cases hg : exGraph.parents.get c with
  | none => simp [hg] at hq
  | some ps =>
    simp only [hg, Option.getD_some] at hq
    have := GoMap.mem_of_get hg
    have key : ∀ e ∈ exGraph.parents, ∀ q ∈ e.2, (exGraph.parents.get q).isSome := by decide
    exact key _ this _ hq

/-- The hypotheses of C22 are met, for the default number of workers and for every positive one; the call ends with four records. -/
example (c : Int) (hc : 0 ≤ c) : ∃ m u bs, Steps (exPool c).act m Pool.init u ∧ Stuck (exPool c).act u ∧ u.procs .caller = some (.returned none bs) ∧
    bs.length = 4 := by
  have h := C22_worker_pool (exPool c) (parents := [(b!"m1", []), (b!"m2", [b!"m1"]), (b!"m3", [b!"m2"]), (b!"b1", [b!"m1"]), (b!"b2", [b!"b1"])])
    (by decide) (List.Perm.refl _) rfl exGraph_acyclic exGraph_complete (fun _ _ => List.Perm.refl _) (fun s => List.reverse_perm s)
    (name := b!"master") (dh := b!"m3") (first := b!"m1") (branches := [(b!"br", b!"b2"), (b!"old", b!"m2")]) rfl rfl (fun _ _ => rfl) (fun _ => rfl) (by simp [exPool])
    (show exGraph.Known b!"m3" by unfold Graph.Known; decide)
    (show ∀ x ∈ [(b!"br", b!"b2"), (b!"old", b!"m2")], exGraph.Known x.2 by unfold Graph.Known; decide) (by simp only [exPool]; omega)
  obtain ⟨k, v, hv, hs⟩ := (h.2 0 _ .refl).2.1
  obtain ⟨_, cs, d, bs, h1, _, hd, ⟨prs, hnd, hm, hp⟩, _⟩ := (h.2 k v hv).2.2 hs
  refine ⟨k, v, d ++ bs, hv, hs, h1, ?_⟩
  rw [if_pos ⟨rfl, rfl⟩] at hd
  have hprs : prs.Perm [b!"b1"] := by
    rw [List.perm_ext_iff_of_nodup hnd (by simp)]
    intro s
    rw [hm]
    show s ∈ [b!"b1", b!"gone", b!"b1"] ∧ exGraph.Known s ↔ _
    have h1 : exGraph.Known b!"b1" := by unfold Graph.Known; decide
    have h2 : ¬ exGraph.Known b!"gone" := by unfold Graph.Known; decide
    constructor
    · rintro ⟨h3, h4⟩
      simp only [List.mem_cons, List.not_mem_nil, or_false] at h3 ⊢
      rcases h3 with rfl | rfl | rfl
      · rfl
      · exact absurd h4 h2
      · rfl
    · intro h3
      simp only [List.mem_cons, List.not_mem_nil, or_false] at h3
      subst h3
      exact ⟨by simp, h1⟩
  have := hp.length_eq
  simp [hprs.length_eq] at this
  simp [this, hd]

/-- With `PullRequestsOnly` there are neither the default branch nor the other branches, only the pull request that is known. -/
example (c : Int) (hc : 0 ≤ c) (names : Go (List (Str × Str))) (first : Go Str) : ∀ m u,
    Steps { exPool c with prOnly := true, names := names, firstCommit := first }.act m Pool.init u → Stuck { exPool c with prOnly := true, names := names, firstCommit := first }.act u →
    ∃ bs, u.procs .caller = some (.returned none bs) ∧ bs.map Branch.key = [([], b!"b1")] := by
  intro m u hu hs
  have h := C22_worker_pool { exPool c with prOnly := true, names := names, firstCommit := first }
    (parents := [(b!"m1", []), (b!"m2", [b!"m1"]), (b!"m3", [b!"m2"]), (b!"b1", [b!"m1"]), (b!"b2", [b!"b1"])])
    (by decide) (List.Perm.refl _) rfl exGraph_acyclic exGraph_complete (fun _ _ => List.Perm.refl _) (fun s => List.reverse_perm s)
    (name := b!"master") (dh := b!"m3") (first := b!"m1") (branches := []) rfl rfl (fun h => by cases h) (fun h => by cases h) (fun _ => rfl)
    (show exGraph.Known b!"m3" by unfold Graph.Known; decide)
    (by simp) (by simp only [exPool]; omega)
  obtain ⟨_, cs, d, bs, h1, _, hd, ⟨prs, hnd, hm, hp⟩, _⟩ := (h.2 m u hu).2.2 hs
  rw [if_neg (by simp)] at hd
  subst hd
  refine ⟨bs, h1, ?_⟩
  have h2 : exGraph.Known b!"b1" := by unfold Graph.Known; decide
  have h3 : ¬ exGraph.Known b!"gone" := by unfold Graph.Known; decide
  have hprs : prs.Perm [b!"b1"] := by
    rw [List.perm_ext_iff_of_nodup hnd (by simp)]
    intro s
    rw [hm]
    show s ∈ [b!"b1", b!"gone", b!"b1"] ∧ exGraph.Known s ↔ _
    constructor
    · rintro ⟨h4, h5⟩
      simp only [List.mem_cons, List.not_mem_nil, or_false] at h4 ⊢
      rcases h4 with rfl | rfl | rfl
      · rfl
      · exact absurd h5 h3
      · rfl
    · intro h4
      simp only [List.mem_cons, List.not_mem_nil, or_false] at h4
      subst h4
      exact ⟨by simp, h2⟩
  have := List.perm_singleton.1 hprs
  subst this
  exact List.perm_singleton.1 hp

/-- When a call fails with `e` (not by a panic), and what it has emitted before: `Branches` cannot prepare (git, the commit graph); the default branch is unknown; the first commit
is unknown; the branches cannot be listed. -/
inductive CallFails (p : Pool) : Fault → List Branch → Prop where
  | prepare {w} : p.pre = some (.error w) → CallFails p (.error w) []
  | default {w} : p.pre = none → p.getDefault = .error (.error w) → CallFails p (.error w) []
  | first {w name dh} : p.pre = none → p.getDefault = .ok (name, dh) → p.prOnly = false → p.includeDefault = true → p.firstCommit = .error (.error w) → CallFails p (.error w) []
  | namesOnly {w name dh} : p.pre = none → p.getDefault = .ok (name, dh) → p.prOnly = false → p.includeDefault = false → p.names = .error (.error w) → CallFails p (.error w) []
  | names {w name dh first cs} : p.pre = none → p.getDefault = .ok (name, dh) → p.prOnly = false → p.includeDefault = true → p.firstCommit = .ok first →
      getAllCommits p.graph dh = .ok cs → p.names = .error (.error w) →
      CallFails p (.error w) [{ branchID := branchID p.sha name [], name := name, headSHA := dh, isDefault := true, commits := cs, firstCommit := first }]

/-- **C22, errors.** When `Branches` fails before its workers start, whatever the schedule: at most twelve steps, no panic, no deadlock, no goroutine is left behind, and the caller gets
the error, together with the records emitted before (none, or that of the default branch). -/
theorem C22_error (p : Pool) {e : Fault} {ds : List Branch} (hf : CallFails p e ds) :
    ∀ m u, Steps p.act m Pool.init u →
      m ≤ 12 ∧ ¬ Crashed p.act u ∧
      (∃ k v, Steps p.act k u v ∧ Stuck p.act v) ∧
      (Stuck p.act u → AllReturned p.act u ∧ u.procs .caller = some (.returned (some e) ds)) := by
  have hf' : FailsWith p e ds := by
    cases hf with
    | prepare h => exact .pre h rfl
    | default h h2 => exact .run h (by simp only [Pool.onRun, h2, failRun])
    | first h h2 h3 h4 h5 => exact .run h (by simp only [Pool.onRun, h2, h3, h4, and_self, if_true, h5, failRun])
    | @namesOnly w name dh h h2 h3 h4 h5 =>
      obtain ⟨R, hR, _, _⟩ := newReachable_spec p.graph dh
      exact .work0 (dh := dh) h (by simp [Pool.onRun, h2, h3, h4]) (by simp [Pool.onWork, hR, h3, h5, failRun])
    | @names w name dh first cs h h2 h3 h4 h5 h6 h7 =>
      obtain ⟨R, hR, _, _⟩ := newReachable_spec p.graph dh
      exact .work1 (dh := dh) h (by simp [Pool.onRun, h2, h3, h4, h5, Pool.defaultRecord, h6, bind, Except.bind]) (by simp [Pool.onWork, hR, h3, h7, failRun])
  intro m u hu
  rw [ECfg.init] at hu
  obtain ⟨k, y, hk, hy, rfl⟩ := (EOk.a0 (p := p) (e := e) (ds := ds)).steps hf' hu
  refine ⟨by omega, hy.not_crashed, ?_, ?_⟩
  · obtain ⟨k, z, hz, hz2⟩ := hy.ends hf'
    exact ⟨k, _, hz, hz2.final.1.stuck⟩
  · intro hs
    cases k with
    | zero => exact hy.final
    | succ k =>
      obtain ⟨z, hz⟩ := hy.progress hf'
      exact absurd hz.step (hs _)

/-- The branches of the example cannot be listed: the caller gets the record of the default branch and the error. -/
example (c : Int) : ∃ d, CallFails { exPool c with names := .error (.error "git") } (.error "git") [d] ∧ d.name = b!"master" ∧ d.commits = [b!"m1", b!"m2", b!"m3"] :=
  ⟨_, .names (cs := [b!"m1", b!"m2", b!"m3"]) rfl rfl rfl rfl rfl (by rfl) rfl, rfl, rfl⟩

/-- With a negative `Concurrency` there are no workers. -/
theorem workers_zero {p : Pool} (h : p.concurrency < 0) : p.workers = 0 := by
  unfold Pool.workers
  rw [if_neg (by omega)]
  omega

end Ripsrc
