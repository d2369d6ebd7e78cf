import Verif.Spec.Run
/-!
# The commits a run reports, for any log and any graph
-/
namespace Ripsrc

open Spec

theorem regular_commit {env : Env} {n : Nat} {repo : Repo} {hash : Str} {parents changes : List Str} {r : Repo} {res : Result}
    (h : processRegularCommit env n repo hash parents changes = .ok (r, res)) : res.commit = hash := by
  unfold processRegularCommit at h
  split at h
  · cases h
  · cases h1 : changes.foldlM (regularChange env hash parents) (repo.addCommit hash, []) with
    | error e => rw [h1] at h; cases h
    | ok st =>
      rw [h1] at h
      cases parents with
      | nil => cases h; rfl
      | cons p ps =>
        simp only [bind, Except.bind] at h
        split at h
        · cases h
        · split at h
          · cases h
          · cases h; rfl

theorem merge_commit {env : Env} {n : Nat} {repo : Repo} {hash : Str} {parents : List Str} {parts : GoMap Str LogCommit} {r : Repo} {res : Result}
    (h : processMergeCommit env n repo hash parents parts = .ok (r, res)) : res.commit = hash := by
  unfold processMergeCommit at h
  simp only [bind, Except.bind] at h
  split at h
  · cases h
  · split at h
    · cases h
    · split at h
      · cases h
      · split at h
        · cases h
        · cases h; rfl

theorem trimParent_keep (s : Proc) (p : Str) : (s.trimParent p).sent = s.sent ∧ (s.trimParent p).graph = s.graph ∧
    (s.trimParent p).mergeParts = s.mergeParts ∧ (s.trimParent p).mergePartsCommit = s.mergePartsCommit := by
  unfold Proc.trimParent
  simp only
  split <;> exact ⟨rfl, rfl, rfl, rfl⟩

theorem trim_keep (s : Proc) (h : Str) : (s.trim h).sent = s.sent ∧ (s.trim h).graph = s.graph ∧
    (s.trim h).mergeParts = s.mergeParts ∧ (s.trim h).mergePartsCommit = s.mergePartsCommit := by
  unfold Proc.trim
  generalize s.parents h = ps
  induction ps generalizing s with
  | nil => exact ⟨rfl, rfl, rfl, rfl⟩
  | cons p ps ih =>
    obtain ⟨a, b, c, d⟩ := ih (s.trimParent p)
    obtain ⟨a', b', c', d'⟩ := trimParent_keep s p
    exact ⟨a.trans a', b.trans b', c.trans c', d.trans d'⟩

/-- The merge the state is collecting the parts of. -/
def Proc.pending (s : Proc) : Option Str := if s.mergeParts.length > 0 then some s.mergePartsCommit else none

theorem finishMerge_sent {env : Env} {s s' : Proc} (h : s.finishMerge env = .ok s') :
    s'.sent.map (·.commit) = s.sent.map (·.commit) ++ [s.mergePartsCommit] ∧ s'.graph = s.graph ∧ s'.mergeParts = [] := by
  unfold Proc.finishMerge at h
  split at h
  · cases h
  · rename_i r res hm
    cases h
    obtain ⟨a, b, _, _⟩ := trim_keep ({ s with repo := r, lastProcessed := s.mergePartsCommit } : Proc) s.mergePartsCommit
    refine ⟨?_, b, rfl⟩
    simp only [a, List.map_append, List.map_cons, List.map_nil, merge_commit hm]

theorem newCommit_sent {env : Env} {s s' : Proc} {c : LogCommit} (h0 : s.mergeParts = []) (h : s.newCommit env c = .ok s') :
    s'.graph = s.graph ∧
    (if isMergeIn s.graph c.hash then s'.sent = s.sent ∧ s'.mergeParts.length > 0 ∧ s'.mergePartsCommit = c.hash
     else s'.sent.map (·.commit) = s.sent.map (·.commit) ++ [c.hash] ∧ s'.mergeParts = []) := by
  unfold Proc.newCommit at h
  have hp : s.parents c.hash = s.graph.parentsOf c.hash := rfl
  split at h
  · rename_i hl
    cases h
    rw [if_pos (by unfold isMergeIn; rw [← hp]; simpa using hl)]
    exact ⟨rfl, rfl, by simp, rfl⟩
  · rename_i hl
    rw [if_neg (by unfold isMergeIn; rw [← hp]; simpa using hl)]
    cases hr : processRegularCommit env s.sent.length s.repo c.hash (s.parents c.hash) c.changes with
    | error e => rw [hr] at h; cases h
    | ok x =>
      obtain ⟨r, res⟩ := x
      rw [hr] at h
      cases h
      obtain ⟨a, b, c', _⟩ := trim_keep ({ s with repo := r, lastProcessed := c.hash } : Proc) c.hash
      refine ⟨b, ?_, by simp only [c']; exact h0⟩
      simp only [a, List.map_append, List.map_cons, List.map_nil, regular_commit hr]

/-- What is sent and what is pending. -/
theorem loop_sent {env : Env} : ∀ (log : List LogCommit) (s s' : Proc) (f : Option Fault), s.loop env log = (s', f) →
    s'.graph = s.graph ∧
    ∃ rest, s.sent.map (·.commit) ++ s.pending.toList ++ logCommits (isMergeIn s.graph) s.pending log =
      s'.sent.map (·.commit) ++ s'.pending.toList ++ rest ∧ (f = none → rest = []) := by
  intro log
  induction log with
  | nil =>
    intro s s' f h
    cases h
    exact ⟨rfl, [], by simp [logCommits], fun _ => rfl⟩
  | cons c cs ih =>
    intro s s' f h
    -- a state without pending merge before `c`
    have start : ∀ (t t1 : Proc), t.mergeParts = [] → t.graph = s.graph → t.newCommit env c = .ok t1 → t1.loop env cs = (s', f) →
        s'.graph = s.graph ∧ ∃ rest, t.sent.map (·.commit) ++ c.hash :: logCommits (isMergeIn s.graph) (if isMergeIn s.graph c.hash then some c.hash else none) cs =
          s'.sent.map (·.commit) ++ s'.pending.toList ++ rest ∧ (f = none → rest = []) := by
      intro t t1 h0 hg hn hl
      obtain ⟨h1, h2⟩ := newCommit_sent h0 hn
      obtain ⟨g1, rest, g2, g3⟩ := ih t1 s' f hl
      refine ⟨g1.trans (h1.trans hg), rest, ?_, g3⟩
      rw [← g2, h1, hg]
      rw [hg] at h2
      split at h2
      · rename_i hm
        have : t1.pending = some c.hash := by unfold Proc.pending; rw [if_pos h2.2.1, h2.2.2]
        rw [this, h2.1, if_pos hm]
        simp
      · rename_i hm
        have : t1.pending = none := by unfold Proc.pending; rw [h2.2]; rfl
        rw [this, h2.1, if_neg hm]
        simp
    unfold Proc.loop Proc.commit at h
    by_cases hp : s.mergeParts.length > 0
    · have hpend : s.pending = some s.mergePartsCommit := by unfold Proc.pending; rw [if_pos hp]
      rw [if_pos hp] at h
      by_cases hc : s.mergePartsCommit = c.hash
      · rw [if_pos hc] at h
        simp only at h
        obtain ⟨g1, rest, g2, g3⟩ := ih _ s' f h
        refine ⟨g1, rest, ?_, g3⟩
        rw [← g2]
        have : ({ s with mergeParts := GoMap.set s.mergeParts c.mergeDiffFrom c } : Proc).pending = some s.mergePartsCommit := by
          unfold Proc.pending
          rw [if_pos]
          have : GoMap.set s.mergeParts c.mergeDiffFrom c ≠ [] := by
            intro he
            have := GoMap.get_set s.mergeParts c.mergeDiffFrom c.mergeDiffFrom c
            rw [he] at this
            simp [GoMap.get] at this
          exact List.length_pos_iff.2 this
        rw [this, hpend, logCommits, if_pos (by rw [hc])]
      · rw [if_neg hc] at h
        rw [hpend, logCommits, if_neg (by simpa using hc)]
        cases hf : s.finishMerge env with
        | error e =>
          rw [hf] at h
          cases h
          exact ⟨rfl, _, by rw [hpend], by simp⟩
        | ok t =>
          rw [hf] at h
          obtain ⟨k1, k2, k3⟩ := finishMerge_sent hf
          simp only at h
          cases hn : t.newCommit env c with
          | error e =>
            rw [hn] at h
            cases h
            have : s'.pending = none := by unfold Proc.pending; rw [k3]; rfl
            refine ⟨k2, c.hash :: logCommits (isMergeIn s.graph) (if isMergeIn s.graph c.hash then some c.hash else none) cs, ?_, by simp⟩
            rw [this, k1]
            simp
          | ok t1 =>
            rw [hn] at h
            obtain ⟨g1, rest, g2, g3⟩ := start t t1 k3 k2 hn h
            refine ⟨g1, rest, ?_, g3⟩
            rw [← g2, k1]
            simp
    · have h0 : s.mergeParts = [] := List.length_eq_zero_iff.1 (by omega)
      have hpend : s.pending = none := by unfold Proc.pending; rw [if_neg hp]
      rw [if_neg hp] at h
      rw [hpend, logCommits, if_neg (by simp)]
      cases hn : s.newCommit env c with
      | error e =>
        rw [hn] at h
        cases h
        exact ⟨rfl, _, by rw [hpend], by simp⟩
      | ok t1 =>
        rw [hn] at h
        obtain ⟨g1, rest, g2, g3⟩ := start s t1 h0 rfl hn h
        refine ⟨g1, rest, ?_, g3⟩
        rw [← g2]
        simp

/-- The commits for which results are sent. -/
theorem run_sent (env : Env) (opts : RunOpts) (read : Str → Go Repo) (g : Graph) (log : List LogCommit) :
    ∃ rest, logCommits (isMergeIn g) none log = (run env opts read g log).sent.map (·.commit) ++ rest ∧
      ((run env opts read g log).fault = none → rest = []) := by
  unfold run
  cases log with
  | nil => exact ⟨[], rfl, fun _ => rfl⟩
  | cons c cs =>
    simp only
    cases initCheckpoints opts read with
    | error e => exact ⟨_, rfl, by simp⟩
    | ok repo =>
      simp only
      cases hl : Proc.loop env { graph := g, repo := repo } (c :: cs) with
      | mk s f =>
        obtain ⟨_, rest, h2, h3⟩ := loop_sent (c :: cs) _ s f hl
        have h2' : logCommits (isMergeIn g) none (c :: cs) = s.sent.map (·.commit) ++ s.pending.toList ++ rest := by
          rw [← h2]
          simp [Proc.pending]
        cases f with
        | some e => exact ⟨s.pending.toList ++ rest, by rw [h2']; simp, by simp⟩
        | none =>
          rw [h3 rfl, List.append_nil] at h2'
          simp only
          by_cases hp : s.mergeParts.length > 0
          · have hpend : s.pending = some s.mergePartsCommit := by unfold Proc.pending; rw [if_pos hp]
            rw [if_pos hp, h2', hpend]
            cases hf : s.finishMerge env with
            | error e => exact ⟨_, rfl, by simp⟩
            | ok t =>
              obtain ⟨k1, _, _⟩ := finishMerge_sent hf
              exact ⟨[], by simp only [k1]; simp, fun _ => rfl⟩
          · have hpend : s.pending = none := by unfold Proc.pending; rw [if_neg hp]
            rw [if_neg hp, h2', hpend]
            exact ⟨[], by simp, fun _ => rfl⟩

end Ripsrc
