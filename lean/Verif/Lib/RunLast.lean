import Verif.Lib.RunLog
/-!
# The last processed commit, for any log and graph
-/
namespace Ripsrc
open Spec

theorem trimParent_last (s : Proc) (p : Str) : (s.trimParent p).lastProcessed = s.lastProcessed := by
  unfold Proc.trimParent
  simp only
  split <;> rfl

theorem trim_last (s : Proc) (h : Str) : (s.trim h).lastProcessed = s.lastProcessed := by
  unfold Proc.trim
  generalize s.parents h = ps
  induction ps generalizing s with
  | nil => rfl
  | cons p ps ih => exact (ih (s.trimParent p)).trans (trimParent_last s p)

/-- The last result sent is that of the last processed commit. -/
def Proc.LastOk (s : Proc) : Prop := s.sent = [] ∨ (s.sent.map (·.commit)).getLast? = some s.lastProcessed

theorem finishMerge_last {env : Env} {s s' : Proc} (h : s.finishMerge env = .ok s') : s'.sent ≠ [] ∧ s'.LastOk := by
  unfold Proc.finishMerge at h
  split at h
  · cases h
  · rename_i r res hm
    cases h
    refine ⟨by simp, Or.inr ?_⟩
    simp only [trim_last, List.map_append, List.map_cons, List.map_nil, List.getLast?_concat, merge_commit hm]

theorem newCommit_last {env : Env} {s s' : Proc} {c : LogCommit} (h0 : s.LastOk) (h : s.newCommit env c = .ok s') :
    (s'.sent ≠ [] ∨ s'.mergeParts.length > 0) ∧ s'.LastOk := by
  unfold Proc.newCommit at h
  split at h
  · cases h; exact ⟨Or.inr (by simp), h0⟩
  · cases hr : processRegularCommit env s.sent.length s.repo c.hash (s.parents c.hash) c.changes with
    | error e => rw [hr] at h; cases h
    | ok x =>
      obtain ⟨r, res⟩ := x
      rw [hr] at h
      cases h
      refine ⟨Or.inl (by simp), Or.inr ?_⟩
      simp only [trim_last, List.map_append, List.map_cons, List.map_nil, List.getLast?_concat, regular_commit hr]

theorem commit_last {env : Env} {s s' : Proc} {c : LogCommit} {f : Option Fault} (h0 : s.LastOk) (h : s.commit env c = (s', f)) :
    (f = none → s'.sent ≠ [] ∨ s'.mergeParts.length > 0) ∧ s'.LastOk := by
  unfold Proc.commit at h
  split at h
  · rename_i hp
    split at h
    · cases h
      refine ⟨fun _ => Or.inr ?_, h0⟩
      have : GoMap.set s.mergeParts c.mergeDiffFrom c ≠ [] := by
        intro he
        have := GoMap.get_set s.mergeParts c.mergeDiffFrom c.mergeDiffFrom c
        rw [he] at this
        simp [GoMap.get] at this
      exact List.length_pos_iff.2 this
    · cases hf : s.finishMerge env with
      | error e => rw [hf] at h; cases h; exact ⟨by simp, h0⟩
      | ok t =>
        rw [hf] at h
        simp only at h
        have ht := (finishMerge_last hf).2
        cases hn : t.newCommit env c with
        | error e => rw [hn] at h; cases h; exact ⟨by simp, ht⟩
        | ok u => rw [hn] at h; cases h; exact ⟨fun _ => (newCommit_last ht hn).1, (newCommit_last ht hn).2⟩
  · cases hn : s.newCommit env c with
    | error e => rw [hn] at h; cases h; exact ⟨by simp, h0⟩
    | ok u => rw [hn] at h; cases h; exact ⟨fun _ => (newCommit_last h0 hn).1, (newCommit_last h0 hn).2⟩

theorem loop_last {env : Env} : ∀ (log : List LogCommit) (s s' : Proc) (f : Option Fault), s.LastOk → s.loop env log = (s', f) →
    (f = none → log ≠ [] → s'.sent ≠ [] ∨ s'.mergeParts.length > 0) ∧ s'.LastOk := by
  intro log
  induction log with
  | nil => intro s s' f h0 h; cases h; exact ⟨fun _ h => absurd rfl h, h0⟩
  | cons c cs ih =>
    intro s s' f h0 h
    rw [Proc.loop] at h
    cases hc : s.commit env c with
    | mk t e =>
      rw [hc] at h
      obtain ⟨h1, h2⟩ := commit_last h0 hc
      cases e with
      | some e => cases h; exact ⟨by simp, h2⟩
      | none =>
        obtain ⟨h3, h4⟩ := ih t s' f h2 h
        refine ⟨fun hf _ => ?_, h4⟩
        cases cs with
        | nil => cases h; exact h1 rfl
        | cons d ds => exact h3 hf (by simp)

theorem run_last {env : Env} {opts : RunOpts} {read : Str → Go Repo} {g : Graph} {log : List LogCommit} {R : Repo} {last : Str}
    (h : (run env opts read g log).written = some (R, last)) :
    (run env opts read g log).fault = none ∧ ((run env opts read g log).sent.map (·.commit)).getLast? = some last := by
  unfold run at h ⊢
  cases log with
  | nil => simp at h
  | cons c cs =>
    cases hi : initCheckpoints opts read with
    | error e => rw [hi] at h; simp at h
    | ok repo =>
      simp only [hi] at h ⊢
      cases hl : Proc.loop env { graph := g, repo := repo } (c :: cs) with
      | mk s f =>
        obtain ⟨h1, h2⟩ := loop_last _ _ _ _ (Or.inl rfl) hl
        rw [hl] at h
        cases f with
        | some e => simp at h
        | none =>
          simp only at h ⊢
          by_cases hp : s.mergeParts.length > 0
          · rw [if_pos hp] at h ⊢
            cases hf : s.finishMerge env with
            | error e => rw [hf] at h; simp at h
            | ok t =>
              rw [hf] at h
              simp only [Option.some.injEq, Prod.mk.injEq] at h
              obtain ⟨k1, k2⟩ := finishMerge_last hf
              refine ⟨rfl, ?_⟩
              rcases k2 with k2 | k2
              · exact absurd k2 k1
              · rw [← h.2]; exact k2
          · rw [if_neg hp] at h ⊢
            simp only [Option.some.injEq, Prod.mk.injEq] at h
            refine ⟨rfl, ?_⟩
            rcases h2 with k2 | k2
            · rcases h1 rfl (by simp) with k3 | k3
              · exact absurd k2 k3
              · exact absurd k3 hp
            · rw [← h.2]; exact k2

end Ripsrc
