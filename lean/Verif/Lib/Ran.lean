import Verif.Lib.Stored
/-!
# A run that does not fail has processed every merge of its log
-/
namespace Ripsrc
open Spec

/-- The merge of entry `e` was processed: from a state with the invariant, with collected entries of this merge, among them one for the parent named in `e`;
the result is one of `sent`. -/
def MergeRan (env : Env) (I : Str → Option Files → Prop) (g : Graph) (log : List LogCommit) (sent : List Result) (e : LogCommit) : Prop :=
  ∃ n repo parts r res e2, Everywhere I repo ∧ (∀ q x, GoMap.get parts q = some x → x ∈ log ∧ x.hash = e.hash ∧ x.mergeDiffFrom = q) ∧
    GoMap.get parts e.mergeDiffFrom = some e2 ∧ processMergeCommit env n repo e.hash (g.parentsOf e.hash) parts = .ok (r, res) ∧ res ∈ sent

/-- The entry is among the collected ones. -/
def MergePends (s : Proc) (e : LogCommit) : Prop := s.mergeParts.length > 0 ∧ s.mergePartsCommit = e.hash ∧ ∃ e2, GoMap.get s.mergeParts e.mergeDiffFrom = some e2

/-- `Along`, and the collected entries are filed under the parent that they name. -/
structure Ran (env : Env) (I : Str → Option Files → Prop) (g : Graph) (log : List LogCommit) (s : Proc) : Prop where
  along : Along I g log s
  named : ∀ q x, GoMap.get s.mergeParts q = some x → x.mergeDiffFrom = q

section
variable {I : Str → Option Files → Prop} {g : Graph} {log : List LogCommit} {env : Env}
variable (h0 : ∀ h, I h none)
variable (hreg : ∀ e ∈ log, ∀ n repo r res, (g.parentsOf e.hash).length ≤ 1 → Everywhere I repo →
  processRegularCommit env n repo e.hash (g.parentsOf e.hash) e.changes = .ok (r, res) → I e.hash (GoMap.get r e.hash))
variable (hmer : ∀ h parts n repo r res, 1 < (g.parentsOf h).length → Everywhere I repo → (∀ q e, GoMap.get parts q = some e → e ∈ log ∧ e.hash = h) →
  processMergeCommit env n repo h (g.parentsOf h) parts = .ok (r, res) → I h (GoMap.get r h))

theorem MergeRan.mono {sent sent' : List Result} {e : LogCommit} (h : MergeRan env I g log sent e) (hs : ∀ r ∈ sent, r ∈ sent') : MergeRan env I g log sent' e := by
  obtain ⟨n, repo, parts, r, res, e2, a, b, c, d, f⟩ := h
  exact ⟨n, repo, parts, r, res, e2, a, b, c, d, hs _ f⟩

theorem finishMerge_ran {s s' : Proc} (hr : Ran env I g log s) (h : s.finishMerge env = .ok s') :
    (∀ r ∈ s.sent, r ∈ s'.sent) ∧ ∀ e, MergePends s e → MergeRan env I g log s'.sent e := by
  unfold Proc.finishMerge at h
  split at h
  · cases h
  · rename_i r res hm
    cases h
    have hs : (Proc.trim { s with repo := r, lastProcessed := s.mergePartsCommit } s.mergePartsCommit).sent = s.sent := (trim_keep _ _).1
    refine ⟨fun x hx => by simp only [hs]; exact List.mem_append.2 (.inl hx), ?_⟩
    rintro e ⟨_, hc, e2, he2⟩
    have hpar : s.parents s.mergePartsCommit = g.parentsOf s.mergePartsCommit := by simp only [Proc.parents, hr.along.graph]; rfl
    rw [hpar, hc] at hm
    refine ⟨_, _, s.mergeParts, r, res, e2, hr.along.repo, ?_, he2, hm, by simp⟩
    intro q x hx
    obtain ⟨a, b⟩ := hr.along.parts q x hx
    exact ⟨a, b.trans hc, hr.named q x hx⟩

theorem newCommit_ran {s s' : Proc} {c : LogCommit} (h1 : s.mergeParts = []) (hg : s.graph = g) (h : s.newCommit env c = .ok s') :
    (∀ r ∈ s.sent, r ∈ s'.sent) ∧ (1 < (g.parentsOf c.hash).length → MergePends s' c) ∧ ∀ q x, GoMap.get s'.mergeParts q = some x → x.mergeDiffFrom = q := by
  have hpar : s.parents c.hash = g.parentsOf c.hash := by simp only [Proc.parents, hg]; rfl
  unfold Proc.newCommit at h
  split at h
  · cases h
    refine ⟨fun _ h => h, fun _ => ⟨by simp, rfl, c, by simp [GoMap.get]⟩, ?_⟩
    intro q x hx
    have := GoMap.mem_of_get hx
    simp at this
    rw [this.1, this.2]
  · rename_i hm
    obtain ⟨⟨r, res⟩, hr, h⟩ := bind_ok h
    cases h
    obtain ⟨t1, t2, t3, t4⟩ := trim_keep { s with repo := r, lastProcessed := c.hash } c.hash
    refine ⟨fun x hx => by simp only [t1]; exact List.mem_append.2 (.inl hx), ?_, ?_⟩
    · intro hlt; rw [hpar] at hm; exact absurd hlt hm
    · intro q x hx
      have ht : (Proc.trim { s with repo := r, lastProcessed := c.hash } c.hash).mergeParts = [] := t3.trans h1
      rw [ht] at hx; cases hx

include h0 hreg hmer

theorem commit_ran {s s' : Proc} {c : LogCommit} (hr : Ran env I g log s) (hc : c ∈ log) (h : s.commit env c = (s', none)) :
    Ran env I g log s' ∧ (∀ r ∈ s.sent, r ∈ s'.sent) ∧ (∀ e, MergePends s e → MergePends s' e ∨ MergeRan env I g log s'.sent e) ∧
      (1 < (g.parentsOf c.hash).length → MergePends s' c) := by
  have hal := commit_along h0 hreg hmer hr.along hc h
  unfold Proc.commit at h
  split at h
  · rename_i hl
    split at h
    · rename_i hm
      cases h
      have hlen : (GoMap.set s.mergeParts c.mergeDiffFrom c).length > 0 := by
        have hg : GoMap.get (GoMap.set s.mergeParts c.mergeDiffFrom c) c.mergeDiffFrom = some c := GoMap.get_set_self _ _ _
        cases hx : GoMap.set s.mergeParts c.mergeDiffFrom c with
        | nil => rw [hx] at hg; simp at hg
        | cons _ _ => simp
      refine ⟨⟨hal, ?_⟩, fun _ h => h, ?_, fun _ => ⟨hlen, hm, c, GoMap.get_set_self _ _ _⟩⟩
      · intro q x hx
        simp only [GoMap.get_set] at hx
        split at hx
        · cases hx; assumption
        · exact hr.named q x hx
      · rintro e ⟨_, he, e2, he2⟩
        left
        refine ⟨hlen, he, ?_⟩
        simp only [GoMap.get_set]
        split
        · exact ⟨c, rfl⟩
        · exact ⟨e2, he2⟩
    · split at h
      · cases h
      · rename_i s1 hf
        obtain ⟨b1, b2⟩ := finishMerge_along h0 hreg hmer hr.along hl hf
        obtain ⟨c1, c2⟩ := finishMerge_ran hr hf
        split at h
        · cases h
        · rename_i s2 hn
          cases h
          obtain ⟨d1, d2, d3⟩ := newCommit_ran b2 b1.graph hn
          exact ⟨⟨hal, d3⟩, fun r hr' => d1 r (c1 r hr'), fun e he => .inr ((c2 e he).mono d1), d2⟩
  · rename_i hl
    split at h
    · cases h
    · rename_i s2 hn
      cases h
      obtain ⟨d1, d2, d3⟩ := newCommit_ran (List.length_eq_zero_iff.1 (by omega)) hr.along.graph hn
      exact ⟨⟨hal, d3⟩, d1, fun e he => absurd he.1 hl, d2⟩

theorem loop_ran : ∀ (l : List LogCommit) (s s' : Proc), (∀ c ∈ l, c ∈ log) → s.loop env l = (s', none) → Ran env I g log s →
    Ran env I g log s' ∧ (∀ r ∈ s.sent, r ∈ s'.sent) ∧ (∀ e, MergePends s e → MergePends s' e ∨ MergeRan env I g log s'.sent e) ∧
      ∀ e ∈ l, 1 < (g.parentsOf e.hash).length → MergePends s' e ∨ MergeRan env I g log s'.sent e := by
  intro l
  induction l with
  | nil => intro s s' _ h hr; cases h; exact ⟨hr, fun _ h => h, fun _ h => .inl h, by simp⟩
  | cons c cs ih =>
    intro s s' hm h hr
    unfold Proc.loop at h
    split at h
    · cases h
    · rename_i s1 h1
      obtain ⟨a1, a2, a3, a4⟩ := commit_ran h0 hreg hmer hr (hm c List.mem_cons_self) h1
      obtain ⟨b1, b2, b3, b4⟩ := ih s1 s' (fun x hx => hm x (List.mem_cons_of_mem _ hx)) h a1
      refine ⟨b1, fun r h => b2 r (a2 r h), ?_, ?_⟩
      · intro e he
        rcases a3 e he with h | h
        · exact b3 e h
        · exact .inr (h.mono b2)
      · intro e he hlen
        rcases List.mem_cons.1 he with rfl | he
        · exact b3 _ (a4 hlen)
        · exact b4 e he hlen

/-- Every merge of the log was processed, from a state with the invariant. -/
theorem run_ran {opts : RunOpts} {read : Str → Go Repo} {R0 : Repo} (hinit : initCheckpoints opts read = .ok R0) (hR0 : Everywhere I R0)
    (h : (run env opts read g log).fault = none) : ∀ e ∈ log, 1 < (g.parentsOf e.hash).length → MergeRan env I g log (run env opts read g log).sent e := by
  intro e he hlen
  unfold run at h ⊢
  split at h
  · cases he
  · rename_i hnil
    rw [hinit] at h ⊢
    simp only at h ⊢
    split at h
    · cases h
    · rename_i s hl
      obtain ⟨a1, a2, a3, a4⟩ := loop_ran h0 hreg hmer log _ _ (fun _ h => h) hl
        ⟨⟨rfl, hR0, by simp, by intro q e he; simp at he⟩, by intro q x hx; simp at hx⟩
      split at h
      · rename_i hm
        rw [if_pos hm]
        split at h
        · cases h
        · rename_i s2 hf
          simp only [hf]
          obtain ⟨c1, c2⟩ := finishMerge_ran a1 hf
          rcases a4 e he hlen with h | h
          · exact c2 e h
          · exact h.mono c1
      · rename_i hm
        rw [if_neg hm]
        rcases a4 e he hlen with h | h
        · exact absurd h.1 hm
        · exact h

end

end Ripsrc
