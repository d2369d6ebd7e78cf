import Verif.Model.Process
import Verif.Lib.Acts
/-!
# The files of a result are a map

Every result of a run has files with distinct paths.
-/
namespace Ripsrc

theorem wf_set {β : Type} {m : GoMap Str β} (h : GoMap.WF m) (k : Str) (v : β) : GoMap.WF (GoMap.set m k v) := by
  have := putAll_wf m [(k, v)] h
  simpa [putAll] using this

theorem store_wf {hash p : Str} {st st' : Repo × Files} {bl : Blame} (h : store hash st p bl = .ok st') (hw : GoMap.WF st.2) : GoMap.WF st'.2 := by
  unfold store at h
  cases hp : st.1.put hash p bl with
  | error e => simp [hp, bind, Except.bind] at h
  | ok r =>
    simp only [hp, bind, Except.bind] at h
    cases h
    exact wf_set hw _ _

theorem foldlM_wf {ι : Type} {f : Repo × Files → ι → Go (Repo × Files)} (hf : ∀ st x st', f st x = .ok st' → GoMap.WF st.2 → GoMap.WF st'.2) :
    ∀ (l : List ι) (st st' : Repo × Files), l.foldlM f st = .ok st' → GoMap.WF st.2 → GoMap.WF st'.2 := by
  intro l
  induction l with
  | nil => intro st st' h hw; cases h; exact hw
  | cons x xs ih =>
    intro st st' h hw
    rw [List.foldlM_cons] at h
    cases hx : f st x with
    | error e => simp [hx, bind, Except.bind] at h
    | ok s1 =>
      simp only [hx, bind, Except.bind] at h
      exact ih s1 st' h (hf _ _ _ hx hw)

theorem bind_ok {α β : Type} {x : Go α} {f : α → Go β} {b : β} (h : (x >>= f) = .ok b) : ∃ a, x = .ok a ∧ f a = .ok b := by
  cases x with
  | error e => simp [bind, Except.bind] at h
  | ok a => exact ⟨a, rfl, h⟩

theorem regularChange_wf {env : Env} {hash : Str} {parents : List Str} {st st' : Repo × Files} {ch : Str} (h : regularChange env hash parents st ch = .ok st')
    (hw : GoMap.WF st.2) : GoMap.WF st'.2 := by
  unfold regularChange at h
  obtain ⟨d, _, h⟩ := bind_ok h
  split at h
  · split at h
    · cases h; exact wf_set hw _ _
    · exact store_wf h hw
  · split at h
    · cases h; exact wf_set hw _ _
    · obtain ⟨rb, _, h⟩ := bind_ok h
      split at h
      · exact store_wf h hw
      · obtain ⟨_, _, h⟩ := bind_ok h
        obtain ⟨_, _, h⟩ := bind_ok h
        exact store_wf h hw

theorem mergeFile_wf {env : Env} {hash : Str} {parents : List Str} {diffs : DiffsByKey} {st st' : Repo × Files} {k : Str}
    (h : mergeFile env hash parents diffs st k = .ok st') (hw : GoMap.WF st.2) : GoMap.WF st'.2 := by
  unfold mergeFile at h
  simp only at h
  split at h
  · split at h
    · cases h
    · cases h; exact wf_set hw _ _
  · obtain ⟨_, _, h⟩ := bind_ok h
    split at h
    · exact store_wf h hw
    · obtain ⟨_, _, h⟩ := bind_ok h
      split at h
      · obtain ⟨_, _, h⟩ := bind_ok h
        cases h; exact hw
      · obtain ⟨_, _, h⟩ := bind_ok h
        obtain ⟨_, _, h⟩ := bind_ok h
        exact store_wf h hw

theorem regular_wf {env : Env} {n : Nat} {repo r : Repo} {hash : Str} {parents changes : List Str} {res : Result}
    (h : processRegularCommit env n repo hash parents changes = .ok (r, res)) : GoMap.WF res.files := by
  unfold processRegularCommit at h
  split at h
  · cases h
  · obtain ⟨st, hs, h⟩ := bind_ok h
    have hw := foldlM_wf (fun _ _ _ => regularChange_wf) _ _ _ hs (by simp [GoMap.WF, GoMap.keys])
    split at h
    · cases h; exact hw
    · obtain ⟨_, _, h⟩ := bind_ok h
      obtain ⟨_, _, h⟩ := bind_ok h
      cases h; exact hw

theorem merge_wf {env : Env} {n : Nat} {repo r : Repo} {hash : Str} {parents : List Str} {parts : GoMap Str LogCommit} {res : Result}
    (h : processMergeCommit env n repo hash parents parts = .ok (r, res)) : GoMap.WF res.files := by
  unfold processMergeCommit at h
  obtain ⟨_, _, h⟩ := bind_ok h
  obtain ⟨st, hs, h⟩ := bind_ok h
  have hw := foldlM_wf (fun _ _ _ => mergeFile_wf) _ _ _ hs (by simp [GoMap.WF, GoMap.keys])
  obtain ⟨_, _, h⟩ := bind_ok h
  obtain ⟨_, _, h⟩ := bind_ok h
  cases h; exact hw

theorem trim_sent (s : Proc) (hash : Str) : (s.trim hash).sent = s.sent := by
  unfold Proc.trim
  generalize s.parents hash = ps
  induction ps generalizing s with
  | nil => rfl
  | cons p ps ih =>
    rw [List.foldl_cons, ih]
    unfold Proc.trimParent
    simp only
    split <;> rfl

/-- The results sent so far are maps. -/
def SentWF (rs : List Result) : Prop := ∀ r ∈ rs, GoMap.WF r.files

theorem SentWF.snoc {rs : List Result} {r : Result} (h : SentWF rs) (hr : GoMap.WF r.files) : SentWF (rs ++ [r]) := by
  intro x hx
  rcases List.mem_append.1 hx with hx | hx
  · exact h x hx
  · rw [List.mem_singleton.1 hx]; exact hr

theorem finishMerge_wf {env : Env} {s s' : Proc} (h : s.finishMerge env = .ok s') (hw : SentWF s.sent) : SentWF s'.sent := by
  unfold Proc.finishMerge at h
  split at h
  · cases h
  · rename_i r res hm
    cases h
    simp only [trim_sent]
    exact hw.snoc (merge_wf hm)

theorem newCommit_wf {env : Env} {s s' : Proc} {c : LogCommit} (h : s.newCommit env c = .ok s') (hw : SentWF s.sent) : SentWF s'.sent := by
  unfold Proc.newCommit at h
  split at h
  · cases h; exact hw
  · obtain ⟨⟨r, res⟩, hm, h⟩ := bind_ok h
    cases h
    simp only [trim_sent]
    exact hw.snoc (regular_wf hm)

theorem commit_wf {env : Env} {s s' : Proc} {c : LogCommit} {f : Option Fault} (h : s.commit env c = (s', f)) (hw : SentWF s.sent) : SentWF s'.sent := by
  unfold Proc.commit at h
  split at h
  · split at h
    · cases h; exact hw
    · split at h
      · cases h; exact hw
      · rename_i s1 h1
        have hw1 := finishMerge_wf h1 hw
        split at h
        · cases h; exact hw1
        · rename_i s2 h2
          cases h
          exact newCommit_wf h2 hw1
  · split at h
    · cases h; exact hw
    · rename_i s2 h2
      cases h
      exact newCommit_wf h2 hw

theorem loop_wf {env : Env} : ∀ (log : List LogCommit) {s s' : Proc} {f : Option Fault}, s.loop env log = (s', f) → SentWF s.sent → SentWF s'.sent := by
  intro log
  induction log with
  | nil => intro s s' f h hw; cases h; exact hw
  | cons c cs ih =>
    intro s s' f h hw
    rw [Proc.loop] at h
    split at h
    · rename_i h1
      cases h
      exact commit_wf h1 hw
    · rename_i h1
      exact ih h (commit_wf h1 hw)

/-- All results of a run have files with distinct paths. -/
theorem run_wf (env : Env) (opts : RunOpts) (read : Str → Go Repo) (g : Graph) (log : List LogCommit) : SentWF (run env opts read g log).sent := by
  unfold run
  split
  · intro r hr; cases hr
  · split
    · intro r hr; cases hr
    · split
      · rename_i h; exact loop_wf _ h (by intro r hr; cases hr)
      · rename_i h
        have hw := loop_wf _ h (by intro r hr; cases hr)
        split
        · split
          · exact hw
          · rename_i h2; exact finishMerge_wf h2 hw
        · exact hw

end Ripsrc
