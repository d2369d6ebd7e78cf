import Verif.Lib.SentWF
/-!
# The commit of a blame

`Blame.Commit` of what a run reports for a commit, for any log (whether or not git could have printed it).
-/
namespace Ripsrc

/-- Text files carry the commit. -/
def FilesOf (hash : Str) (fs : Files) : Prop := ∀ k b, GoMap.get fs k = some b → b.isBinary = true ∨ b.commit = hash

theorem FilesOf.set {hash : Str} {fs : Files} (h : FilesOf hash fs) (k : Str) {b : Blame} (hb : b.isBinary = true ∨ b.commit = hash) : FilesOf hash (GoMap.set fs k b) := by
  intro k' b' hk
  rw [GoMap.get_set] at hk
  split at hk
  · cases hk; exact hb
  · exact h k' b' hk

theorem store_of {hash p : Str} {st st' : Repo × Files} {bl : Blame} (h : store hash st p bl = .ok st') (hw : FilesOf hash st.2) (hb : bl.isBinary = true ∨ bl.commit = hash) :
    FilesOf hash st'.2 := by
  unfold store at h
  obtain ⟨r, _, h⟩ := bind_ok h
  cases h
  exact hw.set _ hb

theorem apply_commit {srt : List Hunk → List Hunk} {b b' : Blame} {d : Diff} {c : Str} (h : apply srt b d c = .ok b') : b'.commit = c := by
  unfold apply at h
  split at h
  · cases h
  · split at h
    · cases h
    · split at h
      · cases h
      · obtain ⟨_, _, h⟩ := bind_ok h
        obtain ⟨_, _, h⟩ := bind_ok h
        cases h; rfl

theorem slow_commit {env : Env} {c f : Str} {b : Blame} (h : slowGitBlame env c f = .ok b) : b.commit = c := by
  unfold slowGitBlame at h
  split at h
  · cases h
  · obtain ⟨_, _, h⟩ := bind_ok h
    cases h; rfl

theorem mergeCands_commit {srt : List Hunk → List Hunk} {c : Str} {ps : List Blame} {ds : List Diff} {cs : List Blame} (h : mergeCands srt c ps ds = .ok cs) : ∀ b ∈ cs, b.commit = c := by
  induction ps generalizing ds cs with
  | nil => cases h; simp
  | cons p ps ih =>
    cases ds with
    | nil => cases h
    | cons d ds =>
      simp only [mergeCands] at h
      obtain ⟨b, hb, h⟩ := bind_ok h
      obtain ⟨bs, hbs, h⟩ := bind_ok h
      cases h
      intro x hx
      rcases List.mem_cons.1 hx with rfl | hx
      · exact apply_commit hb
      · exact ih hbs x hx

theorem applyMerge_commit {srt : List Hunk → List Hunk} {ps : List Blame} {ds : List Diff} {c : Str} {b : Blame} (h : applyMerge srt ps ds c = .ok b) : b.commit = c := by
  unfold applyMerge at h
  split at h
  · cases h
  · split at h
    · cases h
    · obtain ⟨cs, hc, h⟩ := bind_ok h
      cases cs with
      | nil => cases h
      | cons c0 cs =>
        simp only at h
        split at h
        · cases h
        · obtain ⟨_, _, h⟩ := bind_ok h
          cases h
          exact mergeCands_commit hc c0 (by simp)

theorem newBlame_commit {env : Env} {hash : Str} {pb : Option Blame} {d : Diff} {b : Blame} (h : newBlame env hash pb d = .ok b) : b.commit = hash := by
  unfold newBlame at h
  split at h
  · exact apply_commit h
  · split at h
    · exact slow_commit h
    · exact apply_commit h

theorem renamedBinary_binary {repo : Repo} {parents : List Str} {d : Diff} {b : Blame} (h : renamedBinary repo parents d = .ok (some b)) : b.isBinary = true := by
  unfold renamedBinary at h
  split at h
  · split at h
    · split at h
      · obtain ⟨pb, _, h⟩ := bind_ok h
        split at h
        · cases h; assumption
        · cases h
      · cases h
    · cases h
  · cases h

theorem foldlM_of {ι : Type} {hash : Str} {f : Repo × Files → ι → Go (Repo × Files)} (hf : ∀ st x st', f st x = .ok st' → FilesOf hash st.2 → FilesOf hash st'.2) :
    ∀ (l : List ι) (st st' : Repo × Files), l.foldlM f st = .ok st' → FilesOf hash st.2 → FilesOf hash st'.2 := by
  intro l
  induction l with
  | nil => intro st st' h hw; cases h; exact hw
  | cons x xs ih =>
    intro st st' h hw
    rw [List.foldlM_cons] at h
    obtain ⟨s1, hx, h⟩ := bind_ok h
    exact ih s1 st' h (hf _ _ _ hx hw)

theorem regularChange_of {env : Env} {hash : Str} {parents : List Str} {st st' : Repo × Files} {ch : Str} (h : regularChange env hash parents st ch = .ok st')
    (hw : FilesOf hash st.2) : FilesOf hash st'.2 := by
  unfold regularChange at h
  obtain ⟨d, _, h⟩ := bind_ok h
  split at h
  · split at h
    · cases h; exact hw.set _ (.inl rfl)
    · exact store_of h hw (.inl rfl)
  · split at h
    · cases h; exact hw.set _ (.inr rfl)
    · obtain ⟨rb, hrb, h⟩ := bind_ok h
      split at h
      · exact store_of h hw (.inl (renamedBinary_binary hrb))
      · obtain ⟨_, _, h⟩ := bind_ok h
        obtain ⟨_, hn, h⟩ := bind_ok h
        exact store_of h hw (.inr (newBlame_commit hn))

theorem mergeFile_of {env : Env} {hash : Str} {parents : List Str} {diffs : DiffsByKey} {st st' : Repo × Files} {k : Str}
    (h : mergeFile env hash parents diffs st k = .ok st') (hw : FilesOf hash st.2) : FilesOf hash st'.2 := by
  unfold mergeFile at h
  simp only at h
  split at h
  · split at h
    · cases h
    · cases h; exact hw.set _ (.inr rfl)
  · obtain ⟨_, _, h⟩ := bind_ok h
    split at h
    · exact store_of h hw (.inl rfl)
    · obtain ⟨_, _, h⟩ := bind_ok h
      split at h
      · obtain ⟨_, _, h⟩ := bind_ok h
        cases h; exact hw
      · obtain ⟨_, _, h⟩ := bind_ok h
        obtain ⟨_, hm, h⟩ := bind_ok h
        exact store_of h hw (.inr (applyMerge_commit hm))

theorem regular_of {env : Env} {n : Nat} {repo r : Repo} {hash : Str} {parents changes : List Str} {res : Result}
    (h : processRegularCommit env n repo hash parents changes = .ok (r, res)) : FilesOf res.commit res.files := by
  unfold processRegularCommit at h
  split at h
  · cases h
  · obtain ⟨st, hs, h⟩ := bind_ok h
    have hw := foldlM_of (fun _ _ _ => regularChange_of) _ _ _ hs (by intro k b hk; simp at hk)
    split at h
    · cases h; exact hw
    · obtain ⟨_, _, h⟩ := bind_ok h
      obtain ⟨_, _, h⟩ := bind_ok h
      cases h; exact hw

theorem merge_of {env : Env} {n : Nat} {repo r : Repo} {hash : Str} {parents : List Str} {parts : GoMap Str LogCommit} {res : Result}
    (h : processMergeCommit env n repo hash parents parts = .ok (r, res)) : FilesOf res.commit res.files := by
  unfold processMergeCommit at h
  obtain ⟨_, _, h⟩ := bind_ok h
  obtain ⟨st, hs, h⟩ := bind_ok h
  have hw := foldlM_of (fun _ _ _ => mergeFile_of) _ _ _ hs (by intro k b hk; simp at hk)
  obtain ⟨_, _, h⟩ := bind_ok h
  obtain ⟨_, _, h⟩ := bind_ok h
  cases h; exact hw

/-- The results sent so far. -/
def SentOf (rs : List Result) : Prop := ∀ r ∈ rs, FilesOf r.commit r.files

theorem SentOf.snoc {rs : List Result} {r : Result} (h : SentOf rs) (hr : FilesOf r.commit r.files) : SentOf (rs ++ [r]) := by
  intro x hx
  rcases List.mem_append.1 hx with hx | hx
  · exact h x hx
  · rw [List.mem_singleton.1 hx]; exact hr

theorem finishMerge_of {env : Env} {s s' : Proc} (h : s.finishMerge env = .ok s') (hw : SentOf s.sent) : SentOf s'.sent := by
  unfold Proc.finishMerge at h
  split at h
  · cases h
  · rename_i r res hm
    cases h
    simp only [trim_sent]
    exact hw.snoc (merge_of hm)

theorem newCommit_of {env : Env} {s s' : Proc} {c : LogCommit} (h : s.newCommit env c = .ok s') (hw : SentOf s.sent) : SentOf s'.sent := by
  unfold Proc.newCommit at h
  split at h
  · cases h; exact hw
  · obtain ⟨⟨r, res⟩, hm, h⟩ := bind_ok h
    cases h
    simp only [trim_sent]
    exact hw.snoc (regular_of hm)

theorem commit_of {env : Env} {s s' : Proc} {c : LogCommit} {f : Option Fault} (h : s.commit env c = (s', f)) (hw : SentOf s.sent) : SentOf s'.sent := by
  unfold Proc.commit at h
  split at h
  · split at h
    · cases h; exact hw
    · split at h
      · cases h; exact hw
      · rename_i s1 h1
        have hw1 := finishMerge_of h1 hw
        split at h
        · cases h; exact hw1
        · rename_i s2 h2
          cases h
          exact newCommit_of h2 hw1
  · split at h
    · cases h; exact hw
    · rename_i s2 h2
      cases h
      exact newCommit_of h2 hw

theorem loop_of {env : Env} : ∀ (log : List LogCommit) {s s' : Proc} {f : Option Fault}, s.loop env log = (s', f) → SentOf s.sent → SentOf s'.sent := by
  intro log
  induction log with
  | nil => intro s s' f h hw; cases h; exact hw
  | cons c cs ih =>
    intro s s' f h hw
    rw [Proc.loop] at h
    split at h
    · rename_i h1
      cases h
      exact commit_of h1 hw
    · rename_i h1
      exact ih h (commit_of h1 hw)

/-- **C24 (commit of the blames).** Whatever the log, the checkpoint and the graph: every blame that a run reports for a commit is marked as binary or names that commit as its own commit. (A binary
file that is renamed without change is reported with the blame of the parent, which may name an older commit.) -/
theorem C24_blame_commit (env : Env) (opts : RunOpts) (read : Str → Go Repo) (g : Graph) (log : List LogCommit) :
    ∀ r ∈ (run env opts read g log).sent, ∀ path b, GoMap.get r.files path = some b → b.isBinary = true ∨ b.commit = r.commit := by
  suffices h : SentOf (run env opts read g log).sent from h
  unfold run
  split
  · intro r hr; cases hr
  · split
    · intro r hr; cases hr
    · split
      · rename_i h; exact loop_of _ h (by intro r hr; cases hr)
      · rename_i h
        have hw := loop_of _ h (by intro r hr; cases hr)
        split
        · split
          · exact hw
          · rename_i h2; exact finishMerge_of h2 hw
        · exact hw

end Ripsrc
