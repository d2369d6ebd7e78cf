import Verif.Lib.SentWF
/-!
# Properties of every blame a run makes

A property of blames that the ways of making blames preserve holds for everything that a run stores or sends, for any log.
-/
namespace Ripsrc

/-- Every way of making a blame while processing a commit of `S` keeps `P`. -/
structure Closed (env : Env) (S : Str → Prop) (P : Blame → Prop) : Prop where
  nil : P { commit := [], lines := [] }
  empty : ∀ h, S h → P { commit := h, lines := [] }
  binary : ∀ h, S h → P (blameBinaryFile h)
  patch : ∀ h b d b', S h → P b → apply env.srt b d h = .ok b' → P b'
  merge : ∀ h ps ds b', S h → (∀ b ∈ ps, P b) → applyMerge env.srt ps ds h = .ok b' → P b'
  blame : ∀ h f b, S h → slowGitBlame env h f = .ok b → P b

/-- All blames of a map have the property. -/
def FilesAll (P : Blame → Prop) (fs : Files) : Prop := ∀ k b, GoMap.get fs k = some b → P b

/-- All stored blames have the property. -/
def RepoAll (P : Blame → Prop) (r : Repo) : Prop := ∀ h fs, GoMap.get r h = some fs → FilesAll P fs

section
variable {env : Env} {S : Str → Prop} {P : Blame → Prop}

theorem FilesAll.set {fs : Files} (h : FilesAll P fs) (k : Str) {b : Blame} (hb : P b) : FilesAll P (GoMap.set fs k b) := by
  intro k' b' hk
  rw [GoMap.get_set] at hk
  split at hk
  · cases hk; exact hb
  · exact h k' b' hk

theorem FilesAll.nil : FilesAll P ([] : Files) := by intro k b h; simp at h

theorem RepoAll.set {r : Repo} (h : RepoAll P r) (c : Str) {fs : Files} (hf : FilesAll P fs) : RepoAll P (GoMap.set r c fs) := by
  intro k b hk
  rw [GoMap.get_set] at hk
  split at hk
  · cases hk; exact hf
  · exact h k b hk

theorem RepoAll.put {r r' : Repo} {c f : Str} {b : Blame} (h : RepoAll P r) (hb : P b) (hp : r.put c f b = .ok r') : RepoAll P r' := by
  unfold Repo.put at hp
  split at hp
  · cases hp
  · rename_i fs hfs
    cases hp
    exact h.set _ ((h _ _ hfs).set _ hb)

theorem RepoAll.must {r : Repo} {c f : Str} {b : Blame} (h : RepoAll P r) (hb : r.getFileMust c f = .ok b) : P b := by
  unfold Repo.getFileMust at hb
  split at hb
  · cases hb
  · rename_i fs hfs
    split at hb
    · cases hb
    · rename_i hg
      cases hb
      exact h _ _ hfs _ _ hg

theorem RepoAll.optional {r : Repo} {c f : Str} {b : Blame} (h : RepoAll P r) (hb : r.getFileOptional c f = .ok (some b)) : P b := by
  unfold Repo.getFileOptional at hb
  split at hb
  · cases hb
  · rename_i fs hfs
    have : GoMap.get fs f = some b := Except.ok.inj hb
    exact h _ _ hfs _ _ this

/-- Both parts of the state while a commit is processed. -/
def StAll (P : Blame → Prop) (st : Repo × Files) : Prop := RepoAll P st.1 ∧ FilesAll P st.2

theorem store_all {hash p : Str} {st st' : Repo × Files} {b : Blame} (h : store hash st p b = .ok st') (hw : StAll P st) (hb : P b) : StAll P st' := by
  unfold store at h
  obtain ⟨r, hr, h⟩ := bind_ok h
  cases h
  exact ⟨hw.1.put hb hr, hw.2.set _ hb⟩

theorem foldlM_all {σ ι : Type} {Q : σ → Prop} {f : σ → ι → Go σ} (hf : ∀ st x st', f st x = .ok st' → Q st → Q st') :
    ∀ (l : List ι) (st st' : σ), l.foldlM f st = .ok st' → Q st → Q st' := by
  intro l
  induction l with
  | nil => intro st st' h hw; cases h; exact hw
  | cons x xs ih =>
    intro st st' h hw
    rw [List.foldlM_cons] at h
    obtain ⟨s1, hx, h⟩ := bind_ok h
    exact ih s1 st' h (hf _ _ _ hx hw)

theorem renamedBinary_all {repo : Repo} {parents : List Str} {d : Diff} {b : Blame} (hw : RepoAll P repo) (h : renamedBinary repo parents d = .ok (some b)) : P b := by
  unfold renamedBinary at h
  split at h
  · split at h
    · split at h
      · obtain ⟨pb, hp, h⟩ := bind_ok h
        split at h
        · cases h; exact hw.must hp
        · cases h
      · cases h
    · cases h
  · cases h

theorem parentBlame_all {repo : Repo} {parents : List Str} {d : Diff} {b : Blame} (hw : RepoAll P repo) (h : parentBlameOf repo parents d = .ok (some b)) : P b := by
  unfold parentBlameOf at h
  split at h
  · cases h
  · split at h
    · cases h
    · exact hw.optional h
    · cases h
    · cases h

theorem newBlame_all (hc : Closed env S P) {hash : Str} (hS : S hash) {pb : Option Blame} {d : Diff} {b : Blame} (hp : ∀ x, pb = some x → P x) (h : newBlame env hash pb d = .ok b) :
    P b := by
  unfold newBlame at h
  split at h
  · exact hc.patch _ _ _ _ hS hc.nil h
  · split at h
    · exact hc.blame _ _ _ hS h
    · exact hc.patch _ _ _ _ hS (hp _ rfl) h

theorem regularChange_all (hc : Closed env S P) {hash : Str} (hS : S hash) {parents : List Str} {st st' : Repo × Files} {ch : Str}
    (h : regularChange env hash parents st ch = .ok st') (hw : StAll P st) : StAll P st' := by
  unfold regularChange at h
  obtain ⟨d, _, h⟩ := bind_ok h
  split at h
  · split at h
    · cases h; exact ⟨hw.1, hw.2.set _ (hc.binary _ hS)⟩
    · exact store_all h hw (hc.binary _ hS)
  · split at h
    · cases h; exact ⟨hw.1, hw.2.set _ (hc.empty _ hS)⟩
    · obtain ⟨rb, hrb, h⟩ := bind_ok h
      split at h
      · exact store_all h hw (renamedBinary_all hw.1 hrb)
      · obtain ⟨pb, hpb, h⟩ := bind_ok h
        obtain ⟨_, hn, h⟩ := bind_ok h
        exact store_all h hw (newBlame_all hc hS (fun x hx => parentBlame_all hw.1 (by rw [hpb, hx])) hn)

theorem copyUnchanged_all {hash p fp : Str} {res : Files} {r r' : Repo} (h : copyUnchanged hash p res r fp = .ok r') (hw : RepoAll P r) : RepoAll P r' := by
  unfold copyUnchanged at h
  split at h
  · cases h; exact hw
  · obtain ⟨b, hb, h⟩ := bind_ok h
    exact hw.put (hw.must hb) h

theorem regular_all (hc : Closed env S P) {n : Nat} {repo r : Repo} {hash : Str} (hS : S hash) {parents changes : List Str} {res : Result}
    (h : processRegularCommit env n repo hash parents changes = .ok (r, res)) (hw : RepoAll P repo) : RepoAll P r ∧ FilesAll P res.files := by
  unfold processRegularCommit at h
  split at h
  · cases h
  · obtain ⟨st, hs, h⟩ := bind_ok h
    have hst : StAll P st := foldlM_all (fun _ _ _ => regularChange_all hc hS) _ _ _ hs ⟨hw.set _ FilesAll.nil, FilesAll.nil⟩
    split at h
    · cases h; exact hst
    · obtain ⟨_, _, h⟩ := bind_ok h
      obtain ⟨_, hr, h⟩ := bind_ok h
      cases h
      exact ⟨foldlM_all (Q := RepoAll P) (fun _ _ _ => copyUnchanged_all) _ _ _ hr hst.1, hst.2⟩

theorem sameAsParent_all {repo : Repo} {k : Str} (hw : RepoAll P repo) : ∀ (l : List (Str × Option Diff)) {b : Blame}, sameAsParent repo k l = .ok (some b) → P b := by
  intro l
  induction l with
  | nil => intro b h; cases h
  | cons x l ih =>
    intro b h
    obtain ⟨p, d⟩ := x
    cases d with
    | some d => exact ih h
    | none =>
      simp only [sameAsParent] at h
      obtain ⟨pb, hp, h⟩ := bind_ok h
      cases pb with
      | none => exact ih h
      | some b' => cases h; exact hw.optional hp

theorem mergeParents_all (hnil : P { commit := [], lines := [] }) {repo : Repo} {k : Str} (hw : RepoAll P repo) : ∀ (l : List (Str × Option Diff)) {bs : List Blame},
    mergeParents repo k l = .ok bs → ∀ b ∈ bs, P b := by
  intro l
  induction l with
  | nil => intro bs h; cases h; simp
  | cons x l ih =>
    intro bs h
    obtain ⟨p, d⟩ := x
    have fin : ∀ b : Blame, P b → (do let bs ← mergeParents repo k l; Except.ok (b :: bs) : Go (List Blame)) = .ok bs → ∀ y ∈ bs, P y := by
      intro b hb h
      obtain ⟨bs', hbs, h⟩ := bind_ok h
      cases h
      intro y hy
      rcases List.mem_cons.1 hy with rfl | hy
      · exact hb
      · exact ih hbs y hy
    simp only [mergeParents] at h
    cases d with
    | none =>
      obtain ⟨pb, hp, h⟩ := bind_ok h
      cases pb with
      | none => cases h
      | some b' => exact fin b' (hw.optional hp) h
    | some d =>
      simp only at h
      split at h
      · exact fin _ hnil h
      · obtain ⟨b, hb, h⟩ := bind_ok h
        exact fin b (hw.must hb) h

theorem mergeFile_all (hc : Closed env S P) {hash : Str} (hS : S hash) {parents : List Str} {diffs : DiffsByKey} {st st' : Repo × Files} {k : Str}
    (h : mergeFile env hash parents diffs st k = .ok st') (hw : StAll P st) : StAll P st' := by
  unfold mergeFile at h
  simp only at h
  split at h
  · split at h
    · cases h
    · cases h; exact ⟨hw.1, hw.2.set _ (hc.empty _ hS)⟩
  · obtain ⟨_, _, h⟩ := bind_ok h
    split at h
    · exact store_all h hw (hc.binary _ hS)
    · obtain ⟨same, hsame, h⟩ := bind_ok h
      split at h
      · obtain ⟨_, hr, h⟩ := bind_ok h
        cases h; exact ⟨hw.1.put (sameAsParent_all hw.1 _ hsame) hr, hw.2⟩
      · obtain ⟨_, hps, h⟩ := bind_ok h
        obtain ⟨_, hm, h⟩ := bind_ok h
        exact store_all h hw (hc.merge _ _ _ _ hS (mergeParents_all hc.nil hw.1 _ hps) hm)

theorem candidates_all {repo : Repo} {f : Str} (hw : RepoAll P repo) : ∀ (l : List Str) {bs : List Blame}, candidates repo f l = .ok bs → ∀ b ∈ bs, P b := by
  intro l
  induction l with
  | nil => intro bs h; cases h; simp
  | cons x l ih =>
    intro bs h
    simp only [candidates] at h
    obtain ⟨b, hb, h⟩ := bind_ok h
    obtain ⟨bs', hbs, h⟩ := bind_ok h
    cases h
    cases b with
    | none => exact ih hbs
    | some b =>
      intro y hy
      rcases List.mem_cons.1 hy with rfl | hy
      · exact hw.optional hb
      · exact ih hbs y hy

theorem mergeUnchanged_all {hash : Str} {ps : List Str} {f : Str} {r r' : Repo} (h : mergeUnchanged hash ps r f = .ok r') (hw : RepoAll P r) : RepoAll P r' := by
  unfold mergeUnchanged at h
  obtain ⟨_, _, h⟩ := bind_ok h
  split at h
  · cases h; exact hw
  · obtain ⟨cs, hcs, h⟩ := bind_ok h
    split at h
    · cases h
    · rename_i b hb
      exact hw.put (candidates_all hw _ hcs _ (List.mem_of_getLast? hb)) h

theorem merge_all (hc : Closed env S P) {n : Nat} {repo r : Repo} {hash : Str} (hS : S hash) {parents : List Str} {parts : GoMap Str LogCommit} {res : Result}
    (h : processMergeCommit env n repo hash parents parts = .ok (r, res)) (hw : RepoAll P repo) : RepoAll P r ∧ FilesAll P res.files := by
  unfold processMergeCommit at h
  obtain ⟨_, _, h⟩ := bind_ok h
  obtain ⟨st, hs, h⟩ := bind_ok h
  have hst : StAll P st := foldlM_all (fun _ _ _ => mergeFile_all hc hS) _ _ _ hs ⟨hw.set _ FilesAll.nil, FilesAll.nil⟩
  obtain ⟨_, _, h⟩ := bind_ok h
  obtain ⟨_, hr, h⟩ := bind_ok h
  cases h
  exact ⟨foldlM_all (Q := RepoAll P) (fun _ _ _ => mergeUnchanged_all) _ _ _ hr hst.1, hst.2⟩

/-- The state between two log entries. -/
structure ProcAll (S : Str → Prop) (P : Blame → Prop) (s : Proc) : Prop where
  repo : RepoAll P s.repo
  sent : ∀ r ∈ s.sent, FilesAll P r.files
  merge : s.mergeParts ≠ [] → S s.mergePartsCommit

theorem unload_all {r : Repo} {l : List Str} {c : Str} (h : RepoAll P r) : RepoAll P (unload r l c).1 := by
  unfold unload
  simp only
  split
  · split
    · intro h' fs hfs
      rw [GoMap.get_del] at hfs
      split at hfs
      · cases hfs
      · exact h _ _ hfs
    · exact h
  · exact h

theorem trimParent_all {s : Proc} (h : ProcAll S P s) (p : Str) : ProcAll S P (s.trimParent p) := by
  unfold Proc.trimParent
  simp only
  split
  · exact ⟨unload_all h.repo, h.sent, h.merge⟩
  · exact ⟨h.repo, h.sent, h.merge⟩

theorem trim_all {s : Proc} (h : ProcAll S P s) (hash : Str) : ProcAll S P (s.trim hash) := by
  unfold Proc.trim
  generalize s.parents hash = ps
  induction ps generalizing s with
  | nil => exact h
  | cons p ps ih => exact ih (trimParent_all h p)

theorem snoc_all {rs : List Result} {r : Result} (h : ∀ r ∈ rs, FilesAll P r.files) (hr : FilesAll P r.files) : ∀ x ∈ rs ++ [r], FilesAll P x.files := by
  intro x hx
  rcases List.mem_append.1 hx with hx | hx
  · exact h x hx
  · rw [List.mem_singleton.1 hx]; exact hr

theorem finishMerge_all (hc : Closed env S P) {s s' : Proc} (h : s.finishMerge env = .ok s') (hw : ProcAll S P s) (hm : S s.mergePartsCommit) : ProcAll S P s' := by
  unfold Proc.finishMerge at h
  split at h
  · cases h
  · rename_i r res hp
    cases h
    obtain ⟨h1, h2⟩ := merge_all hc hm hp hw.repo
    have := trim_all (S := S) (P := P) (s := { s with repo := r, lastProcessed := s.mergePartsCommit }) ⟨h1, hw.sent, hw.merge⟩ s.mergePartsCommit
    exact ⟨this.repo, snoc_all this.sent h2, fun h => absurd rfl h⟩

theorem newCommit_all (hc : Closed env S P) {s s' : Proc} {c : LogCommit} (h : s.newCommit env c = .ok s') (hw : ProcAll S P s) (hS : S c.hash) : ProcAll S P s' := by
  unfold Proc.newCommit at h
  split at h
  · cases h; exact ⟨hw.repo, hw.sent, fun _ => hS⟩
  · obtain ⟨⟨r, res⟩, hm, h⟩ := bind_ok h
    cases h
    obtain ⟨h1, h2⟩ := regular_all hc hS hm hw.repo
    have := trim_all (S := S) (P := P) (s := { s with repo := r, lastProcessed := c.hash }) ⟨h1, hw.sent, hw.merge⟩ c.hash
    exact ⟨this.repo, snoc_all this.sent h2, this.merge⟩

theorem commit_all (hc : Closed env S P) {s s' : Proc} {c : LogCommit} {f : Option Fault} (h : s.commit env c = (s', f)) (hw : ProcAll S P s) (hS : S c.hash) : ProcAll S P s' := by
  unfold Proc.commit at h
  split at h
  · rename_i hl
    have hm : S s.mergePartsCommit := hw.merge (by intro h0; rw [h0] at hl; simp at hl)
    split at h
    · cases h; exact ⟨hw.repo, hw.sent, fun _ => hm⟩
    · split at h
      · cases h; exact hw
      · rename_i s1 h1
        have hw1 := finishMerge_all hc h1 hw hm
        split at h
        · cases h; exact hw1
        · rename_i s2 h2
          cases h
          exact newCommit_all hc h2 hw1 hS
  · split at h
    · cases h; exact hw
    · rename_i s2 h2
      cases h
      exact newCommit_all hc h2 hw hS

theorem loop_all (hc : Closed env S P) : ∀ (log : List LogCommit) {s s' : Proc} {f : Option Fault}, s.loop env log = (s', f) → ProcAll S P s → (∀ c ∈ log, S c.hash) → ProcAll S P s' := by
  intro log
  induction log with
  | nil => intro s s' f h hw _; cases h; exact hw
  | cons c cs ih =>
    intro s s' f h hw hS
    rw [Proc.loop] at h
    split at h
    · rename_i h1
      cases h
      exact commit_all hc h1 hw (hS c (by simp))
    · rename_i h1
      exact ih h (commit_all hc h1 hw (hS c (by simp))) (fun x hx => hS x (by simp [hx]))

/-- Everything a run sends or hands to the checkpoint writer has the property, if the checkpoint it starts from does. -/
theorem run_all (hc : Closed env S P) (opts : RunOpts) (read : Str → Go Repo) (g : Graph) (log : List LogCommit)
    (hr : ∀ e R, opts.commitFromIncl ≠ [] → read e = .ok R → RepoAll P R) (hS : ∀ c ∈ log, S c.hash) :
    (∀ r ∈ (run env opts read g log).sent, FilesAll P r.files) ∧ ∀ w, (run env opts read g log).written = some w → RepoAll P w.1 := by
  unfold run
  split
  · exact ⟨by simp, by simp⟩
  · split
    · exact ⟨by simp, by simp⟩
    · rename_i repo hi
      have hrepo : RepoAll P repo := by
        unfold initCheckpoints at hi
        split at hi
        · cases hi; intro h fs hfs; simp at hfs
        · rename_i hne; exact hr _ _ hne hi
      have h0 : ProcAll S P { graph := g, repo := repo } := ⟨hrepo, by simp, fun h => absurd rfl h⟩
      split
      · rename_i h; exact ⟨(loop_all hc _ h h0 hS).sent, by simp⟩
      · rename_i h
        have hw := loop_all hc _ h h0 hS
        split
        · rename_i hl
          split
          · exact ⟨hw.sent, by simp⟩
          · rename_i h2
            have hw2 := finishMerge_all hc h2 hw (hw.merge (by intro h0; rw [h0] at hl; simp at hl))
            exact ⟨hw2.sent, by intro w h; cases h; exact hw2.repo⟩
        · exact ⟨hw.sent, by intro w h; cases h; exact hw.repo⟩

end

end Ripsrc
