import Verif.Lib.AllBlames
import Verif.Props.Process
/-!
# C25, C26 for any log

What holds of every blame a run stores or sends, whether or not git could have printed the log.
-/
namespace Ripsrc
open Spec

/-- Every line of `res` is a line of `file`, or is attributed to `c`. -/
def FromFile (file : List Line) (c : Str) (res : List Line) : Prop := ∀ l ∈ res, l ∈ file ∨ l.commit = c

theorem FromFile.append {file : List Line} {c : Str} {a b : List Line} (ha : FromFile file c a) (hb : FromFile file c b) : FromFile file c (a ++ b) := by
  intro l hl
  rcases List.mem_append.1 hl with hl | hl
  · exact ha l hl
  · exact hb l hl

theorem copyRange_from {file res res' : List Line} {c : Str} {i : Nat} {z : Int} (h : copyRange file res i z = .ok res') (hr : FromFile file c res) : FromFile file c res' := by
  unfold copyRange at h
  split at h
  · cases h
  · cases h
    exact hr.append (fun l hl => .inl (List.mem_of_mem_drop (List.mem_of_mem_take hl)))

theorem applyLine_from {file : List Line} {c : Str} {s s' : ApplySt} {b : Str} (h : applyLine file c s b = .ok s') (hr : FromFile file c s.res) : FromFile file c s'.res := by
  unfold applyLine at h
  split at h
  · cases h
  · split at h
    · split at h
      · cases h
      · rename_i l hl
        cases h
        exact hr.append (by intro x hx; rw [List.mem_singleton.1 hx]; exact .inl (List.mem_of_getElem? hl))
    · split at h
      · cases h; exact hr
      · split at h
        · cases h
          exact hr.append (by intro x hx; rw [List.mem_singleton.1 hx]; exact .inr rfl)
        · split at h
          · split at h
            · cases h; exact hr
            · cases h
          · cases h

theorem applyHunk_from {file : List Line} {c : Str} {s s' : ApplySt} {k : Hunk} (h : applyHunk file c s k = .ok s') (hr : FromFile file c s.res) : FromFile file c s'.res := by
  unfold applyHunk at h
  split at h
  · cases h
  · obtain ⟨res, hres, h⟩ := bind_ok h
    simp only at h
    obtain ⟨s1, hs1, h⟩ := bind_ok h
    split at h
    · cases h
    · cases h
      exact foldlM_all (Q := fun s : ApplySt => FromFile file c s.res) (fun _ _ _ => applyLine_from) _ _ _ hs1 (copyRange_from hres hr)

theorem apply_from {srt : List Hunk → List Hunk} {b b' : Blame} {d : Diff} {c : Str} (h : apply srt b d c = .ok b') : b'.isBinary = false ∧ FromFile b.lines c b'.lines := by
  unfold apply at h
  split at h
  · cases h
  · split at h
    · cases h
    · split at h
      · cases h
      · obtain ⟨s, hs, h⟩ := bind_ok h
        obtain ⟨res, hres, h⟩ := bind_ok h
        cases h
        exact ⟨rfl, copyRange_from hres (foldlM_all (Q := fun s : ApplySt => FromFile b.lines c s.res) (fun _ _ _ => applyHunk_from) _ _ _ hs (by intro l hl; cases hl))⟩

theorem mergeCands_from {srt : List Hunk → List Hunk} {c : Str} : ∀ {ps : List Blame} {ds : List Diff} {cs : List Blame}, mergeCands srt c ps ds = .ok cs →
    ∀ b ∈ cs, b.isBinary = false ∧ ∀ l ∈ b.lines, l.commit = c ∨ ∃ p ∈ ps, l ∈ p.lines := by
  intro ps
  induction ps with
  | nil => intro ds cs h; cases h; simp
  | cons p ps ih =>
    intro ds cs h
    cases ds with
    | nil => cases h
    | cons d ds =>
      simp only [mergeCands] at h
      obtain ⟨b, hb, h⟩ := bind_ok h
      obtain ⟨bs, hbs, h⟩ := bind_ok h
      cases h
      intro x hx
      rcases List.mem_cons.1 hx with rfl | hx
      · obtain ⟨h1, h2⟩ := apply_from hb
        refine ⟨h1, fun l hl => ?_⟩
        rcases h2 l hl with h | h
        · exact .inr ⟨p, by simp, h⟩
        · exact .inl h
      · obtain ⟨h1, h2⟩ := ih hbs x hx
        refine ⟨h1, fun l hl => ?_⟩
        rcases h2 l hl with h | ⟨q, hq, h⟩
        · exact .inl h
        · exact .inr ⟨q, by simp [hq], h⟩

theorem mergePick_commit (c : Str) (own : Line) (ls : List Line) : (mergePick c own ls).commit = own.commit ∨ ∃ l ∈ ls, (mergePick c own ls).commit = l.commit := by
  induction ls with
  | nil => exact .inl rfl
  | cons x ls ih =>
    simp only [mergePick]
    split
    · exact .inr ⟨x, by simp, rfl⟩
    · rcases ih with h | ⟨l, hl, h⟩
      · exact .inl h
      · exact .inr ⟨l, by simp [hl], h⟩

theorem linesAt_mem {cands : List Blame} {i : Nat} : ∀ {ls : List Line}, linesAt cands i = .ok ls → ∀ l ∈ ls, ∃ b ∈ cands, l ∈ b.lines := by
  unfold linesAt
  induction cands with
  | nil => intro ls h; cases h; simp
  | cons b bs ih =>
    intro ls h
    rw [List.mapM_cons] at h
    obtain ⟨x, hx, h⟩ := bind_ok h
    obtain ⟨xs, hxs, h⟩ := bind_ok h
    cases h
    intro l hl
    rcases List.mem_cons.1 hl with rfl | hl
    · split at hx
      · cases hx
      · rename_i hg
        cases hx
        exact ⟨b, by simp, List.mem_of_getElem? hg⟩
    · obtain ⟨b', hb', h'⟩ := ih hxs l hl
      exact ⟨b', by simp [hb'], h'⟩

theorem mergeLines_commit {c : Str} {cands : List Blame} : ∀ (own : List Line) {i : Nat} {res : List Line}, mergeLines c cands i own = .ok res →
    ∀ l ∈ res, (∃ o ∈ own, l.commit = o.commit) ∨ ∃ b ∈ cands, ∃ x ∈ b.lines, l.commit = x.commit := by
  intro own
  induction own with
  | nil => intro i res h; cases h; simp
  | cons o own ih =>
    intro i res h
    simp only [mergeLines] at h
    obtain ⟨ls, hls, h⟩ := bind_ok h
    obtain ⟨rest, hrest, h⟩ := bind_ok h
    cases h
    intro l hl
    rcases List.mem_cons.1 hl with rfl | hl
    · rcases mergePick_commit c o ls with h | ⟨x, hx, h⟩
      · exact .inl ⟨o, by simp, h⟩
      · obtain ⟨b, hb, hm⟩ := linesAt_mem hls x hx
        exact .inr ⟨b, hb, x, hm, h⟩
    · rcases ih hrest l hl with ⟨x, hx, h⟩ | h
      · exact .inl ⟨x, by simp [hx], h⟩
      · exact .inr h

theorem applyMerge_from {srt : List Hunk → List Hunk} {ps : List Blame} {ds : List Diff} {c : Str} {b : Blame} (h : applyMerge srt ps ds c = .ok b) :
    b.isBinary = false ∧ ∀ l ∈ b.lines, l.commit = c ∨ ∃ p ∈ ps, ∃ x ∈ p.lines, l.commit = x.commit := by
  unfold applyMerge at h
  split at h
  · cases h
  · split at h
    · cases h
    · obtain ⟨cs, hc, h⟩ := bind_ok h
      cases cs with
      | nil => cases h
      | cons c0 cs =>
        simp only at h
        split at h
        · cases h
        · obtain ⟨ls, hls, h⟩ := bind_ok h
          cases h
          have hk := mergeCands_from hc
          have key : ∀ b ∈ c0 :: cs, ∀ x ∈ b.lines, x.commit = c ∨ ∃ p ∈ ps, ∃ y ∈ p.lines, x.commit = y.commit := by
            intro b hb x hx
            rcases (hk b hb).2 x hx with h | ⟨p, hp, h⟩
            · exact .inl h
            · exact .inr ⟨p, hp, x, h, rfl⟩
          refine ⟨(hk c0 (by simp)).1, fun l hl => ?_⟩
          rcases mergeLines_commit _ hls l hl with ⟨o, ho, h⟩ | ⟨b, hb, x, hx, h⟩
          · rw [h]; exact key c0 (by simp) o ho
          · rw [h]; exact key b hb x hx

theorem slow_from {env : Env} {c f : Str} {b : Blame} (h : slowGitBlame env c f = .ok b) :
    b.isBinary = false ∧ ∃ out ls, env.blameOut c f = some out ∧ blameResult out = .ok ls ∧ ∀ l ∈ b.lines, ∃ e ∈ ls, e.1 = l.commit := by
  unfold slowGitBlame at h
  split at h
  · cases h
  · rename_i out ho
    obtain ⟨ls, hls, h⟩ := bind_ok h
    cases h
    refine ⟨rfl, out, ls, ho, hls, fun l hl => ?_⟩
    obtain ⟨e, he, rfl⟩ := List.mem_map.1 hl
    exact ⟨e, he, rfl⟩

/-- **C25 (binary files).** Whatever the log and the graph: a blame marked as binary has no lines, in everything that a run sends and in the state it hands to the checkpoint, provided this holds of the checkpoint
from which it starts. -/
theorem C25_binary_without_lines (env : Env) (opts : RunOpts) (read : Str → Go Repo) (g : Graph) (log : List LogCommit)
    (hread : ∀ e R, opts.commitFromIncl ≠ [] → read e = .ok R → ∀ h fs p b, GoMap.get R h = some fs → GoMap.get fs p = some b → b.isBinary = true → b.lines = []) :
    (∀ r ∈ (run env opts read g log).sent, ∀ p b, GoMap.get r.files p = some b → b.isBinary = true → b.lines = []) ∧
    ∀ R last, (run env opts read g log).written = some (R, last) → ∀ h fs p b, GoMap.get R h = some fs → GoMap.get fs p = some b → b.isBinary = true → b.lines = [] := by
  have hc : Closed env (fun _ => True) (fun b => b.isBinary = true → b.lines = []) :=
    { nil := fun _ => rfl
      empty := fun _ _ _ => rfl
      binary := fun _ _ _ => rfl
      patch := fun h b d b' _ _ ha hb => by rw [(apply_from ha).1] at hb; cases hb
      merge := fun h ps ds b' _ _ ha hb => by rw [(applyMerge_from ha).1] at hb; cases hb
      blame := fun h f b _ ha hb => by rw [(slow_from ha).1] at hb; cases hb }
  obtain ⟨h1, h2⟩ := run_all hc opts read g log (fun e R hne hR h fs hfs p b hb => hread e R hne hR h fs p b hfs hb) (fun _ _ => trivial)
  exact ⟨fun r hr p b hb => h1 r hr p b hb, fun R last hw h fs p b hfs hb => h2 _ hw h fs hfs p b hb⟩

/-- **C26 (known commits).** Whatever the log and the graph: every line that a run reports or stores names a commit of the log, or one that is named by the checkpoint from which it starts, or one that git blame
names for a file of a commit of the log. `K` is any set that contains these commits. -/
theorem C26_known_commits (env : Env) (opts : RunOpts) (read : Str → Go Repo) (g : Graph) (log : List LogCommit) (K : Str → Prop)
    (hlog : ∀ c ∈ log, K c.hash)
    (hread : ∀ e R, opts.commitFromIncl ≠ [] → read e = .ok R → ∀ h fs p b, GoMap.get R h = some fs → GoMap.get fs p = some b → ∀ l ∈ b.lines, K l.commit)
    (hblame : ∀ c ∈ log, ∀ f out ls, env.blameOut c.hash f = some out → blameResult out = .ok ls → ∀ e ∈ ls, K e.1) :
    (∀ r ∈ (run env opts read g log).sent, ∀ p b, GoMap.get r.files p = some b → ∀ l ∈ b.lines, K l.commit) ∧
    ∀ R last, (run env opts read g log).written = some (R, last) → ∀ h fs p b, GoMap.get R h = some fs → GoMap.get fs p = some b → ∀ l ∈ b.lines, K l.commit := by
  have hc : Closed env (fun h => ∃ c ∈ log, c.hash = h) (fun b => ∀ l ∈ b.lines, K l.commit) :=
    { nil := by simp
      empty := by simp
      binary := by simp [blameBinaryFile]
      patch := by
        rintro h b d b' ⟨c, hc, rfl⟩ hb ha l hl
        rcases (apply_from ha).2 l hl with h | h
        · exact hb l h
        · rw [h]; exact hlog c hc
      merge := by
        rintro h ps ds b' ⟨c, hc, rfl⟩ hb ha l hl
        rcases (applyMerge_from ha).2 l hl with h | ⟨p, hp, x, hx, h⟩
        · rw [h]; exact hlog c hc
        · rw [h]; exact hb p hp x hx
      blame := by
        rintro h f b ⟨c, hc, rfl⟩ ha l hl
        obtain ⟨_, out, ls, h1, h2, h3⟩ := slow_from ha
        obtain ⟨e, he, h4⟩ := h3 l hl
        rw [← h4]
        exact hblame c hc f out ls h1 h2 e he }
  obtain ⟨h1, h2⟩ := run_all hc opts read g log (fun e R hne hR h fs hfs p b hb => hread e R hne hR h fs p b hfs hb) (fun c hc => ⟨c, hc, rfl⟩)
  exact ⟨fun r hr p b hb => h1 r hr p b hb, fun R last hw h fs p b hfs hb => h2 _ hw h fs hfs p b hb⟩

/-- A log of one commit that creates a file. -/
def anyLogEx : List LogCommit := [{ hash := b!"c1", changes := [b!"diff --git a/f b/f\nnew file mode 100644\nindex 0..1\n--- /dev/null\n+++ b/f\n@@ -0,0 +1,1 @@\n+x\n"] }]

/-- Such a run reports something. -/
example : (run Ex.env {} (fun _ => .ok []) (Graph.newFromMap [(b!"c1", [])] [(b!"c1", [])]) anyLogEx).sent.map (fun r => (r.commit, (GoMap.get r.files b!"f").map (·.lines))) =
    [(b!"c1", some [{ line := b!"x", commit := b!"c1" }])] := by decide

end Ripsrc
