import Verif.Spec.Missing
import Verif.Spec.Run
import Verif.Lib.Frame
import Verif.Lib.SentWF
import Verif.Props.Apply
/-!
# Runs that need something the stored state does not have
-/
namespace Ripsrc
open Spec

theorem fits_zero : ∀ (hs : List Hunk) (i : Int), 0 ≤ i → Fits 0 i hs → i = 0 ∧ ∀ h ∈ hs, (hunkLines h).countP usesOld = 0 := by
  intro hs
  induction hs with
  | nil => intro i hi h; simp only [Fits] at h; exact ⟨by omega, by simp⟩
  | cons h hs ih =>
    intro i hi hf
    simp only [Fits] at hf
    obtain ⟨h1, h2⟩ := hf
    obtain ⟨h3, h4⟩ := ih _ (by omega) h2
    refine ⟨by omega, ?_⟩
    intro x hx
    rcases List.mem_cons.1 hx with rfl | hx
    · omega
    · exact h4 x hx

/-- A patch with a kept or removed line does not apply to an empty file. -/
theorem apply_empty {srt : List Hunk → List Hunk} (hsrt : SortsHunks srt) {d : Diff} {hash : Str} {b : Blame}
    (h : apply srt { commit := [], lines := [] } d hash = .ok b) : ∀ x ∈ d.hunks, ∀ l ∈ hunkLines x, usesOld l = false := by
  obtain ⟨_, _, h3, _, h5⟩ := (C04_apply_rejects srt hsrt _ d hash).1.1 ⟨b, h⟩
  obtain ⟨_, h6⟩ := fits_zero _ 0 (Int.le_refl _) h5
  intro x hx l hl
  have := h6 x ((hsrt d.hunks h3).1.mem_iff.2 hx)
  rw [List.countP_eq_zero] at this
  simpa using this l hl

theorem Spec.Lacks.same {hash p f : Str} {r r' : Repo} (h : Lacks r p f) (hs : SameBut hash r r') (hp : p ≠ hash) : Lacks r' p f := by
  intro fs hfs
  rw [hs p hp] at hfs
  exact h fs hfs

theorem Spec.Lacks.must {p f : Str} {r : Repo} (h : Lacks r p f) {b : Blame} : r.getFileMust p f ≠ .ok b := by
  intro hm
  unfold Repo.getFileMust at hm
  split at hm
  · cases hm
  · rename_i fs hfs
    rw [h fs hfs] at hm
    cases hm

theorem Spec.Lacks.optional {p f : Str} {r : Repo} (h : Lacks r p f) {b : Option Blame} (hm : r.getFileOptional p f = .ok b) : b = none := by
  unfold Repo.getFileOptional at hm
  split at hm
  · cases hm
  · rename_i fs hfs
    rw [h fs hfs] at hm
    cases hm
    rfl

/-- The change cannot be processed. -/
theorem regularChange_lacks {env : Env} (hsrt : SortsHunks env.srt) {hash p : Str} {st st' : Repo × Files} {ch : Str} {d : Diff} (hd : parseDiff ch = .ok d)
    (hn : NeedsFile d) (hl : Lacks st.1 p d.pathPrev) : regularChange env hash [p] st ch ≠ .ok st' := by
  intro h
  unfold regularChange at h
  rw [hd] at h
  simp only [bind, Except.bind, hn.1, hn.2.1, if_neg, Bool.false_eq_true] at h
  have hrb : renamedBinary st.1 [p] d = .ok none ∧ ¬ (d.pathPrev ≠ d.path ∧ d.hunks = []) ∨ ∃ e, renamedBinary st.1 [p] d = .error e := by
    unfold renamedBinary
    by_cases h1 : d.pathPrev ≠ d.path
    · rw [if_pos ⟨hn.2.2.1, h1⟩]
      simp only
      by_cases h2 : d.hunks.length = 0
      · rw [if_pos h2]
        right
        cases hm : st.1.getFileMust p d.pathPrev with
        | ok b => exact absurd hm hl.must
        | error e => exact ⟨e, rfl⟩
      · rw [if_neg h2]
        exact .inl ⟨rfl, fun h => h2 (by rw [h.2]; rfl)⟩
    · rw [if_neg (fun h => h1 h.2)]
      exact .inl ⟨rfl, fun h => h1 h.1⟩
  rcases hrb with ⟨hrb, hno⟩ | ⟨e, hrb⟩
  · rw [hrb] at h
    simp only at h
    cases hpb : parentBlameOf st.1 [p] d with
    | error e => rw [hpb] at h; cases h
    | ok pb =>
      have : pb = none := by
        unfold parentBlameOf at hpb
        rw [if_neg hn.2.2.1] at hpb
        exact hl.optional hpb
      subst this
      rw [hpb] at h
      simp only [newBlame] at h
      cases ha : apply env.srt { commit := [], lines := [] } d hash with
      | error e => rw [ha] at h; cases h
      | ok b =>
        rcases hn.2.2.2 with h1 | ⟨x, hx, l, hl1, hl2⟩
        · exact hno h1
        · rw [apply_empty hsrt ha x hx l hl1] at hl2; cases hl2
  · rw [hrb] at h; cases h

/-- The commit cannot be processed: its parent is missing. -/
theorem regular_no_parent {env : Env} {n : Nat} {repo r : Repo} {hash p : Str} {parents changes : List Str} {res : Result} (hp : p ∈ parents) (hne : p ≠ hash)
    (hr : GoMap.get repo p = none) : processRegularCommit env n repo hash parents changes ≠ .ok (r, res) := by
  intro h
  unfold processRegularCommit at h
  split at h
  · cases h
  · rename_i hlen
    obtain ⟨st, hst, h⟩ := bind_ok h
    match parents, hp, hlen with
    | [q], hp, _ =>
      have hpq : p = q := by simpa using hp
      subst hpq
      have hsame : SameBut hash repo st.1 := SameBut.trans (sameBut_set _ _ _)
        (foldlM_keeps (α := Repo × Files) (P := fun a b => SameBut hash a.1 b.1) (fun a => sameBut_refl _ _) (fun a b c h1 h2 => SameBut.trans (b := b.1) h1 h2)
          (fun _ _ _ h => regularChange_same h) _ _ _ hst)
      obtain ⟨files, hf, h⟩ := bind_ok h
      unfold Repo.getCommitMust at hf
      rw [hsame p hne, hr] at hf
      cases hf
    | _ :: _ :: _, _, hlen => simp at hlen

/-- The commit cannot be processed: the file is missing. -/
theorem regular_lacks {env : Env} (hsrt : SortsHunks env.srt) {n : Nat} {repo r : Repo} {hash p : Str} {changes : List Str} {res : Result} {ch : Str} {d : Diff}
    (hch : ch ∈ changes) (hd : parseDiff ch = .ok d) (hn : NeedsFile d) (hne : p ≠ hash) (hl : Lacks repo p d.pathPrev) :
    processRegularCommit env n repo hash [p] changes ≠ .ok (r, res) := by
  intro h
  unfold processRegularCommit at h
  split at h
  · cases h
  · obtain ⟨st, hst, _⟩ := bind_ok h
    have key : ∀ (l : List Str) (s s' : Repo × Files), ch ∈ l → Lacks s.1 p d.pathPrev → l.foldlM (regularChange env hash [p]) s ≠ .ok s' := by
      intro l
      induction l with
      | nil => intro s s' h; cases h
      | cons x l ih =>
        intro s s' hx hs hfold
        rw [List.foldlM_cons] at hfold
        obtain ⟨s1, h1, h2⟩ := bind_ok hfold
        by_cases hxc : x = ch
        · subst hxc
          exact regularChange_lacks hsrt hd hn hs h1
        · have : ch ∈ l := by
            rcases List.mem_cons.1 hx with h | h
            · exact absurd h.symm hxc
            · exact h
          exact ih s1 s' this (hs.same (regularChange_same h1) hne) h2
    exact key changes _ st hch (hl.same (sameBut_set _ _ _) hne) hst

/-- The merge cannot be processed: a parent is missing. -/
theorem merge_no_parent {env : Env} {n : Nat} {repo r : Repo} {hash p : Str} {parents : List Str} {parts : GoMap Str LogCommit} {res : Result} (hp : p ∈ parents)
    (hne : p ≠ hash) (hr : GoMap.get repo p = none) : processMergeCommit env n repo hash parents parts ≠ .ok (r, res) := by
  intro h
  unfold processMergeCommit at h
  obtain ⟨diffs, _, h⟩ := bind_ok h
  obtain ⟨st, hst, h⟩ := bind_ok h
  obtain ⟨files, hf, h⟩ := bind_ok h
  have hsame : SameBut hash repo st.1 := SameBut.trans (sameBut_set _ _ _)
    (foldlM_keeps (α := Repo × Files) (P := fun a b => SameBut hash a.1 b.1) (fun a => sameBut_refl _ _) (fun a b c h1 h2 => SameBut.trans (b := b.1) h1 h2)
      (fun _ _ _ h => mergeFile_same h) _ _ _ hst)
  have hnone : GoMap.get st.1 p = none := (hsame p hne).trans hr
  have key : ∀ (ps files : List Str), p ∈ ps → allParentFiles st.1 ps ≠ .ok files := by
    intro ps
    induction ps with
    | nil => intro _ h; cases h
    | cons q qs ih =>
      intro files hp hf
      unfold allParentFiles at hf
      obtain ⟨fs, h1, hf⟩ := bind_ok hf
      obtain ⟨rest, h2, hf⟩ := bind_ok hf
      rcases List.mem_cons.1 hp with rfl | hp
      · unfold Repo.getCommitMust at h1
        rw [hnone] at h1
        cases h1
      · exact ih rest hp h2
  exact key _ _ hp hf

theorem keeps_trim {Q : Option Files → Prop} (hQ : Q none) {s : Proc} {h p : Str} (hl : Q (GoMap.get s.repo p)) : Q (GoMap.get (s.trim h).repo p) := by
  unfold Proc.trim
  generalize s.parents h = ps
  induction ps generalizing s with
  | nil => exact hl
  | cons q ps ih =>
    apply ih
    unfold Proc.trimParent
    simp only
    split
    · unfold unload
      simp only
      split
      · split
        · simp only [GoMap.get_del]
          split
          · exact hQ
          · exact hl
        · exact hl
      · exact hl
    · exact hl

/-- What holds before the commit that needs what is missing; `S` are the commits before it. -/
structure Before (g : Graph) (S : Str → Prop) (p : Str) (Q : Option Files → Prop) (s : Proc) : Prop where
  graph : s.graph = g
  lacks : Q (GoMap.get s.repo p)
  sent : ∀ r ∈ s.sent, S r.commit
  pending : s.mergeParts.length > 0 → S s.mergePartsCommit ∧ isMergeIn g s.mergePartsCommit = true

theorem finishMerge_before {env : Env} {g : Graph} {S : Str → Prop} {p : Str} {Q : Option Files → Prop} (hQ : Q none) {s s' : Proc} (hb : Before g S p Q s) (hl : s.mergeParts.length > 0)
    (hne : p ≠ s.mergePartsCommit) (h : s.finishMerge env = .ok s') : Before g S p Q s' ∧ s'.mergeParts = [] := by
  obtain ⟨h1, h2, h3⟩ := finishMerge_sent h
  refine ⟨⟨h2.trans hb.graph, ?_, ?_, by rw [h3]; simp⟩, h3⟩
  · unfold Proc.finishMerge at h
    split at h
    · cases h
    · rename_i r res hm
      cases h
      exact keeps_trim hQ (s := { s with repo := r, lastProcessed := s.mergePartsCommit }) (by simp only [merge_same hm p hne]; exact hb.lacks)
  · intro r hr
    have : r.commit ∈ s'.sent.map (·.commit) := List.mem_map.2 ⟨r, hr, rfl⟩
    rw [h1] at this
    rcases List.mem_append.1 this with h | h
    · obtain ⟨r', hr', he⟩ := List.mem_map.1 h
      rw [← he]; exact hb.sent r' hr'
    · rw [List.mem_singleton.1 h]; exact (hb.pending hl).1

theorem newCommit_before {env : Env} {g : Graph} {S : Str → Prop} {p : Str} {Q : Option Files → Prop} (hQ : Q none) {s s' : Proc} {c : LogCommit} (hb : Before g S p Q s) (h0 : s.mergeParts = [])
    (hc : S c.hash) (hne : p ≠ c.hash) (h : s.newCommit env c = .ok s') : Before g S p Q s' := by
  obtain ⟨h1, h2⟩ := newCommit_sent h0 h
  refine ⟨h1.trans hb.graph, ?_, ?_, ?_⟩
  · unfold Proc.newCommit at h
    split at h
    · cases h; exact hb.lacks
    · obtain ⟨⟨r, res⟩, hr, h⟩ := bind_ok h
      cases h
      exact keeps_trim hQ (s := { s with repo := r, lastProcessed := c.hash }) (by simp only [regular_same hr p hne]; exact hb.lacks)
  · split at h2
    · rw [h2.1]; exact hb.sent
    · intro r hr
      have : r.commit ∈ s'.sent.map (·.commit) := List.mem_map.2 ⟨r, hr, rfl⟩
      rw [h2.1] at this
      rcases List.mem_append.1 this with h | h
      · obtain ⟨r', hr', he⟩ := List.mem_map.1 h
        rw [← he]; exact hb.sent r' hr'
      · rw [List.mem_singleton.1 h]; exact hc
  · intro hl
    split at h2
    · rename_i hm
      rw [h2.2.2]
      exact ⟨hc, by rw [← hb.graph]; exact hm⟩
    · rw [h2.2] at hl; cases hl

theorem commit_before {env : Env} {g : Graph} {S : Str → Prop} {p : Str} {Q : Option Files → Prop} (hQ : Q none) {s s' : Proc} {c : LogCommit} {e : Option Fault} (hb : Before g S p Q s)
    (hS : ∀ h, S h → p ≠ h) (hc : S c.hash) (h : s.commit env c = (s', e)) : Before g S p Q s' := by
  unfold Proc.commit at h
  split at h
  · rename_i hl
    split at h
    · cases h
      exact ⟨hb.graph, hb.lacks, hb.sent, fun _ => hb.pending hl⟩
    · split at h
      · cases h; exact hb
      · rename_i s1 hf
        obtain ⟨b1, b2⟩ := finishMerge_before hQ hb hl (hS _ (hb.pending hl).1) hf
        split at h
        · cases h; exact b1
        · rename_i s2 hn
          cases h; exact newCommit_before hQ b1 b2 hc (hS _ hc) hn
  · rename_i hl
    split at h
    · cases h; exact hb
    · rename_i s2 hn
      cases h; exact newCommit_before hQ hb (List.length_eq_zero_iff.1 (by omega)) hc (hS _ hc) hn

theorem loop_before {env : Env} {g : Graph} {S : Str → Prop} {p : Str} {Q : Option Files → Prop} (hQ : Q none) (hS : ∀ h, S h → p ≠ h) : ∀ (log : List LogCommit) (s s' : Proc) (e : Option Fault),
    s.loop env log = (s', e) → (∀ c ∈ log, S c.hash) → Before g S p Q s → Before g S p Q s' := by
  intro log
  induction log with
  | nil => intro s s' e h _ hb; cases h; exact hb
  | cons c cs ih =>
    intro s s' e h hc hb
    unfold Proc.loop at h
    split at h
    · rename_i h1; cases h; exact commit_before hQ hb hS (hc c (by simp)) h1
    · rename_i h1; exact ih _ s' e h (fun x hx => hc x (by simp [hx])) (commit_before hQ hb hS (hc c (by simp)) h1)

/-- A pending merge whose parent is missing makes the run fail. -/
theorem loop_pending {env : Env} {p : Str} : ∀ (log : List LogCommit) (s s' : Proc) (e : Option Fault), s.loop env log = (s', e) → s.mergeParts.length > 0 →
    p ∈ s.parents s.mergePartsCommit → p ≠ s.mergePartsCommit → GoMap.get s.repo p = none →
    s'.sent = s.sent ∧ (e = none → s'.mergeParts.length > 0 ∧ ∃ e', s'.finishMerge env = .error e') := by
  have fails : ∀ (s : Proc), p ∈ s.parents s.mergePartsCommit → p ≠ s.mergePartsCommit → GoMap.get s.repo p = none → ∃ e', s.finishMerge env = .error e' := by
    intro s hp hne hr
    unfold Proc.finishMerge
    cases hm : processMergeCommit env s.sent.length s.repo s.mergePartsCommit (s.parents s.mergePartsCommit) s.mergeParts with
    | error e => exact ⟨_, rfl⟩
    | ok x => exact absurd hm (merge_no_parent hp hne hr)
  intro log
  induction log with
  | nil => intro s s' e h hl hp hne hr; cases h; exact ⟨rfl, fun _ => ⟨hl, fails s hp hne hr⟩⟩
  | cons c cs ih =>
    intro s s' e h hl hp hne hr
    unfold Proc.loop Proc.commit at h
    rw [if_pos hl] at h
    by_cases hm : s.mergePartsCommit = c.hash
    · rw [if_pos hm] at h
      refine ih { s with mergeParts := GoMap.set s.mergeParts c.mergeDiffFrom c } s' e h ?_ hp hne hr
      have hg : GoMap.get (GoMap.set s.mergeParts c.mergeDiffFrom c) c.mergeDiffFrom = some c := GoMap.get_set_self _ _ _
      cases hx : GoMap.set s.mergeParts c.mergeDiffFrom c with
      | nil => rw [hx] at hg; simp at hg
      | cons _ _ => simp
    · rw [if_neg hm] at h
      obtain ⟨e', he'⟩ := fails s hp hne hr
      rw [he'] at h
      cases h
      exact ⟨rfl, by simp⟩

end Ripsrc
