import Verif.Lib.RunLog
import Verif.Lib.Acts
/-!
# What a run leaves alone, for any log and any graph
-/
namespace Ripsrc
open Spec

theorem foldlM_keeps {α ι : Type} {P : α → α → Prop} (hr : ∀ a, P a a) (ht : ∀ a b c, P a b → P b c → P a c) {f : α → ι → Go α}
    (hf : ∀ a x b, f a x = .ok b → P a b) : ∀ (l : List ι) (a b : α), l.foldlM f a = .ok b → P a b := by
  intro l
  induction l with
  | nil => intro a b h; cases h; exact hr a
  | cons x l ih =>
    intro a b h
    rw [List.foldlM_cons] at h
    cases h1 : f a x with
    | error e => rw [h1] at h; cases h
    | ok c => rw [h1] at h; exact ht a c b (hf a x c h1) (ih c b h)

theorem put_same {r r' : Repo} {c f : Str} {b : Blame} (h : r.put c f b = .ok r') : SameBut c r r' := by
  unfold Repo.put at h
  split at h
  · cases h
  · cases h; exact sameBut_set _ _ _

theorem store_same {hash p : Str} {st st' : Repo × Files} {b : Blame} (h : store hash st p b = .ok st') : SameBut hash st.1 st'.1 := by
  unfold store at h
  cases h1 : st.1.put hash p b with
  | error e => rw [h1] at h; cases h
  | ok r => rw [h1] at h; cases h; exact put_same h1

theorem regularChange_same {env : Env} {hash : Str} {parents : List Str} {st st' : Repo × Files} {ch : Str}
    (h : regularChange env hash parents st ch = .ok st') : SameBut hash st.1 st'.1 := by
  unfold regularChange at h
  simp only [bind, Except.bind] at h
  split at h
  · cases h
  · split at h
    · split at h
      · cases h; exact fun _ _ => rfl
      · exact store_same h
    · split at h
      · cases h; exact fun _ _ => rfl
      · split at h
        · cases h
        · split at h
          · exact store_same h
          · split at h
            · cases h
            · split at h
              · cases h
              · exact store_same h

theorem sameBut_refl (h : Str) (r : Repo) : SameBut h r r := fun _ _ => rfl

theorem copyUnchanged_same {hash p : Str} {res : Files} {r r' : Repo} {fp : Str} (h : copyUnchanged hash p res r fp = .ok r') : SameBut hash r r' := by
  unfold copyUnchanged at h
  split at h
  · cases h; exact sameBut_refl _ _
  · cases h1 : r.getFileMust p fp with
    | error e => rw [h1] at h; cases h
    | ok b => rw [h1] at h; exact put_same h

theorem regular_same {env : Env} {n : Nat} {repo : Repo} {hash : Str} {parents changes : List Str} {r : Repo} {res : Result}
    (h : processRegularCommit env n repo hash parents changes = .ok (r, res)) : SameBut hash repo r := by
  unfold processRegularCommit at h
  split at h
  · cases h
  · cases h1 : changes.foldlM (regularChange env hash parents) (repo.addCommit hash, []) with
    | error e => rw [h1] at h; cases h
    | ok st =>
      have k1 : SameBut hash repo st.1 := SameBut.trans (sameBut_set _ _ _)
        (foldlM_keeps (α := Repo × Files) (P := fun a b => SameBut hash a.1 b.1) (fun a => sameBut_refl _ _) (fun a b c h1 h2 => SameBut.trans (b := b.1) h1 h2)
          (fun _ _ _ h => regularChange_same h) _ _ _ h1)
      rw [h1] at h
      cases parents with
      | nil => cases h; exact k1
      | cons p ps =>
        simp only [bind, Except.bind] at h
        split at h
        · cases h
        · split at h
          · cases h
          · rename_i r' hr'
            cases h
            exact k1.trans (foldlM_keeps (P := SameBut hash) (fun a => sameBut_refl _ _) (fun a b c h1 h2 => SameBut.trans h1 h2)
              (fun _ _ _ h => copyUnchanged_same h) _ _ _ hr')

theorem mergeFile_same {env : Env} {hash : Str} {ps : List Str} {diffs : DiffsByKey} {st st' : Repo × Files} {k : Str}
    (h : mergeFile env hash ps diffs st k = .ok st') : SameBut hash st.1 st'.1 := by
  unfold mergeFile at h
  simp only [bind, Except.bind] at h
  split at h
  · split at h
    · cases h
    · cases h; exact sameBut_refl _ _
  · split at h
    · cases h
    · split at h
      · exact store_same h
      · split at h
        · cases h
        · split at h
          · split at h
            · cases h
            · rename_i hp
              cases h
              exact put_same hp
          · split at h
            · cases h
            · split at h
              · cases h
              · exact store_same h

theorem mergeUnchanged_same {hash : Str} {ps : List Str} {r r' : Repo} {f : Str} (h : mergeUnchanged hash ps r f = .ok r') : SameBut hash r r' := by
  unfold mergeUnchanged at h
  simp only [bind, Except.bind] at h
  split at h
  · cases h
  · split at h
    · cases h; exact sameBut_refl _ _
    · split at h
      · cases h
      · split at h
        · cases h
        · exact put_same h

theorem merge_same {env : Env} {n : Nat} {repo : Repo} {hash : Str} {parents : List Str} {parts : GoMap Str LogCommit} {r : Repo} {res : Result}
    (h : processMergeCommit env n repo hash parents parts = .ok (r, res)) : SameBut hash repo r := by
  unfold processMergeCommit at h
  simp only [bind, Except.bind] at h
  split at h
  · cases h
  · split at h
    · cases h
    · rename_i st hst
      split at h
      · cases h
      · split at h
        · cases h
        · rename_i r' hr'
          cases h
          refine SameBut.trans (sameBut_set _ _ _) (SameBut.trans
            (foldlM_keeps (α := Repo × Files) (P := fun a b => SameBut hash a.1 b.1) (fun a => sameBut_refl _ _) (fun a b c h1 h2 => SameBut.trans (b := b.1) h1 h2)
              (fun _ _ _ h => mergeFile_same h) _ _ _ hst) ?_)
          exact foldlM_keeps (P := SameBut hash) (fun a => sameBut_refl _ _) (fun a b c h1 h2 => SameBut.trans h1 h2)
              (fun _ _ _ h => mergeUnchanged_same h) _ _ _ hr'

/-- `q` is neither about to be unloaded nor a parent of something. -/
theorem trimParent_frame {s : Proc} {p q : Str} (hq : q ∉ s.toUnload) (hp : q ≠ p) :
    q ∉ (s.trimParent p).toUnload ∧ GoMap.get (s.trimParent p).repo q = GoMap.get s.repo q := by
  unfold Proc.trimParent
  simp only
  split
  · unfold unload
    simp only
    split
    · split
      · rename_i last hlast
        constructor
        · intro h
          have := (List.dropLast_sublist _).subset h
          rcases List.mem_cons.1 this with h | h
          · exact hp h
          · exact hq h
        · simp only [GoMap.get_del]
          split
          · rename_i he
            exfalso
            rw [he] at hlast
            rcases List.mem_cons.1 (List.mem_of_getLast? hlast) with h | h
            · exact hp h
            · exact hq h
          · rfl
      · refine ⟨?_, rfl⟩
        simp only [List.mem_cons, not_or]
        exact ⟨hp, hq⟩
    · refine ⟨?_, rfl⟩
      simp only [List.mem_cons, not_or]
      exact ⟨hp, hq⟩
  · exact ⟨hq, rfl⟩

theorem trim_frame {s : Proc} {h q : Str} (hq : q ∉ s.toUnload) (hp : q ∉ s.parents h) :
    q ∉ (s.trim h).toUnload ∧ GoMap.get (s.trim h).repo q = GoMap.get s.repo q := by
  unfold Proc.trim
  generalize s.parents h = ps at hp
  induction ps generalizing s with
  | nil => exact ⟨hq, rfl⟩
  | cons p ps ih =>
    simp only [List.mem_cons, not_or] at hp
    obtain ⟨h1, h2⟩ := trimParent_frame hq hp.1
    obtain ⟨h3, h4⟩ := ih h1 hp.2
    exact ⟨h3, h4.trans h2⟩

/-- `q` is out of reach of the processing of the commit `h`. -/
def Untouched (g : Graph) (q h : Str) : Prop := q ≠ h ∧ q ∉ g.parentsOf h

/-- `q` is not affected. -/
def Framed (q : Str) (s s' : Proc) : Prop := s'.graph = s.graph ∧ q ∉ s'.toUnload ∧ GoMap.get s'.repo q = GoMap.get s.repo q

theorem finishMerge_frame {env : Env} {s s' : Proc} {q : Str} (hq : q ∉ s.toUnload) (hu : Untouched s.graph q s.mergePartsCommit)
    (h : s.finishMerge env = .ok s') : Framed q s s' := by
  unfold Proc.finishMerge at h
  split at h
  · cases h
  · rename_i r res hm
    cases h
    obtain ⟨a, b⟩ := trim_frame (s := { s with repo := r, lastProcessed := s.mergePartsCommit }) (h := s.mergePartsCommit) hq hu.2
    exact ⟨(trim_keep _ _).2.1, a, b.trans (merge_same hm q hu.1)⟩

theorem newCommit_frame {env : Env} {s s' : Proc} {q : Str} {c : LogCommit} (hq : q ∉ s.toUnload) (hu : Untouched s.graph q c.hash)
    (h : s.newCommit env c = .ok s') : Framed q s s' := by
  unfold Proc.newCommit at h
  split at h
  · cases h; exact ⟨rfl, hq, rfl⟩
  · cases hr : processRegularCommit env s.sent.length s.repo c.hash (s.parents c.hash) c.changes with
    | error e => rw [hr] at h; cases h
    | ok x =>
      obtain ⟨r, res⟩ := x
      rw [hr] at h
      cases h
      obtain ⟨a, b⟩ := trim_frame (s := { s with repo := r, lastProcessed := c.hash }) (h := c.hash) hq hu.2
      exact ⟨(trim_keep _ _).2.1, a, b.trans (regular_same hr q hu.1)⟩

theorem newCommit_pending {env : Env} {s s' : Proc} {c : LogCommit} (h : s.newCommit env c = .ok s') (h0 : s.mergeParts = []) :
    s'.mergeParts.length > 0 → s'.mergePartsCommit = c.hash := by
  intro hp
  have := (newCommit_sent h0 h).2
  split at this
  · exact this.2.2
  · rw [this.2] at hp
    cases hp

theorem loop_frame {env : Env} {q : Str} : ∀ (log : List LogCommit) (s s' : Proc) (f : Option Fault), s.loop env log = (s', f) →
    q ∉ s.toUnload → (∀ e ∈ log, Untouched s.graph q e.hash) → (s.mergeParts.length > 0 → Untouched s.graph q s.mergePartsCommit) →
    Framed q s s' ∧ (s'.mergeParts.length > 0 → Untouched s.graph q s'.mergePartsCommit) := by
  intro log
  induction log with
  | nil => intro s s' f h hq _ hp; cases h; exact ⟨⟨rfl, hq, rfl⟩, hp⟩
  | cons c cs ih =>
    intro s s' f h hq hlog hp
    have hc := hlog c (by simp)
    have hcs : ∀ e ∈ cs, Untouched s.graph q e.hash := fun e he => hlog e (by simp [he])
    have start : ∀ (t : Proc), Framed q s t → t.mergeParts = [] →
        (match (match t.newCommit env c with
          | .error e => (t, some e)
          | .ok s => (s, none)) with
        | (s, some e) => (s, some e)
        | (s, none) => s.loop env cs) = (s', f) →
        Framed q s s' ∧ (s'.mergeParts.length > 0 → Untouched s.graph q s'.mergePartsCommit) := by
      intro t ht h0 h
      cases hn : t.newCommit env c with
      | error e =>
        rw [hn] at h
        cases h
        exact ⟨ht, fun hl => by rw [h0] at hl; cases hl⟩
      | ok t1 =>
        rw [hn] at h
        obtain ⟨f1, f2, f3⟩ := newCommit_frame ht.2.1 (ht.1 ▸ hc) hn
        have hg : t1.graph = s.graph := f1.trans ht.1
        obtain ⟨⟨g1, g2, g3⟩, g4⟩ := ih t1 s' f h f2 (hg ▸ hcs) (fun hl => by rw [newCommit_pending hn h0 hl, hg]; exact hc)
        exact ⟨⟨g1.trans hg, g2, g3.trans (f3.trans ht.2.2)⟩, hg ▸ g4⟩
    unfold Proc.loop Proc.commit at h
    by_cases hl : s.mergeParts.length > 0
    · rw [if_pos hl] at h
      by_cases hm : s.mergePartsCommit = c.hash
      · rw [if_pos hm] at h
        exact ih { s with mergeParts := GoMap.set s.mergeParts c.mergeDiffFrom c } s' f h hq hcs (fun _ => hp hl)
      · rw [if_neg hm] at h
        cases hf : s.finishMerge env with
        | error e =>
          rw [hf] at h
          cases h
          exact ⟨⟨rfl, hq, rfl⟩, hp⟩
        | ok t =>
          rw [hf] at h
          exact start t (finishMerge_frame hq (hp hl) hf) (finishMerge_sent hf).2.2 h
    · rw [if_neg hl] at h
      exact start s ⟨rfl, hq, rfl⟩ (List.length_eq_zero_iff.1 (by omega)) h

/-- A commit in the checkpoint that is neither in the log nor a parent of a commit in the log stays as it is. -/
theorem run_frame {env : Env} {opts : RunOpts} {read : Str → Go Repo} {g : Graph} {log : List LogCommit} {R R' : Repo} {last : Str}
    (hinit : initCheckpoints opts read = .ok R) (h : (run env opts read g log).written = some (R', last)) {q : Str}
    (hq : ∀ e ∈ log, Untouched g q e.hash) : GoMap.get R' q = GoMap.get R q := by
  unfold run at h
  cases log with
  | nil => simp at h
  | cons c cs =>
    simp only [hinit] at h
    cases hl : Proc.loop env { graph := g, repo := R } (c :: cs) with
    | mk s f =>
      obtain ⟨⟨f1, f2, f3⟩, f4⟩ := loop_frame (q := q) _ _ _ _ hl (by simp) hq (by simp)
      rw [hl] at h
      cases f with
      | some e => simp at h
      | none =>
        simp only at h
        split at h
        · rename_i hp
          cases hf : s.finishMerge env with
          | error e => rw [hf] at h; simp at h
          | ok t =>
            rw [hf] at h
            simp only [Option.some.injEq, Prod.mk.injEq] at h
            obtain ⟨g1, g2, g3⟩ := finishMerge_frame f2 (f1 ▸ f4 hp) hf
            rw [← h.1, g3, f3]
        · simp only [Option.some.injEq, Prod.mk.injEq] at h
          rw [← h.1, f3]

end Ripsrc
