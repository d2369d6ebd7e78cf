import Verif.Lib.Missing
import Verif.Props.Whole
/-!
# C65: an incomplete checkpoint is noticed
-/
namespace Ripsrc
open Spec

/-- The outcome of a run that fails at the commit after `a`: an error or panic, no checkpoint, and results only for commits before. -/
structure FailsAfter (a : List LogCommit) (o : RunOut) : Prop where
  fault : o.fault ≠ none
  written : o.written = none
  sent : ∀ r ∈ o.sent, ∃ e ∈ a, r.commit = e.hash

theorem fails_of_loop {env : Env} {opts : RunOpts} {read : Str → Go Repo} {g : Graph} {a b : List LogCommit} {c : LogCommit} {R : Repo}
    (hinit : initCheckpoints opts read = .ok R) {s : Proc} {e : Option Fault} (hl : Proc.loop env { graph := g, repo := R } (a ++ c :: b) = (s, e))
    (hs : ∀ r ∈ s.sent, ∃ e ∈ a, r.commit = e.hash) (he : e = none → s.mergeParts.length > 0 ∧ ∃ e', s.finishMerge env = .error e') :
    FailsAfter a (run env opts read g (a ++ c :: b)) := by
  have hrun : run env opts read g (a ++ c :: b) = { sent := s.sent, fault := (run env opts read g (a ++ c :: b)).fault, written := none } ∧
      (run env opts read g (a ++ c :: b)).fault ≠ none := by
    unfold run
    split
    · rename_i hnil; simp at hnil
    · rw [hinit]
      simp only [hl]
      cases e with
      | some e => exact ⟨rfl, by simp⟩
      | none =>
        obtain ⟨h1, e', h2⟩ := he rfl
        simp [if_pos h1, h2]
  refine ⟨hrun.2, by rw [hrun.1], ?_⟩
  rw [hrun.1]; exact hs

/-- Splitting the loop. -/
theorem loop_split {env : Env} {a l : List LogCommit} : ∀ {s s' : Proc} {e : Option Fault}, s.loop env (a ++ l) = (s', e) →
    (∃ e', s.loop env a = (s', some e') ∧ e = some e') ∨ ∃ t, s.loop env a = (t, none) ∧ t.loop env l = (s', e) := by
  induction a with
  | nil => intro s s' e h; exact .inr ⟨s, rfl, h⟩
  | cons x xs ih =>
    intro s s' e h
    simp only [List.cons_append] at h
    cases hc : s.commit env x with
    | mk s1 f =>
      cases f with
      | some e1 =>
        have h1 : ∀ m, s.loop env (x :: m) = (s1, some e1) := by intro m; simp [Proc.loop, hc]
        rw [h1] at h; cases h; exact .inl ⟨_, h1 _, rfl⟩
      | none =>
        have h1 : ∀ m, s.loop env (x :: m) = s1.loop env m := by intro m; simp [Proc.loop, hc]
        rw [h1] at h; rw [h1]; exact ih h

theorem loop_until {env : Env} {g : Graph} {a b : List LogCommit} {c : LogCommit} {R : Repo} {p : Str} {Q : Option Files → Prop} (hQ : Q none)
    (hR : Q (GoMap.get R p)) (ha : ∀ e ∈ a, p ≠ e.hash) {s : Proc} {e : Option Fault} (hl : Proc.loop env { graph := g, repo := R } (a ++ c :: b) = (s, e)) :
    (e ≠ none ∧ Before g (fun h => ∃ e ∈ a, h = e.hash) p Q s) ∨
      ∃ t, Before g (fun h => ∃ e ∈ a, h = e.hash) p Q t ∧ t.loop env (c :: b) = (s, e) := by
  have hS : ∀ h, (∃ e ∈ a, h = e.hash) → p ≠ h := by rintro h ⟨x, hx, rfl⟩; exact ha x hx
  have h0 : Before g (fun h => ∃ e ∈ a, h = e.hash) p Q ({ graph := g, repo := R } : Proc) := ⟨rfl, hR, by simp, by simp⟩
  rcases loop_split hl with ⟨e', h1, rfl⟩ | ⟨t, h1, h2⟩
  · exact .inl ⟨by simp, loop_before hQ hS a _ _ _ h1 (fun x hx => ⟨x, hx, rfl⟩) h0⟩
  · exact .inr ⟨t, loop_before hQ hS a _ _ _ h1 (fun x hx => ⟨x, hx, rfl⟩) h0, h2⟩

/-- **C65 (missing parent).** If the run comes to a commit with a parent that is neither in the checkpoint nor before it in the log, the run fails: it sends no
result for that commit or a later one and writes no checkpoint. For any log, graph and checkpoint. -/
theorem C65_missing_parent {env : Env} {opts : RunOpts} {read : Str → Go Repo} {g : Graph} {a b : List LogCommit} {c : LogCommit} {R : Repo}
    (hinit : initCheckpoints opts read = .ok R) {p : Str} (hp : p ∈ g.parentsOf c.hash) (hne : p ≠ c.hash) (hR : GoMap.get R p = none)
    (ha : ∀ e ∈ a, p ≠ e.hash) : FailsAfter a (run env opts read g (a ++ c :: b)) := by
  cases hl : Proc.loop env { graph := g, repo := R } (a ++ c :: b) with
  | mk s e =>
    rcases loop_until (Q := (· = none)) rfl hR ha hl with ⟨he, hb⟩ | ⟨t, hb, ht⟩
    · exact fails_of_loop hinit hl hb.sent (fun h => absurd h he)
    · -- at the commit
      have atNew : ∀ (t0 : Proc), Before g (fun h => ∃ e ∈ a, h = e.hash) p (· = none) t0 → t0.mergeParts = [] →
          (match (match t0.newCommit env c with | .error e => (t0, some e) | .ok s => (s, none)) with
            | (s, some e) => (s, some e)
            | (s, none) => s.loop env b) = (s, e) →
          (∀ r ∈ s.sent, ∃ e ∈ a, r.commit = e.hash) ∧ (e = none → s.mergeParts.length > 0 ∧ ∃ e', s.finishMerge env = .error e') := by
        intro t0 hb0 h0 h
        cases hn : t0.newCommit env c with
        | error e1 => rw [hn] at h; cases h; exact ⟨hb0.sent, by simp⟩
        | ok t1 =>
          rw [hn] at h
          unfold Proc.newCommit at hn
          split at hn
          · cases hn
            obtain ⟨h1, h2⟩ := loop_pending (p := p) b _ s e h (by simp) (by simp only [Proc.parents, hb0.graph]; exact hp) hne hb0.lacks
            exact ⟨by rw [h1]; exact hb0.sent, h2⟩
          · obtain ⟨⟨r, res⟩, hr, _⟩ := bind_ok hn
            exact absurd hr (regular_no_parent (by simp only [Proc.parents, hb0.graph]; exact hp) hne hb0.lacks)
      have key : (∀ r ∈ s.sent, ∃ e ∈ a, r.commit = e.hash) ∧ (e = none → s.mergeParts.length > 0 ∧ ∃ e', s.finishMerge env = .error e') := by
        have ht0 := ht
        unfold Proc.loop Proc.commit at ht
        by_cases hlen : t.mergeParts.length > 0
        · by_cases hm : t.mergePartsCommit = c.hash
          · obtain ⟨h1, h2⟩ := loop_pending (p := p) (c :: b) t s e ht0 hlen (by simp only [Proc.parents, hb.graph, hm]; exact hp) (by rw [hm]; exact hne) hb.lacks
            exact ⟨by rw [h1]; exact hb.sent, h2⟩
          · rw [if_pos hlen, if_neg hm] at ht
            cases hf : t.finishMerge env with
            | error e1 => rw [hf] at ht; cases ht; exact ⟨hb.sent, by simp⟩
            | ok t1 =>
              rw [hf] at ht
              have hpne : p ≠ t.mergePartsCommit := by
                obtain ⟨x, hx, hxe⟩ := (hb.pending hlen).1
                rw [hxe]; exact ha x hx
              obtain ⟨b1, b2⟩ := finishMerge_before (Q := (· = none)) rfl hb hlen hpne hf
              exact atNew t1 b1 b2 ht
        · rw [if_neg hlen] at ht
          exact atNew t hb (List.length_eq_zero_iff.1 (by omega)) ht
      exact fails_of_loop hinit hl key.1 key.2

/-- **C65 (missing file).** If the run comes to a commit with one parent that changes a file which the stored state does not have for that parent (a rename
without patch, or a patch with a kept or removed line), the run fails: no result for that commit or a later one, no checkpoint. -/
theorem C65_missing_file {env : Env} (hsrt : SortsHunks env.srt) {opts : RunOpts} {read : Str → Go Repo} {g : Graph} {a b : List LogCommit} {c : LogCommit} {R : Repo}
    (hinit : initCheckpoints opts read = .ok R) {p : Str} (hp : g.parentsOf c.hash = [p]) (hne : p ≠ c.hash) {ch : Str} {d : Diff} (hch : ch ∈ c.changes)
    (hd : parseDiff ch = .ok d) (hn : NeedsFile d) (hR : Lacks R p d.pathPrev) (ha : ∀ e ∈ a, p ≠ e.hash) :
    FailsAfter a (run env opts read g (a ++ c :: b)) := by
  cases hl : Proc.loop env { graph := g, repo := R } (a ++ c :: b) with
  | mk s e =>
    rcases loop_until (Q := fun o => ∀ fs, o = some fs → GoMap.get fs d.pathPrev = none) (by simp) hR ha hl with ⟨he, hb⟩ | ⟨t, hb, ht⟩
    · exact fails_of_loop hinit hl hb.sent (fun h => absurd h he)
    · have hnm : isMergeIn g c.hash = false := by simp [isMergeIn, hp]
      have atNew : ∀ (t0 : Proc), Before g (fun h => ∃ e ∈ a, h = e.hash) p (fun o => ∀ fs, o = some fs → GoMap.get fs d.pathPrev = none) t0 →
          (match (match t0.newCommit env c with | .error e => (t0, some e) | .ok s => (s, none)) with
            | (s, some e) => (s, some e)
            | (s, none) => s.loop env b) = (s, e) →
          (∀ r ∈ s.sent, ∃ e ∈ a, r.commit = e.hash) ∧ (e = none → s.mergeParts.length > 0 ∧ ∃ e', s.finishMerge env = .error e') := by
        intro t0 hb0 h
        cases hnc : t0.newCommit env c with
        | error e1 => rw [hnc] at h; cases h; exact ⟨hb0.sent, by simp⟩
        | ok t1 =>
          exfalso
          have hpar : t0.parents c.hash = [p] := by simp only [Proc.parents, hb0.graph]; exact hp
          unfold Proc.newCommit at hnc
          rw [hpar, if_neg (by simp)] at hnc
          obtain ⟨⟨r, res⟩, hr, _⟩ := bind_ok hnc
          exact regular_lacks hsrt hch hd hn hne hb0.lacks hr
      have key : (∀ r ∈ s.sent, ∃ e ∈ a, r.commit = e.hash) ∧ (e = none → s.mergeParts.length > 0 ∧ ∃ e', s.finishMerge env = .error e') := by
        unfold Proc.loop Proc.commit at ht
        by_cases hlen : t.mergeParts.length > 0
        · by_cases hm : t.mergePartsCommit = c.hash
          · have := (hb.pending hlen).2
            rw [hm, hnm] at this; cases this
          · rw [if_pos hlen, if_neg hm] at ht
            cases hf : t.finishMerge env with
            | error e1 => rw [hf] at ht; cases ht; exact ⟨hb.sent, by simp⟩
            | ok t1 =>
              rw [hf] at ht
              have hpne : p ≠ t.mergePartsCommit := by
                obtain ⟨x, hx, hxe⟩ := (hb.pending hlen).1
                rw [hxe]; exact ha x hx
              obtain ⟨b1, b2⟩ := finishMerge_before (Q := fun o => ∀ fs, o = some fs → GoMap.get fs d.pathPrev = none) (by simp) hb hlen hpne hf
              exact atNew t1 b1 ht
        · rw [if_neg hlen] at ht
          exact atNew t hb ht
      exact fails_of_loop hinit hl key.1 key.2

/-! ### Examples -/

/-- A rename of `f` to `h` in `c2` (parent `c1`), after a resume from a checkpoint that has `c1` but not `f`. -/
def exRenameChange : Str := b!"diff --git a/f b/h\nsimilarity index 100%\nrename from f\nrename to h\n"

example : FailsAfter [] (run Ex.env { commitFromIncl := b!"c1" } (fun _ => .ok [(b!"c1", [])]) (Graph.newFromMap Ex.parents Ex.parents)
    ([] ++ { hash := b!"c2", changes := [exRenameChange] } :: [])) := by
  have hd : parseDiff exRenameChange = .ok { pathPrev := b!"f", path := b!"h" } := by decide
  refine C65_missing_file isort_sortsHunks (R := [(b!"c1", [])]) rfl (p := b!"c1") (by decide) (by decide) (List.mem_singleton.2 rfl) hd ?_ ?_ (by simp)
  · exact ⟨rfl, by decide, by decide, .inl ⟨by decide, rfl⟩⟩
  · intro fs h; simp [GoMap.get] at h; subst h; rfl

/-- The merge `c4` after a resume from a checkpoint without its second parent. -/
example : FailsAfter [] (run Ex.env { commitFromIncl := b!"c2" } (fun _ => .ok [(b!"c2", [])]) (Graph.newFromMap Ex.parents Ex.parents)
    ([] ++ { hash := b!"c4", mergeDiffFrom := b!"c2" } :: [{ hash := b!"c4", mergeDiffFrom := b!"c3" }])) :=
  C65_missing_parent (R := [(b!"c2", [])]) rfl (p := b!"c3") (by decide) (by decide) (by decide) (by simp)

end Ripsrc
