import Verif.Model.FileJobs
import Verif.Props.ExecPipedUse
/-!
# C85: the goroutine that a metadata call leaves behind
-/
namespace Ripsrc
open Spec
variable {τ : Type}

theorem fileJobs_le (parseDate : Str → Option τ) (p : MetaParser τ) (l : Str) : fileJobs parseDate p l ≤ 1 := by
  unfold fileJobs
  repeat' split
  all_goals omega

theorem metaReader_max (parseDate : Str → Option τ) : 0 < (metaReader parseDate).max := by simp [metaReader, metaMaxLine]

/-- What the system with the channel does is what the system without it does, plus sends and receives. -/
theorem job_base {parseDate : Str → Option τ} {fails : Bool} {text : Str} {n : Nat} {v : JobSt τ} (hs : JobSteps parseDate fails n (jobInit parseDate text) v) :
    (∃ m, StreamSteps (metaReader parseDate) fails m (streamInit (metaReader parseDate) text) v.t ∧ n + v.buf ≤ 3 * m + 2 * v.sent) ∧ v.sent ≤ 1 ∧ v.drain = .recv ∧ v.closed = false := by
  generalize h0 : jobInit parseDate text = v0 at hs
  induction hs with
  | refl => subst h0; exact ⟨⟨0, .refl _, by simp [jobInit]⟩, by simp [jobInit], rfl, rfl⟩
  | @snoc n v0 w x _ hst ih =>
    obtain ⟨⟨m, hm, hn⟩, h1, hd, hc⟩ := ih h0
    cases hst with
    | other h _ => exact ⟨⟨m + 1, .snoc hm h, by simp only; omega⟩, h1, hd, hc⟩
    | caller h _ _ => exact ⟨⟨m + 1, .snoc hm h, by simp only; omega⟩, by simp, hd, hc⟩
    | @put p l _ hlt _ _ =>
      have := fileJobs_le parseDate p l
      exact ⟨⟨m, hm, by simp only; omega⟩, by simp only; omega, hd, hc⟩
    | recv _ hb => exact ⟨⟨m, hm, by simp only; omega⟩, h1, hd, hc⟩
    | drained _ _ ho => rw [hc] at ho; cases ho

/-- The channel never blocks the call: what can move without it can move with it. -/
theorem job_stuck {parseDate : Str → Option τ} {fails : Bool} {text : Str} {n : Nat} {v : JobSt τ} (hs : JobSteps parseDate fails n (jobInit parseDate text) v)
    (hst : v.Stuck parseDate fails) : v.t.Stuck (metaReader parseDate) fails ∧ v.buf = 0 := by
  obtain ⟨_, _, hd, ho⟩ := job_base hs
  have hb : v.buf = 0 := by
    apply Classical.byContradiction
    intro hb
    exact hst _ (.recv hd (by omega))
  refine ⟨fun u hu => ?_, hb⟩
  by_cases hc : u.caller = v.t.caller
  · exact hst _ (.other hu hc)
  · apply hst _ (.caller hu hc ?_)
    intro p l hl
    apply Classical.byContradiction
    intro hlt
    exact hst _ (.put hl (by omega) (by rw [hb]; decide) ho)

/-- **C85 (no effect on results).** The channel `filejobs` and its goroutine do not change what a metadata call returns: in every schedule, when the call returns, it returns the commits (and the
error) of the whole output of git. -/
theorem C85_result {parseDate : Str → Option τ} {fails : Bool} {text : Str} {n : Nat} {v : JobSt τ} (hs : JobSteps parseDate fails n (jobInit parseDate text) v)
    {e : Option Fault} {got : List (MetaCommit τ)} (hr : v.t.caller = .returned e got) : metaRun parseDate text = (got, e) := by
  obtain ⟨⟨m, hm, _⟩, _⟩ := job_base hs
  rw [← metaReader_run]
  exact C62_result (metaReader_max parseDate) hm hr

/-- **C85 (termination).** Every schedule ends: the number of steps is bounded … -/
theorem C85_terminates {parseDate : Str → Option τ} {fails : Bool} {text : Str} {n : Nat} {v : JobSt τ} (hs : JobSteps parseDate fails n (jobInit parseDate text) v) :
    n ≤ 15 * text.length + 3 * (metaRun parseDate text).1.length + 44 := by
  obtain ⟨⟨m, hm, hn⟩, h1, _⟩ := job_base hs
  have := C62_terminates (metaReader_max parseDate) hm
  rw [metaReader_run] at this
  omega

theorem C85_can_end {parseDate : Str → Option τ} {fails : Bool} {text : Str} {n : Nat} {v : JobSt τ} (hs : JobSteps parseDate fails n (jobInit parseDate text) v) :
    ∃ m w, JobSteps parseDate fails (n + m) (jobInit parseDate text) w ∧ w.Stuck parseDate fails := by
  have hb := C85_terminates hs
  generalize hk : 15 * text.length + 3 * (metaRun parseDate text).1.length + 44 - n = k
  induction k generalizing n v with
  | zero =>
    refine ⟨0, v, hs, fun w hw => ?_⟩
    have := C85_terminates (.snoc hs hw)
    omega
  | succ k ih =>
    by_cases hst : v.Stuck parseDate fails
    · exact ⟨0, v, hs, hst⟩
    · obtain ⟨w, hw⟩ : ∃ w, JobStep parseDate fails v w := by
        apply Classical.byContradiction
        intro hn
        exact hst (fun w hw => hn ⟨w, hw⟩)
      have h1 := JobSteps.snoc hs hw
      obtain ⟨m, x, h2, h3⟩ := ih h1 (C85_terminates h1) (by omega)
      refine ⟨m + 1, x, ?_, h3⟩
      rw [← Nat.add_assoc, Nat.add_right_comm]
      exact h2

/-- **C85 (the leak).** … and when nothing can move any more after a call for the log of some commits, the call has returned all of them without error, git and the collector have ended, and exactly one
goroutine is left: the receiver of `filejobs`, which waits on an empty channel that nobody will ever send on or close. -/
theorem C85_leak {parseDate : Str → Option τ} (cs : List (CommitRec τ)) (h : ∀ c ∈ cs, c.Ok parseDate) (hlen : ∀ c ∈ cs, ∀ l ∈ c.lines, l.length < 65536)
    (hd : (cs.map (·.sha)).Nodup) {n : Nat} {v : JobSt τ} (hs : JobSteps parseDate false n (jobInit parseDate (metaLogText cs)) v) (hst : v.Stuck parseDate false) :
    (∃ ms, v.t.caller = .returned none ms ∧ ms.length = cs.length) ∧ v.goroutines = 1 ∧ v.drain = .recv ∧ v.buf = 0 ∧ v.closed = false := by
  obtain ⟨hb, hbuf⟩ := job_stuck hs hst
  obtain ⟨⟨m, hm, _⟩, _, hdr, ho⟩ := job_base hs
  obtain ⟨hcr, _, hend⟩ := C62_metadata cs h hlen hd hm
  obtain ⟨ms, hret, hl, _⟩ := hend hb
  refine ⟨⟨ms, hret, hl⟩, ?_, hdr, hbuf, ho⟩
  have hinv := streamInv_steps (metaReader_max parseDate) hm
  unfold JobSt.goroutines
  rw [hdr, hinv.col3 _ _ hret]
  rcases stuck_cases hinv hb with hp | ⟨rem, hg, _⟩ | ⟨hg, _⟩
  · exact absurd (.inr hp) hcr
  · exact absurd (.inl ⟨rem, hg⟩) hcr
  · simp [hg]

theorem calls_steps {parseDate : Str → Option τ} {fails : Bool} {cs : List (JobSt τ)} (h : FileCalls parseDate fails cs) :
    ∀ v ∈ cs, ∃ n text, JobSteps parseDate fails n (jobInit parseDate text) v := by
  induction h with
  | start => intro v hv; cases hv
  | call text _ _ ih =>
    intro v hv
    rcases List.mem_append.1 hv with hv | hv
    · exact ih v hv
    · rw [List.mem_singleton.1 hv]; exact ⟨0, text, .refl _⟩
  | step _ hs ih =>
    intro v hv
    rcases List.mem_append.1 hv with hv | hv
    · exact ih v (List.mem_append.2 (.inl hv))
    · rcases List.mem_cons.1 hv with rfl | hv
      · obtain ⟨n, text, hn⟩ := ih _ (List.mem_append.2 (.inr (.head _)))
        exact ⟨n + 1, text, .snoc hn hs⟩
      · exact ih v (List.mem_append.2 (.inr (.tail _ hv)))

/-- **C85 (every call).** A program that has read metadata `k` times, at whatever point of whatever execution, has at least `k` goroutines of these calls that have not ended, whether git failed or
not and whatever it printed. (A call of `Code` reads metadata once.) -/
theorem C85_every_call_leaks {parseDate : Str → Option τ} {fails : Bool} {cs : List (JobSt τ)} (h : FileCalls parseDate fails cs) :
    cs.length ≤ (cs.map JobSt.goroutines).sum := by
  have hall := calls_steps h
  clear h
  induction cs with
  | nil => simp
  | cons v cs ih =>
    obtain ⟨n, text, hn⟩ := hall v (.head _)
    have hd := (job_base hn).2.2.1
    have h1 : 1 ≤ v.goroutines := by
      unfold JobSt.goroutines
      rw [hd]
      simp only; omega
    have := ih (fun w hw => hall w (.tail _ hw))
    simp only [List.length_cons, List.map_cons, List.sum_cons]
    omega

/-! ## The hypotheses are met -/

theorem calls_of_steps {parseDate : Str → Option τ} {fails : Bool} {cs : List (JobSt τ)} {v w : JobSt τ} {n : Nat} (h : JobSteps parseDate fails n v w)
    (hc : FileCalls parseDate fails (cs ++ [v])) : FileCalls parseDate fails (cs ++ [w]) := by
  induction h with
  | refl => exact hc
  | snoc _ hs ih => exact .step (ih hc) hs

/-- The parser does send on the channel: once for the first file of the log of the example of C38. -/
example : fileJobs exDate { commit := some { sha := b!"c1", ordinal := 1 }, ordinal := 1, state := .files } b!":000000 100644 0000000 e69de29 A\ta.go" = 1 := by decide

/-- Two calls for the log of two commits: each has returned two commits, and two goroutines are left for ever. -/
example : ∃ v w, FileCalls exDate false [v, w] ∧ v.Stuck exDate false ∧ w.Stuck exDate false ∧
    (∃ ms, w.t.caller = .returned none ms ∧ ms.length = 2) ∧ v.goroutines + w.goroutines = 2 := by
  have hl : ∀ c ∈ exMeta, ∀ l ∈ c.lines, l.length < 65536 := by decide
  have hd : (exMeta.map (·.sha)).Nodup := by decide
  obtain ⟨n, v, h1, h2⟩ := C85_can_end (parseDate := exDate) (fails := false) (text := metaLogText exMeta) (.refl _)
  obtain ⟨⟨ms, h3, h4⟩, h5, _⟩ := C85_leak exMeta exMeta_ok hl hd h1 h2
  refine ⟨v, v, ?_, h2, h2, ⟨ms, h3, h4⟩, by rw [h5]⟩
  have hc : FileCalls exDate false [v] := calls_of_steps (cs := []) h1 (.call (metaLogText exMeta) .start (by intro v hv; cases hv))
  exact calls_of_steps (cs := [v]) h1 (.call (metaLogText exMeta) hc (by intro x hx; rw [List.mem_singleton.1 hx]; exact ⟨_, _, h3⟩))

end Ripsrc
