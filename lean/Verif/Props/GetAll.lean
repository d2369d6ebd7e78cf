import Verif.Lib.PipelineRun
import Verif.Model.GetAll
/-!
# C72: RunGetAll
-/
namespace Ripsrc
open Conc (Act State Step Steps Reach Stuck Crashed AllReturned)
variable {α : Type}

/-- The state with the given goroutines. -/
def gst (c : GLoc α) (r : Option (GLoc α)) (cl : Bool) : State GRole GChan (GLoc α) :=
  { procs := fun x => match x with | .caller => some c | .runner => r, closed := fun x => match x with | .res => cl | .done => false }

/-- How the goroutine goes on after `Run`. -/
def RunOutcome.next (o : RunOutcome α) : GLoc α := match o.fault with
  | none => .sendDone none
  | some (.error w) => .sendDone (some (.error w))
  | some (.panic _) => .panicked

/-- All states of all schedules. -/
inductive GInv (o : RunOutcome α) : Nat → State GRole GChan (GLoc α) → Prop where
  | start : GInv o 0 (gst .start none false)
  | run (a b : List α) (h : o.vs = a ++ b) : GInv o (a.length + 1) (gst (.collect a) (some (.run b)) false)
  | closed : GInv o (o.vs.length + 2) (gst (.collect o.vs) (some o.next) true)
  | join : GInv o (o.vs.length + 3) (gst (.join o.vs) (some o.next) true)
  | ret (h : ∀ w, o.fault ≠ some (.panic w)) : GInv o (o.vs.length + 4) (gst (.returned o.vs o.fault) (some .ended) true)

theorem GInv.init (o : RunOutcome α) : GInv o 0 RunOutcome.init := by
  have : (RunOutcome.init : State GRole GChan (GLoc α)) = gst .start none false :=
    Conc.State.ext' (fun r => by cases r <;> rfl) (fun c => by cases c <;> rfl)
  rw [this]; exact .start

theorem gst_set_caller (c d : GLoc α) (r : Option (GLoc α)) (cl : Bool) : (gst c r cl).set .caller d = gst d r cl :=
  Conc.State.ext' (fun x => by cases x <;> rfl) (fun x => by cases x <;> rfl)
theorem gst_set_runner (c : GLoc α) (r : Option (GLoc α)) (d : GLoc α) (cl : Bool) : (gst c r cl).set .runner d = gst c (some d) cl :=
  Conc.State.ext' (fun x => by cases x <;> rfl) (fun x => by cases x <;> rfl)
theorem gst_shut (c : GLoc α) (r : Option (GLoc α)) (cl : Bool) : (gst c r cl).shut .res = gst c r true :=
  Conc.State.ext' (fun x => by cases x <;> rfl) (fun x => by cases x <;> rfl)

/-- The next instruction of a goroutine of `gst`. -/
theorem gst_caller {c l : GLoc α} {r : Option (GLoc α)} {cl : Bool} (h : (gst c r cl).procs .caller = some l) : l = c := (Option.some.inj h).symm
theorem gst_runner {c l : GLoc α} {r : GLoc α} {cl : Bool} (h : (gst c (some r) cl).procs .runner = some l) : l = r := (Option.some.inj h).symm

theorem next_cases (o : RunOutcome α) : (∃ w, o.fault = some (.panic w) ∧ o.next = .panicked) ∨ ((∀ w, o.fault ≠ some (.panic w)) ∧ o.next = .sendDone o.fault) := by
  unfold RunOutcome.next
  cases h : o.fault with
  | none => exact Or.inr ⟨by simp, rfl⟩
  | some f => cases f with
    | panic w => exact Or.inl ⟨w, rfl, rfl⟩
    | error w => exact Or.inr ⟨by simp, rfl⟩

theorem GInv.step {o : RunOutcome α} {n : Nat} {s t : State GRole GChan (GLoc α)} (h : GInv o n s) (hst : Step o.act s t) : GInv o (n + 1) t := by
  cases h with
  | start =>
    cases hst with
    | @tau r l k h1 h2 => cases r with | caller => (cases gst_caller h1; simp [RunOutcome.act] at h2) | runner => cases h1
    | @sync p q l m c v k f h1 h2 h3 h4 h5 => cases p with | caller => (cases gst_caller h1; simp [RunOutcome.act] at h2) | runner => cases h1
    | @recvClosed q m c f h1 h2 h3 => cases q with | caller => (cases gst_caller h1; simp [RunOutcome.act] at h2) | runner => cases h1
    | @close r l c k h1 h2 h3 => cases r with | caller => (cases gst_caller h1; simp [RunOutcome.act] at h2) | runner => cases h1
    | @go r l n g k h1 h2 h3 =>
      cases r with | runner => cases h1 | caller => ?_
      cases gst_caller h1
      simp only [RunOutcome.act, Act.go.injEq] at h2
      obtain ⟨rfl, rfl, rfl⟩ := h2
      rw [gst_set_runner, gst_set_caller]
      exact GInv.run [] o.vs rfl
    | @wait r l rs k h1 h2 h3 => cases r with | caller => (cases gst_caller h1; simp [RunOutcome.act] at h2) | runner => cases h1
  | run a b hv =>
    cases hst with
    | @tau r l k h1 h2 => cases r with | caller => (cases gst_caller h1; simp [RunOutcome.act] at h2) | runner => (cases gst_runner h1; cases b <;> simp [RunOutcome.act] at h2)
    | @sync p q l m c v k f h1 h2 h3 h4 h5 =>
      cases p
      · cases gst_caller h1; simp [RunOutcome.act] at h2
      · cases gst_runner h1
        cases b with
        | nil => simp [RunOutcome.act] at h2
        | cons x b =>
          cases q
          · cases gst_caller h3
            simp only [RunOutcome.act, Act.send.injEq] at h2
            obtain ⟨rfl, rfl, rfl⟩ := h2
            simp only [RunOutcome.act, Act.recv.injEq, true_and] at h4
            subst h4
            rw [gst_set_runner, gst_set_caller]
            have := GInv.run (o := o) (a ++ [x]) b (by rw [hv]; simp)
            simpa using this
          · cases gst_runner h3; simp [RunOutcome.act] at h4
    | @recvClosed q m c f h1 h2 h3 =>
      cases q
      · cases gst_caller h1
        simp only [RunOutcome.act, Act.recv.injEq] at h2
        obtain ⟨rfl, -⟩ := h2
        simp [gst] at h3
      · cases gst_runner h1; cases b <;> simp [RunOutcome.act] at h2
    | @close r l c k h1 h2 h3 =>
      cases r
      · cases gst_caller h1; simp [RunOutcome.act] at h2
      · cases gst_runner h1
        cases b with
        | cons x b => simp [RunOutcome.act] at h2
        | nil =>
          simp only [RunOutcome.act, Act.close.injEq] at h2
          obtain ⟨rfl, rfl⟩ := h2
          rw [gst_set_runner, gst_shut]
          have e : o.vs = a := by simpa using hv
          have := GInv.closed (o := o)
          rw [e] at this
          exact this
    | @go r l n g k h1 h2 h3 => cases r with | caller => (cases gst_caller h1; simp [RunOutcome.act] at h2) | runner => (cases gst_runner h1; cases b <;> simp [RunOutcome.act] at h2)
    | @wait r l rs k h1 h2 h3 => cases r with | caller => (cases gst_caller h1; simp [RunOutcome.act] at h2) | runner => (cases gst_runner h1; cases b <;> simp [RunOutcome.act] at h2)
  | closed =>
    cases hst with
    | @tau r l k h1 h2 =>
      cases r
      · cases gst_caller h1; simp [RunOutcome.act] at h2
      · cases gst_runner h1; rcases next_cases o with ⟨w, -, hn⟩ | ⟨-, hn⟩ <;> simp [hn, RunOutcome.act] at h2
    | @sync p q l m c v k f h1 h2 h3 h4 h5 =>
      cases p
      · cases gst_caller h1; simp [RunOutcome.act] at h2
      · cases gst_runner h1
        rcases next_cases o with ⟨w, -, hn⟩ | ⟨-, hn⟩
        · simp [hn, RunOutcome.act] at h2
        · cases q
          · cases gst_caller h3
            simp only [hn, RunOutcome.act, Act.send.injEq] at h2
            obtain ⟨rfl, -, -⟩ := h2
            simp [RunOutcome.act] at h4
          · cases gst_runner h3; simp [hn, RunOutcome.act] at h4
    | @recvClosed q m c f h1 h2 h3 =>
      cases q
      · cases gst_caller h1
        simp only [RunOutcome.act, Act.recv.injEq] at h2
        obtain ⟨rfl, rfl⟩ := h2
        rw [gst_set_caller]
        exact GInv.join
      · cases gst_runner h1; rcases next_cases o with ⟨w, -, hn⟩ | ⟨-, hn⟩ <;> simp [hn, RunOutcome.act] at h2
    | @close r l c k h1 h2 h3 =>
      cases r
      · cases gst_caller h1; simp [RunOutcome.act] at h2
      · cases gst_runner h1; rcases next_cases o with ⟨w, -, hn⟩ | ⟨-, hn⟩ <;> simp [hn, RunOutcome.act] at h2
    | @go r l n g k h1 h2 h3 =>
      cases r
      · cases gst_caller h1; simp [RunOutcome.act] at h2
      · cases gst_runner h1; rcases next_cases o with ⟨w, -, hn⟩ | ⟨-, hn⟩ <;> simp [hn, RunOutcome.act] at h2
    | @wait r l rs k h1 h2 h3 =>
      cases r
      · cases gst_caller h1; simp [RunOutcome.act] at h2
      · cases gst_runner h1; rcases next_cases o with ⟨w, -, hn⟩ | ⟨-, hn⟩ <;> simp [hn, RunOutcome.act] at h2
  | join =>
    cases hst with
    | @tau r l k h1 h2 =>
      cases r
      · cases gst_caller h1; simp [RunOutcome.act] at h2
      · cases gst_runner h1; rcases next_cases o with ⟨w, -, hn⟩ | ⟨-, hn⟩ <;> simp [hn, RunOutcome.act] at h2
    | @sync p q l m c v k f h1 h2 h3 h4 h5 =>
      cases p
      · cases gst_caller h1; simp [RunOutcome.act] at h2
      · cases gst_runner h1
        rcases next_cases o with ⟨w, -, hn⟩ | ⟨hf, hn⟩
        · simp [hn, RunOutcome.act] at h2
        · cases q
          · cases gst_caller h3
            simp only [hn, RunOutcome.act, Act.send.injEq] at h2
            obtain ⟨rfl, rfl, rfl⟩ := h2
            simp only [RunOutcome.act, Act.recv.injEq, true_and] at h4
            subst h4
            rw [gst_set_runner, gst_set_caller]
            exact GInv.ret hf
          · cases gst_runner h3; simp [hn, RunOutcome.act] at h4
    | @recvClosed q m c f h1 h2 h3 =>
      cases q
      · cases gst_caller h1
        simp only [RunOutcome.act, Act.recv.injEq] at h2
        obtain ⟨rfl, -⟩ := h2
        simp [gst] at h3
      · cases gst_runner h1; rcases next_cases o with ⟨w, -, hn⟩ | ⟨-, hn⟩ <;> simp [hn, RunOutcome.act] at h2
    | @close r l c k h1 h2 h3 =>
      cases r
      · cases gst_caller h1; simp [RunOutcome.act] at h2
      · cases gst_runner h1; rcases next_cases o with ⟨w, -, hn⟩ | ⟨-, hn⟩ <;> simp [hn, RunOutcome.act] at h2
    | @go r l n g k h1 h2 h3 =>
      cases r
      · cases gst_caller h1; simp [RunOutcome.act] at h2
      · cases gst_runner h1; rcases next_cases o with ⟨w, -, hn⟩ | ⟨-, hn⟩ <;> simp [hn, RunOutcome.act] at h2
    | @wait r l rs k h1 h2 h3 =>
      cases r
      · cases gst_caller h1; simp [RunOutcome.act] at h2
      · cases gst_runner h1; rcases next_cases o with ⟨w, -, hn⟩ | ⟨-, hn⟩ <;> simp [hn, RunOutcome.act] at h2
  | ret hf =>
    cases hst with
    | @tau r l k h1 h2 => cases r with | caller => (cases gst_caller h1; simp [RunOutcome.act] at h2) | runner => (cases gst_runner h1; simp [RunOutcome.act] at h2)
    | @sync p q l m c v k f h1 h2 h3 h4 h5 => cases p with | caller => (cases gst_caller h1; simp [RunOutcome.act] at h2) | runner => (cases gst_runner h1; simp [RunOutcome.act] at h2)
    | @recvClosed q m c f h1 h2 h3 => cases q with | caller => (cases gst_caller h1; simp [RunOutcome.act] at h2) | runner => (cases gst_runner h1; simp [RunOutcome.act] at h2)
    | @close r l c k h1 h2 h3 => cases r with | caller => (cases gst_caller h1; simp [RunOutcome.act] at h2) | runner => (cases gst_runner h1; simp [RunOutcome.act] at h2)
    | @go r l n g k h1 h2 h3 => cases r with | caller => (cases gst_caller h1; simp [RunOutcome.act] at h2) | runner => (cases gst_runner h1; simp [RunOutcome.act] at h2)
    | @wait r l rs k h1 h2 h3 => cases r with | caller => (cases gst_caller h1; simp [RunOutcome.act] at h2) | runner => (cases gst_runner h1; simp [RunOutcome.act] at h2)

theorem GInv.steps {o : RunOutcome α} {n m : Nat} {s t : State GRole GChan (GLoc α)} (hs : Steps o.act n s t) (h : GInv o m s) : GInv o (m + n) t := by
  induction hs generalizing m with
  | refl => exact h
  | cons h1 _ ih => have := ih (h.step h1); rw [Nat.add_assoc, Nat.add_comm 1] at this; exact this

/-- Only the last states are stuck. -/
theorem GInv.stuck {o : RunOutcome α} {n : Nat} {s : State GRole GChan (GLoc α)} (h : GInv o n s) (hs : Stuck o.act s) :
    (s = gst (.returned o.vs o.fault) (some .ended) true ∧ (∀ w, o.fault ≠ some (.panic w)) ∧ n = o.vs.length + 4) ∨
    (s = gst (.join o.vs) (some .panicked) true ∧ ∃ w, o.fault = some (.panic w)) := by
  cases h with
  | start => exact absurd (Step.go (act := o.act) (s := gst .start none false) (r := GRole.caller) rfl rfl rfl) (hs _)
  | run a b hv =>
    cases b with
    | nil => exact absurd (Step.close (act := o.act) (s := gst (.collect a) (some (.run [])) false) (r := GRole.runner) rfl rfl rfl) (hs _)
    | cons x b => exact absurd (Step.sync (act := o.act) (s := gst (.collect a) (some (.run (x :: b))) false) (p := GRole.runner) (q := GRole.caller) rfl rfl rfl rfl rfl) (hs _)
  | closed => exact absurd (Step.recvClosed (act := o.act) (s := gst (.collect o.vs) (some o.next) true) (q := GRole.caller) rfl rfl rfl) (hs _)
  | join =>
    rcases next_cases o with ⟨w, hw, hn⟩ | ⟨hf, hn⟩
    · exact Or.inr ⟨by rw [hn], w, hw⟩
    · rw [hn] at hs
      exact absurd (Step.sync (act := o.act) (s := gst (.join o.vs) (some (.sendDone o.fault)) true) (p := GRole.runner) (q := GRole.caller) rfl rfl rfl rfl rfl) (hs _)
  | ret hf => exact Or.inl ⟨rfl, hf, rfl⟩

/-- **C72**: if `Run` does not panic, every schedule of `RunGetAll` has the same end: no goroutine is left, and the call has returned all values, in the order in which they were
sent, together with the error of `Run`. There is no deadlock, and a schedule has at most one step per value and four more. -/
theorem C72_returns (o : RunOutcome α) (h : ∀ w, o.fault ≠ some (.panic w)) {n : Nat} {s : State GRole GChan (GLoc α)} (hs : Steps o.act n RunOutcome.init s) :
    n ≤ o.vs.length + 4 ∧ ¬ Crashed o.act s ∧
      (Stuck o.act s → s.procs .caller = some (.returned o.vs o.fault) ∧ AllReturned o.act s) := by
  have hI : GInv o n s := by simpa using (GInv.init o).steps hs
  refine ⟨?_, ?_, ?_⟩
  · cases hI with
    | run a b hv => rw [hv]; simp; omega
    | _ => omega
  · have hn : o.next = .sendDone o.fault := by
      rcases next_cases o with ⟨w, hw, -⟩ | ⟨-, hn⟩
      · exact absurd hw (h w)
      · exact hn
    rintro ⟨r, l, h1, h2⟩
    cases hI with
    | start => cases r with | caller => (cases gst_caller h1; simp [RunOutcome.act] at h2) | runner => cases h1
    | run a b hv =>
      cases r
      · cases gst_caller h1; simp [RunOutcome.act] at h2
      · cases gst_runner h1
        cases b with
        | nil => simp [RunOutcome.act, gst] at h2
        | cons x b => simp [RunOutcome.act, gst] at h2
    | closed =>
      cases r
      · cases gst_caller h1; simp [RunOutcome.act] at h2
      · cases gst_runner h1; simp [hn, RunOutcome.act, gst] at h2
    | join =>
      cases r
      · cases gst_caller h1; simp [RunOutcome.act] at h2
      · cases gst_runner h1; simp [hn, RunOutcome.act, gst] at h2
    | ret hf => cases r with | caller => (cases gst_caller h1; simp [RunOutcome.act] at h2) | runner => (cases gst_runner h1; simp [RunOutcome.act] at h2)
  · intro hst
    rcases hI.stuck hst with ⟨rfl, -, -⟩ | ⟨-, w, hw⟩
    · refine ⟨rfl, fun r l hl => ?_⟩
      cases r
      · cases gst_caller hl; rfl
      · cases gst_runner hl; rfl
    · exact absurd hw (h w)

/-- **C72**: if `Run` panics, `RunGetAll` never returns, in no schedule. -/
theorem C72_panic (o : RunOutcome α) {w : String} (h : o.fault = some (.panic w)) {n : Nat} {s : State GRole GChan (GLoc α)} (hs : Steps o.act n RunOutcome.init s) :
    (∀ got e, s.procs .caller ≠ some (.returned got e)) ∧ (Stuck o.act s → Crashed o.act s) := by
  have hI : GInv o n s := by simpa using (GInv.init o).steps hs
  constructor
  · intro got e hc
    cases hI with
    | ret hf => exact hf w h
    | _ => cases gst_caller hc
  · intro hst
    rcases hI.stuck hst with ⟨-, hf, -⟩ | ⟨rfl, -⟩
    · exact absurd h (hf w)
    · exact ⟨.runner, .panicked, rfl, Or.inl rfl⟩

/-- **C72**: for the log parser: on a text that `Run` accepts, `RunGetAll` returns exactly the commits of the text. -/
theorem C72_parser {text : Str} {log : List LogCommit} (hp : parseLog text = .ok log) {n : Nat} {s : State GRole GChan (GLoc LogCommit)}
    (hs : Steps (parserOutcome text).act n RunOutcome.init s) (hst : Stuck (parserOutcome text).act s) : s.procs .caller = some (.returned log none) := by
  have e := (parseSent_ok text log).1 hp
  have hf : (parserOutcome text).fault = none := by rw [parserOutcome, e]
  have hv : (parserOutcome text).vs = log := by rw [parserOutcome, e]
  have := ((C72_returns _ (by rw [hf]; simp) hs).2.2 hst).1
  rwa [hf, hv] at this

/-- `parseSent` and `parseLog` agree on what goes wrong. -/
theorem parseSent_fault {text : Str} {f : Fault} (h : parseLog text = .error f) : (parseSent text).2 = some f := by
  have key : ∀ (ls : List Str) (s : LogParser), (∀ e, ls.foldlM LogParser.line s = .error e → (s.lines ls).2 = some e) ∧ (∀ s', ls.foldlM LogParser.line s = .ok s' → s.lines ls = (s', none)) := by
    intro ls
    induction ls with
    | nil => intro s; simp [LogParser.lines, pure, Except.pure]
    | cons b bs ih =>
      intro s
      simp only [List.foldlM_cons, LogParser.lines]
      cases hl : s.line b with
      | ok s1 => simpa [bind, Except.bind] using ih s1
      | error e =>
        simp only [bind, Except.bind]
        split <;> simp
  unfold parseLog at h
  unfold parseSent
  simp only at h ⊢
  cases hf : (scan logMaxLine text).1.foldlM LogParser.line {} with
  | error e =>
    rw [hf] at h
    simp only [bind, Except.bind, Except.error.injEq] at h
    subst h
    have := (key _ _).1 _ hf
    cases hl : LogParser.lines {} (scan logMaxLine text).1 with
    | mk s o => rw [hl] at this; cases this; rfl
  | ok s' =>
    rw [hf] at h
    simp only [bind, Except.bind] at h
    rw [(key _ _).2 _ hf]
    simp only
    split at h
    · rename_i ht; rw [if_pos ht]; cases h; rfl
    · split at h <;> cases h

/-- **C72**: for the log parser: on a text that `Run` refuses, `RunGetAll` returns its error, and the commits that were sent before; if `Run` panics, it never returns. -/
theorem C72_parser_fails {text : Str} {f : Fault} (hp : parseLog text = .error f) {n : Nat} {s : State GRole GChan (GLoc LogCommit)}
    (hs : Steps (parserOutcome text).act n RunOutcome.init s) (hst : Stuck (parserOutcome text).act s) :
    (∀ w, f = .error w → s.procs .caller = some (.returned (parseSent text).1 (some f)) ∧ AllReturned (parserOutcome text).act s) ∧
    (∀ w, f = .panic w → Crashed (parserOutcome text).act s ∧ ∀ got e, s.procs .caller ≠ some (.returned got e)) := by
  have hf : (parserOutcome text).fault = some f := parseSent_fault hp
  constructor
  · intro w hw
    have := (C72_returns _ (by rw [hf, hw]; simp) hs).2.2 hst
    rw [hf] at this
    exact this
  · intro w hw
    have := C72_panic _ (by rw [hf, hw]) hs
    exact ⟨this.2 hst, this.1⟩

/-- Every schedule of `RunGetAll` can be continued to an end. -/
theorem getAll_end (o : RunOutcome α) : ∃ n s, Steps o.act n RunOutcome.init s ∧ Stuck o.act s := by
  apply Classical.byContradiction
  intro hc
  have hall : ∀ k, ∃ s, Steps o.act k RunOutcome.init s := by
    intro k
    induction k with
    | zero => exact ⟨_, .refl⟩
    | succ k ih =>
      obtain ⟨s, hs⟩ := ih
      apply Classical.byContradiction
      intro hn
      exact hc ⟨k, s, hs, fun t ht => hn ⟨t, hs.snoc ht⟩⟩
  obtain ⟨s, hs⟩ := hall (o.vs.length + 5)
  have hI : GInv o (o.vs.length + 5) s := by simpa using (GInv.init o).steps hs
  generalize hn : o.vs.length + 5 = n at hI
  cases hI with
  | run a b hv => rw [hv] at hn; simp at hn; omega
  | _ => omega

/-- The hypotheses are met: a run that sends two values and returns an error. -/
example : ∃ n s, Steps (⟨[1, 2], some (.error "x")⟩ : RunOutcome Nat).act n RunOutcome.init s ∧ s.procs .caller = some (.returned [1, 2] (some (.error "x"))) := by
  obtain ⟨n, s, hs, hst⟩ := getAll_end (⟨[1, 2], some (.error "x")⟩ : RunOutcome Nat)
  exact ⟨n, s, hs, ((C72_returns _ (by simp) hs).2.2 hst).1⟩

/-- And one that panics after one value. -/
example : ∃ n s, Steps (⟨[1], some (.panic "x")⟩ : RunOutcome Nat).act n RunOutcome.init s ∧ Crashed (⟨[1], some (.panic "x")⟩ : RunOutcome Nat).act s := by
  obtain ⟨n, s, hs, hst⟩ := getAll_end (⟨[1], some (.panic "x")⟩ : RunOutcome Nat)
  exact ⟨n, s, hs, (C72_panic _ rfl hs).2 hst⟩

/-- The log parser panics on a text that is not a log. -/
example : ∃ w n s, parseLog b!"x" = .error (.panic w) ∧ Steps (parserOutcome b!"x").act n RunOutcome.init s ∧ Crashed (parserOutcome b!"x").act s := by
  obtain ⟨n, s, hs, hst⟩ := getAll_end (parserOutcome b!"x")
  have hw : ∃ w, parseLog b!"x" = .error (.panic w) := ⟨_, rfl⟩
  obtain ⟨w, hw⟩ := hw
  exact ⟨w, n, s, hw, hs, ((C72_parser_fails hw hs hst).2 w rfl).1⟩

end Ripsrc
