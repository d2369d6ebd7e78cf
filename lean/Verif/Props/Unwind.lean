import Verif.Lib.UnwindRun
import Verif.Props.PipelinePanic
import Verif.Props.Stream
import Verif.Props.Outlet
/-!
# C87: what a consumer sees of a run that panics

`UCodeSteps p prep ready n Pipe.uopen x` and `USteps p prep ready n UState.init x`: as `CodeSteps` (C86) and `SSteps` (C80), with the deferred `close` calls of a panicking caller
(Model/Unwind.lean).
-/
namespace Ripsrc
open Conc
open Spec

variable {τ : Type} {p : Pipe τ}

/-- `Code` has returned. -/
def UCodeReturned (x : OState PRole PChan (ULoc τ) (CodeRecord τ)) (w : Option (Repo × Str)) (e : Option Fault) : Prop := x.st.procs .caller = some (.prog (.joinSlice w e))
/-- `CodeByCommit` has returned. -/
def UState.Returned (x : UState τ) (w : Option (Repo × Str)) (e : Option Fault) : Prop := x.st.procs .caller = some (.prog (.joinCode w e))

/-! ### Without a panic the deferred calls change nothing -/

theorem Same.step_calm {ds : List PChan} {u u' : State PRole PChan (ULoc τ)} {s : State PRole PChan (PLoc τ)} (h : Same u s) (hpl : Placed PLoc.role s)
    (hc : s.procs .caller ≠ some (.panicked .caller)) (hst : Conc.Step (p.uact false ds) u u') : ∃ s', Conc.Step p.act s s' ∧ Same u' s' := by
  cases hst with
  | @tau r m k h1 h2 =>
    obtain ⟨l, rfl, hl⟩ := h.get h1
    have hne : l ≠ .panicked .caller := by
      rintro rfl
      have hr := hpl _ _ hl
      subst hr
      exact hc hl
    rw [uact_prog hne (by simp)] at h2
    obtain ⟨k', h4, rfl⟩ := map_tau h2
    exact ⟨_, .tau hl h4, h.set _ _⟩
  | @sync a b l m c v k f h1 h2 h3 h4 h5 =>
    obtain ⟨l, rfl, hl⟩ := h.get h1
    obtain ⟨m, rfl, hm⟩ := h.get h3
    obtain ⟨k, e1, rfl⟩ := uact_send h2
    obtain ⟨f', e2, e3⟩ := uact_recv h4
    rw [e3]
    exact ⟨_, .sync hl e1 hm e2 (by rw [← h.closed]; exact h5), (h.set _ _).set _ _⟩
  | @recvClosed q m c f h1 h2 h3 =>
    obtain ⟨m, rfl, hm⟩ := h.get h1
    obtain ⟨f', e2, e3⟩ := uact_recv h2
    rw [e3]
    exact ⟨_, .recvClosed hm e2 (by rw [← h.closed]; exact h3), h.set _ _⟩
  | @close r l c k h1 h2 h3 =>
    obtain ⟨l, rfl, hl⟩ := h.get h1
    obtain ⟨k, e1, rfl⟩ := uact_close h2
    exact ⟨_, .close hl e1 (by rw [← h.closed]; exact h3), (h.set _ _).shut _⟩
  | @go r l n g k h1 h2 h3 =>
    obtain ⟨l, rfl, hl⟩ := h.get h1
    obtain ⟨g, k, e1, rfl, rfl⟩ := uact_go h2
    exact ⟨_, .go hl e1 (h.none h3), (h.set _ _).set _ _⟩
  | @wait r l rs k h1 h2 h3 =>
    obtain ⟨l, rfl, hl⟩ := h.get h1
    rcases uact_cases p false ds l with h4 | ⟨_, _, h4, _⟩ <;> rw [h4] at h2
    · obtain ⟨k', h5, _⟩ := map_wait h2
      exact (pipe_wait p h5).elim
    · cases h2

/-- **C87 (no panic).** If `CodeSlice` always returns, the executions of `Code` with the deferred calls are those of C86: same schedule, same consumer, same goroutine states. -/
theorem C87_code_calm {w : Option (Repo × Str)} {e : Option Fault} {records : List (CodeRecord τ)} (hA : AlwaysReturns p w e records) {ready : List (CodeRecord τ) → Prop} {n : Nat}
    {x : OState PRole PChan (ULoc τ) (CodeRecord τ)} (hx : UCodeSteps p false ready n Pipe.uopen x) :
    ∃ y, CodeSteps p ready n Pipe.open y ∧ y.seen = x.seen ∧ y.over = x.over ∧ (∀ r, x.st.procs r = (y.st.procs r).map .prog) ∧ ∀ c, x.st.closed c = y.st.closed c := by
  obtain ⟨N, hall⟩ := C86_code_stream hA
  suffices h : ∃ y, CodeSteps p ready n Pipe.open y ∧ y.seen = x.seen ∧ y.over = x.over ∧ Same x.st y.st by
    obtain ⟨y, h1, h2, h3, h4⟩ := h
    exact ⟨y, h1, h2, h3, h4.procs, h4.closed⟩
  generalize h0 : (Pipe.uopen : OState PRole PChan (ULoc τ) (CodeRecord τ)) = x0 at hx
  induction hx with
  | refl => subst h0; exact ⟨Pipe.open, .refl, rfl, rfl, same_open⟩
  | @snoc n x0 x z _ hst ih =>
    obtain ⟨y, hy, hseen, hover, hsame⟩ := ih h0
    have hpl := open_placed hy
    have hcalm : y.st.procs .caller ≠ some (.panicked .caller) := fun h => (hall _ _ _ hy).2.1 ⟨_, _, h, .inl rfl⟩
    obtain ⟨s, h, b⟩ := y
    cases hst with
    | @inner u t h' b' hs =>
      simp only at hseen hover
      subst hseen; subst hover
      obtain ⟨s', h2, h3⟩ := hsame.step_calm hpl hcalm hs
      exact ⟨_, hy.snoc (.inner h2), rfl, rfl, h3⟩
    | @take u h' b' r l a k hr h1 h2 h3 =>
      simp only at hseen hover
      subst hseen; subst hover
      obtain ⟨l, rfl, hl⟩ := hsame.get h1
      obtain ⟨k, e1, rfl⟩ := uact_send h2
      exact ⟨_, hy.snoc (.take hr hl e1 (by rw [← hsame.closed]; exact h3)), rfl, rfl, hsame.set _ _⟩
    | @over u h' hr hc =>
      simp only at hseen hover
      subst hseen; subst hover
      exact ⟨_, hy.snoc (.over hr (by rw [← hsame.closed]; exact hc)), rfl, rfl, hsame⟩

/-- **C87 (no panic).** If the run does not panic, the executions of `CodeByCommit` with the deferred calls are those of C80: same schedule, same consumer, same history, same goroutine states. -/
theorem C87_by_commit_calm (hrun : p.pre = none → p.openErr = none → ∀ w, p.out.fault ≠ some (.panic w)) {ready : List (CodeSeen τ) → Want → Prop} {n : Nat}
    {x : UState τ} (hx : USteps p false ready n UState.init x) :
    ∃ y, SSteps p ready n SState.init y ∧ y.seen = x.seen ∧ (∀ r, x.st.procs r = (y.st.procs r).map .prog) ∧ ∀ c, x.st.closed c = y.st.closed c := by
  suffices h : ∃ y, SSteps p ready n SState.init y ∧ y.seen = x.seen ∧ Same x.st y.st by
    obtain ⟨y, h1, h2, h4⟩ := h
    exact ⟨y, h1, h2, h4.procs, h4.closed⟩
  generalize h0 : (UState.init : UState τ) = x0 at hx
  induction hx with
  | refl =>
    subst h0
    refine ⟨SState.init, .refl, rfl, ?_, fun _ => rfl⟩
    intro r
    simp only [UState.init, SState.init]
    split <;> rfl
  | @snoc n x0 x z _ hst ih =>
    obtain ⟨y, hy, hseen, hsame⟩ := ih h0
    have hpl := sstream_placed hy
    have hcalm : y.st.procs .caller ≠ some (.panicked .caller) := by
      intro h
      obtain ⟨⟨a, b, c, cl, hh, rfl, hI⟩, _⟩ := reachable_inv hy
      have ha : some a = some (.panicked .caller) := h
      cases ha
      have hf := hI.fate
      rw [(fut_init p).2 hrun] at hf
      cases hf
    obtain ⟨s, h⟩ := y
    cases hst with
    | @inner u t h' hs =>
      simp only at hseen
      subst hseen
      obtain ⟨s', h2, h3⟩ := hsame.step_calm hpl hcalm hs
      exact ⟨_, hy.snocOne (.inner h2), rfl, h3⟩
    | @commit u h' r l c i k hr h1 h2 h3 =>
      simp only at hseen
      subst hseen
      obtain ⟨l, rfl, hl⟩ := hsame.get h1
      obtain ⟨k, e1, rfl⟩ := uact_send h2
      exact ⟨_, hy.snocOne (.commit hr hl e1 (by rw [← hsame.closed]; exact h3)), rfl, hsame.set _ _⟩
    | @record u h' r l i v k hr h1 h2 h3 =>
      simp only at hseen
      subst hseen
      obtain ⟨l, rfl, hl⟩ := hsame.get h1
      obtain ⟨k, e1, rfl⟩ := uact_send h2
      exact ⟨_, hy.snocOne (.record hr hl e1 (by rw [← hsame.closed]; exact h3)), rfl, hsame.set _ _⟩
    | @resClosed u h' hr hc =>
      simp only at hseen
      subst hseen
      exact ⟨_, hy.snocOne (.resClosed hr (by rw [← hsame.closed]; exact hc)), rfl, hsame⟩
    | @blamesClosed u h' i hr hc =>
      simp only at hseen
      subst hseen
      exact ⟨_, hy.snocOne (.blamesClosed hr (by rw [← hsame.closed]; exact hc)), rfl, hsame⟩

/-! ### A run that panics -/

theorem crash_lift {ds : List PChan} {u : State PRole PChan (ULoc τ)} {s : State PRole PChan (PLoc τ)} (h : Same u s) {r : PRole} {l : PLoc τ} (hr : s.procs r = some l)
    (hl : l ≠ .panicked .caller)
    (hcr : p.act l = .panic ∨ (∃ c v k, p.act l = .send c v k ∧ s.closed c = true) ∨ (∃ c k, p.act l = .close c k ∧ s.closed c = true)) : Crashed (p.uact false ds) u := by
  have ha : p.uact false ds (.prog l) = (p.act l).map .prog := uact_prog hl (by simp)
  refine ⟨r, .prog l, by rw [h.procs, hr]; rfl, ?_⟩
  rw [ha]
  rcases hcr with h1 | ⟨c, v, k, h1, h2⟩ | ⟨c, k, h1, h2⟩ <;> rw [h1]
  · exact .inl rfl
  · exact .inr (.inl ⟨_, _, _, rfl, by rw [h.closed]; exact h2⟩)
  · exact .inr (.inr ⟨_, _, rfl, by rw [h.closed]; exact h2⟩)

/-- **C87, `Code`.** If the run panics, or a result cannot be turned into records, then with any consumer and in every schedule: what the consumer receives is a beginning of the
records of some first results of the run; the call never returns; and with a consumer that is ready, nothing ends before the program dies. -/
theorem C87_code (p : Pipe τ) (hpre : p.pre = none) (hopen : p.openErr = none) {log : List LogCommit} {bad : Option Fault} (hlog : parseSent p.text = (log, bad))
    (h : (∃ w, (run p.env p.opts p.read p.graph log).fault = some (.panic w)) ∨
      ∃ e, codeByCommit p.cl p.scc p.orders p.metas 0 [] (run p.env p.opts p.read p.graph log).sent = .error e) :
    ∃ k out, codeByCommit p.cl p.scc p.orders p.metas 0 [] ((run p.env p.opts p.read p.graph log).sent.take k) = .ok out ∧
      ∀ (ready : List (CodeRecord τ) → Prop) n x, UCodeSteps p false ready n Pipe.uopen x →
        x.seen <+: out.flatMap (·.2) ∧ (∀ w e, ¬ UCodeReturned x w e) ∧
        (ready x.seen → x.Stuck (p.uact false [.res2, .res]) .res PVal.record ready → Crashed (p.uact false [.res2, .res]) x.st) := by
  obtain ⟨k, out, ho, hall⟩ := C55_panic p hpre hopen hlog h
  refine ⟨k, out, ho, fun ready n x hx => ?_⟩
  obtain ⟨m, y, hy, hseen, hrel⟩ := code_usim hx
  have hS := (pipe_local p).ok
  obtain ⟨hw, _, j, hj, _⟩ := open_sim hS hy
  have hnr : ∀ w e, y.st.procs .caller ≠ some (.joinSlice w e) := by
    intro w e he
    obtain ⟨i, hi⟩ := open_returned hS hy (e := (w, e)) he
    exact (hall _ _ hi).1 w e y.seen (by rw [done_procs hS]; exact if_pos rfl)
  refine ⟨?_, ?_, ?_⟩
  · have := (hall _ _ hj).2.2.2
    rw [← hseen]
    simpa [delivered, cl_procs, Pipe.sl, PLoc.got] using this
  · intro w e hret
    rcases hrel with ⟨h1, _⟩ | h1
    · obtain ⟨l, h2, h3⟩ := h1.get hret
      cases h2
      exact hnr w e h3
    · rcases h1.caller with ⟨cs, h2, _⟩ | h2
      · have h3 : x.st.procs .caller = some (.prog (.joinSlice w e)) := hret
        rw [h2] at h3; cases h3
      · have h3 : x.st.procs .caller = some (.prog (.joinSlice w e)) := hret
        rw [h2] at h3; cases h3
  · intro hr hst
    obtain ⟨u, hh, b⟩ := x
    rcases hrel with ⟨h1, hov⟩ | h1
    · have hys : y.Stuck p.act .res PVal.record ready := by
        obtain ⟨s, h', b'⟩ := y
        intro z hz
        simp only at hseen h1 hov
        subst hseen
        cases hz with
        | inner hs =>
          obtain ⟨v, h2, _⟩ := lift_step (ds := [.res2, .res]) h1 hs
          exact hst _ (.inner h2)
        | @take s h' b' r l a k hr h3 h2 h4 =>
          exact hst _ (.take (l := .prog l) (k := .prog k) hr (by rw [h1.procs, h3]; rfl) (by rw [lift_act (by rw [h2]; simp), h2]; rfl) (by rw [h1.closed]; exact h4))
        | over hr hc =>
          subst hov
          exact hst _ (.over hr (by rw [h1.closed]; exact hc))
      have hcl : y.st.closed .res = false := by
        cases hc : y.st.closed .res with
        | false => rfl
        | true =>
          obtain ⟨e, he⟩ := hS.i1 _ _ y.seen hj hc (by rw [cl_procs, if_pos rfl])
          rw [cl_procs, if_neg (Ne.symm hS.ne)] at he
          exact absurd he (hnr e.1 e.2)
      have hstuck := open_stuck hS (x := y) (by rw [hseen]; exact hr) hys hcl
      obtain ⟨r, l, h2, h3⟩ := (hall _ _ hj).2.2.1 hstuck
      rw [cl_procs] at h2
      split at h2
      · cases h2
        rcases h3 with h3 | ⟨_, _, _, h3, _⟩ | ⟨_, _, h3, _⟩ <;> cases h3
      · by_cases hl : l = .panicked .caller
        · subst hl
          exfalso
          exact hst _ (.inner (.tau (r := r) (l := .prog (.panicked .caller)) (by rw [h1.procs, h2]; rfl) rfl))
        · exact crash_lift h1 h2 hl h3
    · rcases h1.caller with ⟨cs, h2, _⟩ | h2
      · cases cs with
        | nil => exact absurd (.inner (.tau h2 rfl)) (hst _)
        | cons c cs =>
          cases hc : u.closed c with
          | false => exact absurd (.inner (.close h2 rfl hc)) (hst _)
          | true => exact ⟨_, _, h2, .inr (.inr ⟨_, _, rfl, hc⟩)⟩
      · exact ⟨_, _, h2, .inl rfl⟩

/-- **C87, `CodeSlice`.** In the same runs `CodeSlice` never returns (its collector may find the channel closed, but the caller does not come back to it). -/
theorem C87_slice (p : Pipe τ) (hpre : p.pre = none) (hopen : p.openErr = none) {log : List LogCommit} {bad : Option Fault} (hlog : parseSent p.text = (log, bad))
    (h : (∃ w, (run p.env p.opts p.read p.graph log).fault = some (.panic w)) ∨
      ∃ e, codeByCommit p.cl p.scc p.orders p.metas 0 [] (run p.env p.opts p.read p.graph log).sent = .error e)
    {n : Nat} {u : State PRole PChan (ULoc τ)} (hu : Steps (p.uact false [.res2, .res]) n Pipe.uinit u) :
    (∀ w e res, u.procs .caller ≠ some (.prog (.returned w e res))) ∧ (Conc.Stuck (p.uact false [.res2, .res]) u → Crashed (p.uact false [.res2, .res]) u) := by
  obtain ⟨k, out, _, hall⟩ := C55_panic p hpre hopen hlog h
  obtain ⟨m, s, hs, hrel⟩ := slice_usim hu
  constructor
  · intro w e res hret
    rcases hrel with h1 | h1
    · obtain ⟨l, h2, h3⟩ := h1.get hret
      cases h2
      exact (hall _ _ hs).1 w e res h3
    · rcases h1.caller with ⟨cs, h2, _⟩ | h2 <;> rw [h2] at hret <;> cases hret
  · intro hst
    rcases hrel with h1 | h1
    · have hss : Conc.Stuck p.act s := by
        intro t ht
        obtain ⟨v, h2, _⟩ := lift_step (ds := [.res2, .res]) h1 ht
        exact hst _ h2
      obtain ⟨r, l, h2, h3⟩ := (hall _ _ hs).2.2.1 hss
      by_cases hl : l = .panicked .caller
      · subst hl
        exact absurd (.tau (r := r) (l := .prog (.panicked .caller)) (by rw [h1.procs, h2]; rfl) rfl) (hst _)
      · exact crash_lift h1 h2 hl h3
    · rcases h1.caller with ⟨cs, h2, _⟩ | h2
      · cases cs with
        | nil => exact absurd (.tau h2 rfl) (hst _)
        | cons c cs =>
          cases hc : u.closed c with
          | false => exact absurd (.close h2 rfl hc) (hst _)
          | true => exact ⟨_, _, h2, .inr (.inr ⟨_, _, rfl, hc⟩)⟩
      · exact ⟨_, _, h2, .inl rfl⟩

theorem received_filter (h : List (CodeSeen τ)) : received (h.filter (!isEnd ·)) = received h := by
  unfold received
  rw [List.filter_filter]
  congr 1
  funext o
  cases o <;> rfl

theorem mem_blames_filter {h : List (CodeSeen τ)} {i : Nat} : Seen.blamesClosed i ∈ h.filter (!isEnd ·) ↔ Seen.blamesClosed i ∈ h := by
  rw [List.mem_filter]
  exact ⟨fun h => h.1, fun h => ⟨h, rfl⟩⟩

/-- **C87, `CodeByCommit`.** If the run panics, then with any consumer and in every schedule: what the consumer receives is a beginning of the stream of the commits whose results
were produced before the panic (those before the first one that cannot be turned into records, if there is one), each followed by its records; a channel `Blames` is found closed only
after all records of that commit; the call never returns. (Nothing is said about the channel of the commits being found closed: see `C87_closed_early`.) -/
theorem C87_by_commit (p : Pipe τ) (hpre : p.pre = none) (hopen : p.openErr = none) {w : String} (hp : p.out.fault = some (.panic w))
    {k : Nat} {out : List (MetaCommit τ × List (CodeRecord τ))} (hc : codeByCommit p.cl p.scc p.orders p.metas 0 [] (p.results.take k) = .ok out)
    (hk : p.results.length ≤ k ∨ ∃ e, codeByCommit p.cl p.scc p.orders p.metas 0 [] (p.results.take (k + 1)) = .error e)
    {ready : List (CodeSeen τ) → Want → Prop} {n : Nat} {x : UState τ} (hx : USteps p false ready n UState.init x) :
    received x.seen <+: Spec.stream out ∧ (∀ i, Seen.blamesClosed i ∈ x.seen → i < out.length ∧ Spec.stream (out.take (i + 1)) <+: received x.seen) ∧ ∀ w e, ¬ x.Returned w e := by
  obtain ⟨m, y, hy, hrel⟩ := by_commit_usim hx
  obtain ⟨hinv, hr⟩ := reachable_inv hy
  have hst : p.streamed 0 [] p.results = out := by
    rcases hk with hk | ⟨e, hk⟩
    · rw [List.take_of_length_le hk] at hc
      exact ((streamed_ok p _ _ _ _).1 hc).1
    · exact (streamed_error p _ _ _ _ _ _ hc hk).1
  rw [hst] at hr
  have hy' := hr y.seen (List.prefix_refl _)
  have hseen : received y.seen = received x.seen ∧ ∀ i, Seen.blamesClosed i ∈ x.seen → Seen.blamesClosed i ∈ y.seen := by
    rcases hrel with ⟨_, h1⟩ | ⟨_, h1⟩
    · rw [h1]; exact ⟨rfl, fun _ => id⟩
    · refine ⟨by rw [← received_filter, h1, received_filter], fun i hi => ?_⟩
      rw [← mem_blames_filter, h1, mem_blames_filter]; exact hi
  refine ⟨by rw [← hseen.1]; exact hy'.received, fun i hi => by rw [← hseen.1]; exact hy'.blames i (hseen.2 i hi), ?_⟩
  intro w' e hret
  have hret : x.st.procs .caller = some (.prog (.joinCode w' e)) := hret
  rcases hrel with ⟨h1, _⟩ | ⟨h1, _⟩
  · obtain ⟨l, h2, h3⟩ := h1.get hret
    cases h2
    obtain ⟨a, b, c, cl, hh, rfl, hI⟩ := hinv
    have ha : some a = some (.joinCode w' e) := h3
    cases ha
    have hf := hI.fate
    have h2 : (p.fut .cByCommit (parseSent p.text).1).2 = none := by
      have : p.fut .cByCommit (parseSent p.text).1 = p.futLoop none (parseSent p.text).1 := by simp [Pipe.fut, hpre, hopen]
      rw [this]
      exact futLoop_panic p hpre hopen hp
    rw [h2] at hf
    cases hf
  · rcases h1.caller with ⟨cs, h2, _⟩ | h2 <;> rw [h2] at hret <;> cases hret

/-- If the run panics, or the records of some result cannot be computed, no schedule reaches the return of `CodeByCommit`. -/
theorem never_returns (hpre : p.pre = none) (hopen : p.openErr = none)
    (h : (∃ w, p.out.fault = some (.panic w)) ∨ ∃ e, codeByCommit p.cl p.scc p.orders p.metas 0 [] p.results = .error e)
    {a : PLoc τ} {b c : Option (PLoc τ)} {cl : PChan → Bool} {hh : List (CodeSeen τ)} (hI : SInv p (p.streamed 0 [] p.results) a b c cl hh) (w : Option (Repo × Str)) (e : Option Fault) :
    a ≠ .joinCode w e := by
  rintro rfl
  rcases h with ⟨v, hp⟩ | ⟨f, he⟩
  · have hf := hI.fate
    have h2 : (p.fut .cByCommit (parseSent p.text).1).2 = none := by
      have : p.fut .cByCommit (parseSent p.text).1 = p.futLoop none (parseSent p.text).1 := by simp [Pipe.fut, hpre, hopen]
      rw [this]
      exact futLoop_panic p hpre hopen hp
    rw [h2] at hf
    cases hf
  · have hne : (p.streamed 0 [] p.results).length ≠ p.results.length := by
      intro h
      have := (streamed_ok p _ _ _ _).2 ⟨rfl, h⟩
      rw [he] at this; cases this
    obtain ⟨n, R, hd, hR, hcl⟩ := hI.data
    have hc := hI.cod
    have hF : (p.fut (.joinCode w e) (p.todo b)).1 = [] := rfl
    rw [hF] at hd
    cases hd with
    | none h0 h =>
      have h0 : p.streamed 0 [] p.results = [] := h0.symm
      simp at h
      rw [h0] at hne; exact hne h
    | done _ h => omega
    | ended _ h => omega
    | _ => simp [CodOk, PLoc.ph] at hc

/-- Up to the panic, a step of the goroutines or of the consumer is one here. -/
theorem lift_sstep {ready : List (CodeSeen τ) → Want → Prop} {x : UState τ} {y z : SState τ} (h : Same x.st y.st) (hseen : y.seen = x.seen) (hs : SStep p ready y z) :
    ∃ v, UStep p false ready x v := by
  obtain ⟨u, hh⟩ := x
  cases hs with
  | @inner s t h' hs =>
    obtain ⟨v, h3, _⟩ := lift_step (ds := [.res2]) h hs
    exact ⟨_, .inner h3⟩
  | @commit s h' r l x i k hr h3 h4 h5 =>
    simp only at h hseen
    subst hseen
    exact ⟨_, .commit (l := .prog l) (k := .prog k) hr (by rw [h.procs, h3]; rfl) (by rw [lift_act (by rw [h4]; simp), h4]; rfl) (by rw [h.closed]; exact h5)⟩
  | @record s h' r l i v k hr h3 h4 h5 =>
    simp only at h hseen
    subst hseen
    exact ⟨_, .record (l := .prog l) (k := .prog k) hr (by rw [h.procs, h3]; rfl) (by rw [lift_act (by rw [h4]; simp), h4]; rfl) (by rw [h.closed]; exact h5)⟩
  | @resClosed s h' hr hc =>
    simp only at h hseen
    subst hseen
    exact ⟨_, .resClosed hr (by rw [h.closed]; exact hc)⟩
  | @blamesClosed s h' i hr hc =>
    simp only at h hseen
    subst hseen
    exact ⟨_, .blamesClosed hr (by rw [h.closed]; exact hc)⟩

/-- **C87, `CodeByCommit` (the end).** If the run panics, or the records of some result cannot be computed, and the consumer drains (in one goroutine or in several): nothing ends before the program dies. -/
theorem C87_by_commit_dies (p : Pipe τ) (hpre : p.pre = none) (hopen : p.openErr = none)
    (h : (∃ w, p.out.fault = some (.panic w)) ∨ ∃ e, codeByCommit p.cl p.scc p.orders p.metas 0 [] p.results = .error e)
    {ready : List (CodeSeen τ) → Want → Prop} (hdr : Drains ready) {n : Nat} {x : UState τ} (hx : USteps p false ready n UState.init x) :
    (∀ w e, ¬ x.Returned w e) ∧ ((∀ y, ¬ UStep p false ready x y) → Crashed (p.uact false [.res2]) x.st) := by
  obtain ⟨m, y, hy, hrel⟩ := by_commit_usim hx
  obtain ⟨⟨a, b, c, cl, hh, rfl, hI⟩, _⟩ := reachable_inv hy
  constructor
  · intro w e hret
    have hret : x.st.procs .caller = some (.prog (.joinCode w e)) := hret
    rcases hrel with ⟨h1, _⟩ | ⟨h1, _⟩
    · obtain ⟨l, h2, h3⟩ := h1.get hret
      cases h2
      have ha : some a = some (.joinCode w e) := h3
      cases ha
      exact never_returns hpre hopen h hI w e rfl
    · rcases h1.caller with ⟨cs, h2, _⟩ | h2 <;> rw [h2] at hret <;> cases hret
  · intro hst
    obtain ⟨u, seen⟩ := x
    rcases hrel with ⟨h1, h2⟩ | ⟨h1, _⟩
    · have h2 : hh = seen := h2
      subst h2
      have h1 : Same u (pst (some a) b c none none cl) := h1
      rcases hI.progress' hdr with (hfin | ⟨z, hz⟩) | ⟨r, rfl⟩ | rfl
      · obtain ⟨w, e, rfl⟩ := hfin.caller
        exact absurd rfl (never_returns hpre hopen h hI w e)
      · have hs := step_of_mv hz hI.parts.doneRun hI.parts.doneByCommit
        obtain ⟨v, hv⟩ := lift_sstep (x := ⟨u, hh⟩) h1 rfl hs
        exact absurd hv (hst v)
      · have hr : r = .caller := hI.parts.ra
        subst hr
        exact absurd (.inner (.tau (r := .caller) (l := .prog (.panicked .caller)) (by rw [h1.procs]; rfl) rfl)) (hst _)
      · exact crash_lift h1 (r := .code) (l := .panicked .code) rfl (by simp) (.inl rfl)
    · rcases h1.caller with ⟨cs, h2, _⟩ | h2
      · cases cs with
        | nil => exact absurd (.inner (.tau h2 rfl)) (hst _)
        | cons c cs =>
          cases hc : u.closed c with
          | false => exact absurd (.inner (.close h2 rfl hc)) (hst _)
          | true => exact ⟨_, _, h2, .inr (.inr ⟨_, _, rfl, hc⟩)⟩
      · exact ⟨_, _, h2, .inl rfl⟩

/-- The three deferred calls. -/
theorem unwind_run {n : Nat} {x : OState PRole PChan (ULoc τ) (CodeRecord τ)} (hx : UCodeSteps p false (fun _ => True) n Pipe.uopen x) (hov : x.over = false)
    (hc : x.st.procs .caller = some (.prog (.panicked .caller))) (h1 : x.st.closed .gitRes = false) (h2 : x.st.closed .res2 = false) (h3 : x.st.closed .res = false) :
    ∃ m z, UCodeSteps p false (fun _ => True) m Pipe.uopen z ∧ z.seen = x.seen ∧ z.over = true ∧ z.st.procs .caller = some (.unwind []) ∧
      (∀ r, r ≠ .caller → z.st.procs r = x.st.procs r) ∧ ∀ c, z.st.closed c = (c.deferred || x.st.closed c) := by
  obtain ⟨u, h, b⟩ := x
  simp only at hov h1 h2 h3
  subst hov
  have g : ∀ {s : State PRole PChan (ULoc τ)} {l : ULoc τ}, (s.set .caller l).procs .caller = some l := by intro s l; rw [set_procs, if_pos rfl]
  have s1 := hx.snoc (.inner (.tau hc rfl))
  have s2 := s1.snoc (.inner (.close (c := .gitRes) (k := .unwind [.res2, .res]) g rfl (by rw [set_closed]; exact h1)))
  have s3 := s2.snoc (.inner (.close (c := .res2) (k := .unwind [.res]) (r := .caller) (l := .unwind [.res2, .res]) (by rw [shut_procs]; exact g) rfl
    (by rw [shut_closed, if_neg (by simp), set_closed, set_closed]; exact h2)))
  have s4 := s3.snoc (.inner (.close (c := .res) (k := .unwind []) (r := .caller) (l := .unwind [.res]) (by rw [shut_procs]; exact g) rfl
    (by rw [shut_closed, if_neg (by simp), set_closed, shut_closed, if_neg (by simp), set_closed, set_closed]; exact h3)))
  have s5 := s4.snoc (.over trivial (by rw [shut_closed, if_pos rfl]))
  refine ⟨_, _, s5, rfl, rfl, by rw [shut_procs]; exact g, ?_, ?_⟩
  · intro r hr
    simp only [shut_procs, set_procs, if_neg hr]
  · intro c
    simp only [shut_closed, set_closed]
    cases c <;> simp [PChan.deferred]

/-- The goroutine is not about to panic, also not after the deferred calls. -/
def Quiet (p : Pipe τ) (t : State PRole PChan (PLoc τ)) (l : PLoc τ) : Prop :=
  p.act l ≠ .panic ∧ (∀ c v k, p.act l = .send c v k → c.deferred = false ∧ t.closed c = false) ∧ ∀ c k, p.act l = .close c k → c.deferred = false ∧ t.closed c = false

theorem closed_early (p : Pipe τ) {i : Nat} {t : State PRole PChan (PLoc τ)} {g : List (CodeRecord τ)} (ht : Steps p.act i Pipe.init t) (h1 : t.procs .caller = some (.panicked .caller))
    (h4 : t.closed .res2 = false) (h5 : t.closed .res = false) (h6 : t.closed .gitRes = false) (h7 : t.procs .collect = some (.collect g))
    (hq : ∀ r l, r ≠ .caller → r ≠ .collect → t.procs r = some l → Quiet p t l) :
    ∃ n x, UCodeSteps p false (fun _ => True) n Pipe.uopen x ∧ x.over = true ∧ x.seen = g ∧ ¬ Crashed (p.uact false [.res2, .res]) x.st ∧ ∀ w e, ¬ UCodeReturned x w e := by
  obtain ⟨m, y, hy, e⟩ := open_of_steps (pipe_local p) (pipe_recv_collect p) ht h7
  have hS := (pipe_local p).ok
  obtain ⟨hw, hov, j, hj, _⟩ := open_sim hS hy
  have hpr : ∀ r, r ≠ .collect → y.st.procs r = t.procs r := by
    intro r hr
    rw [e]
    exact (if_neg hr).symm
  have hcl : ∀ c, y.st.closed c = t.closed c := by intro c; rw [e]; rfl
  have hseen : y.seen = g := by
    have h10 : t.procs .collect = some (.collect y.seen) := by rw [e]; rfl
    rw [h7] at h10
    have h11 := Option.some.inj h10
    injection h11 with h11
    exact h11.symm
  have hover : y.over = false := by
    cases ho : y.over with
    | false => rfl
    | true =>
      have := hov ho
      rw [show y.st.closed p.sl.out = t.closed .res from hcl .res, h5] at this
      cases this
  obtain ⟨x, hx, hxs, hxo, hsame⟩ := lift_osteps hy
  have up : ∀ {r l}, r ≠ .collect → t.procs r = some l → x.st.procs r = some (.prog l) := by
    intro r l hr hl
    rw [hsame.procs, hpr r hr, hl]; rfl
  obtain ⟨n, z, hz, z1, z2, z3, z4, z5⟩ := unwind_run hx (hxo.trans hover) (up (by simp) h1) (by rw [hsame.closed, hcl]; exact h6) (by rw [hsame.closed, hcl]; exact h4)
    (by rw [hsame.closed, hcl]; exact h5)
  refine ⟨n, z, hz, z2, by rw [z1, hxs, hseen], ?_, ?_⟩
  · rintro ⟨r, l, hr, hcr⟩
    have hcls : ∀ c, c.deferred = false → z.st.closed c = t.closed c := by
      intro c hd
      rw [z5, hd, Bool.false_or, hsame.closed, hcl]
    by_cases hrc : r = .caller
    · subst hrc
      rw [z3] at hr; cases hr
      rcases hcr with h | ⟨_, _, _, h, _⟩ | ⟨_, _, h, _⟩ <;> cases h
    · by_cases hrk : r = .collect
      · subst hrk
        rw [z4 _ (by simp), hsame.procs] at hr
        rw [show y.st.procs .collect = none from hw] at hr
        cases hr
      · rw [z4 _ hrc, hsame.procs, hpr r hrk] at hr
        cases hl : t.procs r with
        | none => rw [hl] at hr; cases hr
        | some l0 =>
          rw [hl] at hr
          cases hr
          obtain ⟨g1, g2, g3⟩ := hq r l0 hrc hrk hl
          rw [lift_act g1] at hcr
          rcases hcr with h | ⟨c, v, k, h, h'⟩ | ⟨c, k, h, h'⟩
          · cases ha : p.act l0 <;> rw [ha] at h <;> cases h
            exact g1 ha
          · obtain ⟨k', ha, _⟩ := map_send h
            rw [hcls _ (g2 _ _ _ ha).1, (g2 _ _ _ ha).2] at h'; cases h'
          · obtain ⟨k', ha, _⟩ := map_close h
            rw [hcls _ (g3 _ _ ha).1, (g3 _ _ ha).2] at h'; cases h'
  · intro w e hret
    have hret : z.st.procs .caller = some (.prog (.joinSlice w e)) := hret
    rw [z3] at hret; cases hret

/-- **C87 (closed before the end).** If the run panics, there is a schedule in which a consumer of `Code` finds `res` closed as if the history were complete: it has received the
records of all results produced before the panic, the program has not died so far, and the call has not returned (and never will: `C87_code`). -/
theorem C87_closed_early (p : Pipe τ) (hpre : p.pre = none) (hopen : p.openErr = none) {log : List LogCommit} {bad : Option Fault} (hlog : parseSent p.text = (log, bad))
    {w : String} (hp : (run p.env p.opts p.read p.graph log).fault = some (.panic w))
    {out : List (MetaCommit τ × List (CodeRecord τ))} (hc : codeByCommit p.cl p.scc p.orders p.metas 0 [] (run p.env p.opts p.read p.graph log).sent = .ok out) :
    ∃ n x, UCodeSteps p false (fun _ => True) n Pipe.uopen x ∧ x.over = true ∧ x.seen = out.flatMap (·.2) ∧ ¬ Crashed (p.uact false [.res2, .res]) x.st ∧
      ∀ w e, ¬ UCodeReturned x w e := by
  have hl1 : (parseSent p.text).1 = log := by rw [hlog]
  rw [← hl1] at hp hc
  obtain ⟨cache', hca⟩ := codeAll_of_codeByCommit p _ _ _ _ hc
  obtain ⟨t, ⟨i, ht⟩, h1, ⟨n0, h2⟩, ⟨h3, h4, h5, h6⟩, h7, h8, h9⟩ := reach_caller_panic hpre hopen hp hca
  refine closed_early p ht h1 h4 h5 h6 h7 ?_
  intro r l hrc hrk hl
  cases r with
  | caller => exact absurd rfl hrc
  | collect => exact absurd rfl hrk
  | code => rw [h2] at hl; cases hl; exact ⟨by simp [Pipe.act], by simp [Pipe.act], by simp [Pipe.act]⟩
  | flat => rw [h3] at hl; cases hl; exact ⟨by simp [Pipe.act], by simp [Pipe.act], by simp [Pipe.act]⟩
  | parser =>
    rcases h9 with h9 | ⟨cs, h9, h10⟩ <;> rw [h9] at hl <;> cases hl
    · refine ⟨by simp [Pipe.act], ?_, by simp [Pipe.act]⟩
      intro c v k ha
      simp only [Pipe.act, Act.send.injEq] at ha
      rw [← ha.1]; exact ⟨rfl, h8⟩
    · cases cs with
      | nil =>
        refine ⟨by simp [Pipe.act], by simp [Pipe.act], ?_⟩
        intro c k ha
        simp only [Pipe.act, Act.close.injEq] at ha
        rw [← ha.1]; exact ⟨rfl, h10⟩
      | cons c0 cs =>
        refine ⟨by simp [Pipe.act], ?_, by simp [Pipe.act]⟩
        intro c v k ha
        simp only [Pipe.act, Act.send.injEq] at ha
        rw [← ha.1]; exact ⟨rfl, h10⟩

/-! ### A panic while preparing -/

/-- The preparation of this call fails with an error instead of a panic. -/
def Pipe.prepError (p : Pipe τ) : Pipe τ := { p with pre := some "" }

theorem uact_prepError (p : Pipe τ) (ds : List PChan) (l : ULoc τ) : p.prepError.uact true ds l = p.uact true ds l := by
  cases l with
  | prog l =>
    cases l with
    | panicked r => cases r <;> rfl
    | sending rs k => cases rs <;> rfl
    | parse todo => cases todo <;> rfl
    | codeRecs n c recs => cases recs <;> rfl
    | _ => rfl
  | unwind cs => cases cs <;> rfl
  | dead => rfl

/-- **C87 (panic while preparing).** If `prepareGitExec`, `buildCommitGraph` or `getCommitInfo` panics, a consumer of `Code` receives nothing and the call never returns, in every schedule … -/
theorem C87_preparation {ready : List (CodeRecord τ) → Prop} {n : Nat} {x : OState PRole PChan (ULoc τ) (CodeRecord τ)} (hx : UCodeSteps p true ready n Pipe.uopen x) :
    x.seen = [] ∧ ∀ w e, ¬ UCodeReturned x w e := by
  have hA := C55_preparation_error p.prepError (why := "") (.inl rfl)
  obtain ⟨N, hall⟩ := C86_code_stream hA
  have hx' : UCodeSteps p.prepError true ready n Pipe.uopen x := by
    have : p.prepError.uact true [.res2, .res] = p.uact true [.res2, .res] := funext (uact_prepError p _)
    unfold UCodeSteps
    rw [this]; exact hx
  obtain ⟨m, y, hy, hseen, hrel⟩ := code_usim hx'
  refine ⟨by rw [← hseen]; exact List.prefix_nil.1 (hall _ _ _ hy).2.2.1, ?_⟩
  -- the caller is before the preparation, or past it
  have inv : ∀ {n x}, UCodeSteps p true ready n Pipe.uopen x → ∀ l, x.st.procs .caller = some (.prog l) → l = .cCode ∨ l = .cByCommit := by
    intro n x hx
    generalize h0 : (Pipe.uopen : OState PRole PChan (ULoc τ) (CodeRecord τ)) = x0 at hx
    induction hx with
    | refl => subst h0; intro l hl; cases hl; exact .inl rfl
    | @snoc n x0 x z hxx hst ih =>
      have hx2 : UCodeSteps p.prepError true ready n Pipe.uopen x := by
        have : p.prepError.uact true [.res2, .res] = p.uact true [.res2, .res] := funext (uact_prepError p _)
        unfold UCodeSteps
        rw [this, h0]; exact hxx
      obtain ⟨_, y, hy, _, hrel⟩ := code_usim hx2
      have hpl := open_placed hy
      have place : ∀ {r l}, x.st.procs r = some (.prog l) → l.role = r := by
        intro r l hr
        rcases hrel with ⟨h1, _⟩ | h1
        · obtain ⟨l', h2, h3⟩ := h1.get hr
          cases h2; exact hpl _ _ h3
        · by_cases hne : r = .caller
          · subst hne
            rcases h1.caller_act hr with ⟨_, _, h2, _⟩ | h2 | h2 <;> cases h2
          · obtain ⟨l', h2, h3⟩ := h1.get hr hne
            cases h2
            rcases h3 with h3 | ⟨l0, h3, h4⟩
            · exact hpl _ _ h3
            · have := hpl _ _ h3
              cases h4 <;> exact this
      have ih := ih h0
      -- a goroutine other than the caller does not touch the caller; the caller is at `cCode`, `cByCommit` or past
      have touch : ∀ {r l}, x.st.procs r = some l → r ≠ .caller ∨ l = .prog .cCode ∨ l = .prog .cByCommit ∨ (∃ cs, l = .unwind cs) ∨ l = .dead := by
        intro r l hr
        by_cases hne : r = .caller
        · subst hne
          cases l with
          | prog l => rcases ih l hr with rfl | rfl <;> simp
          | unwind cs => exact .inr (.inr (.inr (.inl ⟨cs, rfl⟩)))
          | dead => simp
        · exact .inl hne
      intro l hl
      cases hst with
      | @inner s t h b hs =>
        simp only at ih touch
        cases hs with
        | @tau r m k h1 h2 =>
          rcases touch h1 with h | rfl | rfl | ⟨cs, rfl⟩ | rfl
          · rw [set_procs, if_neg (Ne.symm h)] at hl; exact ih l hl
          · cases h2
          · cases h2
            have hr : PRole.caller = r := place h1
            subst hr
            rw [set_procs, if_pos rfl] at hl; cases hl
          · cases cs <;> cases h2
            by_cases hr : r = .caller
            · subst hr; rw [set_procs, if_pos rfl] at hl; cases hl
            · rw [set_procs, if_neg (Ne.symm hr)] at hl; exact ih l hl
          · cases h2
        | @sync a b l1 m c v k f h1 h2 h3 h4 h5 =>
          have ha : a ≠ .caller := by
            rcases touch h1 with h | rfl | rfl | ⟨cs, rfl⟩ | rfl
            · exact h
            · cases h2
            · cases h2
            · cases cs <;> cases h2
            · cases h2
          have hb : b ≠ .caller := by
            rcases touch h3 with h | rfl | rfl | ⟨cs, rfl⟩ | rfl
            · exact h
            · cases h4
            · cases h4
            · cases cs <;> cases h4
            · cases h4
          rw [set_procs, if_neg (Ne.symm hb), set_procs, if_neg (Ne.symm ha)] at hl; exact ih l hl
        | @recvClosed q m c f h1 h2 h3 =>
          have hb : q ≠ .caller := by
            rcases touch h1 with h | rfl | rfl | ⟨cs, rfl⟩ | rfl
            · exact h
            · cases h2
            · cases h2
            · cases cs <;> cases h2
            · cases h2
          rw [set_procs, if_neg (Ne.symm hb)] at hl; exact ih l hl
        | @close r m c k h1 h2 h3 =>
          rw [shut_procs] at hl
          rcases touch h1 with h | rfl | rfl | ⟨cs, rfl⟩ | rfl
          · rw [set_procs, if_neg (Ne.symm h)] at hl; exact ih l hl
          · cases h2
          · cases h2
          · cases cs <;> cases h2
            by_cases hr : r = .caller
            · subst hr; rw [set_procs, if_pos rfl] at hl; cases hl
            · rw [set_procs, if_neg (Ne.symm hr)] at hl; exact ih l hl
          · cases h2
        | @go r m n g k h1 h2 h3 =>
          have hn : PRole.caller ≠ n := by
            rintro rfl
            cases m with
            | prog l1 =>
              obtain ⟨g', k', e1, rfl, rfl⟩ := uact_go h2
              have hg := (pipe_go p e1).2.1
              cases l1 with
              | cCode => cases e1
              | cByCommit => simp only [Pipe.act] at e1; cases hp : p.pre <;> simp [hp] at e1
              | cRun => simp only [Pipe.act] at e1; cases hp : p.openErr <;> simp [hp] at e1
              | sending rs k' => cases rs <;> simp [Pipe.act] at e1
              | parse rs => cases rs <;> simp [Pipe.act] at e1
              | codeRecs _ _ rs => cases rs <;> simp [Pipe.act] at e1
              | _ => simp [Pipe.act] at e1
            | unwind cs => cases cs <;> cases h2
            | dead => cases h2
          rcases touch h1 with h | rfl | rfl | ⟨cs, rfl⟩ | rfl
          · rw [set_procs, if_neg (Ne.symm h), set_procs, if_neg hn] at hl; exact ih l hl
          · cases h2
            have hr : PRole.caller = r := place h1
            subst hr
            rw [set_procs, if_pos rfl] at hl; cases hl; exact .inr rfl
          · cases h2
          · cases cs <;> cases h2
          · cases h2
        | @wait r m rs k h1 h2 h3 =>
          cases m with
          | prog l1 =>
            rcases uact_cases p true [.res2, .res] l1 with h4 | ⟨_, _, h4, _⟩ <;> rw [h4] at h2
            · obtain ⟨k', h5, _⟩ := map_wait h2
              exact (pipe_wait p h5).elim
            · cases h2
          | unwind cs => cases cs <;> cases h2
          | dead => cases h2
      | @take s h b r m a k hr h1 h2 h3 =>
        simp only at ih touch
        have ha : r ≠ .caller := by
          rcases touch h1 with h | rfl | rfl | ⟨cs, rfl⟩ | rfl
          · exact h
          · cases h2
          · cases h2
          · cases cs <;> cases h2
          · cases h2
        rw [set_procs, if_neg (Ne.symm ha)] at hl; exact ih l hl
      | over _ _ => exact ih l hl
  intro w e hret
  rcases inv hx _ hret with h | h <;> cases h

/-- … and there is a schedule in which it finds `res` closed, as after a call without records. -/
theorem C87_preparation_closed (p : Pipe τ) : ∃ n x, UCodeSteps p true (fun _ => True) n Pipe.uopen x ∧ x.over = true ∧ ¬ Crashed (p.uact true [.res2, .res]) x.st := by
  have s1 : UCodeSteps p true (fun _ => True) 1 Pipe.uopen _ := OSteps.refl.snoc (.inner (.go (r := .caller) (l := .prog .cCode) (n := .flat) (g := .prog .flatRecv) (k := .prog .cByCommit) rfl rfl rfl))
  have s2 := s1.snoc (.inner (.tau (r := .caller) (l := .prog .cByCommit) (k := .unwind [.res2, .res]) rfl rfl))
  have s3 := s2.snoc (.inner (.close (r := .caller) (l := .unwind [.res2, .res]) (c := .res2) (k := .unwind [.res]) rfl rfl rfl))
  have s4 := s3.snoc (.inner (.close (r := .caller) (l := .unwind [.res]) (c := .res) (k := .unwind []) rfl rfl rfl))
  have s5 := s4.snoc (.over trivial rfl)
  refine ⟨_, _, s5, rfl, ?_⟩
  rintro ⟨r, l, h1, h2⟩
  cases r with
  | caller => cases h1; rcases h2 with h | ⟨_, _, _, h, _⟩ | ⟨_, _, h, _⟩ <;> cases h
  | flat => cases h1; rcases h2 with h | ⟨_, _, _, h, _⟩ | ⟨_, _, h, _⟩ <;> cases h
  | _ => cases h1

/-! ### An example: records of a result that was produced are missing -/

/-- The first commit of the example history, then one with a patch that cannot be applied. -/
def exPanic : Pipe Nat := { exPipe with text := b!"commit c1\nAuthor: A\n\n    m\n\ndiff --git a/f b/f\nnew file mode 100644\nindex 0000000..7898192\n--- /dev/null\n+++ b/f\n@@ -0,0 +1,1 @@\n+a\n\ncommit c2\nAuthor: A\n\n    m\n\ndiff --git a/f b/f\nindex 0000000..7898192\n--- a/f\n+++ b/f\n@@ -3,1 +3,1 @@\n-a\n+b\n" }

/-- Its second commit. -/
def exSecond : LogCommit :=
  { hash := b!"c2", changes := [b!"diff --git a/f b/f\nindex 0000000..7898192\n--- a/f\n+++ b/f\n@@ -3,1 +3,1 @@\n-a\n+b\n"] }

theorem exPanic_sent : parseSent exPanic.text = ([exFirst, exSecond], none) := by decide

theorem exPanic_fault : ∃ w, (run exPanic.env exPanic.opts exPanic.read exPanic.graph [exFirst, exSecond]).fault = some (.panic w) := ⟨_, rfl⟩

theorem exPanic_code : ∃ mc rec, codeByCommit exPanic.cl exPanic.scc exPanic.orders exPanic.metas 0 []
    (run exPanic.env exPanic.opts exPanic.read exPanic.graph [exFirst, exSecond]).sent = .ok [(mc, [rec])] := ⟨_, _, rfl⟩

theorem exPanic_first : ∃ r s, exPanic.onFirst none exFirst = .sending [r] (.loop s) ∧ exPanic.onFirst (some s) exSecond = .sending [] .panic ∧
    ∃ cache mc rec, exPanic.onResult 0 [] r = .codeHead 0 cache mc [rec] := ⟨_, _, rfl, rfl, _, _, _, rfl⟩

/-- **C87 (records missing).** There is a run with a panic in which a consumer of `Code` that always receives finds `res` closed, the program not having died so far, without the record of
a result that was produced before the panic. -/
theorem C87_records_missing : ∃ (mc : MetaCommit Nat) (rec : CodeRecord Nat), codeByCommit exPanic.cl exPanic.scc exPanic.orders exPanic.metas 0 [] exPanic.results = .ok [(mc, [rec])] ∧
    ∃ n x, UCodeSteps exPanic false (fun _ => True) n Pipe.uopen x ∧ x.over = true ∧ x.seen = [] ∧ ¬ Crashed (exPanic.uact false [.res2, .res]) x.st := by
  obtain ⟨mc, rec, h⟩ := exPanic_code
  refine ⟨mc, rec, ?_, ?_⟩
  · have : exPanic.results = (run exPanic.env exPanic.opts exPanic.read exPanic.graph [exFirst, exSecond]).sent := by
      simp only [Pipe.results, Pipe.out, exPanic_sent]; rfl
    rw [this]; exact h
  · obtain ⟨r, s, e1, e2, cache, mc', rec', e3⟩ := exPanic_first
    have start := reach_start (p := exPanic) rfl rfl
    rw [show (parseSent exPanic.text).1 = [exFirst, exSecond] by rw [exPanic_sent]] at start
    have r1 := start.trans (Reach.step (st_parser_caller (l := .parse [exFirst, exSecond]) (m := .loop none) rfl rfl rfl))
    simp only [e1] at r1
    have r2 := r1.trans (Reach.step (st_caller_code (l := .sending [r] (.loop s)) (m := .codeRecv 0 []) rfl rfl rfl))
    simp only [e3] at r2
    have r3 := r2.trans (Reach.step (st_code_flat (l := .codeHead 0 cache mc' [rec']) (m := .flatRecv) rfl rfl rfl))
    have r4 := r3.trans (Reach.step (st_caller_tau (l := .sending [] (.loop s)) rfl))
    have r5 := r4.trans (Reach.step (st_parser_caller (l := .parse [exSecond]) (m := .loop (some s)) rfl rfl rfl))
    simp only [e2] at r5
    have r6 := r5.trans (Reach.step (st_caller_tau (l := .sending [] .panic) rfl))
    obtain ⟨i, hi⟩ := r6
    obtain ⟨n, x, h1, h2, h3, h4, _⟩ := closed_early exPanic hi rfl rfl rfl rfl rfl (by
      intro r l hrc hrk hl
      cases r with
      | caller => exact absurd rfl hrc
      | collect => exact absurd rfl hrk
      | code =>
        cases hl
        refine ⟨by simp [Pipe.act], ?_, by simp [Pipe.act]⟩
        intro c v k ha
        simp only [Pipe.act, Act.send.injEq] at ha
        rw [← ha.1]; exact ⟨rfl, rfl⟩
      | flat => cases hl; exact ⟨by simp [Pipe.act], by simp [Pipe.act], by simp [Pipe.act]⟩
      | parser =>
        cases hl
        refine ⟨by simp [Pipe.act], by simp [Pipe.act], ?_⟩
        intro c k ha
        simp only [Pipe.act, Act.close.injEq] at ha
        rw [← ha.1]; exact ⟨rfl, rfl⟩)
    exact ⟨n, x, h1, h2, h3, h4⟩

/-! The hypotheses of the theorems are met. -/

theorem exPanic_results : exPanic.results = (run exPanic.env exPanic.opts exPanic.read exPanic.graph [exFirst, exSecond]).sent := by
  simp only [Pipe.results, Pipe.out, exPanic_sent]; rfl

example : ∃ k out, codeByCommit exPanic.cl exPanic.scc exPanic.orders exPanic.metas 0 [] ((run exPanic.env exPanic.opts exPanic.read exPanic.graph [exFirst, exSecond]).sent.take k) = .ok out ∧
    ∀ n x, UCodeSteps exPanic false (fun _ => True) n Pipe.uopen x → x.seen <+: out.flatMap (·.2) := by
  obtain ⟨k, out, h1, h2⟩ := C87_code exPanic rfl rfl exPanic_sent (.inl exPanic_fault)
  exact ⟨k, out, h1, fun n x hx => (h2 _ n x hx).1⟩

example : ∃ mc rec n x, UCodeSteps exPanic false (fun _ => True) n Pipe.uopen x ∧ x.over = true ∧ x.seen = ([((mc : MetaCommit Nat), [(rec : CodeRecord Nat)])].flatMap (·.2)) := by
  obtain ⟨w, hw⟩ := exPanic_fault
  obtain ⟨mc, rec, h⟩ := exPanic_code
  obtain ⟨n, x, h1, h2, h3, _⟩ := C87_closed_early exPanic rfl rfl exPanic_sent hw h
  exact ⟨mc, rec, n, x, h1, h2, h3⟩

example {n : Nat} {u : State PRole PChan (ULoc Nat)} (hu : Steps (exPanic.uact false [.res2, .res]) n Pipe.uinit u) (w : Option (Repo × Str)) (e : Option Fault) (res : List (CodeRecord Nat)) :
    u.procs .caller ≠ some (.prog (.returned w e res)) := (C87_slice exPanic rfl rfl exPanic_sent (.inl exPanic_fault) hu).1 w e res

example {ready : List (CodeSeen Nat) → Want → Prop} {n : Nat} {x : UState Nat} (hx : USteps exPanic false ready n UState.init x) (w : Option (Repo × Str)) (e : Option Fault) :
    ¬ x.Returned w e := by
  obtain ⟨v, hv⟩ := exPanic_fault
  obtain ⟨mc, rec, h⟩ := exPanic_code
  refine (C87_by_commit exPanic rfl rfl (w := v) ?_ (k := exPanic.results.length) (by rw [List.take_length, exPanic_results]; exact h) (.inl (Nat.le_refl _)) hx).2.2 w e
  simp only [Pipe.out, exPanic_sent]; exact hv

/-- Such a consumer, on the example: the run of `exPanic` panics. -/
example {n : Nat} {x : UState Nat} (hx : USteps exPanic false seqReady n UState.init x) (hst : ∀ y, ¬ UStep exPanic false seqReady x y) :
    Crashed (exPanic.uact false [.res2]) x.st := by
  obtain ⟨v, hv⟩ := exPanic_fault
  exact (C87_by_commit_dies exPanic rfl rfl (.inl ⟨v, by simp only [Pipe.out, exPanic_sent]; exact hv⟩) seqReady_drains hx).2 hst

example {n : Nat} {x : OState PRole PChan (ULoc Nat) (CodeRecord Nat)} (hx : UCodeSteps exPipe true (fun _ => True) n Pipe.uopen x) : x.seen = [] := (C87_preparation hx).1

end Ripsrc
