import Verif.Lib.Stream
import Verif.Props.Whole
/-!
# C80: `CodeByCommit` and any consumer

`SSteps p ready m SState.init x`: some `m` steps of the goroutines of a call of `CodeByCommit` and of its consumer lead to `x`. The consumer is any program, given by the
channels `ready h` that it is ready to receive from after the history `h`. `Spec/CommitStream.lean` says what a right history is and what it means to drain.
-/
namespace Ripsrc
open Conc
open Spec

variable {τ : Type}

/-- **C80.** In a run that does not panic (those that do: C87), whatever the consumer does and however the goroutines are scheduled, at every moment what it has received is a beginning of the stream of commits, in the
order of the run, each followed by its records; a channel `Blames` is found closed only when all records of the commit were received, the channel of the commits
only when everything was received; and once the call has returned, everything was received, and the error and the checkpoint are those of the run. -/
theorem C80_streamed (p : Pipe τ) {out : List (MetaCommit τ × List (CodeRecord τ))} (hc : codeByCommit p.cl p.scc p.orders p.metas 0 [] p.results = .ok out)
    (hrun : p.pre = none → p.openErr = none → ∀ w, p.out.fault ≠ some (.panic w))
    (ready : List (CodeSeen τ) → Want → Prop) {m : Nat} {x : SState τ} (hx : SSteps p ready m SState.init x) :
    (∀ h, h <+: x.seen → RightHistory out h) ∧
    (∀ w e, x.Returned w e → received x.seen = stream out ∧ e = p.err ∧ w = if p.pre = none ∧ p.openErr = none then p.out.written else none) := by
  obtain ⟨h1, hlen⟩ := (streamed_ok p _ _ _ _).1 hc
  obtain ⟨⟨a, b, c, cl, h, rfl, hI⟩, hr⟩ := reachable_inv hx
  rw [h1] at hI hr
  refine ⟨hr, ?_⟩
  intro w e hret
  have ha : a = .joinCode w e := by
    have : some a = some (.joinCode w e) := hret
    cases this; rfl
  subst ha
  obtain ⟨n, R, hd, hR, hcl⟩ := hI.data
  have hcod := hI.cod
  constructor
  · change received h = _
    rw [hR]
    cases hd with
    | none h0 =>
      rw [← h0]; rfl
    | done => rfl
    | ended => rfl
    | _ => simp [CodOk, PLoc.ph] at hcod
  · have hf := hI.fate
    have h2 := (fut_init p).2 hrun
    rw [h2] at hf
    have : (some (w, e) : Option (Option (Repo × Str) × Option Fault)) = _ := hf
    cases this
    exact ⟨rfl, rfl⟩

theorem SSteps.snoc {p : Pipe τ} {ready : List (CodeSeen τ) → Want → Prop} {m k : Nat} {x y z : SState τ} (h : SSteps p ready m x y) (h2 : SSteps p ready k y z) :
    SSteps p ready (m + k) x z := by
  induction h with
  | refl => simpa using h2
  | @cons n _ _ _ h1 _ ih =>
    have := SSteps.cons h1 (ih h2)
    rwa [show n + k + 1 = n + 1 + k by omega] at this

/-- **C80.** With a consumer that drains (in one goroutine or in several), every schedule ends, without a panic; when nothing can move any more, the call has
returned with the error and the checkpoint of the run, its goroutines have returned, and the consumer has received the whole stream and found every channel closed. -/
theorem C80_drained (p : Pipe τ) {out : List (MetaCommit τ × List (CodeRecord τ))} (hc : codeByCommit p.cl p.scc p.orders p.metas 0 [] p.results = .ok out)
    (hparse : (parseSent p.text).2 = none) (hrun : p.pre = none → p.openErr = none → ∀ w, p.out.fault ≠ some (.panic w))
    {ready : List (CodeSeen τ) → Want → Prop} (hdr : Drains ready) :
    ∃ N, ∀ m x, SSteps p ready m SState.init x → m ≤ N ∧ ¬ Crashed p.act x.st ∧
      ((∀ y, ¬ SStep p ready x y) →
        x.Returned (if p.pre = none ∧ p.openErr = none then p.out.written else none) p.err ∧
        (∀ r l, r ≠ .caller → x.st.procs r = some l → p.act l = .halt) ∧
        received x.seen = stream out ∧ Seen.resClosed ∈ x.seen ∧ ∀ i, i < out.length → Seen.blamesClosed i ∈ x.seen) := by
  obtain ⟨h1, hlen⟩ := (streamed_ok p _ _ _ _).1 hc
  have hfate := (fut_init p).2 hrun
  refine ⟨p.measure out SState.init, ?_⟩
  intro m x hx
  have hstr := C80_streamed p hc hrun ready hx
  have hb := hx.bound (out := out) hdr ⟨_, _, _, _, _, mkS_init, by rw [← h1]; exact SInv.init p⟩
  obtain ⟨⟨a, b, c, cl, h, rfl, hI⟩, hr⟩ := reachable_inv hx
  rw [h1] at hI hr
  have hne : (p.fut .cByCommit (parseSent p.text).1).2 ≠ none := by rw [hfate]; simp
  refine ⟨by omega, hI.not_crashed hne hlen hparse, ?_⟩
  intro hstuck
  rcases hI.progress hdr hne hlen with hfin | ⟨y, hy⟩
  · obtain ⟨w, e, rfl⟩ := hfin.caller
    have hret : (mkS (.joinCode w e) b c cl h).Returned w e := rfl
    obtain ⟨e1, rfl, rfl⟩ := hstr.2 w e hret
    refine ⟨hret, ?_, e1, hfin.seen.1, ?_⟩
    · intro r l hr hl
      cases r with
      | caller => exact absurd rfl hr
      | flat => cases hl
      | collect => cases hl
      | parser =>
        have hl : b = some l := hl
        rcases hfin.parser with hb | hb
        · rw [hb] at hl; cases hl
        · rw [hb] at hl; cases hl
          simp [Pipe.parserEnd, hparse, Pipe.act]
      | code =>
        have hl : c = some l := hl
        rcases hfin.code with hb | hb
        · rw [hb] at hl; cases hl
        · rw [hb] at hl; cases hl; rfl
    · intro i hi
      have hm : Seen.commit out[i].1 i ∈ stream out := mem_stream out i hi
      rw [← e1, mem_received] at hm
      exact hfin.seen.2 _ _ hm
  · exact absurd (step_of_mv hy hI.parts.doneRun hI.parts.doneByCommit) (hstuck y)

/-- **C80.** A consumer that will never again be ready for what comes next (say, it read a commit, and will not read its `Blames`) receives nothing any more, and the
call does not return: what it did is not undone, and its goroutines stay. -/
theorem C80_abandoned (p : Pipe τ) {out : List (MetaCommit τ × List (CodeRecord τ))} (hc : codeByCommit p.cl p.scc p.orders p.metas 0 [] p.results = .ok out)
    (hrun : p.pre = none → p.openErr = none → ∀ w, p.out.fault ≠ some (.panic w))
    {ready : List (CodeSeen τ) → Want → Prop} {m : Nat} {x : SState τ} (hx : SSteps p ready m SState.init x) {v : CodeSeen τ}
    (hv : (stream out)[(received x.seen).length]? = some v) (hnever : ∀ h, x.seen <+: h → ¬ ready h v.on) {k : Nat} {y : SState τ} (hy : SSteps p ready k x y) :
    received y.seen = received x.seen ∧ ∀ w e, ¬ y.Returned w e := by
  have key : ∀ {k : Nat} {z y : SState τ} {m : Nat}, SSteps p ready k z y → SSteps p ready m SState.init z → x.seen <+: z.seen → received z.seen = received x.seen →
      received y.seen = received x.seen := by
    intro k z y m hs
    induction hs generalizing m with
    | refl => intro _ _ h; exact h
    | @cons n z z' y h1 h2 ih =>
      intro hz hpre hrec
      have hz' : SSteps p ready (m + 1) SState.init z' := hz.snoc (.cons h1 .refl)
      have hR := (C80_streamed p hc hrun ready hz').1 z'.seen (List.prefix_refl _)
      rcases h1.observes with e | ⟨o, e, ho⟩
      · exact ih hz' (e ▸ hpre) (e ▸ hrec)
      · refine ih hz' (e ▸ hpre.trans (List.prefix_append _ _)) ?_
        rw [e, received_append, hrec]
        cases hval : o.isValue with
        | false => simp
        | true =>
          exfalso
          have h3 := hR.received
          rw [e, received_append, hrec, hval] at h3
          obtain ⟨t, ht⟩ := h3
          rw [← ht] at hv
          simp at hv
          subst hv
          exact hnever _ hpre ho
  have hrec := key hy hx (List.prefix_refl _) rfl
  refine ⟨hrec, ?_⟩
  intro w e hret
  have := ((C80_streamed p hc hrun ready (hx.snoc hy)).2 w e hret).1
  rw [hrec] at this
  rw [this] at hv
  simp at hv

theorem streamed_error (p : Pipe τ) : ∀ (rs : List Result) (n : Nat) (cache : GoMap Str Str) (k : Nat) (out : List (MetaCommit τ × List (CodeRecord τ))) (e : Fault),
    codeByCommit p.cl p.scc p.orders p.metas n cache (rs.take k) = .ok out → codeByCommit p.cl p.scc p.orders p.metas n cache (rs.take (k + 1)) = .error e →
    p.streamed n cache rs = out ∧ out.length < rs.length := by
  intro rs
  induction rs with
  | nil => intro n cache k out e _ h2; simp [codeByCommit] at h2
  | cons r rs ih =>
    intro n cache k out e h1 h2
    cases k with
    | zero =>
      simp only [List.take_zero, codeByCommit, Except.ok.injEq] at h1
      subst h1
      simp only [Nat.zero_add, List.take_succ_cons, List.take_zero, codeByCommit] at h2
      simp only [Pipe.streamed]
      cases hm : GoMap.get p.metas r.commit with
      | none => simp
      | some c =>
        simp only [hm, bind, Except.bind, pure, Except.pure] at h2 ⊢
        cases hf : codeInfoFiles p.cl p.scc (p.orders n) p.metas cache r with
        | error e => simp
        | ok x => simp [hf] at h2
    | succ k =>
      simp only [List.take_succ_cons, codeByCommit] at h1 h2
      simp only [Pipe.streamed]
      cases hm : GoMap.get p.metas r.commit with
      | none => simp [hm] at h1
      | some c =>
        simp only [hm, bind, Except.bind, pure, Except.pure] at h1 h2 ⊢
        cases hf : codeInfoFiles p.cl p.scc (p.orders n) p.metas cache r with
        | error e => simp [hf] at h1
        | ok x =>
          obtain ⟨recs, cache1⟩ := x
          simp only [hf] at h1 h2 ⊢
          cases hr : codeByCommit p.cl p.scc p.orders p.metas (n + 1) cache1 (rs.take k) with
          | error e => simp [hr] at h1
          | ok o =>
            simp only [hr, Except.ok.injEq] at h1
            cases hr' : codeByCommit p.cl p.scc p.orders p.metas (n + 1) cache1 (rs.take (k + 1)) with
            | ok o' => simp [hr'] at h2
            | error e' =>
              obtain ⟨h3, h4⟩ := ih _ _ _ _ _ hr hr'
              subst h1 h3
              exact ⟨rfl, by simpa using h4⟩

/-- **C80.** If the records of commit number `k` cannot be computed (and the run itself does not panic), the consumer sees nothing but a beginning of the stream of the `k` commits before it; it never
finds the channel of the commits closed, and the call never returns: it panics. -/
theorem C80_panic (p : Pipe τ) {k : Nat} {out : List (MetaCommit τ × List (CodeRecord τ))} {e : Fault}
    (hc : codeByCommit p.cl p.scc p.orders p.metas 0 [] (p.results.take k) = .ok out) (he : codeByCommit p.cl p.scc p.orders p.metas 0 [] (p.results.take (k + 1)) = .error e)
    (_hrun : p.pre = none → p.openErr = none → ∀ w, p.out.fault ≠ some (.panic w))
    (ready : List (CodeSeen τ) → Want → Prop) {m : Nat} {x : SState τ} (hx : SSteps p ready m SState.init x) :
    (∀ h, h <+: x.seen → RightHistory out h) ∧ Seen.resClosed ∉ x.seen ∧ ∀ w e, ¬ x.Returned w e := by
  obtain ⟨h1, hlen⟩ := streamed_error p _ _ _ _ _ _ hc he
  obtain ⟨⟨a, b, c, cl, h, rfl, hI⟩, hr⟩ := reachable_inv hx
  rw [h1] at hI hr
  have hno : a.ph ≠ 7 := by
    intro h7
    obtain ⟨n, R, hd, hR, hcl⟩ := hI.data
    have hc := hI.cod
    have hF : (p.fut a (p.todo b)).1 = [] := by
      cases a <;> simp [PLoc.ph] at h7
      rfl
    rw [hF] at hd
    cases hd with
    | none _ h => simp at h; omega
    | done _ h => omega
    | ended _ h => omega
    | _ => simp [CodOk, h7] at hc
  refine ⟨hr, fun h => hno (hI.res2.1 (hI.hr h)), ?_⟩
  intro w e hret
  have ha : some a = some (.joinCode w e) := hret
  cases ha
  exact hno rfl

/-! ### The consumers of the theorems, and an example -/

/-- `for c := range res { for r := range c.Blames { … } }` -/
def seqReady {M R : Type} (h : List (Seen M R)) : Want → Prop
  | .commit => (∀ c i, Seen.commit c i ∈ h → Seen.blamesClosed i ∈ h) ∧ Seen.resClosed ∉ h
  | .blames i => (∃ c, Seen.commit c i ∈ h) ∧ Seen.blamesClosed i ∉ h

/-- `for c := range res { go func() { for r := range c.Blames { … } }() }` -/
def parReady {M R : Type} (h : List (Seen M R)) : Want → Prop
  | .commit => Seen.resClosed ∉ h
  | .blames i => (∃ c, Seen.commit c i ∈ h) ∧ Seen.blamesClosed i ∉ h

/-- `for c := range res { }` -/
def headReady {M R : Type} (h : List (Seen M R)) : Want → Prop
  | .commit => Seen.resClosed ∉ h
  | .blames _ => False

theorem seqReady_drains {M R : Type} : Drains (seqReady (M := M) (R := R)) where
  blames _ c _ h1 h2 := ⟨⟨c, h1⟩, h2⟩
  commits _ h1 h2 := ⟨h1, h2⟩
  once _ h := h.2
  onceBlames _ _ h := h

example {M R : Type} : Drains (parReady (M := M) (R := R)) where
  blames _ c _ h1 h2 := ⟨⟨c, h1⟩, h2⟩
  commits _ _ h2 := h2
  once _ h := h
  onceBlames _ _ h := h

example {M R : Type} (c : M) : ¬ Drains (headReady (M := M) (R := R)) := fun h => h.blames [.commit c 0] c 0 (by simp) (by simp)

/-- The first commit of the example history. -/
def exFirst : LogCommit :=
  { hash := b!"c1", changes := [b!"diff --git a/f b/f\nnew file mode 100644\nindex 0000000..7898192\n--- /dev/null\n+++ b/f\n@@ -0,0 +1,1 @@\n+a\n"] }

/-- The first commit of the example history, alone. -/
def exStream : Pipe Nat := { exPipe with text := b!"commit c1\nAuthor: A\n\n    m\n\ndiff --git a/f b/f\nnew file mode 100644\nindex 0000000..7898192\n--- /dev/null\n+++ b/f\n@@ -0,0 +1,1 @@\n+a\n" }

theorem exStream_sent : parseSent exStream.text = (exBrokenLog, none) := by decide

theorem exStream_code : ∃ mc rec, codeByCommit exStream.cl exStream.scc exStream.orders exStream.metas 0 [] exStream.results = .ok [(mc, [rec])] := by
  have h : exStream.results = (run Ex.env {} (fun _ => .ok []) (Graph.newFromMap Ex.parents Ex.parents) exBrokenLog).sent := by
    simp only [Pipe.results, Pipe.out, exStream_sent]; rfl
  rw [h]
  exact ⟨_, _, rfl⟩

theorem exStream_fault (metas : GoMap Str (MetaCommit Nat)) : ({ exStream with metas := metas } : Pipe Nat).out.fault = none := by
  have : ({ exStream with metas := metas } : Pipe Nat).out = run Ex.env {} (fun _ => .ok []) (Graph.newFromMap Ex.parents Ex.parents) exBrokenLog := by
    simp only [Pipe.out]
    rw [show ({ exStream with metas := metas } : Pipe Nat).text = exStream.text from rfl, exStream_sent]; rfl
  rw [this]; decide

/-- Both consumers that drain get the commit and its record. -/
example : ∃ mc rec, ∃ N, ∀ m x, SSteps exStream seqReady m SState.init x → m ≤ N ∧
    ((∀ y, ¬ SStep exStream seqReady x y) → received x.seen = [.commit mc 0, .record 0 rec] ∧ ∃ w, x.Returned w none) := by
  obtain ⟨mc, rec, hc⟩ := exStream_code
  have hp : (parseSent exStream.text).2 = none := by rw [exStream_sent]
  have hf : exStream.out.fault = none := by
    have : exStream.out = run Ex.env {} (fun _ => .ok []) (Graph.newFromMap Ex.parents Ex.parents) exBrokenLog := by simp only [Pipe.out, exStream_sent]; rfl
    rw [this]; decide
  obtain ⟨N, h⟩ := C80_drained exStream hc hp (by intro _ _ w; rw [hf]; simp) (ready := seqReady)
    ⟨fun _ c _ h1 h2 => ⟨⟨c, h1⟩, h2⟩, fun _ h1 h2 => ⟨h1, h2⟩, fun _ h => h.2, fun _ _ h => h⟩
  refine ⟨mc, rec, N, fun m x hx => ⟨(h m x hx).1, fun hs => ?_⟩⟩
  obtain ⟨h1, _, h2, _⟩ := (h m x hx).2.2 hs
  have he : exStream.err = none := by
    have hf' : (run exStream.env exStream.opts exStream.read exStream.graph exBrokenLog).fault = none := by
      rw [Pipe.out, exStream_sent] at hf; exact hf
    simp only [Pipe.err, exStream_sent, hf']; rfl
  rw [he] at h1
  exact ⟨h2, ⟨_, h1⟩⟩

theorem exStream_first : ∃ r s, exStream.onFirst none exFirst = .sending [r] (.loop s) ∧
    ∃ cache mc rec, exStream.onResult 0 [] r = .codeHead 0 cache mc [rec] := ⟨_, _, rfl, _, _, _, rfl⟩

/-- The consumer that reads the commits only: it gets the first commit, and then nothing happens any more: the call does not return. -/
example : ∃ m x, SSteps exStream headReady m SState.init x ∧ (∃ mc, x.seen = [.commit mc 0]) ∧
    ∀ k y, SSteps exStream headReady k x y → (received y.seen).length = 1 ∧ ∀ w e, ¬ y.Returned w e := by
  obtain ⟨mc, rec, hc⟩ := exStream_code
  obtain ⟨r, s, h1, cache, mc', rec', h2⟩ := exStream_first
  have e0 : (parseSent exStream.text).1 = [exFirst] := by rw [exStream_sent]; rfl
  have hrun : SSteps exStream headReady 5 SState.init
      (mkS (.sending [] (.loop s)) (some (.parse [])) (some (.codeRecs 0 cache [rec'])) (fun _ => false) [.commit mc' 0]) := by
    rw [mkS_init]
    refine .cons (step_of_mv (.startCode rfl) rfl rfl) (.cons (step_of_mv (.startParser rfl) rfl rfl) ?_)
    rw [e0]
    refine .cons (step_of_mv (.recvCommit rfl) rfl rfl) ?_
    rw [h1]
    refine .cons (step_of_mv (.result rfl) rfl rfl) ?_
    rw [h2]
    exact .cons (step_of_mv (.head (by simp [headReady]) rfl) rfl rfl) .refl
  refine ⟨_, _, hrun, ⟨mc', rfl⟩, ?_⟩
  intro k y hy
  obtain ⟨h3, h4⟩ := C80_abandoned exStream hc (fun _ _ w => by rw [show exStream.out.fault = none from exStream_fault exStream.metas]; simp) hrun (v := .record 0 rec) rfl (by intro h _; simp [Seen.on, headReady]) hy
  exact ⟨by rw [h3]; rfl, h4⟩

/-- Without the metadata of the commit there is a panic, and no commit is seen. -/
example (ready : List (CodeSeen Nat) → Want → Prop) (m : Nat) (x : SState Nat) (hx : SSteps { exStream with metas := [] } ready m SState.init x) :
    x.seen.filter Seen.isValue = [] ∧ Seen.resClosed ∉ x.seen := by
  have h : ({ exStream with metas := [] } : Pipe Nat).results = (run Ex.env {} (fun _ => .ok []) (Graph.newFromMap Ex.parents Ex.parents) exBrokenLog).sent := by
    have := exStream_sent
    simp only [Pipe.results, Pipe.out]
    rw [show ({ exStream with metas := [] } : Pipe Nat).text = exStream.text from rfl, exStream_sent]; rfl
  have he : ∃ e, codeByCommit (τ := Nat) exStream.cl exStream.scc exStream.orders [] 0 []
      ((run Ex.env {} (fun _ => .ok []) (Graph.newFromMap Ex.parents Ex.parents) exBrokenLog).sent.take 1) = .error e := ⟨_, rfl⟩
  obtain ⟨e, he⟩ := he
  obtain ⟨h1, h2, _⟩ := C80_panic { exStream with metas := [] } (k := 0) (out := []) (e := e) rfl (by rw [h]; exact he) (fun _ _ w => by rw [exStream_fault]; simp) ready hx
  have := (h1 _ (List.prefix_refl _)).received
  exact ⟨by simpa [received, stream, streamFrom] using this, h2⟩

end Ripsrc
