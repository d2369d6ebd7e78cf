import Verif.Lib.PipelineRun
import Verif.Props.CodeInfo
/-!
# C50, C55, C56: the goroutines of `Code`

The statements quantify over every schedule: `Steps p.act m Pipe.init u` says that some `m` steps of the goroutines lead from the call of `CodeSlice` to `u`.
What the run computes is given by the sequential functions `run` (the results of `Process.Run`) and `codeByCommit` (the records).
-/
namespace Ripsrc
open Conc

variable {τ : Type}

/-- What `Process.Run` computes for the commits that the log parser sends. -/
def Pipe.out (p : Pipe τ) : RunOut := run p.env p.opts p.read p.graph (parseSent p.text).1

/-- Every schedule of a call ends, after the same number of steps, with all goroutines returned and the result `(records, e)`; `w` is the checkpoint that was
written. Before, the records delivered are a prefix of `records`; no goroutine ever panics. -/
def AlwaysReturns (p : Pipe τ) (w : Option (Repo × Str)) (e : Option Fault) (records : List (CodeRecord τ)) : Prop :=
  ∃ N, ∀ m u, Steps p.act m Pipe.init u →
    m ≤ N ∧ (m < N → ¬ Stuck p.act u) ∧ ¬ Crashed p.act u ∧ delivered u <+: records ∧
    (Stuck p.act u → AllReturned p.act u ∧ u.procs .caller = some (.returned w e records))

theorem alwaysReturns_of_reach {p : Pipe τ} {w : Option (Repo × Str)} {e : Option Fault} {records : List (CodeRecord τ)} {t : State PRole PChan (PLoc τ)}
    (h : Reach p.act Pipe.init t) (hret : AllReturned p.act t) (hcaller : t.procs .caller = some (.returned w e records)) (hd : delivered t = records)
    (hcol : t.procs .collect ≠ some (.panicked .collect)) : AlwaysReturns p w e records := by
  obtain ⟨N, hN⟩ := h
  refine ⟨N, ?_⟩
  intro m u hu
  obtain ⟨h1, h2⟩ := determinate (pipe_owned p) placed_init pipeInv_init hN hret.stuck hu
  have hpl : Placed PLoc.role u := hu.inv (P := Placed PLoc.role) (fun _ _ h hs => h.step (pipe_owned p) hs) placed_init
  refine ⟨h1, ?_, ?_, ?_, ?_⟩
  · intro hlt hst
    have : N - m ≠ 0 := by omega
    generalize N - m = k at *
    cases h2 with
    | refl => exact this rfl
    | cons h3 _ => exact hst _ h3
  · intro hc
    exact hret.not_crashed (hc.steps h2)
  · rw [← hd]
    exact delivered_steps hpl h2 hcol
  · intro hst
    generalize N - m = k at *
    cases h2 with
    | refl => exact ⟨hret, hcaller⟩
    | cons h3 _ => exact absurd h3 (hst _)

/-- Any call whose parts do not panic. -/
theorem pipeline_returns (p : Pipe τ) (hpre : p.pre = none) (hopen : p.openErr = none) (hparse : (parseSent p.text).2 = none)
    (hf : ∀ w, p.out.fault ≠ some (.panic w)) {out : List (MetaCommit τ × List (CodeRecord τ))}
    (hc : codeByCommit p.cl p.scc p.orders p.metas 0 [] p.out.sent = .ok out) :
    AlwaysReturns p p.out.written p.err (out.flatMap (·.2)) := by
  obtain ⟨cache', hc'⟩ := codeAll_of_codeByCommit p _ _ _ _ hc
  obtain ⟨n, hn⟩ := reach_all hpre hopen hf hc'
  exact alwaysReturns_of_reach hn (pst_returned hparse) rfl rfl (by simp [pst])

/-- **C50.** If the log is parsed, the run has no fault and the records can be computed, then every schedule of the goroutines of `Code` ends with all of them
returned, and delivers exactly the records of the commits in the order of the commits, each group in its order; nothing is lost, duplicated or reordered, no schedule
deadlocks or panics (no goroutine is left behind), and at any time a prefix has been delivered. -/
theorem C50_pipeline (p : Pipe τ) (hpre : p.pre = none) (hopen : p.openErr = none) {log : List LogCommit} (hlog : parseLog p.text = .ok log)
    (hrun : (run p.env p.opts p.read p.graph log).fault = none) {out : List (MetaCommit τ × List (CodeRecord τ))}
    (hc : codeByCommit p.cl p.scc p.orders p.metas 0 [] (run p.env p.opts p.read p.graph log).sent = .ok out) :
    AlwaysReturns p (run p.env p.opts p.read p.graph log).written (if log = [] then none else p.writeErr.map .error) (out.flatMap (·.2)) := by
  have hs := (parseSent_ok _ _).1 hlog
  have hout : p.out = run p.env p.opts p.read p.graph log := by simp [Pipe.out, hs]
  rw [← hout] at hrun hc ⊢
  have herr : p.err = if log = [] then none else p.writeErr.map .error := by
    have h2 : (run p.env p.opts p.read p.graph (parseSent p.text).1).fault = none := hrun
    rw [hs] at h2
    simp [Pipe.err, hpre, hopen, h2, hs]
  rw [← herr]
  exact pipeline_returns p hpre hopen (by rw [hs]) (by simp [hrun]) hc

/-- **C55.** If the run fails with an error (from the checkpoint reader or from a commit that cannot be processed), every schedule ends with all goroutines
returned, `Code` returns that error, no checkpoint is written, and what was delivered are the records of the results before the failure. -/
theorem C55_error_returned (p : Pipe τ) (hpre : p.pre = none) (hopen : p.openErr = none) {log : List LogCommit} (hlog : parseLog p.text = .ok log) {why : String}
    (hrun : (run p.env p.opts p.read p.graph log).fault = some (.error why)) {out : List (MetaCommit τ × List (CodeRecord τ))}
    (hc : codeByCommit p.cl p.scc p.orders p.metas 0 [] (run p.env p.opts p.read p.graph log).sent = .ok out) :
    AlwaysReturns p none (some (.error why)) (out.flatMap (·.2)) := by
  have hs := (parseSent_ok _ _).1 hlog
  have hout : p.out = run p.env p.opts p.read p.graph log := by simp [Pipe.out, hs]
  have hw : (run p.env p.opts p.read p.graph log).written = none := by
    unfold run at hrun ⊢
    split
    · rfl
    · split
      · rfl
      · rename_i repo hi
        simp only [hi] at hrun
        split
        · rfl
        · rename_i s hl
          simp only [hl] at hrun
          by_cases hm : s.mergeParts.length > 0
          · rw [if_pos hm] at hrun ⊢
            split
            · rfl
            · rename_i s' hf; rw [hf] at hrun; cases hrun
          · rw [if_neg hm] at hrun; cases hrun
  rw [← hout] at hrun hc hw
  rw [← hw]
  have herr : p.err = some (.error why) := by
    have h2 : (run p.env p.opts p.read p.graph (parseSent p.text).1).fault = some (.error why) := hrun
    simp [Pipe.err, hpre, hopen, h2]
  rw [← herr]
  exact pipeline_returns p hpre hopen (by rw [hs]) (by simp [hrun]) hc

/-- **C55 (the checkpoint).** When the checkpoint cannot be read, that is the error, and nothing is delivered. -/
theorem C55_checkpoint_error (p : Pipe τ) (hpre : p.pre = none) (hopen : p.openErr = none) {log : List LogCommit} (hlog : parseLog p.text = .ok log) (hne : log ≠ [])
    (hinc : p.opts.commitFromIncl ≠ []) {why : String}
    (hread : p.read (if p.opts.noStrictResume then [] else p.opts.commitFromIncl) = .error (.error why)) :
    AlwaysReturns p none (some (.error why)) [] := by
  have hrun : run p.env p.opts p.read p.graph log = { sent := [], fault := some (.error why), written := none } := by
    cases log with
    | nil => exact absurd rfl hne
    | cons c cs =>
      have : initCheckpoints p.opts p.read = .error (.error why) := by simp only [initCheckpoints, if_neg hinc, hread]
      simp only [run, this]
  exact C55_error_returned p hpre hopen hlog (by rw [hrun]) (out := []) (by rw [hrun]; rfl)

/-- **C55 (before the run).** An error while preparing (git, commit graph, commit metadata) or opening the log is returned; nothing is delivered or written and no
goroutine is left. -/
theorem C55_preparation_error (p : Pipe τ) {why : String} (h : p.pre = some why ∨ (p.pre = none ∧ p.openErr = some why)) : AlwaysReturns p none (some (.error why)) [] := by
  rcases h with h | ⟨h1, h2⟩
  · refine alwaysReturns_of_reach (reach_pre h) ?_ rfl rfl (by simp [pst])
    intro r l hl
    cases r <;> cases hl <;> rfl
  · refine alwaysReturns_of_reach (reach_open h1 h2) ?_ rfl rfl (by simp [pst])
    intro r l hl
    cases r <;> cases hl <;> rfl

/-! ### C56: a failure of the log parser -/

/-- The checkpoint that the caller has written (`none`: the caller has not come to that point). -/
def PLoc.ckpt : PLoc τ → Option (Option (Repo × Str))
  | .joinRun w _ | .closeGitRes w _ | .joinByCommit w _ | .closeRes2 w _ | .joinCode w _ | .closeRes w _ | .joinSlice w _ | .returned w _ _ => some w
  | _ => none

/-- The caller is at or past the end of `Run`, with checkpoint `w`, or has panicked. -/
def AtEnd (s : State PRole PChan (PLoc τ)) (w : Option (Repo × Str)) : Prop :=
  ∃ l, s.procs .caller = some l ∧ (l.ckpt = some w ∨ l = .panicked .caller)

theorem ckpt_recv {p : Pipe τ} {l c f w} (h : p.act l = .recv c f) (hl : l.ckpt = some w ∨ l = .panicked .caller) (o : Option (PVal τ)) :
    (f o).ckpt = some w ∨ f o = .panicked .caller := by
  rcases hl with hl | rfl
  · cases l <;> simp [PLoc.ckpt] at hl <;> subst hl <;> simp [Pipe.act] at h <;> obtain ⟨rfl, rfl⟩ := h
    · exact .inl rfl
    · exact .inl rfl
    · exact .inl rfl
    · rcases o with _ | v
      · exact .inr rfl
      · cases v <;> first | exact .inr rfl | exact .inl rfl
  · simp [Pipe.act] at h

theorem atEnd_step {p : Pipe τ} {s t : State PRole PChan (PLoc τ)} {w : Option (Repo × Str)} (h : AtEnd s w) (hst : Step p.act s t) : AtEnd t w := by
  obtain ⟨l, hl, hw⟩ := h
  obtain ⟨eff, he, rfl⟩ := step_iff.1 hst
  by_cases hmem : PRole.caller ∈ eff.keys
  · cases he with
    | tau h1 h2 =>
      simp [Eff.keys] at hmem; subst hmem
      rw [hl] at h1; cases h1
      rcases hw with hw | rfl
      · cases l <;> simp [PLoc.ckpt] at hw <;> simp [Pipe.act] at h2
      · simp [Pipe.act] at h2
    | sync h1 h2 h3 h4 h5 =>
      simp [Eff.keys] at hmem
      rcases hmem with rfl | rfl
      · rw [hl] at h1; cases h1
        rcases hw with hw | rfl
        · cases l <;> simp [PLoc.ckpt] at hw <;> simp [Pipe.act] at h2
        · simp [Pipe.act] at h2
      · rw [hl] at h3; cases h3
        rename_i v k f
        exact ⟨f (some v), by simp [Eff.app, upd], ckpt_recv h4 hw _⟩
    | recvClosed h1 h2 h3 =>
      simp [Eff.keys] at hmem; subst hmem
      rw [hl] at h1; cases h1
      rename_i f
      exact ⟨f none, by simp [Eff.app, upd], ckpt_recv h2 hw _⟩
    | close h1 h2 h3 =>
      simp [Eff.keys] at hmem; subst hmem
      rw [hl] at h1; cases h1
      refine ⟨_, by simp [Eff.app, upd]; rfl, ?_⟩
      rcases hw with hw | rfl
      · cases l <;> simp [PLoc.ckpt] at hw <;> subst hw <;> simp [Pipe.act] at h2 <;> obtain ⟨rfl, rfl⟩ := h2 <;> exact .inl rfl
      · simp [Pipe.act] at h2
    | go h1 h2 h3 =>
      simp [Eff.keys] at hmem
      rcases hmem with rfl | rfl
      · rw [hl] at h3; cases h3
      · rw [hl] at h1; cases h1
        rcases hw with hw | rfl
        · cases l <;> simp [PLoc.ckpt] at hw <;> simp [Pipe.act] at h2
        · simp [Pipe.act] at h2
    | wait h1 h2 h3 => exact (pipe_wait p h2).elim
  · exact ⟨l, by rw [app_not_mem hmem]; exact hl, hw⟩

/-- The log parser ends only when the caller is at the end of `Run`. -/
theorem atEnd_of_parser {p : Pipe τ} {n : Nat} {u : State PRole PChan (PLoc τ)} (h : Steps p.act n Pipe.init u) (hp : u.procs .parser = some (.panicked .parser)) :
    ∃ w, AtEnd u w := by
  have key : ∀ {s t : State PRole PChan (PLoc τ)}, (Placed PLoc.role s ∧ ((s.procs .parser = some .parsed ∨ s.procs .parser = some (.panicked .parser)) → ∃ w, AtEnd s w)) →
      Step p.act s t → Placed PLoc.role t ∧ ((t.procs .parser = some .parsed ∨ t.procs .parser = some (.panicked .parser)) → ∃ w, AtEnd t w) := by
    rintro s t ⟨hpl, hI⟩ hst
    refine ⟨hpl.step (pipe_owned p) hst, ?_⟩
    intro ht
    by_cases hs : s.procs .parser = some .parsed ∨ s.procs .parser = some (.panicked .parser)
    · obtain ⟨w, hw⟩ := hI hs
      exact ⟨w, atEnd_step hw hst⟩
    · obtain ⟨eff, he, rfl⟩ := step_iff.1 hst
      have hmem : PRole.parser ∈ eff.keys := by
        apply Classical.byContradiction
        intro hn
        rw [app_not_mem hn] at ht
        exact hs ht
      -- the states of the parser
      have send : ∀ {l c v k}, s.procs .parser = some l → p.act l = .send c v k → (k = .parsed ∨ k = .panicked .parser) → c = .doneRun := by
        intro l c v k hl ha hk
        have hr := hpl _ _ hl
        cases l with
        | parse todo =>
          cases todo with
          | nil => simp [Pipe.act] at ha
          | cons c cs => simp [Pipe.act] at ha; obtain ⟨rfl, rfl, rfl⟩ := ha; simp at hk
        | parseDone => simp only [Pipe.act] at ha; injection ha with h1; exact h1.symm
        | parsed => simp [Pipe.act] at ha
        | panicked r => simp [Pipe.act] at ha
        | _ => cases hr
      cases he with
      | tau h1 h2 =>
        simp [Eff.keys] at hmem; subst hmem
        have := (pipe_tau p h2).1
        rw [hpl _ _ h1] at this; cases this
      | sync h1 h2 h3 h4 h5 =>
        rename_i pr q l m c v k f
        have hne : pr ≠ q := by rintro rfl; rw [h1] at h3; cases h3; rw [h2] at h4; cases h4
        simp [Eff.keys] at hmem
        rcases hmem with rfl | rfl
        · have hk : k = .parsed ∨ k = .panicked .parser := by simpa [Eff.app, upd, hne] using ht
          have hc := send h1 h2 hk
          subst hc
          have hq : q = .caller := by
            have := (pipe_recv p h4).1
            rw [hpl _ _ h3] at this
            exact this.symm
          subst hq
          have hm := hpl _ _ h3
          cases m with
          | joinRun w e =>
            simp [Pipe.act] at h4
            subst h4
            exact ⟨w, .closeGitRes w e, by simp [Eff.app, upd], .inl rfl⟩
          | sending rs k => cases rs <;> simp [Pipe.act] at h4
          | cByCommit => simp only [Pipe.act] at h4; cases hp : p.pre <;> simp [hp] at h4
          | cRun => simp only [Pipe.act] at h4; cases hp : p.openErr <;> simp [hp] at h4
          | _ => first | (cases hm; done) | (simp [Pipe.act] at h4; done)
        · have := (pipe_recv p h4).1
          rw [hpl _ _ h3] at this
          cases c <;> cases this
      | recvClosed h1 h2 h3 =>
        simp [Eff.keys] at hmem; subst hmem
        have := (pipe_recv p h2).1
        rw [hpl _ _ h1] at this
        rename_i c f
        cases c <;> cases this
      | close h1 h2 h3 =>
        simp [Eff.keys] at hmem; subst hmem
        rename_i l c k
        have hk : k = .parsed ∨ k = .panicked .parser := by simpa [Eff.app, upd] using ht
        have hr := hpl _ _ h1
        exfalso
        cases l with
        | parse todo => cases todo <;> simp [Pipe.act] at h2; obtain ⟨rfl, rfl⟩ := h2; simp at hk
        | parseDone => simp [Pipe.act] at h2
        | parsed => simp [Pipe.act] at h2
        | panicked r => simp [Pipe.act] at h2
        | _ => cases hr
      | go h1 h2 h3 =>
        rename_i r l n g k
        simp [Eff.keys] at hmem
        have hr := (pipe_go p h2).1
        rw [hpl _ _ h1] at hr
        subst hr
        rcases hmem with rfl | h
        · have hg : g = .parsed ∨ g = .panicked .parser := by simpa [Eff.app, upd] using ht
          exfalso
          cases l with
          | cRun => simp only [Pipe.act] at h2; cases hp : p.openErr <;> simp [hp] at h2; rw [← h2.1] at hg; simp at hg
          | cByCommit => simp only [Pipe.act] at h2; cases hp : p.pre <;> simp [hp] at h2
          | sending rs k' => cases rs <;> simp [Pipe.act] at h2
          | parse rs => cases rs <;> simp [Pipe.act] at h2
          | codeRecs _ _ rs => cases rs <;> simp [Pipe.act] at h2
          | _ => simp [Pipe.act] at h2
        · cases h
      | wait h1 h2 h3 => exact (pipe_wait p h2).elim
  have := h.inv (P := fun s => Placed PLoc.role s ∧ ((s.procs .parser = some .parsed ∨ s.procs .parser = some (.panicked .parser)) → ∃ w, AtEnd s w))
    (fun _ _ h hs => key h hs) ⟨placed_init, by simp [Pipe.init]⟩
  exact this.2 (.inr hp)

/-- **C56 (finding).** If the log parser fails in the middle of the log (a line that it does not understand or that is too long) after it has sent `log`, the
run goes on as if the log ended there: in every schedule the checkpoint of the truncated run has been written before the failure of the parser can stop the
program; and no schedule ends without that panic. -/
theorem C56_truncated_checkpoint (p : Pipe τ) (hpre : p.pre = none) (hopen : p.openErr = none) {log : List LogCommit} {e : Fault}
    (hlog : parseSent p.text = (log, some e)) (hrun : (run p.env p.opts p.read p.graph log).fault = none) {out : List (MetaCommit τ × List (CodeRecord τ))}
    (hc : codeByCommit p.cl p.scc p.orders p.metas 0 [] (run p.env p.opts p.read p.graph log).sent = .ok out) :
    (∃ N, ∀ m u, Steps p.act m Pipe.init u → m ≤ N ∧ (Stuck p.act u → Crashed p.act u ∧ u.procs .parser = some (.panicked .parser)) ∧
      delivered u <+: out.flatMap (·.2)) ∧
    (∀ m u, Steps p.act m Pipe.init u → u.procs .parser = some (.panicked .parser) →
      ∃ l, u.procs .caller = some l ∧ l.ckpt = some (run p.env p.opts p.read p.graph log).written) := by
  obtain ⟨cache', hc'⟩ := codeAll_of_codeByCommit p _ _ _ _ hc
  have hreach := reach_all (p := p) hpre hopen (by rw [hlog]; simp [hrun]) (recs := out.flatMap (·.2)) (cache' := cache') (by rw [hlog]; exact hc')
  rw [hlog] at hreach
  obtain ⟨n, N, hN⟩ := hreach
  have hend : p.parserEnd = .panicked .parser := by simp [Pipe.parserEnd, hlog]
  rw [hend] at hN
  have hst : Stuck p.act (pst (some (.returned (run p.env p.opts p.read p.graph log).written p.err (out.flatMap (·.2)))) (some (.panicked .parser)) (some .codeEnd)
      (some .flatEnd) (some (.collected (out.flatMap (·.2)))) (closedEnd n)) := by
    intro t ht
    obtain ⟨eff, he, rfl⟩ := step_iff.1 ht
    have : ∀ r l, (pst (some (.returned (run p.env p.opts p.read p.graph log).written p.err (out.flatMap (·.2)))) (some (.panicked .parser)) (some .codeEnd)
      (some .flatEnd) (some (.collected (out.flatMap (·.2)))) (closedEnd n)).procs r = some l → p.act l = .halt ∨ p.act l = .panic := by
      intro r l h
      cases r <;> cases h <;> first | exact .inl rfl | exact .inr rfl
    cases he with
    | tau h1 h2 => rcases this _ _ h1 with h | h <;> rw [h] at h2 <;> cases h2
    | sync h1 h2 h3 h4 h5 => rcases this _ _ h1 with h | h <;> rw [h] at h2 <;> cases h2
    | recvClosed h1 h2 h3 => rcases this _ _ h1 with h | h <;> rw [h] at h2 <;> cases h2
    | close h1 h2 h3 => rcases this _ _ h1 with h | h <;> rw [h] at h2 <;> cases h2
    | go h1 h2 h3 => rcases this _ _ h1 with h | h <;> rw [h] at h2 <;> cases h2
    | wait h1 h2 h3 => rcases this _ _ h1 with h | h <;> rw [h] at h2 <;> cases h2
  have hplaced : ∀ {m u}, Steps p.act m Pipe.init u → Placed PLoc.role u :=
    fun hu => hu.inv (P := Placed PLoc.role) (fun _ _ h hs => h.step (pipe_owned p) hs) placed_init
  constructor
  · refine ⟨N, ?_⟩
    intro m u hu
    obtain ⟨h1, h2⟩ := determinate (pipe_owned p) placed_init pipeInv_init hN hst hu
    refine ⟨h1, ?_, ?_⟩
    · intro hs
      generalize N - m = k at *
      cases h2 with
      | refl => exact ⟨⟨.parser, _, rfl, .inl rfl⟩, rfl⟩
      | cons h3 _ => exact absurd h3 (hs _)
    · exact delivered_steps (hplaced hu) h2 (by simp [pst])
  · intro m u hu hpar
    obtain ⟨w, hw⟩ := atEnd_of_parser hu hpar
    obtain ⟨h1, h2⟩ := determinate (pipe_owned p) placed_init pipeInv_init hN hst hu
    obtain ⟨l, hl, hl'⟩ := h2.inv (P := fun s => AtEnd s w) (fun _ _ h hs => atEnd_step h hs) hw
    obtain ⟨l0, hl0, hl0'⟩ := hw
    refine ⟨l0, hl0, ?_⟩
    rw [show (pst _ _ _ _ _ _ : State PRole PChan (PLoc τ)).procs .caller = _ from rfl] at hl
    cases hl
    rcases hl' with h | h
    · simp only [PLoc.ckpt] at h
      cases h
      rcases hl0' with h | rfl
      · exact h
      · -- a panicked caller stays
        exfalso
        have key : ∀ {a b : State PRole PChan (PLoc τ)}, a.procs .caller = some (.panicked .caller) → Step p.act a b → b.procs .caller = some (.panicked .caller) := by
          intro a b ha hab
          obtain ⟨eff, he, rfl⟩ := step_iff.1 hab
          rw [app_not_mem]; exact ha
          intro hmem
          cases he <;> simp [Eff.keys] at hmem <;> grind [Pipe.act]
        have := h2.inv (P := fun x => x.procs .caller = some (.panicked .caller)) (fun _ _ => key) hl0
        cases this
    · cases h

end Ripsrc
