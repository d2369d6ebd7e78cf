import Verif.Lib.PipelinePanic
import Verif.Props.Whole
/-!
# C55: panics

`Code` returns exactly when neither the run nor the computation of the records panics.
-/
namespace Ripsrc
open Conc

variable {τ : Type}

theorem frozen_of_panic (p : Pipe τ) (hpre : p.pre = none) (hopen : p.openErr = none) {log : List LogCommit} {bad : Option Fault} (hlog : parseSent p.text = (log, bad))
    (h : (∃ w, (run p.env p.opts p.read p.graph log).fault = some (.panic w)) ∨
      ∃ e, codeByCommit p.cl p.scc p.orders p.metas 0 [] (run p.env p.opts p.read p.graph log).sent = .error e) :
    ∃ k out t, codeByCommit p.cl p.scc p.orders p.metas 0 [] ((run p.env p.opts p.read p.graph log).sent.take k) = .ok out ∧
      Reach p.act Pipe.init t ∧ Frozen (out.flatMap (·.2)) t := by
  have mk : ∀ {t : State PRole PChan (PLoc τ)}, Reach p.act Pipe.init t → Placed PLoc.role t ∧ PipeInv t := by
    rintro t ⟨n, hn⟩
    exact hn.inv (P := fun s => Placed PLoc.role s ∧ PipeInv s) (fun _ _ h hs => ⟨h.1.step (pipe_owned p) hs, h.2.step p h.1 hs⟩) ⟨placed_init, pipeInv_init⟩
  have hl1 : (parseSent p.text).1 = log := by rw [hlog]
  rw [← hl1] at h ⊢
  cases hb : codeByCommit p.cl p.scc p.orders p.metas 0 [] (run p.env p.opts p.read p.graph (parseSent p.text).1).sent with
  | error e =>
    obtain ⟨e', he'⟩ := codeAll_error_of_codeByCommit p _ _ _ _ hb
    obtain ⟨t, ht, h1, ⟨h2, h3, h4⟩, k, recs, cache', _, h5, h6⟩ := reach_code_panic hpre hopen he'
    obtain ⟨out, ho, rfl⟩ := codeByCommit_of_codeAll p _ _ _ _ _ h5
    exact ⟨k, out, t, ho, ht, (mk ht).1, (mk ht).2, h2, h6, .inl h1, h3, h4⟩
  | ok out =>
    rcases h with ⟨w, hw⟩ | ⟨e, he⟩
    · obtain ⟨cache', hc⟩ := codeAll_of_codeByCommit p _ _ _ _ hb
      obtain ⟨t, ht, h1, ⟨n, h2⟩, ⟨h3, h4, h5, h6⟩, h7, _⟩ := reach_caller_panic hpre hopen hw hc
      refine ⟨(run p.env p.opts p.read p.graph (parseSent p.text).1).sent.length, out, t, ?_, ht, (mk ht).1, (mk ht).2, h3, h7, .inr ⟨⟨n, _, h2⟩, h1, h6⟩, h4, h5⟩
      rw [List.take_length]; exact hb
    · rw [hb] at he; cases he

/-- **C55 (panics).** If the run panics (a commit that cannot be processed for internal reasons) or a result cannot be turned into records, then in no schedule
does `Code` return (neither success nor an error); every schedule can go on to a panic, none ends without one; and what was delivered before is a prefix of the
records of some first results of the run. -/
theorem C55_panic (p : Pipe τ) (hpre : p.pre = none) (hopen : p.openErr = none) {log : List LogCommit} {bad : Option Fault} (hlog : parseSent p.text = (log, bad))
    (h : (∃ w, (run p.env p.opts p.read p.graph log).fault = some (.panic w)) ∨
      ∃ e, codeByCommit p.cl p.scc p.orders p.metas 0 [] (run p.env p.opts p.read p.graph log).sent = .error e) :
    ∃ k out, codeByCommit p.cl p.scc p.orders p.metas 0 [] ((run p.env p.opts p.read p.graph log).sent.take k) = .ok out ∧
      ∀ m u, Steps p.act m Pipe.init u →
        (∀ w e res, u.procs .caller ≠ some (.returned w e res)) ∧ (∃ v, Reach p.act u v ∧ Crashed p.act v) ∧ (Stuck p.act u → Crashed p.act u) ∧
        delivered u <+: out.flatMap (·.2) := by
  obtain ⟨k, out, t, ho, ht, hfr⟩ := frozen_of_panic p hpre hopen hlog h
  refine ⟨k, out, ho, ?_⟩
  intro m u hu
  obtain ⟨v, htv, huv⟩ := confluent (pipe_owned p) placed_init pipeInv_init ht ⟨m, hu⟩
  have hv := hfr.reach htv
  have hpl : Placed PLoc.role u := hu.inv (P := Placed PLoc.role) (fun _ _ h hs => h.step (pipe_owned p) hs) placed_init
  refine ⟨?_, ⟨v, huv, hv.crashed⟩, ?_, ?_⟩
  · intro w e res hr
    exact hv.not_returned w e res (still (.inl rfl) hr huv)
  · intro hst
    obtain ⟨n, hn⟩ := huv
    cases hn with
    | refl => exact hv.crashed
    | cons h3 _ => exact absurd h3 (hst _)
  · obtain ⟨n, hn⟩ := huv
    have := delivered_steps hpl hn (by rw [hv.collect]; simp)
    simpa [delivered, hv.collect, PLoc.got] using this

/-- **C55 (exactly when the call returns).** Some schedule of the call returns if and only if the run does not panic and all its results can be turned into
records. (By C50 and C55 then every schedule returns, when the log is parsed.) -/
theorem C55_returns_iff (p : Pipe τ) (hpre : p.pre = none) (hopen : p.openErr = none) {log : List LogCommit} {bad : Option Fault} (hlog : parseSent p.text = (log, bad)) :
    (∃ m u w e res, Steps p.act m Pipe.init u ∧ u.procs .caller = some (.returned w e res)) ↔
      (∀ w, (run p.env p.opts p.read p.graph log).fault ≠ some (.panic w)) ∧
      ∃ out, codeByCommit p.cl p.scc p.orders p.metas 0 [] (run p.env p.opts p.read p.graph log).sent = .ok out := by
  constructor
  · rintro ⟨m, u, w, e, res, hu, hr⟩
    constructor
    · intro w' hw'
      obtain ⟨k, out, _, h⟩ := C55_panic p hpre hopen hlog (.inl ⟨w', hw'⟩)
      exact (h m u hu).1 w e res hr
    · cases hb : codeByCommit p.cl p.scc p.orders p.metas 0 [] (run p.env p.opts p.read p.graph log).sent with
      | ok out => exact ⟨out, rfl⟩
      | error e' =>
        obtain ⟨k, out, _, h⟩ := C55_panic p hpre hopen hlog (.inr ⟨e', hb⟩)
        exact absurd hr ((h m u hu).1 w e res)
  · rintro ⟨hf, out, hc⟩
    obtain ⟨cache', hc'⟩ := codeAll_of_codeByCommit p _ _ _ _ hc
    have hl1 : (parseSent p.text).1 = log := by rw [hlog]
    obtain ⟨n, N, hN⟩ := reach_all (p := p) hpre hopen (by rw [hl1]; exact hf) (recs := out.flatMap (·.2)) (cache' := cache') (by rw [hl1]; exact hc')
    exact ⟨N, _, _, _, _, hN, rfl⟩

/-- The records cannot be computed when a commit is not in the metadata. -/
theorem codeByCommit_unknown {cl : Classifier} {scc : Str → Str → Str → SccRun} {orders : Nat → Files → Files} {metas : GoMap Str (MetaCommit τ)} :
    ∀ (rs : List Result) (n : Nat) (cache : GoMap Str Str) {r : Result}, r ∈ rs → GoMap.get metas r.commit = none →
      ∃ e, codeByCommit cl scc orders metas n cache rs = .error e := by
  intro rs
  induction rs with
  | nil => intro n cache r hr; cases hr
  | cons x rs ih =>
    intro n cache r hr hm
    simp only [codeByCommit]
    rcases List.mem_cons.1 hr with rfl | hr
    · rw [hm]; exact ⟨_, rfl⟩
    · cases hx : GoMap.get metas x.commit with
      | none => exact ⟨_, rfl⟩
      | some c =>
        simp only
        cases hf : codeInfoFiles cl scc (orders n) metas cache x with
        | error e => exact ⟨e, rfl⟩
        | ok y =>
          obtain ⟨e, he⟩ := ih (n + 1) y.2 hr hm
          refine ⟨e, ?_⟩
          simp only [bind, Except.bind]
          rw [he]

/-- **C55 (unknown commit).** If the run produces a result for a commit that is not in the metadata, no schedule of `Code` returns: the program ends in a panic,
and no record of that commit or a later one is delivered. -/
theorem C55_unknown_commit (p : Pipe τ) (hpre : p.pre = none) (hopen : p.openErr = none) {log : List LogCommit} {bad : Option Fault} (hlog : parseSent p.text = (log, bad))
    {r : Result} (hr : r ∈ (run p.env p.opts p.read p.graph log).sent) (hm : GoMap.get p.metas r.commit = none) :
    ∀ m u, Steps p.act m Pipe.init u → (∀ w e res, u.procs .caller ≠ some (.returned w e res)) ∧ ∃ v, Reach p.act u v ∧ Crashed p.act v := by
  obtain ⟨k, out, _, h⟩ := C55_panic p hpre hopen hlog (.inr (codeByCommit_unknown _ _ _ hr hm))
  exact fun m u hu => ⟨(h m u hu).1, (h m u hu).2.1⟩

/-! ### Examples -/

/-- The log of one commit of the example, without metadata: the call never returns. -/
example : ∀ m u, Steps ({ exPipe with text := exBroken, metas := [] } : Pipe Nat).act m Pipe.init u → ∀ w e res, u.procs .caller ≠ some (.returned w e res) := by
  intro m u hu
  have hr : ∃ r, r ∈ (run Ex.env {} (fun _ => .ok []) (Graph.newFromMap Ex.parents Ex.parents) exBrokenLog).sent := ⟨_, List.mem_of_getElem? (i := 0) rfl⟩
  obtain ⟨r, hr⟩ := hr
  exact (C55_unknown_commit ({ exPipe with text := exBroken, metas := [] } : Pipe Nat) rfl rfl exBroken_sent hr rfl m u hu).1

/-- A log with a patch that removes a line that the file does not have. -/
def exBadPatch : Str := b!"commit c1\nAuthor: A\n\n    m\n\ndiff --git a/f b/f\nindex 0000000..7898192\n--- a/f\n+++ b/f\n@@ -3,1 +3,1 @@\n-a\n+b\n"

def exBadPatchLog : List LogCommit :=
  [{ hash := b!"c1", changes := [b!"diff --git a/f b/f\nindex 0000000..7898192\n--- a/f\n+++ b/f\n@@ -3,1 +3,1 @@\n-a\n+b\n"] }]

theorem exBadPatch_sent : parseSent exBadPatch = (exBadPatchLog, none) := by decide

/-- The run of that log panics: no schedule returns, and nothing is delivered. -/
example : ∀ m u, Steps ({ exPipe with text := exBadPatch } : Pipe Nat).act m Pipe.init u →
    (∀ w e res, u.procs .caller ≠ some (.returned w e res)) ∧ delivered u = [] := by
  intro m u hu
  have hf : (run Ex.env {} (fun _ => .ok []) (Graph.newFromMap Ex.parents Ex.parents) exBadPatchLog).fault = some (.panic "slice bounds out of range") := by decide
  have hs : (run Ex.env {} (fun _ => .ok []) (Graph.newFromMap Ex.parents Ex.parents) exBadPatchLog).sent = [] := by decide
  obtain ⟨k, out, ho, h⟩ := C55_panic ({ exPipe with text := exBadPatch } : Pipe Nat) rfl rfl exBadPatch_sent (.inl ⟨_, hf⟩)
  have ho' : codeByCommit (exCl false) exScc (fun _ fs => fs) exWholeMetas 0 [] (List.take k (run Ex.env {} (fun _ => .ok [])
    (Graph.newFromMap Ex.parents Ex.parents) exBadPatchLog).sent) = .ok out := ho
  rw [hs, List.take_nil] at ho'
  cases ho'
  exact ⟨(h m u hu).1, List.prefix_nil.1 (h m u hu).2.2.2⟩

end Ripsrc
