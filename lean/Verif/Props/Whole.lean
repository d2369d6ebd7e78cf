import Verif.Props.Pipeline
import Verif.Props.Process
import Verif.Props.ProcessState
import Verif.Lib.SentWF
import Verif.Lib.Sub
/-!
# C57: a whole call of `CodeSlice` over a git history

The parts are put together: log parser, commit processor, goroutines, code records.
-/
namespace Ripsrc
open Spec Conc

/-- The metadata know every commit of the history; the renamed files that they list are written by the commit. -/
structure Spec.MetasOf {τ : Type} (H : History) (metas : GoMap Str (MetaCommit τ)) : Prop where
  known : ∀ c ∈ H, ∃ mc, GoMap.get metas c.hash = some mc
  renames : ∀ c ∈ H, ∀ mc, GoMap.get metas c.hash = some mc → ∀ e ∈ mc.files, e.2.renamed = true → c.Writes H e.2.renamedTo

/-- A line of a record names the commit it originates from, with the author found in the metadata of that commit. -/
def Spec.LineFrom {τ : Type} (H : History) (G : Str → Str → List Str) (metas : GoMap Str (MetaCommit τ)) (c path : Str) (j : Nat) (x : CodeLine τ) : Prop :=
  Origin H G c path j x.sha ∧ ∃ m, GoMap.get metas x.sha = some m ∧ x.name = m.authorName ∧ x.email = m.authorEmail ∧ x.date = m.date

/-- The records of one commit: one for each path that the commit writes or deletes and that is in its metadata; a record that is not skipped has one line for each
line of the file, which names its origin. -/
structure Spec.RecordsOf {τ : Type} (H : History) (G : Str → Str → List Str) (metas : GoMap Str (MetaCommit τ)) (c : HCommit) (mc : MetaCommit τ)
    (recs : List (CodeRecord τ)) : Prop where
  commit : GoMap.get metas c.hash = some mc ∧ ∀ rec ∈ recs, rec.commit = mc
  paths : ∀ p, p ∈ recs.map (·.filename) ↔ p ≠ [] ∧ (c.Writes H p ∨ c.Deletes p) ∧ GoMap.has mc.files p = true
  once : (recs.map (·.filename)).Nodup
  lines : ∀ rec ∈ recs, rec.skipped = [] ∨ rec.skipped = b!"file was a generated file" → c.Writes H rec.filename → NoTypeChange H c →
    ¬ IsBin H c.hash rec.filename → ∃ n, c.tree rec.filename = some n ∧ rec.lines.length = n.length ∧
      ∀ (j : Nat) (x : CodeLine τ), rec.lines[j]? = some x → LineFrom H G metas c.hash rec.filename j x

theorem reach_mem {H : History} (hH : History.Ok [] H) {c o : Str} (hc : ∃ x ∈ H, x.hash = c) (h : H.Reach c o) : ∃ x ∈ H, x.hash = o := by
  induction h with
  | refl => exact hc
  | tail _ hp _ =>
    obtain ⟨x, hx, _, hq⟩ := hp
    obtain ⟨a, r, hs⟩ := List.append_of_mem hx
    subst hs
    obtain ⟨y, hy, he⟩ := (history_ok_at hH).parentsKnown _ hq
    exact ⟨y, by simp [hy], he⟩

/-- The records computed from right results. -/
theorem recordsOf_results {τ : Type} {H : History} {G : Str → Str → List Str} (hH : History.Ok [] H) (hanc : ∀ c ∈ H, ∀ p, ∀ o ∈ G c.hash p, H.Reach c.hash o)
    {cl : Classifier} (hl : Lawful cl) (scc : Str → Str → Str → SccRun) (orders : Nat → Files → Files) (horder : ∀ n fs, (orders n fs).Perm fs)
    {metas : GoMap Str (MetaCommit τ)} (hm : MetasOf H metas) {sent : List Result} (hwf : ∀ r ∈ sent, GoMap.WF r.files) (hlen : sent.length = H.length)
    (hsent : ∀ (i : Nat) c r, H[i]? = some c → sent[i]? = some r → ResultOk H G c r) {out : List (MetaCommit τ × List (CodeRecord τ))}
    (hout : codeByCommit cl scc orders metas 0 [] sent = .ok out) (i : Nat) (c : HCommit) (mc : MetaCommit τ) (recs : List (CodeRecord τ)) (hc : H[i]? = some c)
    (ho : out[i]? = some (mc, recs)) : RecordsOf H G metas c mc recs := by
  obtain ⟨hol, hspec⟩ := C42_code_records hl scc orders horder metas sent hwf hout
  have hi : i < sent.length := by rw [hlen]; exact (List.getElem?_eq_some_iff.1 hc).1
  obtain ⟨r, hr⟩ : ∃ r, sent[i]? = some r := ⟨_, List.getElem?_eq_getElem hi⟩
  have hok := hsent i c r hc hr
  have hcH : c ∈ H := List.mem_of_getElem? hc
  have hrw := hwf r (List.mem_of_getElem? hr)
  obtain ⟨k1, k2, k3⟩ := hspec i r mc recs hr ho
  rw [hok.commit] at k1
  refine ⟨⟨k1, fun rec hrec => ?_⟩, ?_, ?_, ?_⟩
  · obtain ⟨b, f, _, _, hco⟩ := k3 rec hrec
    exact hco.1
  · intro path
    rw [k2.mem_iff, List.mem_filter, ← GoMap.get_isSome_iff, ← hok.paths path]
    simp only [Bool.and_eq_true, decide_eq_true_eq, GoMap.has]
    constructor
    · rintro ⟨a, b, c⟩; exact ⟨b, a, c⟩
    · rintro ⟨a, b, c⟩; exact ⟨b, a, c⟩
  · exact k2.nodup_iff.2 (List.Nodup.sublist List.filter_sublist hrw)
  · intro rec hrec hskip hw ht hbin
    obtain ⟨b, f, hb, hf, hco⟩ := k3 rec hrec
    obtain ⟨b', n, hb', hn, hright⟩ := hok.written rec.filename hw (ht.imp id (fun h hd => h _ ⟨hd, hw⟩))
    rw [hb] at hb'; cases hb'
    have hnb : b.isBinary = false := by
      cases hbb : b.isBinary with
      | false => rfl
      | true => exact absurd (hright.binary.1 hbb) hbin
    have hl1 := C42_one_line_per_blame_line hco hskip
    refine ⟨n, hn, hl1.trans (hright.length hnb), ?_⟩
    intro j x hx
    obtain ⟨b', l, hb', hlj, hsha, hauth, _⟩ := C43_authors hl scc orders horder metas sent hwf hout hr ⟨mc, recs, ho, hrec⟩ hx
    rw [hb] at hb'; cases hb'
    obtain ⟨_, horig⟩ := hright.line hnb j l hlj
    rw [← hsha] at horig
    refine ⟨horig, ?_⟩
    obtain ⟨y, hy, hye⟩ := reach_mem hH ⟨c, hcH, rfl⟩ (origin_reach hanc horig)
    obtain ⟨m', hm'⟩ := hm.known y hy
    rw [hye] at hm'
    exact ⟨m', hm', hauth m' (by rw [← hsha]; exact hm')⟩

/-- **C57.** A call of `CodeSlice` for a git history whose log, parents and metadata are read correctly returns, in every schedule of its goroutines, after the same
finite number of steps, without error and with no goroutine of the pipeline left (C85 is about one of the metadata reader); it has delivered, in the order of the log, the records of each commit. -/
theorem C57_code_of_a_history {τ : Type} {env : Env} {G : Str → Str → List Str} {m : GoMap Str (List Str)} {order : List (Str × List Str)} {H : History}
    (h : Setting env H G m order) {es : List LogEntry} (hlog : LogOf H es) (hne : H ≠ []) (read : Str → Go Repo)
    {cl : Classifier} (hl : Lawful cl) (hlic : ∀ path content, LicenseName path → cl.licenseDb path content ≠ .failed)
    (scc : Str → Str → Str → SccRun) (orders : Nat → Files → Files) (horder : ∀ n fs, (orders n fs).Perm fs)
    (metas : GoMap Str (MetaCommit τ)) (hm : MetasOf H metas) :
    let p : Pipe τ := { env := env, opts := {}, read := read, graph := Graph.newFromMap m order, text := logText es, cl := cl, scc := scc, orders := orders, metas := metas }
    ∃ (w : Repo × Str) (out : List (MetaCommit τ × List (CodeRecord τ))), AlwaysReturns p (some w) none (out.flatMap (·.2)) ∧ w.2 = (H.getLast hne).hash ∧ out.length = H.length ∧
      ∀ (i : Nat) (c : HCommit) (mc : MetaCommit τ) (recs : List (CodeRecord τ)), H[i]? = some c → out[i]? = some (mc, recs) → RecordsOf H G metas c mc recs := by
  intro p
  obtain ⟨log, s, h1, h2, h3⟩ := history_run_all h hlog hne read
  have hwf := run_wf env {} read (Graph.newFromMap m order) log
  rw [h2] at hwf
  have hlen : s.sent.length = H.length := h3.sentLen
  have hat : ∀ {i : Nat} {r : Result}, s.sent[i]? = some r → ∃ c, H[i]? = some c ∧ c ∈ H ∧ ResultOk H G c r := by
    intro i r hr
    have hi : i < H.length := by have := (List.getElem?_eq_some_iff.1 hr).1; omega
    exact ⟨H[i], List.getElem?_eq_getElem hi, List.getElem_mem hi, h3.sentOk i _ r (List.getElem?_eq_getElem hi) hr⟩
  -- the records can be computed
  obtain ⟨out, hout⟩ : ∃ out, codeByCommit cl scc orders metas 0 [] s.sent = .ok out := by
    cases hc : codeByCommit cl scc orders metas 0 [] s.sent with
    | ok out => exact ⟨out, rfl⟩
    | error w =>
      exfalso
      obtain ⟨r, hr, hbad⟩ := C42_panics_only hl scc orders horder metas s.sent hc
      obtain ⟨i, hi⟩ := List.mem_iff_getElem?.1 hr
      obtain ⟨c, _, hcH, hok⟩ := hat hi
      obtain ⟨mc, hmc⟩ := hm.known c hcH
      rw [hok.commit, hmc] at hbad
      rcases hbad with hbad | ⟨c', hc', ⟨e, he, hren, hno⟩ | ⟨e, _, hn, hf⟩⟩
      · cases hbad
      · cases hc'
        have := (hok.paths _).2 (.inl (hm.renames c hcH mc hmc e he hren))
        rw [GoMap.has, hno] at this
        cases this
      · exact hlic _ _ hn hf
  have hrun : (run p.env p.opts p.read p.graph log) = { sent := s.sent, fault := none, written := some (s.repo, s.lastProcessed) } := h2
  have hlast : s.lastProcessed = (H.getLast hne).hash := by
    have := h3.last
    rw [if_neg (by intro he; rw [he] at hlen; exact hne (List.length_eq_zero_iff.1 hlen.symm))] at this
    rw [List.drop_zero, List.getLast?_eq_some_getLast hne] at this
    simpa using this.symm
  have hret := C50_pipeline p rfl rfl (log := log) h1 (by rw [hrun]) (out := out) (by rw [hrun]; exact hout)
  rw [hrun, show p.writeErr = none from rfl, Option.map_none, ite_self] at hret
  obtain ⟨hol, hspec⟩ := C42_code_records hl scc orders horder metas s.sent hwf hout
  refine ⟨(s.repo, s.lastProcessed), out, hret, hlast, hol.trans hlen, ?_⟩
  intro i c mc recs hc ho
  exact recordsOf_results h.history h.blame.ancestors hl scc orders horder hm hwf hlen (fun i c r hc hr => h3.sentOk i c r hc hr) hout i c mc recs hc ho

/-! ### Example -/

/-- Metadata of the example history. -/
def exWholeMetas : GoMap Str (MetaCommit Nat) :=
  [(b!"c1", exCodeMeta b!"c1" b!"ann" [(b!"f", { filename := b!"f", status := .added })]),
   (b!"c2", exCodeMeta b!"c2" b!"bob" [(b!"g", { filename := b!"g", status := .added })]),
   (b!"c3", exCodeMeta b!"c3" b!"cy" [(b!"f", { filename := b!"f", status := .modified })]),
   (b!"c4", exCodeMeta b!"c4" b!"ann" [(b!"g", { filename := b!"g", status := .modified })]),
   (b!"c5", exCodeMeta b!"c5" b!"ann" [(b!"f", { filename := b!"f", status := .removed })])]

theorem exWholeMetas_of : MetasOf Ex.H exWholeMetas := by
  constructor
  · intro c hc
    simp only [Ex.H, List.mem_cons, List.not_mem_nil, or_false] at hc
    rcases hc with rfl | rfl | rfl | rfl | rfl <;> exact ⟨_, rfl⟩
  · intro c hc mc hmc e he hr
    exfalso
    simp only [Ex.H, List.mem_cons, List.not_mem_nil, or_false] at hc
    rcases hc with rfl | rfl | rfl | rfl | rfl <;> cases hmc <;> simp [exCodeMeta] at he <;> subst he <;> cases hr

theorem exCl_license (path content : Str) : (exCl false).licenseDb path content ≠ .failed := by
  simp only [exCl]
  split <;> simp

/-- The call for the example history. -/
def exPipe : Pipe Nat where
  env := Ex.env
  opts := {}
  read := fun _ => .ok []
  graph := Graph.newFromMap Ex.parents Ex.parents
  text := logText (Ex.H.flatMap Ex.entries)
  cl := exCl false
  scc := exScc
  orders := fun _ fs => fs
  metas := exWholeMetas

/-- The example history meets the hypotheses: in every schedule the call delivers a record for `g` in the merge `c4`, with two lines, from `c2` and `c4`. -/
example : ∃ (w : Repo × Str) (out : List (MetaCommit Nat × List (CodeRecord Nat))), AlwaysReturns exPipe (some w) none (out.flatMap (·.2)) ∧ w.2 = b!"c5" ∧
    out.length = 5 ∧ ∀ recs mc, out[3]? = some (mc, recs) → b!"g" ∈ recs.map (·.filename) ∧ b!"f" ∉ recs.map (·.filename) := by
  obtain ⟨w, out, h1, h2, h3, h4⟩ := C57_code_of_a_history Ex.setting ex_log (by decide) (fun _ => .ok []) (exCl_lawful false)
    (fun p c _ => exCl_license p c) exScc (fun _ fs => fs) (fun _ _ => .refl _) exWholeMetas exWholeMetas_of
  refine ⟨w, out, h1, h2, h3, ?_⟩
  intro recs mc ho
  have := h4 3 Ex.c4 mc recs rfl ho
  have hmc := this.commit.1
  cases hmc
  constructor
  · refine (this.paths _).2 ⟨by decide, .inl ⟨by decide, ⟨_, List.mem_cons_self, by decide⟩, .inr (.inl ?_)⟩, by decide⟩
    decide
  · intro hf
    exact absurd ((this.paths _).1 hf).2.2 (by decide)

/-- The same call, resumed from a checkpoint that cannot be read. -/
def exPipeResumed : Pipe Nat := { exPipe with opts := { commitFromIncl := b!"c0" }, read := fun _ => .error (.error "no such file") }

/-- C55: the same call, resumed from a checkpoint that cannot be read, returns that error in every schedule. -/
example : AlwaysReturns exPipeResumed none (some (.error "no such file")) [] := by
  obtain ⟨log, h1, _, h3, _⟩ := C24_history Ex.setting ex_log (by decide) (fun _ => .ok [])
  have h1' : parseLog exPipeResumed.text = .ok log := by rw [← h1]; simp only [exPipeResumed, exPipe]
  refine C55_checkpoint_error exPipeResumed rfl rfl h1' ?_ (by decide) rfl
  rintro rfl
  simp [run, Ex.H] at h3

/-- C55: a call that fails while preparing. -/
example : AlwaysReturns { exPipe with pre := some "git failed" } none (some (.error "git failed")) [] :=
  C55_preparation_error _ (.inl rfl)

/-- A log whose second commit has a line in the header that the parser does not know. -/
def exBroken : Str := b!"commit c1\nAuthor: A\n\n    m\n\ndiff --git a/f b/f\nnew file mode 100644\nindex 0000000..7898192\n--- /dev/null\n+++ b/f\n@@ -0,0 +1,1 @@\n+a\n\ncommit c2\nAuthor: A\nbad\n"

def exBrokenLog : List LogCommit :=
  [{ hash := b!"c1", changes := [b!"diff --git a/f b/f\nnew file mode 100644\nindex 0000000..7898192\n--- /dev/null\n+++ b/f\n@@ -0,0 +1,1 @@\n+a\n"] }]

theorem exBroken_sent : parseSent exBroken = (exBrokenLog, some (.panic "stSkippingMessageDiffOrCommitNext unexpected line")) := by decide

/-- C56: the checkpoint of the first commit is written although the log is broken after it. -/
example : (∃ N, ∀ m u, Steps ({ exPipe with text := exBroken } : Pipe Nat).act m Pipe.init u → m ≤ N ∧
      (Stuck ({ exPipe with text := exBroken } : Pipe Nat).act u → Crashed ({ exPipe with text := exBroken } : Pipe Nat).act u)) ∧
    (∀ m u, Steps ({ exPipe with text := exBroken } : Pipe Nat).act m Pipe.init u → u.procs .parser = some (.panicked .parser) →
      ∃ l, u.procs .caller = some l ∧ (l.ckpt.getD none).map (·.2) = some b!"c1") := by
  have hrun : (run Ex.env {} (fun _ => .ok []) (Graph.newFromMap Ex.parents Ex.parents) exBrokenLog).fault = none := by decide
  have hw : ((run Ex.env {} (fun _ => .ok []) (Graph.newFromMap Ex.parents Ex.parents) exBrokenLog).written).map (·.2) = some b!"c1" := by decide
  have hcode : ∃ out, codeByCommit (exCl false) exScc (fun _ fs => fs) exWholeMetas 0 []
      (run Ex.env {} (fun _ => .ok []) (Graph.newFromMap Ex.parents Ex.parents) exBrokenLog).sent = .ok out := ⟨_, rfl⟩
  obtain ⟨out, hc⟩ := hcode
  obtain ⟨⟨N, h1⟩, h2⟩ := C56_truncated_checkpoint ({ exPipe with text := exBroken } : Pipe Nat) rfl rfl exBroken_sent hrun hc
  refine ⟨⟨N, fun m u hu => ⟨(h1 m u hu).1, fun hs => ((h1 m u hu).2.1 hs).1⟩⟩, ?_⟩
  intro m u hu hp
  obtain ⟨l, hl, he⟩ := h2 m u hu hp
  refine ⟨l, hl, ?_⟩
  rw [he]
  exact hw

end Ripsrc
