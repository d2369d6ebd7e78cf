import Verif.Props.Whole
import Verif.Props.Resume
import Verif.Props.Checkpoint
import Verif.Props.CheckpointFS
/-!
# C78: a whole call of `CodeSlice` that resumes from a checkpoint
-/
namespace Ripsrc
open Spec Conc

/-- The metadata of a call that resumes: they know exactly the commits in the log of this call (`N`), and say about them what the metadata of a call over the whole
history say; only the ordinal numbers, which count from the first commit of the log, may differ. -/
structure Spec.MetasPart {τ : Type} (N : History) (metas0 metas : GoMap Str (MetaCommit τ)) : Prop where
  known : ∀ c ∈ N, ∃ mc mc0, GoMap.get metas c.hash = some mc ∧ GoMap.get metas0 c.hash = some mc0 ∧ mc0 = { mc with ordinal := mc0.ordinal }
  only : ∀ h, (∀ c ∈ N, c.hash ≠ h) → GoMap.get metas h = none

/-- The lines of a record of the call that resumes, beside the lines of the record of the call over the whole history: the same, but the author and date are missing in
the lines that come from commits before the log. -/
structure Spec.SameCodeLine {τ : Type} (N : History) (x0 x : CodeLine τ) : Prop where
  sha : x.sha = x0.sha
  kind : x.comment = x0.comment ∧ x.code = x0.code ∧ x.blank = x0.blank
  new : (∃ c ∈ N, c.hash = x.sha) → x.name = x0.name ∧ x.email = x0.email ∧ x.date = x0.date
  old : (∀ c ∈ N, c.hash ≠ x.sha) → x.name = [] ∧ x.email = [] ∧ x.date = none

/-- The records of one file in two calls; `L` relates their lines. -/
structure Spec.SameRecordBy {τ : Type} (L : CodeLine τ → CodeLine τ → Prop) (rec0 rec : CodeRecord τ) : Prop where
  commit : rec0.commit = { rec.commit with ordinal := rec0.commit.ordinal }
  filename : rec.filename = rec0.filename
  status : rec.status = rec0.status
  skipped : rec.skipped = rec0.skipped
  language : rec.language = rec0.language
  license : rec.license.map (·.confidence) = rec0.license.map (·.confidence)
  counts : rec.skipped = [] ∨ rec.skipped = b!"file was a generated file" → rec.size = rec0.size ∧ rec.totals = rec0.totals
  length : rec.lines.length = rec0.lines.length
  lines : ∀ (j : Nat) (x x0 : CodeLine τ), rec.lines[j]? = some x → rec0.lines[j]? = some x0 → L x0 x

/-- The records of one file in the call over the whole history and the call that resumes. -/
abbrev Spec.SameRecord {τ : Type} (N : History) (rec0 rec : CodeRecord τ) : Prop := SameRecordBy (SameCodeLine N) rec0 rec

/-- What a call over the commits `N` delivers, commit by commit (`out`), is what a call over the whole history `H` delivers for these commits (`out0`). -/
structure Spec.SameCode {τ : Type} (H N : History) (G : Str → Str → List Str) (metas0 : GoMap Str (MetaCommit τ))
    (out0 out : List (MetaCommit τ × List (CodeRecord τ))) : Prop where
  all0 : out0.length = H.length
  all : out.length = N.length
  same : ∀ (i j : Nat) (c : HCommit) (mc mc0 : MetaCommit τ) (recs recs0 : List (CodeRecord τ)), N[i]? = some c → H[j]? = some c →
    out[i]? = some (mc, recs) → out0[j]? = some (mc0, recs0) → NoTypeChange H c →
    RecordsOf H G metas0 c mc0 recs0 ∧ (recs.map (·.filename)).Perm (recs0.map (·.filename)) ∧ (recs.map (·.filename)).Nodup ∧
    ∀ rec ∈ recs, ∀ rec0 ∈ recs0, rec.filename = rec0.filename → SameRecord N rec0 rec

theorem sub_resultOk {H A : History} (hA : History.Ok [] A) (hH : History.Ok [] H) (hsub : ∀ c ∈ A, c ∈ H) {G : Str → Str → List Str} {c : HCommit} (hc : c ∈ A)
    {r : Result} (h : ResultOk A G c r) : ResultOk H G c r := by
  refine ⟨h.commit, fun p => ?_, fun p hw hd => ?_, fun p hd hw => ?_⟩
  · rw [h.paths p, sub_writes hA hH hsub hc p]
  · obtain ⟨b, n, h1, h2, h3⟩ := h.written p ((sub_writes hA hH hsub hc p).2 hw) hd
    exact ⟨b, n, h1, h2, sub_right hA hH hsub ⟨c, hc, rfl⟩ h3⟩
  · exact h.removed p hd (fun h' => hw ((sub_writes hA hH hsub hc p).1 h'))

/-- The records computed from the results of a run. -/
theorem records_of_results {τ : Type} {H N : History} {G : Str → Str → List Str} {cl : Classifier} (hl : Lawful cl)
    (hlic : ∀ path content, LicenseName path → cl.licenseDb path content ≠ .failed)
    (scc : Str → Str → Str → SccRun) (orders : Nat → Files → Files) (horder : ∀ n fs, (orders n fs).Perm fs)
    {metas : GoMap Str (MetaCommit τ)} (hknown : ∀ c ∈ N, ∃ mc, GoMap.get metas c.hash = some mc)
    (hren : ∀ c ∈ N, ∀ mc, GoMap.get metas c.hash = some mc → ∀ e ∈ mc.files, e.2.renamed = true → c.Writes H e.2.renamedTo)
    {sent : List Result} (hwf : ∀ r ∈ sent, GoMap.WF r.files) (hlen : sent.length = N.length)
    (hok : ∀ (i : Nat) c r, N[i]? = some c → sent[i]? = some r → ResultOk H G c r) :
    ∃ out, codeByCommit cl scc orders metas 0 [] sent = .ok out ∧ out.length = N.length := by
  cases hc : codeByCommit cl scc orders metas 0 [] sent with
  | ok out => exact ⟨out, rfl, (C42_code_records hl scc orders horder metas sent hwf hc).1.trans hlen⟩
  | error w =>
    exfalso
    obtain ⟨r, hr, hbad⟩ := C42_panics_only hl scc orders horder metas sent hc
    obtain ⟨i, hi⟩ := List.mem_iff_getElem?.1 hr
    have hiN : i < N.length := by have := (List.getElem?_eq_some_iff.1 hi).1; omega
    have hcN : N[i] ∈ N := List.getElem_mem hiN
    have hk := hok i _ r (List.getElem?_eq_getElem hiN) hi
    obtain ⟨mc, hmc⟩ := hknown _ hcN
    rw [hk.commit, hmc] at hbad
    rcases hbad with hbad | ⟨c', hc', ⟨e, he, hr', hno⟩ | ⟨e, _, hn, hf⟩⟩
    · cases hbad
    · cases hc'
      have := (hk.paths _).2 (.inl (hren _ hcN mc hmc e he hr'))
      rw [GoMap.has, hno] at this
      cases this
    · exact hlic _ _ hn hf

/-- Two lines made of the same line of a blame. -/
def SameOrigin {τ : Type} (metas0 metas : GoMap Str (MetaCommit τ)) (b : Blame) (x0 x : CodeLine τ) : Prop :=
  ∃ l ∈ b.lines, x.sha = l.commit ∧ x0.sha = l.commit ∧ (x.comment = x0.comment ∧ x.code = x0.code ∧ x.blank = x0.blank) ∧
    (∀ m, GoMap.get metas l.commit = some m → x.name = m.authorName ∧ x.email = m.authorEmail ∧ x.date = m.date) ∧
    (∀ m, GoMap.get metas0 l.commit = some m → x0.name = m.authorName ∧ x0.email = m.authorEmail ∧ x0.date = m.date) ∧
    (GoMap.get metas l.commit = none → x.name = [] ∧ x.email = [] ∧ x.date = none)

theorem Spec.SameRecordBy.imp {τ : Type} {L L' : CodeLine τ → CodeLine τ → Prop} {rec0 rec : CodeRecord τ} (h : SameRecordBy L rec0 rec)
    (hl : ∀ x0 x, L x0 x → L' x0 x) : SameRecordBy L' rec0 rec :=
  ⟨h.commit, h.filename, h.status, h.skipped, h.language, h.license, h.counts, h.length, fun j x x0 hx hx0 => hl _ _ (h.lines j x x0 hx hx0)⟩

/-- Two records of the same blame. -/
theorem codeOf_core {τ : Type} {cl : Classifier} {scc : Str → Str → Str → SccRun} {metas0 metas : GoMap Str (MetaCommit τ)}
    {mc mc0 : MetaCommit τ} (hmc : mc0 = { mc with ordinal := mc0.ordinal }) {b : Blame} {f : CommitFile} {rec rec0 : CodeRecord τ} (hfn : rec.filename = rec0.filename)
    (h : CodeOf cl scc metas mc b f rec) (h0 : CodeOf cl scc metas0 mc0 b f rec0) : SameRecordBy (SameOrigin metas0 metas b) rec0 rec := by
  obtain ⟨hc, hs, h⟩ := h
  obtain ⟨hc0, hs0, h0⟩ := h0
  have hcm : rec0.commit = { rec.commit with ordinal := rec0.commit.ordinal } := by rw [hc, hc0]; exact hmc
  have hst : rec.status = rec0.status := hs.trans hs0.symm
  rcases h with ⟨hr, h⟩ | ⟨hr, content, lang, skip, hcon, hj, h⟩ <;> rcases h0 with ⟨hr0, h0⟩ | ⟨hr0, content0, lang0, skip0, hcon0, hj0, h0⟩
  · exact ⟨hcm, hfn, hst, by rw [h.skipped, h0.skipped], by rw [h.language, h0.language], by rw [h.license, h0.license],
      by rw [h.skipped]; rintro (h' | h') <;> exact absurd h' (by decide), by rw [h.lines, h0.lines], by intro j x x0 hx; rw [h.lines] at hx; cases hx⟩
  · exact absurd hr hr0
  · exact absurd hr0 hr
  · rw [← hcon] at hcon0
    subst hcon0
    rw [← hfn] at hj0 
    have hskip : skip = skip0 := FirstReason.unique (checks_unique cl _) hj.reason hj0.reason
    subst hskip
    have hlang : lang = lang0 := by rw [hj.lang, hj0.lang]
    subst hlang
    have hlicense : rec.license.map (·.confidence) = rec0.license.map (·.confidence) := by
      have hi : rec.license.isSome ↔ rec0.license.isSome := by rw [hj.lic, hj0.lic]
      cases hl : rec.license with
      | none =>
        cases hl0 : rec0.license with
        | none => rfl
        | some l0 => rw [hl, hl0] at hi; simp at hi
      | some l =>
        cases hl0 : rec0.license with
        | none => rw [hl, hl0] at hi; simp at hi
        | some l0 =>
          obtain ⟨kv, k1, k2, _, k3⟩ := hj.best l hl
          obtain ⟨kv0, q1, q2, _, q3⟩ := hj0.best l0 hl0
          rw [k1] at q1; injection q1 with q1; subst q1
          have e1 := k3 _ q2
          have e2 := q3 _ k2
          simp only [Option.map_some, Option.some.injEq]
          dsimp only at e1 e2
          omega
    rcases h with h | ⟨hsk, h⟩ <;> rcases h0 with h0 | ⟨hsk0, h0⟩
    · refine ⟨hcm, hfn, hst, by rw [h.skipped, h0.skipped], by rw [h.language, h0.language], hlicense, ?_, by rw [h.lines, h0.lines],
        by intro j x x0 hx; rw [h.lines] at hx; cases hx⟩
      rw [h.skipped]
      rintro (h' | h')
      · exact absurd h' h.reason
      · exfalso
        exact not_generated_reason hj.reason h'
    · exact absurd hsk0 h.reason
    · exact absurd hsk h0.reason
    · have hscc : scc rec0.filename lang content0 = scc rec.filename lang content0 := by rw [hfn]
      have h1 := h0.lines
      have h2 := h0.totals
      have h3 := h0.generated
      have h4 := h0.human
      rw [hscc] at h1 h2 h3 h4
      have hl1 : rec.lines.length = rec0.lines.length := h.lines.1.trans h1.1.symm
      have hsl : rec.skipped = rec0.skipped ∧ rec.language = rec0.language := by
        by_cases hg : Generated (b.lines.map (·.line)) (callsOf (goOn (b.lines.map (·.line))) [] (scc rec.filename lang content0)).1
        · obtain ⟨a1, a2⟩ := h.generated hg
          obtain ⟨b1, b2⟩ := h3 hg
          exact ⟨a1.trans b1.symm, a2.trans b2.symm⟩
        · obtain ⟨a1, a2⟩ := h.human hg
          obtain ⟨b1, b2⟩ := h4 hg
          exact ⟨a1.trans b1.symm, a2.trans b2.symm⟩
      refine ⟨hcm, hfn, hst, hsl.1, hsl.2, hlicense, fun _ => ⟨by rw [h.size, h0.size], by rw [h.totals, h2]⟩, hl1, ?_⟩
      intro j x x0 hx hx0
      have hj' : j < b.lines.length := by rw [← h.lines.1]; exact (List.getElem?_eq_some_iff.1 hx).1
      have e := h.lines.2 j _ x (List.getElem?_eq_getElem hj') hx
      have e0 := h1.2 j _ x0 (List.getElem?_eq_getElem hj') hx0
      refine ⟨_, List.getElem_mem hj', e.sha, e0.sha, ⟨?_, ?_, ?_⟩, e.author, e0.author, e.unknown⟩
      · rw [Bool.eq_iff_iff, e.comment, e0.comment]
      · rw [Bool.eq_iff_iff, e.code, e0.code]
      · rw [Bool.eq_iff_iff, e.blank, e0.blank]

theorem codeOf_same {τ : Type} {cl : Classifier} {scc : Str → Str → Str → SccRun} {N : History} {metas0 metas : GoMap Str (MetaCommit τ)} (hp : MetasPart N metas0 metas)
    {mc mc0 : MetaCommit τ} (hmc : mc0 = { mc with ordinal := mc0.ordinal }) {b : Blame} {f : CommitFile} {rec rec0 : CodeRecord τ} (hfn : rec.filename = rec0.filename)
    (h : CodeOf cl scc metas mc b f rec) (h0 : CodeOf cl scc metas0 mc0 b f rec0) : SameRecord N rec0 rec := by
  refine (codeOf_core hmc hfn h h0).imp ?_
  rintro x0 x ⟨l, _, e1, e2, hk, ha, ha0, hu⟩
  refine ⟨e1.trans e2.symm, hk, ?_, ?_⟩
  · rintro ⟨c, hcN, hce⟩
    obtain ⟨m, m0, g1, g2, g3⟩ := hp.known c hcN
    rw [hce, e1] at g1 g2
    obtain ⟨a1, a2, a3⟩ := ha m g1
    obtain ⟨b1, b2, b3⟩ := ha0 m0 g2
    rw [a1, a2, a3, b1, b2, b3, g3]
    exact ⟨rfl, rfl, rfl⟩
  · intro hno
    exact hu (by rw [← e1]; exact hp.only _ hno)

section
variable {H : History} {G : Str → Str → List Str} {env0 : Env} {entries : HCommit → List LogEntry}

/-- **C78.** Some runs have been made over parts of a history, each from the checkpoint of the one before; now `CodeSlice` is called again and resumes from that
checkpoint. The call returns, in every schedule of its goroutines, without error and with no goroutine of the pipeline left (C85 is about one of the metadata reader). It delivers, commit by commit in the order of the log,
for the commits of its log, the same records that a call over the whole history delivers for these commits: same files, same lines with the same origins. Only the
author and date of lines from older commits are missing, and the ordinal numbers may differ. -/
theorem C78_incremental_code {τ : Type} {m0 m : GoMap Str (List Str)} {order0 order : List (Str × List Str)} (hfull : Setting env0 H G m0 order0)
    (hne : H ≠ []) (hent : ∀ c ∈ H, Printed c (entries c)) {P : History} {R R' : Repo} (hchain : Chain H G env0 entries P R)
    (hrest : Restored R R') {env : Env} {B N : History} (h : Resumes H G env0 env m order P B N R') {opts : RunOpts} {read : Str → Go Repo}
    (hinit : initCheckpoints opts read = .ok R') (read0 : Str → Go Repo)
    {cl : Classifier} (hl : Lawful cl) (hlic : ∀ path content, LicenseName path → cl.licenseDb path content ≠ .failed)
    (scc : Str → Str → Str → SccRun) (orders0 orders : Nat → Files → Files) (horder0 : ∀ n fs, (orders0 n fs).Perm fs) (horder : ∀ n fs, (orders n fs).Perm fs)
    (metas0 metas : GoMap Str (MetaCommit τ)) (hm0 : MetasOf H metas0) (hm : MetasPart N metas0 metas) :
    let p0 : Pipe τ := { env := env0, opts := {}, read := read0, graph := Graph.newFromMap m0 order0, text := logText (H.flatMap entries), cl := cl, scc := scc,
                         orders := orders0, metas := metas0 }
    let p : Pipe τ := { env := env, opts := opts, read := read, graph := Graph.newFromMap m order, text := logText (N.flatMap entries), cl := cl, scc := scc,
                        orders := orders, metas := metas }
    ∃ (w0 w : Repo × Str) (out0 out : List (MetaCommit τ × List (CodeRecord τ))),
      AlwaysReturns p0 (some w0) none (out0.flatMap (·.2)) ∧ AlwaysReturns p (some w) none (out.flatMap (·.2)) ∧
      w.2 = (N.getLast h.nonempty).hash ∧ SameCode H N G metas0 out0 out := by
  intro p0 p
  have hH := hfull.history
  obtain ⟨fullLog, newLog, hp0, hp, hf0, hf, hcommits, hsame⟩ := C33_incremental_equals_full hfull hne hent hchain hrest h hinit read0
  -- the call over the whole history
  obtain ⟨log, s, g1, g2, g3⟩ := history_run_all hfull (log_of_entries H hent) hne read0
  rw [hp0] at g1; injection g1 with g1; subst g1
  have hwf0 := run_wf env0 {} read0 (Graph.newFromMap m0 order0) fullLog
  rw [g2] at hwf0
  have hlen0 : s.sent.length = H.length := g3.sentLen
  obtain ⟨out0, hout0, hol0⟩ := records_of_results hl hlic scc orders0 horder0 hm0.known hm0.renames hwf0 hlen0 (fun i c r hc hr => g3.sentOk i c r hc hr)
  have hrun0 : run p0.env p0.opts p0.read p0.graph fullLog = { sent := s.sent, fault := none, written := some (s.repo, s.lastProcessed) } := g2
  have hret0 := C50_pipeline p0 rfl rfl (log := fullLog) hp0 (by rw [hrun0]) (out := out0) (by rw [hrun0]; exact hout0)
  rw [hrun0, show p0.writeErr = none from rfl, Option.map_none, ite_self] at hret0
  -- the call that resumes
  have hK : ∃ Ri, Kept H G Ri P R' := by
    obtain ⟨Ri, res, hid⟩ := ideal_exists hfull.sorts hfull.orders hfull.history hfull.blame hent
    exact ⟨Ri, (chain_kept hfull.history hfull.blame hent hid hchain).restored hrest⟩
  obtain ⟨Ri, hK⟩ := hK
  have hA : ∀ c ∈ B ++ N, c ∈ H := by
    intro c hc
    rcases List.mem_append.1 hc with hc | hc
    · exact hK.sub c (h.before c hc)
    · exact h.new c hc
  have hlogN := log_of_entries N (fun c hc => hent c (h.new c hc))
  obtain ⟨t, a1, a2⟩ := run_core h.setting (B := B) (N1 := N) (N2 := []) (by simp) hlogN h.nonempty (opts := opts) (read := read) (R := R') hinit
    (fun c hc fs hfs => rightFiles_sub h.setting.history hH hA ⟨c, by simp [hc], rfl⟩ (hK.right c (h.before c hc) fs hfs)) (by simpa using h.needed)
  have hnl := C11_log_parser _ (logOf_ok hlogN)
  rw [hp] at hnl; injection hnl with hnl
  rw [← hnl] at a1
  have hdrop : (B ++ N).drop B.length = N := List.drop_left
  have hlen : t.sent.length = N.length := by have := a2.sentLen; rw [hdrop] at this; exact this
  have hwf := run_wf env opts read (Graph.newFromMap m order) newLog
  rw [a1] at hwf
  have hok : ∀ (i : Nat) c r, N[i]? = some c → t.sent[i]? = some r → ResultOk H G c r := by
    intro i c r hc hr
    exact sub_resultOk h.setting.history hH hA (by simp [List.mem_of_getElem? hc]) (a2.sentOk i c r (by rw [hdrop]; exact hc) hr)
  have hknown : ∀ c ∈ N, ∃ mc, GoMap.get metas c.hash = some mc := fun c hc => by
    obtain ⟨mc, _, k, _⟩ := hm.known c hc
    exact ⟨mc, k⟩
  have hren : ∀ c ∈ N, ∀ mc, GoMap.get metas c.hash = some mc → ∀ e ∈ mc.files, e.2.renamed = true → c.Writes H e.2.renamedTo := by
    intro c hc mc hmc e he hr
    obtain ⟨mc', mc0, k1, k2, k3⟩ := hm.known c hc
    rw [hmc] at k1; injection k1 with k1; subst k1
    exact hm0.renames c (h.new c hc) mc0 k2 e (by rw [k3]; exact he) hr
  obtain ⟨out, hout, hol⟩ := records_of_results hl hlic scc orders horder hknown hren hwf hlen hok
  have hrun : run p.env p.opts p.read p.graph newLog = { sent := t.sent, fault := none, written := some (t.repo, t.lastProcessed) } := a1
  have hret := C50_pipeline p rfl rfl (log := newLog) hp (by rw [hrun]) (out := out) (by rw [hrun]; exact hout)
  rw [hrun, show p.writeErr = none from rfl, Option.map_none, ite_self] at hret
  have hlast : t.lastProcessed = (N.getLast h.nonempty).hash := by
    have := a2.last
    rw [hdrop, if_neg (by intro he; rw [he] at hlen; exact h.nonempty (List.length_eq_zero_iff.1 hlen.symm)), List.getLast?_eq_some_getLast h.nonempty] at this
    simpa using this.symm
  refine ⟨_, _, out0, out, hret0, hret, hlast, hol0, hol, ?_⟩
  -- the records of one commit
  intro i j c mc mc0 recs recs0 hi hj ho ho0 htc
  obtain ⟨r, r0, hr, hr0, hsr⟩ := hsame i j c hi hj htc
  rw [a1] at hr
  rw [g2] at hr0
  dsimp only at hr hr0
  obtain ⟨k1, k2, k3⟩ := (C42_code_records hl scc orders horder metas t.sent hwf hout).2 i r mc recs hr ho
  obtain ⟨q1, q2, q3⟩ := (C42_code_records hl scc orders0 horder0 metas0 s.sent hwf0 hout0).2 j r0 mc0 recs0 hr0 ho0
  rw [(hok i c r hi hr).commit] at k1
  rw [(g3.sentOk j c r0 hj hr0).commit] at q1
  obtain ⟨mc', mc0', e1, e2, e3⟩ := hm.known c (List.mem_of_getElem? hi)
  rw [k1] at e1; injection e1 with e1; subst e1
  rw [q1] at e2; injection e2 with e2; subst e2
  have hfiles : mc0.files = mc.files := by rw [e3]
  have hn : (recs.map (·.filename)).Nodup := k2.nodup_iff.2 (List.Nodup.sublist List.filter_sublist (hwf r (List.mem_of_getElem? hr)))
  have hn0 : (recs0.map (·.filename)).Nodup := q2.nodup_iff.2 (List.Nodup.sublist List.filter_sublist (hwf0 r0 (List.mem_of_getElem? hr0)))
  refine ⟨recordsOf_results hH hfull.blame.ancestors hl scc orders0 horder0 hm0 hwf0 hlen0 (fun i c r hc hr => g3.sentOk i c r hc hr) hout0 j c mc0 recs0 hj ho0,
    ?_, hn, ?_⟩
  · refine (List.perm_ext_iff_of_nodup hn hn0).2 (fun path => ?_)
    rw [k2.mem_iff, q2.mem_iff, List.mem_filter, List.mem_filter, ← GoMap.get_isSome_iff, ← GoMap.get_isSome_iff, hsr.2 path, hfiles]
  · intro rec hrec rec0 hrec0 hfn
    obtain ⟨b, f, b1, b2, b3⟩ := k3 rec hrec
    obtain ⟨b', f', d1, d2, d3⟩ := q3 rec0 hrec0
    rw [← hfn, ← hsr.2 rec.filename, b1] at d1
    injection d1 with d1; subst d1
    rw [hfiles, ← hfn, b2] at d2
    injection d2 with d2; subst d2
    exact codeOf_same hm e3 hfn b3 d3

/-- **C78 (crashes).** Between the runs the checkpoint is kept on disk. After any number of attempts to write checkpoints, completed or killed at any point, of which
the last one completed has written the state `R` of the runs before, a call of `CodeSlice` that resumes, in every schedule, either returns an error without delivering
anything, or delivers what a call over the whole history delivers for its commits. It delivers if that attempt was the last, and the start commit is the one the
checkpoint was written for or strictness is off. The parents that are needed must be stored, with files. -/
theorem C78_after_crashes {τ : Type} {m0 m : GoMap Str (List Str)} {order0 order : List (Str × List Str)} (hfull : Setting env0 H G m0 order0)
    (hne : H ≠ []) (hent : ∀ c ∈ H, Printed c (entries c)) {P : History} {R : Repo} (hchain : Chain H G env0 entries P R)
    {env : Env} {B N : History} (hB : ∀ c ∈ B, c ∈ P) (hN : ∀ c ∈ N, c ∈ H) (hN0 : N ≠ []) (hse : SameEnv env0 env) (hset : Setting env (B ++ N) G m order)
    (hneed : ∀ c ∈ B, HasChildIn N c.hash → ∃ fs, GoMap.get R c.hash = some fs ∧ fs ≠ [])
    {hash : Str → UInt64} {mem : Mem} {ord : WrOrder} {PR : PRepo} {gz : Gzip} (hz : ∀ d, gz.openFile (gz.compress d) = some d)
    (hP : PRepo.WF PR) (ho : WrOrder.Ok ord) (hc : NoCollision hash mem PR) (hf : RepoFits mem PR) (hview : viewRepo mem PR = R)
    {last : Str} {s : FS} (hs : Attempts gz (some (writeRecords hash mem ord PR, last)) s)
    {opts : RunOpts} (hinc : opts.commitFromIncl ≠ []) (read0 : Str → Go Repo)
    {cl : Classifier} (hl : Lawful cl) (hlic : ∀ path content, LicenseName path → cl.licenseDb path content ≠ .failed)
    (scc : Str → Str → Str → SccRun) (orders0 orders : Nat → Files → Files) (horder0 : ∀ n fs, (orders0 n fs).Perm fs) (horder : ∀ n fs, (orders n fs).Perm fs)
    (metas0 metas : GoMap Str (MetaCommit τ)) (hm0 : MetasOf H metas0) (hm : MetasPart N metas0 metas) :
    let p0 : Pipe τ := { env := env0, opts := {}, read := read0, graph := Graph.newFromMap m0 order0, text := logText (H.flatMap entries), cl := cl, scc := scc,
                         orders := orders0, metas := metas0 }
    let p : Pipe τ := { env := env, opts := opts, read := checkpointRead gz s.cp, graph := Graph.newFromMap m order, text := logText (N.flatMap entries), cl := cl,
                        scc := scc, orders := orders, metas := metas }
    let Delivers : Prop := ∃ (w0 w : Repo × Str) (out0 out : List (MetaCommit τ × List (CodeRecord τ))),
      AlwaysReturns p0 (some w0) none (out0.flatMap (·.2)) ∧ AlwaysReturns p (some w) none (out.flatMap (·.2)) ∧
      w.2 = (N.getLast hN0).hash ∧ SameCode H N G metas0 out0 out
    (Delivers ∨ ∃ why, AlwaysReturns p none (some (.error why)) []) ∧
    ((∃ d s0 t, Attempts gz d s0 ∧ WriteTrace gz (writeRecords hash mem ord PR) last s0 t ∧ s = s0.exec t) → opts.noStrictResume = true ∨ opts.commitFromIncl = last →
      Delivers) := by
  intro p0 p Delivers
  have hlogN := log_of_entries N (fun c hc => hent c (hN c hc))
  have hpl : parseLog p.text = .ok ((N.flatMap entries).map LogEntry.meaning) := C11_log_parser _ (logOf_ok hlogN)
  have hpne : (N.flatMap entries).map LogEntry.meaning ≠ [] := by simpa using logOf_ne hlogN hN0
  let e : Str := if opts.noStrictResume then [] else opts.commitFromIncl
  have hgood : (e = [] ∨ e = last) → checkpointRead gz s.cp e = checkpointRead gz (some (checkpointDir gz (writeRecords hash mem ord PR) last)) e → Delivers := by
    intro he hread
    obtain ⟨R', h1, h2⟩ := C31_round_trip hz hP ho hc hf last e he
    rw [hview] at h2
    refine C78_incremental_code hfull hne hent hchain h2.restored ⟨hB, hN, hse, hset, hN0, ?_⟩ (opts := opts) (read := checkpointRead gz s.cp) ?_ read0 hl hlic scc
      orders0 orders horder0 horder metas0 metas hm0 hm
    · intro c hcB hch
      obtain ⟨fs, g1, g2⟩ := hneed c hcB hch
      exact h2.restored.complete c.hash fs g1 g2
    · unfold initCheckpoints
      rw [if_neg hinc]
      exact hread.trans h1
  have hbad : ReturnsError (checkpointRead gz s.cp e) → ∃ why, AlwaysReturns p none (some (.error why)) [] := by
    rintro ⟨why, hw⟩
    exact ⟨why, C55_checkpoint_error p rfl rfl hpl hpne hinc hw⟩
  constructor
  · rcases C35_history hs e with ⟨r, l, hd, hread⟩ | herr
    · cases hd
      by_cases he : e = [] ∨ e = last
      · exact Or.inl (hgood he hread)
      · refine Or.inr (hbad ?_)
        rw [hread]
        have hv : GoMap.get (checkpointDir gz (writeRecords hash mem ord PR) last) versionFile = some last := rfl
        have hne' : last ≠ e := fun h => he (Or.inr h.symm)
        unfold checkpointRead checkVersion
        rw [if_neg (fun h => he (Or.inl h)), Option.getD_some, hv]
        simp only [if_neg hne']
        exact ⟨_, rfl⟩
    · exact Or.inr (hbad herr)
  · rintro ⟨d, s0, t, _, ht, hst⟩ hstrict
    refine hgood ?_ (by rw [hst]; exact C35_completed ht e)
    rcases hstrict with h | h
    · exact Or.inl (by simp only [e, h, if_true])
    · by_cases hn : opts.noStrictResume = true
      · exact Or.inl (by simp only [e, hn, if_true])
      · exact Or.inr (by simp only [e, hn]; simpa using h)

end

/-! ### Example -/

/-- The metadata of the second call in the example history, over `c2` to `c5`. -/
def exPartMetas : GoMap Str (MetaCommit Nat) := GoMap.del exWholeMetas b!"c1"

theorem exPartMetas_part : MetasPart [Ex.c2, Ex.c3, Ex.c4, Ex.c5] exWholeMetas exPartMetas := by
  constructor
  · intro c hc
    simp only [List.mem_cons, List.not_mem_nil, or_false] at hc
    rcases hc with rfl | rfl | rfl | rfl <;> exact ⟨_, _, rfl, rfl, rfl⟩
  · intro h hno
    have h2 := hno Ex.c2 (by simp)
    have h3 := hno Ex.c3 (by simp)
    have h4 := hno Ex.c4 (by simp)
    have h5 := hno Ex.c5 (by simp)
    simp only [Ex.c2, Ex.c3, Ex.c4, Ex.c5] at h2 h3 h4 h5
    show (if b!"c2" = h then _ else if b!"c3" = h then _ else if b!"c4" = h then _ else if b!"c5" = h then _ else none) = none
    rw [if_neg h2, if_neg h3, if_neg h4, if_neg h5]

/-- The example history in two calls, the second resumes at `c2`: in every schedule it delivers for the file `f` of `c3` the lines that the call over all commits
delivers, and the author of the lines from `c1` is missing. -/
example : ∃ R : Repo, Chain Ex.H Ex.blames Ex.env Ex.entries [Ex.c1, Ex.c2] R ∧
    ∃ (w : Repo × Str) (out : List (MetaCommit Nat × List (CodeRecord Nat))),
      AlwaysReturns { exPipe with opts := { commitFromIncl := b!"c2" }, read := fun _ => .ok R, text := logText ([Ex.c2, Ex.c3, Ex.c4, Ex.c5].flatMap Ex.entries),
                                  metas := exPartMetas } (some w) none (out.flatMap (·.2)) ∧ w.2 = b!"c5" ∧ out.length = 4 ∧
      ∀ mc recs, out[1]? = some (mc, recs) → b!"f" ∈ recs.map (·.filename) ∧
        ∀ rec ∈ recs, ∀ x ∈ rec.lines, x.sha = b!"c1" → x.name = [] := by
  obtain ⟨R, R2, hr, hch, hres, _⟩ := ex_resume
  refine ⟨R, hch, ?_⟩
  obtain ⟨w0, w, out0, out, h1, h2, h3, ⟨h4, h5, h6⟩⟩ := C78_incremental_code (τ := Nat) Ex.setting (by decide) Ex.printed hch hr hres (opts := { commitFromIncl := b!"c2" })
    (read := fun _ => .ok R) rfl (fun _ => .ok []) (exCl_lawful false) (fun p c _ => exCl_license p c) exScc (fun _ fs => fs) (fun _ fs => fs)
    (fun _ _ => .refl _) (fun _ _ => .refl _) exWholeMetas exPartMetas exWholeMetas_of exPartMetas_part
  refine ⟨w, out, h2, h3, h5, ?_⟩
  intro mc recs ho
  obtain ⟨⟨mc0, recs0⟩, ho0⟩ : ∃ x, out0[2]? = some x := ⟨_, List.getElem?_eq_getElem (by rw [h4]; decide)⟩
  obtain ⟨k1, k2, _, k4⟩ := h6 1 2 Ex.c3 mc mc0 recs recs0 rfl rfl ho ho0 (.inl (by simp [HCommit.Regular, Ex.c3]))
  refine ⟨k2.mem_iff.2 ((k1.paths _).2 ⟨by decide, .inl ⟨by decide, ⟨_, List.mem_cons_self, by decide⟩, .inl (by simp [HCommit.Regular, Ex.c3])⟩, ?_⟩), ?_⟩
  · have := k1.commit.1
    cases this
    decide
  · intro rec hrec x hx hsha
    obtain ⟨rec0, hrec0, hfn⟩ := List.mem_map.1 (k2.mem_iff.1 (List.mem_map.2 ⟨rec, hrec, rfl⟩))
    have hs := k4 rec hrec rec0 hrec0 hfn.symm
    obtain ⟨j, hj⟩ := List.mem_iff_getElem?.1 hx
    have hlt : j < rec0.lines.length := by rw [← hs.length]; exact (List.getElem?_eq_some_iff.1 hj).1
    exact ((hs.lines j x _ hj (List.getElem?_eq_getElem hlt)).old (by rw [hsha]; decide)).1

/-- The second call resumes from the files: if the process was killed, at any point, while it wrote a further checkpoint, the call delivers all four commits or returns
an error without delivering anything; if not, it delivers. -/
example : ∃ t, WriteTrace exGzip (writeRecords exHash exDiskMem exOrd exDiskRepo) b!"c2" {} t ∧ ∀ r last t1 t2, WriteTrace exGzip r last (({} : FS).exec t) t2 → t1 <+: t2 → t1 ≠ t2 →
    let p (s : FS) : Pipe Nat := { exPipe with opts := { commitFromIncl := b!"c2" }, read := checkpointRead exGzip s.cp,
                                               text := logText ([Ex.c2, Ex.c3, Ex.c4, Ex.c5].flatMap Ex.entries), metas := exPartMetas }
    let good (s : FS) : Prop := ∃ (w : Repo × Str) (out : List (MetaCommit Nat × List (CodeRecord Nat))), AlwaysReturns (p s) (some w) none (out.flatMap (·.2)) ∧ out.length = 4
    good (({} : FS).exec t) ∧ (good ((({} : FS).exec t).exec t1) ∨ ∃ why, AlwaysReturns (p ((({} : FS).exec t).exec t1)) none (some (.error why)) []) := by
  obtain ⟨P0, B, N, R, t, h1, h2, h3, h4, h5, h6, h7, h8, h9, h10, h11, h12, h13, rfl⟩ := exDisk_meets
  refine ⟨t, h8, ?_⟩
  intro r last t1 t2 ht2 hpre hne p good
  have key := fun {s : FS} (hs : Attempts exGzip (some (writeRecords exHash exDiskMem exOrd exDiskRepo, b!"c2")) s) =>
    C78_after_crashes (τ := Nat) Ex.setting (by decide) Ex.printed h1 h9 h10 h11 ⟨rfl, rfl⟩ h12 h13 h7 h2 h4 h5 h6 h3 hs (opts := { commitFromIncl := b!"c2" }) (by decide)
      (fun _ => .ok []) (exCl_lawful false) (fun p c _ => exCl_license p c) exScc (fun _ fs => fs) (fun _ fs => fs) (fun _ _ => .refl _) (fun _ _ => .refl _)
      exWholeMetas exPartMetas exWholeMetas_of exPartMetas_part
  constructor
  · obtain ⟨_, w, _, out, _, k2, _, k4⟩ := (key (.completed .start h8)).2 ⟨_, _, _, .start, h8, rfl⟩ (.inr rfl)
    exact ⟨w, out, k2, k4.all⟩
  · rcases (key (.killed (.completed .start h8) ht2 hpre hne)).1 with ⟨_, w, _, out, _, k2, _, k4⟩ | h
    · exact .inl ⟨w, out, k2, k4.all⟩
    · exact .inr h

end Ripsrc
