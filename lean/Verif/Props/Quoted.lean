import Verif.Props.WholeText
import Verif.Props.BlameFails
import Verif.Props.Stored
/-!
# C83: file names that git prints in quotes

By default git prints a name with a byte outside ASCII in double quotes and with escape sequences (`"\303\244"` for `ä`), and the program does not change this setting
(`core.quotepath`). The reader of diffs strips the quotes, and the results have the file under the escaped spelling (`\303\244`): the histories of the other properties allow
such names. The reader of the metadata keeps the quotes, and `rename from` lines keep them too, so that both are another name than the one that the results use.
-/
namespace Ripsrc
open Spec Conc

/-- A path as the metadata have it: if git needs an escape sequence, it prints the whole path in quotes. -/
def Spec.PrintedPath (s : Str) : Prop := (92 : UInt8) ∈ s → s.head? = some 34

/-- The raw lines and the numstat lines of a commit show paths as git does. -/
structure Spec.CommitRec.QuotesPaths {τ : Type} (c : CommitRec τ) : Prop where
  raw : ∀ r ∈ c.raws, PrintedPath r.path
  src : ∀ r ∈ c.raws, ∀ src score, r.kind = .renamed src score → PrintedPath src
  stat : ∀ s ∈ c.stats, PrintedPath s.path

/-- No path of the metadata is the escaped spelling without quotes. -/
theorem Spec.CommitRec.QuotesPaths.not_file {τ : Type} {c : CommitRec τ} (h : c.QuotesPaths) {p : Str} (hp : QuotedName p) : c.file p = none := by
  obtain ⟨hb, hh, _⟩ := hp
  unfold CommitRec.file
  have h1 : c.stats.find? (fun s => decide (s.path = p)) = none := by
    rw [List.find?_eq_none]
    intro s hs hd
    have := h.stat s hs
    rw [of_decide_eq_true hd] at this
    exact hh (this hb)
  have h2 : c.entries.find? (fun e => decide (e.1 = p)) = none := by
    rw [List.find?_eq_none]
    intro e he hd
    have hd := of_decide_eq_true hd
    obtain ⟨r, hr, her⟩ := List.mem_flatMap.1 he
    have hpath := h.raw r hr
    have hsrc := h.src r hr
    unfold RawRec.entries at her
    split at her
    · cases hk : r.kind with
      | renamed src score =>
        rw [hk] at her
        simp only [List.mem_cons, List.not_mem_nil, or_false] at her
        rcases her with rfl | rfl
        · have := hsrc src score hk
          simp only at hd
          rw [hd] at this
          exact hh (this hb)
        · simp only at hd
          rw [hd] at hpath
          exact hh (hpath hb)
      | _ =>
        rw [hk] at her
        simp only [List.mem_cons, List.not_mem_nil, or_false] at her
        subst her
        simp only at hd
        rw [hd] at hpath
        exact hh (hpath hb)
    · cases her
  rw [h1, h2]
  rfl

/-- **C83 (missing from the records).** Let git print the log of a history, its commit graph and its metadata, with its quotes. The call of `CodeSlice` returns in every schedule, without error, but no
record is about a file whose name git quotes, although the results of the run that the records are made of have every such file that a commit writes. -/
theorem C83_no_records {τ : Type} {env : Env} {G : Str → Str → List Str} {H : History} (hsort : SortsHunks env.srt) (hord : ∀ n k l, (env.order n k l).Perm l)
    (hH : History.Ok [] H) (hblame : BlameWorks H G env.blameOut) {es : List LogEntry} (hlog : LogOf H es) (hne : H ≠ []) (read : Str → Go Repo)
    {cl : Classifier} (hl : Lawful cl) (hlic : ∀ path content, LicenseName path → cl.licenseDb path content ≠ .failed)
    (scc : Str → Str → Str → SccRun) (orders : Nat → Files → Files) (horder : ∀ n fs, (orders n fs).Perm fs)
    {parseDate : Str → Option τ} {gs : List (Str × List Str)} {cs : List (CommitRec τ)} (hp : PrintedFor H parseDate gs cs) (hq : ∀ r ∈ cs, r.QuotesPaths) :
    ∃ m ms log, parentsRun (parentsText gs) = .ok m ∧ metaRun parseDate (metaLogText cs) = (ms, none) ∧ parseLog (logText es) = .ok log ∧
      ∀ order : List (Str × List Str), order.Perm m →
        let p : Pipe τ := { env := env, opts := {}, read := read, graph := Graph.newFromMap m order, text := logText es, cl := cl, scc := scc, orders := orders, metas := commitMap ms }
        let run := run env {} read (Graph.newFromMap m order) log
        (∃ (w : Repo × Str) (recs : List (CodeRecord τ)), AlwaysReturns p (some w) none recs ∧ ∀ rec ∈ recs, ¬ QuotedName rec.filename) ∧
        run.fault = none ∧ run.sent.map (·.commit) = H.map (·.hash) ∧
        ∀ (i : Nat) c res, H[i]? = some c → run.sent[i]? = some res → ∀ f, c.Writes H f → GoMap.has res.files f = true := by
  obtain ⟨m, ms, h1, h2, h3⟩ := C57_from_git_output hsort hord hH hblame hlog hne read hl hlic scc orders horder hp
  obtain ⟨m', hm1, hm2, hm3⟩ := C12_graph_reader gs hp.hashes hp.consistent hp.short
  rw [h1] at hm1
  cases hm1
  refine ⟨m, ms, _, h1, h2, C11_log_parser es (logOf_ok hlog), fun order hperm => ?_⟩
  intro p
  have hset : Setting env H G m order := ⟨hsort, hord, hH, hblame, hm2, hperm, fun c hc => (hm3 _ _).2 (hp.graph c hc)⟩
  refine ⟨?_, ?_⟩
  · obtain ⟨w, out, k1, _, k3, k4⟩ := h3 order hperm
    refine ⟨w, _, k1, ?_⟩
    intro rec hrec hquoted
    obtain ⟨⟨mc, recs⟩, ho, hr⟩ := List.mem_flatMap.1 hrec
    obtain ⟨i, hi⟩ := List.mem_iff_getElem?.1 ho
    have hlt := (List.getElem?_eq_some_iff.1 hi).1
    obtain ⟨hrecs, ⟨r, hr1, n, _, hr2⟩, _⟩ := k4 i (H[i]'(by omega)) mc recs (List.getElem?_eq_getElem _) hi
    have := ((hrecs.paths rec.filename).1 (List.mem_map_of_mem hr)).2.2
    unfold GoMap.has at this
    rw [hr2.files, (hq r hr1).not_file hquoted] at this
    cases this
  · obtain ⟨log', s, e1, e2, e3⟩ := history_run_all hset hlog hne read
    rw [C11_log_parser es (logOf_ok hlog)] at e1
    cases e1
    have hlen : s.sent.length = H.length := e3.sentLen
    have hsent := e3.sentOk
    simp only [List.length_nil, List.drop_zero] at hsent
    obtain ⟨log', e1, c1, c2, _⟩ := C24_history hset hlog hne read
    rw [C11_log_parser es (logOf_ok hlog)] at e1
    cases e1
    refine ⟨c1, c2, ?_⟩
    intro i c res hc hres f hw
    rw [show (run env {} read (Graph.newFromMap m order) (es.map LogEntry.meaning)) = _ from e2] at hres
    exact ((hsent i c res hc hres).paths f).2 (.inl hw)

/-! ## Renames -/

/-- A commit that is processed: the state before the commit proper. -/
theorem loop_at {env : Env} {g : Graph} {I : Str → Option Files → Prop} {pre : List LogCommit} (h0 : ∀ h, I h none)
    (hreg : ∀ e ∈ pre, ∀ n repo r res, (g.parentsOf e.hash).length ≤ 1 → Everywhere I repo →
      processRegularCommit env n repo e.hash (g.parentsOf e.hash) e.changes = .ok (r, res) → I e.hash (GoMap.get r e.hash))
    (hmer : ∀ h parts n repo r res, 1 < (g.parentsOf h).length → Everywhere I repo → (∀ q e, GoMap.get parts q = some e → e ∈ pre ∧ e.hash = h) →
      processMergeCommit env n repo h (g.parentsOf h) parts = .ok (r, res) → I h (GoMap.get r h))
    {e : LogCommit} {post : List LogCommit} (hone : (g.parentsOf e.hash).length ≤ 1) {s t : Proc} (hs : Along I g pre s) (h : s.loop env (pre ++ e :: post) = (t, none)) :
    ∃ n repo r res, Everywhere I repo ∧ processRegularCommit env n repo e.hash (g.parentsOf e.hash) e.changes = .ok (r, res) := by
  have key : ∀ (l : List LogCommit) (s : Proc), s.loop env (l ++ e :: post) = (t, none) → ∃ s1, s.loop env l = (s1, none) ∧ s1.loop env (e :: post) = (t, none) := by
    intro l
    induction l with
    | nil => intro s h; exact ⟨s, rfl, h⟩
    | cons x l ih =>
      intro s h
      rw [List.cons_append, Proc.loop] at h
      rw [Proc.loop]
      cases hc : s.commit env x with
      | mk s1 o =>
        rw [hc] at h
        cases o with
        | some y => simp at h
        | none => exact ih s1 h
  obtain ⟨s1, e1, e2⟩ := key pre s h
  have ha := loop_along h0 hreg hmer pre s s1 none (fun _ h => h) e1 hs
  have fin : ∀ u : Proc, Along I g pre u → ∀ v, u.newCommit env e = .ok v →
      ∃ n repo r res, Everywhere I repo ∧ processRegularCommit env n repo e.hash (g.parentsOf e.hash) e.changes = .ok (r, res) := by
    intro u hu v hv
    have hpar : u.parents e.hash = g.parentsOf e.hash := by simp only [Proc.parents, hu.graph]; rfl
    unfold Proc.newCommit at hv
    rw [if_neg (by rw [hpar]; omega)] at hv
    obtain ⟨⟨r, res⟩, hr, _⟩ := bind_ok hv
    rw [hpar] at hr
    exact ⟨_, _, r, res, hu.repo, hr⟩
  rw [Proc.loop] at e2
  cases hc : s1.commit env e with
  | mk s2 o =>
    rw [hc] at e2
    cases o with
    | some y => simp at e2
    | none =>
      unfold Proc.commit at hc
      split at hc
      · rename_i hl
        split at hc
        · rename_i hm
          have := ha.pending hl
          rw [hm] at this
          omega
        · split at hc
          · cases hc
          · rename_i s3 hf
            obtain ⟨b1, _⟩ := finishMerge_along h0 hreg hmer ha hl hf
            cases hn : s3.newCommit env e with
            | error y => rw [hn] at hc; cases hc
            | ok v => exact fin s3 b1 v hn
      · cases hn : s1.newCommit env e with
        | error y => rw [hn] at hc; cases hc
        | ok v => exact fin s1 ha v hn

/-- In a regular commit that is processed without error, the old name of a file that is renamed without a change is stored for the parent. -/
theorem renamed_stored {env : Env} {n : Nat} {repo r : Repo} {hash : Str} {parents changes : List Str} {res : Result} (hself : hash ∉ parents)
    (h : processRegularCommit env n repo hash parents changes = .ok (r, res)) {ch : Str} (hch : ch ∈ changes) {d : Diff} (hd : parseDiff ch = .ok d)
    (hb : d.isBinary = false) (hp : d.path ≠ []) (hq : d.pathPrev ≠ []) (hne : d.pathPrev ≠ d.path) (hh : d.hunks = []) : ∃ q, parents = [q] ∧ Stored repo q d.pathPrev := by
  unfold processRegularCommit at h
  split at h
  · cases h
  · obtain ⟨st, hst, _⟩ := bind_ok h
    have key : ∀ (l : List Str) (s s' : Repo × Files), l.foldlM (regularChange env hash parents) s = .ok s' → SameBut hash repo s.1 → ch ∈ l →
        ∃ q, parents = [q] ∧ Stored repo q d.pathPrev := by
      intro l
      induction l with
      | nil => intro _ _ _ _ hc; cases hc
      | cons x l ih =>
        intro s s' hf hsame hc
        rw [List.foldlM_cons] at hf
        obtain ⟨s1, h1, h2⟩ := bind_ok hf
        rcases List.mem_cons.1 hc with rfl | hc
        · unfold regularChange at h1
          rw [hd] at h1
          simp only [bind, Except.bind, hb, Bool.false_eq_true, if_false, hp] at h1
          cases hrb : renamedBinary s.1 parents d with
          | error y => rw [hrb] at h1; cases h1
          | ok rb =>
            unfold renamedBinary at hrb
            rw [if_pos ⟨hq, hne⟩] at hrb
            split at hrb
            · refine ⟨_, rfl, ?_⟩
              rw [if_pos (by rw [hh]; rfl)] at hrb
              obtain ⟨pb, hpb, _⟩ := bind_ok hrb
              unfold Repo.getFileMust at hpb
              rw [hsame _ (by rintro rfl; exact hself (by simp))] at hpb
              split at hpb
              · cases hpb
              · rename_i fs hg
                cases hf : GoMap.get fs d.pathPrev with
                | none => rw [hf] at hpb; cases hpb
                | some b => exact ⟨fs, hg, (GoMap.get_isSome_iff _ _).1 (by rw [hf]; rfl)⟩
            · cases hrb
        · exact ih s1 s' h2 (fun q hq => (regularChange_same h1 q hq).trans (hsame q hq)) hc
    exact key changes _ _ hst (addCommit_same repo hash) hch

/-- **C83 (renames).** For every log: if a run from the beginning does not fail, then the old name of each file that a commit with at most one parent renames without a change was the new name in a
diff of an earlier entry of the log, of an ancestor of the commit. -/
theorem C83_rename_source {env : Env} (horder : ∀ n k l, (env.order n k l).Perm l) {opts : RunOpts} (hopts : opts.commitFromIncl = []) {read : Str → Go Repo} {g : Graph}
    (hself : ∀ h, h ∉ g.parentsOf h) {pre post : List LogCommit} {e : LogCommit} (h : (run env opts read g (pre ++ e :: post)).fault = none)
    (hone : (g.parentsOf e.hash).length ≤ 1) {ch : Str} (hch : ch ∈ e.changes) {d : Diff} (hd : parseDiff ch = .ok d)
    (hb : d.isBinary = false) (hp : d.path ≠ []) (hq : d.pathPrev ≠ []) (hne : d.pathPrev ≠ d.path) (hh : d.hunks = []) :
    ∃ q, g.parentsOf e.hash = [q] ∧ ∃ a, g.Reach q a ∧ ∃ e' ∈ pre, e'.hash = a ∧ WritesPath e' d.pathPrev := by
  have hinit : initCheckpoints opts read = .ok [] := by simp [initCheckpoints, hopts]
  have hloop : ∃ t, Proc.loop env { graph := g, repo := [] } (pre ++ e :: post) = (t, none) := by
    unfold run at h
    split at h
    · rename_i h0; simp at h0
    · rw [hinit] at h
      simp only at h
      split at h
      · rename_i hl; cases h
      · rename_i s hl
        exact ⟨s, hl⟩
  obtain ⟨t, ht⟩ := hloop
  obtain ⟨n, repo, r, res, hI, hr⟩ := loop_at (I := FromAncestor g pre) (fun h f fs hfs => by cases hfs) (fromAncestor_reg horder hself) (fromAncestor_mer horder hself) hone
    (⟨rfl, fun h f fs hfs => (by cases hfs), by simp, by intro q e he; simp at he⟩ : Along (FromAncestor g pre) g pre { graph := g, repo := [] }) ht
  obtain ⟨q, hq1, fs, hfs, hk⟩ := renamed_stored (hself _) hr hch hd hb hp hq hne hh
  exact ⟨q, hq1, hI q _ fs hfs hk⟩

/-- How git prints that the file `p` is renamed to `q` without a change: the `rename` lines are quoted too. -/
def Spec.renameLines (before : List Str) (p q : Str) : List Str :=
  [declLineQ (isQuoted p) (isQuoted q) p q] ++ before ++ [b!"rename from " ++ quoteIf (isQuoted p) p, b!"rename to " ++ quoteIf (isQuoted q) q]

theorem parse_rename {before : List Str} (hbe : ∀ l ∈ before, OtherHeader l) {p q : Str} (hp : NameOk p) (hq : NameOk q) (hps : (32 : UInt8) ∉ p) (hqs : (32 : UInt8) ∉ q)
    (hl : ∀ l ∈ renameLines before p q, NoNL l ∧ l.length < 100000000) :
    parseDiff (unlines (renameLines before p q)) = .ok { pathPrev := quoteIf (isQuoted p) p, path := quoteIf (isQuoted q) q } := by
  have hscan := scan_unlines incMaxLine (renameLines before p q) (fun l h => (hl l h).1) (fun l h => (hl l h).2)
  have hne : (unlines (renameLines before p q)).length ≠ 0 := by simp [renameLines, unlines_cons]
  have hp13 := hp.noCR
  have hq13 := hq.noCR
  have hquote : ∀ (b : Bool) (s : Str), (13 : UInt8) ∉ s → (13 : UInt8) ∉ quoteIf b s := by
    intro b s h; cases b <;> simp [quoteIf, h]
  have hd : dropCR (declLineQ (isQuoted p) (isQuoted q) p q) = declLineQ (isQuoted p) (isQuoted q) p q := by
    apply dropCR_of_not_mem
    cases isQuoted p <;> cases isQuoted q <;> simp [declLineQ, quoteIf, hp13, hq13]
  have hf : dropCR (b!"rename from " ++ quoteIf (isQuoted p) p) = b!"rename from " ++ quoteIf (isQuoted p) p :=
    dropCR_of_not_mem (by simp [hquote _ _ hp13])
  have ht : dropCR (b!"rename to " ++ quoteIf (isQuoted q) q) = b!"rename to " ++ quoteIf (isQuoted q) q :=
    dropCR_of_not_mem (by simp [hquote _ _ hq13])
  unfold parseDiff
  rw [if_neg hne, hscan]
  simp only [renameLines, List.map_append, List.map_cons, List.map_nil, List.foldlM_append, List.foldlM_cons, List.foldlM_nil, hd, hf, ht]
  have h1 : ({} : Parser).line (declLineQ (isQuoted p) (isQuoted q) p q) = .ok { ({} : Parser) with state := .preMeta, pathPrev := p, path := q } := by
    unfold Parser.line
    simp only [decl_nospace _ _ p q hp.ne hq.ne hps hqs]
  have e1 := other_fold before hbe { ({} : Parser) with state := .preMeta, pathPrev := p, path := q } rfl
  simp only [h1, bind, Except.bind, pure, Except.pure]
  simp only at e1
  rw [e1]
  simp only
  rw [meta_step _ rfl _ (startsWith_diff (a := b!"rename from ") 0 _ _ rfl rfl (by decide)), metaLine_from]
  simp only
  rw [meta_step _ rfl _ (startsWith_diff (a := b!"rename to ") 0 _ _ rfl rfl (by decide)), metaLine_to]
  have n1 : quoteIf (isQuoted p) p ≠ [] := by cases isQuoted p <;> simp [quoteIf, hp.ne]
  have n2 : quoteIf (isQuoted q) q ≠ [] := by cases isQuoted q <;> simp [quoteIf, hq.ne]
  simp [Parser.finish, Parser.finishHunk, n1, n2, Except.map]

theorem run_fails_writes_nothing {env : Env} {opts : RunOpts} {read : Str → Go Repo} {g : Graph} {log : List LogCommit} (h : (run env opts read g log).fault ≠ none) :
    (run env opts read g log).written = none := by
  revert h
  unfold run
  split
  · intro _; rfl
  · cases initCheckpoints opts read with
    | error e => intro _; rfl
    | ok repo =>
      simp only
      cases Proc.loop env { graph := g, repo := repo } log with
      | mk s o =>
        cases o with
        | some e => intro _; rfl
        | none =>
          simp only
          by_cases hm : s.mergeParts.length > 0
          · rw [if_pos hm]
            cases s.finishMerge env with
            | error e => intro _; rfl
            | ok t => intro h; exact absurd rfl h
          · rw [if_neg hm]
            intro h
            exact absurd rfl h

/-! ### Example: a file named `ä` is created and made executable -/

/-- The metadata of the example. -/
def exQuotedRecs : List (CommitRec Nat) :=
  [exRec b!"d1" [] b!"ann" .added b!"\"\\303\\244\"", exRec b!"d2" [b!"d1"] b!"bob" .modified b!"\"\\303\\244\""]

theorem exQuoted_printed : PrintedFor (ExMode.hist b!"\\303\\244") exDate ((ExMode.hist b!"\\303\\244").map fun c => (c.hash, c.parents)) exQuotedRecs := by
  have hno : ∀ s : Str, (61 : UInt8) ∉ s → ¬ b!" => " <:+: s := fun s => not_infix_of_not_mem (by decide)
  refine ⟨by decide, by decide, by decide, ?_, ?_, by decide, by decide, ?_, ?_⟩
  · intro c hc; exact List.mem_map.2 ⟨c, hc, rfl⟩
  · intro r hr
    simp only [exQuotedRecs, List.mem_cons, List.not_mem_nil, or_false] at hr
    rcases hr with rfl | rfl
    · exact exRec_ok _ _ _ _ _ (by decide) (by decide) (by decide) (by decide) (hno _ (by decide)) (by simp)
    · exact exRec_ok _ _ _ _ _ (by decide) (by decide) (by decide) (by decide) (hno _ (by decide)) (by simp)
  · intro c hc
    simp only [ExMode.hist, List.mem_cons, List.not_mem_nil, or_false] at hc
    rcases hc with rfl | rfl
    · exact ⟨_, List.mem_cons_self .., rfl⟩
    · exact ⟨_, List.mem_cons_of_mem _ (List.mem_cons_self ..), rfl⟩
  · intro c _ r hr _ x hx _ hk
    exfalso
    obtain ⟨a, b, hk⟩ := hk
    simp only [exQuotedRecs, List.mem_cons, List.not_mem_nil, or_false] at hr
    rcases hr with rfl | rfl <;> simp only [exRec, List.mem_singleton] at hx <;> subst hx <;> cases hk

theorem exQuoted_paths : ∀ r ∈ exQuotedRecs, r.QuotesPaths := by
  intro r hr
  simp only [exQuotedRecs, List.mem_cons, List.not_mem_nil, or_false] at hr
  rcases hr with rfl | rfl <;> refine ⟨?_, ?_, ?_⟩ <;> simp [exRec, PrintedPath]

/-- The call over this repository delivers no record at all, although the result of each of its two commits has the file. -/
example : ∃ m ms log, parentsRun (parentsText ((ExMode.hist b!"\\303\\244").map fun c => (c.hash, c.parents))) = .ok m ∧ metaRun exDate (metaLogText exQuotedRecs) = (ms, none) ∧
    parseLog (logText [Ex.entryOf b!"d1" none [ExMode.binF b!"\\303\\244"], Ex.entryOf b!"d2" none [ExMode.chmodF b!"\\303\\244"]]) = .ok log ∧
    ∀ (i : Nat) c res, (ExMode.hist b!"\\303\\244")[i]? = some c → (run (ExMode.env true b!"\\303\\244") {} (fun _ => .ok []) (Graph.newFromMap m m) log).sent[i]? = some res →
      ∀ f, c.Writes (ExMode.hist b!"\\303\\244") f → GoMap.has res.files f = true := by
  have hs := ExMode.setting (p := b!"\\303\\244") (.inr rfl)
  obtain ⟨m, ms, log, h1, h2, h3, h4⟩ := C83_no_records hs.sorts hs.orders hs.history hs.blame (ExMode.log_ok (.inr rfl)) (by decide) (fun _ => .ok []) (exCl_lawful false)
    (fun p c _ => exCl_license p c) exScc (fun _ fs => fs) (fun _ _ => .refl _) exQuoted_printed exQuoted_paths
  exact ⟨m, ms, log, h1, h2, h3, (h4 m (.refl _)).2.2.2⟩

example : QuotedName b!"\\303\\244" := by decide

end Ripsrc
