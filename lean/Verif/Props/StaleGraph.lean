import Verif.Lib.StaleGraph
import Verif.Props.PipelinePanic
import Verif.Props.ProcessState
import Verif.Props.Whole
/-!
# C89: commits that are newer than the commit graph

The commit graph is read once per object (`/repo/ripsrc/ripsrc.go:92-104`), and before the log. A commit made after that (by another process while the program runs, or between two
calls on one object) is in the log but not in the graph, and `commit.Parents = s.graph.Parents[commit.Hash]` (`/repo/ripsrc/history3/process/process.go:174`) makes it a
commit without parents.
-/
namespace Ripsrc
open Spec

/-- The whole log, from the unknown commit on. -/
theorem stale_loop {env : Env} {H : History} {G : Str → Str → List Str} {m : GoMap Str (List Str)} {order : List (Str × List Str)} {a r : History} {c : HCommit}
    (h : Stale env H G m order a c r) {es : List LogEntry} (hlog : LogOf H es) :
    ∃ ec er s, Printed c ec ∧ LogOf r er ∧ Unknowing c.hash s ∧ s.sent.map (·.commit) = a.map (·.hash) ∧ (∀ (i : Nat) x res, a[i]? = some x → s.sent[i]? = some res → ResultOk H G x res) ∧
      Proc.loop env { graph := Graph.newFromMap m order, repo := [] } (es.map LogEntry.meaning) = s.loop env (ec.map LogEntry.meaning ++ er.map LogEntry.meaning) ∧ es ≠ [] := by
  obtain ⟨ec, er, s, h1, h2, h3, h4, h5, ea, t, rfl, h7, h8, h9⟩ := stale_before h hlog
  refine ⟨ec, er, s, h1, h2, h3, ?_, h5, ?_, ?_⟩
  · apply List.ext_getElem?
    intro i
    rw [List.getElem?_map, List.getElem?_map]
    cases hi : s.sent[i]? with
    | none =>
      rw [List.getElem?_eq_none_iff] at hi
      rw [List.getElem?_eq_none (by omega)]
      rfl
    | some res =>
      have hlt := (List.getElem?_eq_some_iff.1 hi).1
      have hc : a[i]? = some (a[i]'(by omega)) := List.getElem?_eq_getElem _
      rw [hc]
      simp only [Option.map_some, Option.some.injEq]
      exact (h5 i _ res hc hi).commit
  · rw [List.map_append, List.map_append, loop_append env _ _ _ h7]
    cases ec with
    | nil => exact absurd rfl (printed_ne h1)
    | cons e ec =>
      refine loop_flush ?_ h8 h3.parts _
      intro hm
      rw [show e.meaning.hash = e.hash from rfl, printed_hash h1 e (by simp)]
      exact h9 hm
  · intro h0
    rw [List.append_eq_nil_iff, List.append_eq_nil_iff] at h0
    exact printed_ne h1 h0.2.1

theorem printed_entries {before : History} {c : HCommit} (hcok : c.Ok before) {ec : List LogEntry} (h : Printed c ec) :
    (∀ e ∈ ec.map LogEntry.meaning, e.hash = c.hash ∧ ∀ ch ∈ e.changes, ∃ d, parseDiff ch = .ok d) ∧
      (∀ cs ∈ c.diffs, cs ≠ [] → ∃ e ∈ ec.map LogEntry.meaning, ChangesOf e.changes cs) ∧
      (∀ e ∈ ec.map LogEntry.meaning, ∃ cs, (cs ∈ c.diffs ∨ cs = []) ∧ ChangesOf e.changes cs) := by
  obtain ⟨css, h1, h2, h3, h4⟩ := printed_lists hcok h
  have hat : ∀ (i : Nat), ∀ e, ec[i]? = some e → ∃ cs, css[i]? = some cs := by
    intro i e he
    have := (List.getElem?_eq_some_iff.1 he).1
    exact ⟨css[i]'(by omega), List.getElem?_eq_getElem _⟩
  refine ⟨?_, ?_, ?_⟩
  · intro e he
    obtain ⟨y, hy, rfl⟩ := List.mem_map.1 he
    obtain ⟨i, hi⟩ := List.mem_iff_getElem?.1 hy
    obtain ⟨cs, hcs⟩ := hat i y hi
    obtain ⟨g1, g2⟩ := h2 i y cs hi hcs
    exact ⟨g1, changesOf_parse g2⟩
  · intro cs hcs hne
    obtain ⟨i, hi⟩ := List.mem_iff_getElem?.1 (h4 cs hcs hne)
    have hlt := (List.getElem?_eq_some_iff.1 hi).1
    have he : ec[i]? = some (ec[i]'(by omega)) := List.getElem?_eq_getElem _
    exact ⟨_, List.mem_map_of_mem (List.getElem_mem _), (h2 i _ cs he hi).2⟩
  · intro e he
    obtain ⟨y, hy, rfl⟩ := List.mem_map.1 he
    obtain ⟨i, hi⟩ := List.mem_iff_getElem?.1 hy
    obtain ⟨cs, hcs⟩ := hat i y hi
    exact ⟨cs, h3 cs (List.mem_of_getElem? hcs), (h2 i y cs hi hcs).2⟩

/-- **C89 (panic).** Let the commit `c` be newer than the graph, and let it change or rename a text file. Then the run panics at `c`, although git and the repository are fine: the results of
the commits before `c` were sent, and are right, and no checkpoint is written. (If `c` is a merge, some results for it may also be sent.) -/
theorem C89_needs_old {env : Env} {H : History} {G : Str → Str → List Str} {m : GoMap Str (List Str)} {order : List (Str × List Str)} {a r : History} {c : HCommit}
    (h : Stale env H G m order a c r) {es : List LogEntry} (hlog : LogOf H es) {cs : List FileChange} (hcs : cs ∈ c.diffs) {f : FileChange} (hf : f ∈ cs) (hneed : f.NeedsOld)
    (read : Str → Go Repo) :
    ∃ log, parseLog (logText es) = .ok log ∧
      let out := run env {} read (Graph.newFromMap m order) log
      (∃ w, out.fault = some (.panic w)) ∧ out.written = none ∧
        ∃ ra rc, out.sent = ra ++ rc ∧ ra.map (·.commit) = a.map (·.hash) ∧ (∀ (i : Nat) x res, a[i]? = some x → ra[i]? = some res → ResultOk H G x res) ∧
          (∀ res ∈ rc, res.commit = c.hash) ∧ (c.Regular → rc = []) := by
  refine ⟨_, C11_log_parser es (logOf_ok hlog), ?_⟩
  obtain ⟨ec, er, s, h1, h2, h3, h4, h5, h6, h7⟩ := stale_loop h hlog
  have hcok : c.Ok a := history_ok_at (r := r) (h.split ▸ h.history)
  obtain ⟨p1, p2, _⟩ := printed_entries hcok h1
  obtain ⟨e, he, hch⟩ := p2 cs hcs (List.ne_nil_of_mem hf)
  obtain ⟨t, ht⟩ := diffs_describe hcok hcs
  obtain ⟨ch, hchm, hparse⟩ := changesOf_mem hch hf
  rcases entries_unknown h.sorts (ec.map LogEntry.meaning) s p1 h3 (er.map LogEntry.meaning) with ⟨s', w, rs, g1, g2, g3, g4⟩ | ⟨s', rs, _, _, _, _, _, g6⟩
  · have hrun : run env {} read (Graph.newFromMap m order) (es.map LogEntry.meaning) = { sent := s'.sent, fault := some (.panic w), written := none } := by
      unfold run
      split
      · rename_i h0
        exact absurd (List.map_eq_nil_iff.1 h0) h7
      · simp only [initCheckpoints, if_true, h6, g1]
    simp only [hrun]
    refine ⟨⟨w, rfl⟩, trivial, s.sent, rs, g2, h4, h5, g3, ?_⟩
    intro hreg
    rcases h1 with ⟨_, _, _, _, _, rfl⟩ | ⟨hn, _⟩
    · simp only [List.map_cons, List.map_nil, List.length_cons, List.length_nil] at g4
      exact List.eq_nil_of_length_eq_zero (by omega)
    · exact absurd hreg hn
  · exfalso
    obtain ⟨n, repo, x, hx⟩ := g6 e he
    obtain ⟨w, hw⟩ := fold_root_fails h.sorts (h := c.hash) e.changes (repo.addCommit c.hash, []) [] (addCommit_get _ _) (changesOf_parse hch)
      ⟨ch, hchm, fun repo act => regAct_root_needs h.sorts (ht.ok f hf) (ht.body f hf) hneed hparse act⟩
    unfold processRegularCommit at hx
    rw [if_neg (by simp), hw] at hx
    cases hx

/-- **C89 (the call).** In such a situation `Code` returns in no schedule: the program ends in a panic. -/
theorem C89_crash {τ : Type} (p : Pipe τ) (hpre : p.pre = none) (hopen : p.openErr = none) (hopts : p.opts = {}) {H : History} {G : Str → Str → List Str} {m : GoMap Str (List Str)}
    {order : List (Str × List Str)} (hgraph : p.graph = Graph.newFromMap m order) {a r : History} {c : HCommit} (h : Stale p.env H G m order a c r) {es : List LogEntry} (hlog : LogOf H es)
    (htext : p.text = logText es) {cs : List FileChange} (hcs : cs ∈ c.diffs) {f : FileChange} (hf : f ∈ cs) (hneed : f.NeedsOld) :
    ∀ n u, Conc.Steps p.act n Pipe.init u →
      (∀ w e res, u.procs .caller ≠ some (.returned w e res)) ∧ (∃ v, Conc.Reach p.act u v ∧ Conc.Crashed p.act v) ∧ (Conc.Stuck p.act u → Conc.Crashed p.act u) := by
  obtain ⟨log, h1, ⟨w, h2⟩, _⟩ := C89_needs_old h hlog hcs hf hneed p.read
  rw [← htext] at h1
  obtain ⟨k, out, ho, hall⟩ := C55_panic p hpre hopen ((parseSent_ok _ _).1 h1) (.inl ⟨_, by rw [hopts, hgraph]; exact h2⟩)
  intro n u hs
  obtain ⟨g1, g2, g3, _⟩ := hall n u hs
  exact ⟨g1, g2, g3⟩

/-- **C89 (each diff of a merge is a result).** If all changes of the unknown commit can be understood without the old version, or only change the mode of a file, or add lines to an empty text file, it gives one result for each
log entry: for a merge one for each parent from which it differs. -/
theorem C89_merge_repeated {env : Env} {H : History} {G : Str → Str → List Str} {m : GoMap Str (List Str)} {order : List (Str × List Str)} {a : History} {c : HCommit}
    (h : Stale env H G m order a c []) {es : List LogEntry} (hlog : LogOf H es) (hmerge : ¬ c.Regular) (hsome : ∃ cs ∈ c.diffs, cs ≠ [])
    (hall : ∀ cs ∈ c.diffs, ∀ f ∈ cs, f.Standalone ∨ f.ModeOnly ∨ f.FromEmpty) (read : Str → Go Repo) :
    ∃ log, parseLog (logText es) = .ok log ∧
      let out := run env {} read (Graph.newFromMap m order) log
      out.fault = none ∧ out.sent.map (·.commit) = a.map (·.hash) ++ List.replicate (c.diffs.filter (fun cs => !cs.isEmpty)).length c.hash := by
  refine ⟨_, C11_log_parser es (logOf_ok hlog), ?_⟩
  obtain ⟨ec, er, s, h1, h2, h3, h4, h5, h6, h7⟩ := stale_loop h hlog
  cases h2
  have hcok : c.Ok a := history_ok_at (r := []) (h.split ▸ h.history)
  obtain ⟨p1, p2, p3⟩ := printed_entries hcok h1
  rw [show ([] : List LogEntry).map LogEntry.meaning = [] from rfl] at h6
  have hlen : ec.length = (c.diffs.filter (fun cs => !cs.isEmpty)).length := by
    rcases h1 with ⟨hr, _⟩ | ⟨_, hme⟩
    · exact absurd hr hmerge
    · have hpar : c.parents ≠ [] := by
        intro h
        apply hmerge
        unfold HCommit.Regular
        rw [h]
        simp
      have hcount := hcok.count hpar
      have hds : (c.diffs.filter (fun cs => !cs.isEmpty)).length = ((c.parents.zip c.diffs).filter (fun x => !x.2.isEmpty)).length := by
        have : c.diffs = (c.parents.zip c.diffs).map Prod.snd := by rw [List.map_snd_zip (by omega)]
        conv => lhs; rw [this]
        rw [List.filter_map, List.length_map]
        rfl
      unfold MergeEntries at hme
      simp only at hme
      split at hme
      · rename_i h0
        exfalso
        obtain ⟨cs, hcs, hne⟩ := hsome
        have : cs ∈ c.diffs.filter (fun cs => !cs.isEmpty) := List.mem_filter.2 ⟨hcs, by simpa using hne⟩
        have := List.length_pos_of_mem this
        rw [hds, h0] at this
        simp at this
      · rw [hme.1, hds]
  rcases entries_unknown h.sorts (ec.map LogEntry.meaning) s p1 h3 [] with ⟨s', w, rs, g1, _⟩ | ⟨s', rs, g1, g2, g3, g4, g5, _⟩
  · exfalso
    -- none of the entries fails
    have hgood : ∀ (l : List LogCommit) (s : Proc), (∀ e ∈ l, e.hash = c.hash ∧ ∃ cs, (cs ∈ c.diffs ∨ cs = []) ∧ ChangesOf e.changes cs) → Unknowing c.hash s → ∀ s' w, s.loop env l ≠ (s', some w) := by
      intro l
      induction l with
      | nil => intro s _ _ s' w hh; cases hh
      | cons e l ih =>
        intro s he hs s' w hh
        obtain ⟨q1, cs, q2, q3⟩ := he e (by simp)
        have hs' : Unknowing e.hash s := by rw [q1]; exact hs
        have hok : ∃ t, Describes t c.tree cs ∨ cs = [] := by
          rcases q2 with q2 | q2
          · obtain ⟨t, ht⟩ := diffs_describe hcok q2
            exact ⟨t, .inl ht⟩
          · exact ⟨emptyTree, .inr q2⟩
        have hproc : ∃ x, processRegularCommit env s.sent.length s.repo e.hash [] e.changes = .ok x := by
          obtain ⟨t, ht | rfl⟩ := hok
          · obtain ⟨l', act, _, _, _, k⟩ := process_root_ok h.sorts e.hash ht (fun f hf => by
              rcases q2 with q2 | rfl
              · exact hall cs q2 f hf
              · cases hf) q3
            obtain ⟨r', k1, _⟩ := k s.sent.length s.repo
            exact ⟨_, k1⟩
          · have : e.changes = [] := by
              have := congrArg List.length q3
              simp only [List.map_nil, List.length_map, List.length_nil] at this
              exact List.eq_nil_of_length_eq_zero this
            rw [this]
            exact ⟨_, rfl⟩
        obtain ⟨x, hx⟩ := hproc
        rw [Proc.loop, commit_unknown hs', newCommit_unknown hs', hx] at hh
        exact ih { s with repo := x.1, lastProcessed := e.hash, sent := s.sent ++ [x.2] } (fun y hy => he y (by simp [hy])) ⟨hs.parts, hs.parents⟩ s' w hh
    exact hgood _ s (fun e he => ⟨(p1 e he).1, p3 e he⟩) h3 s' _ (by rw [List.append_nil] at g1; exact g1)
  · have hrun : run env {} read (Graph.newFromMap m order) (es.map LogEntry.meaning) = { sent := s'.sent, fault := none, written := some (s'.repo, s'.lastProcessed) } := by
      refine run_of_loopF (by simpa using h7) rfl ⟨s', ?_, flush_idle g5.parts⟩
      rw [h6, g1]
      rfl
    simp only [hrun]
    refine ⟨trivial, ?_⟩
    rw [g2, List.map_append, h4]
    congr 1
    rw [List.eq_replicate_iff]
    refine ⟨?_, ?_⟩
    · rw [List.length_map, g4, List.length_map, hlen]
    · intro b hb
      obtain ⟨x, hx, rfl⟩ := List.mem_map.1 hb
      exact g3 x hx

/-- The run when the last commit is unknown, has one parent, and can be processed without the old versions. -/
theorem stale_last {env : Env} {H : History} {G : Str → Str → List Str} {m : GoMap Str (List Str)} {order : List (Str × List Str)} {a : History} {c : HCommit}
    (h : Stale env H G m order a c []) {es : List LogEntry} (hlog : LogOf H es) (hreg : c.Regular) {cs : List FileChange} (hcs : c.diffs = [cs])
    (hall : ∀ f ∈ cs, f.Standalone ∨ f.ModeOnly ∨ f.FromEmpty) (read : Str → Go Repo) :
    ∃ (changes : List Str) (l : List (Str × FileChange)) (act : Str × FileChange → Act) (R : Repo) (sa : List Result), ChangesOf changes cs ∧ l.map Prod.fst = changes ∧ l.map Prod.snd = cs ∧
      (∀ x ∈ l, (∀ ps repo, x.2.Standalone ∨ x.2.FromEmpty ∧ EmptyIn ps repo x.2.kind.prev → regAct env c.hash ps repo x.1 = .ok (act x)) ∧ (x.2.kind.next = [] → ∃ b, act x = .report x.2.kind.prev b) ∧
        (x.2.kind.next ≠ [] → ∃ b, act x = .both x.2.kind.next b ∧ (x.2.ModeOnly → b = { commit := c.hash, lines := [] }) ∧ (x.2.FromEmpty → AllNew c.hash (content c.tree x.2.kind.next) b))) ∧
      run env {} read (Graph.newFromMap m order) (es.map LogEntry.meaning) =
        { sent := sa ++ [{ commit := c.hash, files := putAll [] (l.filterMap (fun x => (act x).reported)) }], fault := none, written := some (R, c.hash) } ∧
      sa.map (·.commit) = a.map (·.hash) ∧ (∀ (i : Nat) x res, a[i]? = some x → sa[i]? = some res → ResultOk H G x res) ∧
      GoMap.get R c.hash = some (putAll [] (l.filterMap (fun x => (act x).kept))) := by
  obtain ⟨ec, er, s, h1, h2, h3, h4, h5, h6, h7⟩ := stale_loop h hlog
  cases h2
  have hcok : c.Ok a := history_ok_at (r := []) (h.split ▸ h.history)
  obtain ⟨t, ht⟩ := diffs_describe hcok (cs := cs) (by rw [hcs]; simp)
  rcases h1 with ⟨_, cs', e, hcs', he, rfl⟩ | ⟨hn, _⟩
  · rw [hcs] at hcs'
    cases hcs'
    have hch := entry_changes he ht.ok
    obtain ⟨l, act, l1, l2, l3, l4⟩ := process_root_ok h.sorts c.hash ht hall hch
    obtain ⟨R, r1, r2, _⟩ := l4 s.sent.length s.repo
    have hhash : e.meaning.hash = c.hash := he.2.1
    have hs' : Unknowing e.meaning.hash s := by rw [hhash]; exact h3
    refine ⟨_, l, act, R, s.sent, hch, l1, l2, l3, ?_, h4, h5, r2⟩
    have : s.commit env e.meaning = (({ s with repo := R, lastProcessed := c.hash, sent := s.sent ++ [{ commit := c.hash, files := putAll [] (l.filterMap (fun x => (act x).reported)) }] } : Proc), none) := by
      rw [commit_unknown hs', newCommit_unknown hs', hhash, r1]
      rfl
    refine run_of_loopF (s' := { s with repo := R, lastProcessed := c.hash, sent := s.sent ++ [{ commit := c.hash, files := putAll [] (l.filterMap (fun x => (act x).reported)) }] }) (by simpa using h7) rfl
      ⟨_, ?_, flush_idle h3.parts⟩
    rw [h6]
    simp only [List.map_cons, List.map_nil, List.append_nil, Proc.loop, this]
  · exact absurd hreg hn

/-- The old version of a file with an empty old version, in the parent. -/
theorem old_empty {env : Env} {H : History} {G : Str → Str → List Str} {m : GoMap Str (List Str)} {order : List (Str × List Str)} {a r : History} {c : HCommit}
    (h : Stale env H G m order a c r) {q : Str} (hq : c.parents = [q]) {cs : List FileChange} (hcs : c.diffs = [cs]) {f : FileChange} (hf : f ∈ cs) (hfe : f.FromEmpty) :
    ∃ o, H.treeOf q f.kind.prev = some o ∧ o = [] := by
  have hcok : c.Ok a := history_ok_at (r := r) (h.split ▸ h.history)
  have hdesc := hcok.diffs (q, cs) (by rw [hq, hcs]; simp)
  obtain ⟨o, ho⟩ := Option.isSome_iff_exists.1 (hdesc.prev f hf hfe.1)
  obtain ⟨x, hx, hxq⟩ := hcok.parentsKnown q (by rw [hq]; simp)
  refine ⟨o, ?_, ?_⟩
  · rw [← hxq, treeOf_of_mem h.history (by rw [h.split]; simp [hx])]
    simp only at ho
    rw [← hxq, treeOf_of_mem (history_ok_append.1 (h.split ▸ h.history)).1 hx] at ho
    exact ho
  · obtain ⟨hne, _, cut, heads, hb, hold⟩ := hfe
    have hbody := hdesc.body f hf
    have hcont : content (a.treeOf (q, cs).1) f.kind.prev = o := by simp only [content, hne, if_false, ho, Option.getD_some]
    rw [hb, hcont] at hbody
    rw [← hbody.1, hold]

/-- **C89 (the checkpoint is damaged).** Let the last commit `c` of the log be newer than the graph, have one parent, and only create or delete files, change binary files, or add lines to
empty text files (that were not binary before). Then the run succeeds and all results are right. But the checkpoint has, for `c`, only the files that `c` changes. -/
theorem C89_damaged_checkpoint {env : Env} {H : History} {G : Str → Str → List Str} {m : GoMap Str (List Str)} {order : List (Str × List Str)} {a : History} {c : HCommit}
    (h : Stale env H G m order a c []) {es : List LogEntry} (hlog : LogOf H es) {q : Str} (hq : c.parents = [q]) {cs : List FileChange} (hcs : c.diffs = [cs])
    (hall : ∀ f ∈ cs, f.Standalone ∨ f.FromEmpty ∧ ¬ IsBin H q f.kind.prev) (read : Str → Go Repo) :
    ∃ log, parseLog (logText es) = .ok log ∧ ∃ R rs, run env {} read (Graph.newFromMap m order) log = { sent := rs, fault := none, written := some (R, c.hash) } ∧
      rs.map (·.commit) = H.map (·.hash) ∧ (∀ (i : Nat) x res, H[i]? = some x → rs[i]? = some res → ResultOk H G x res) ∧
      ∃ fs, GoMap.get R c.hash = some fs ∧ ∀ p, changeOf cs p = none → GoMap.get fs p = none := by
  refine ⟨_, C11_log_parser es (logOf_ok hlog), ?_⟩
  have hreg : c.Regular := by unfold HCommit.Regular; rw [hq]; simp
  obtain ⟨changes, l, act, R, sa, g0, g1, g2, g3, g4, g5, g6, g7⟩ := stale_last h hlog hreg hcs (fun f hf => (hall f hf).elim .inl (fun h => .inr (.inr h.1))) read
  have hmem : ∀ x ∈ l, x.2 ∈ cs := fun x hx => g2 ▸ List.mem_map_of_mem hx
  have hlen : sa.length = a.length := by have := congrArg List.length g5; simpa using this
  obtain ⟨ea, _, _, _, hl1, _, _⟩ := logOf_split (h.split ▸ hlog)
  have hres : ResultOk H G c { commit := c.hash, files := putAll [] (l.filterMap (fun x => (act x).reported)) } := by
    refine standalone_result h.sorts h.orders h.history h.blame h.split hreg hcs g0 hl1 g1 ?_
    intro x hx repo hrepo
    refine (g3 x hx).1 _ _ ((hall _ (hmem x hx)).imp_right ?_)
    rintro ⟨hfe, hnb⟩
    refine ⟨hfe, q, ?_⟩
    obtain ⟨fs, k1, k2⟩ := hrepo q (by rw [hq]; simp)
    have hcok : c.Ok a := history_ok_at (r := []) (h.split ▸ h.history)
    obtain ⟨t, ht⟩ : ∃ o, H.treeOf q x.2.kind.prev = some o ∧ o = [] := old_empty h hq hcs (hmem x hx) hfe
    obtain ⟨ht, rfl⟩ := ht
    obtain ⟨pb, k3, k4⟩ := k2 _ _ ht
    have hb : pb.isBinary = false := by
      cases hb : pb.isBinary with
      | false => rfl
      | true => exact absurd (k4.binary.1 hb) hnb
    refine ⟨pb, hq, by unfold Repo.getFileOptional; rw [k1]; simp only; rw [k3], hb, ?_⟩
    exact List.eq_nil_of_length_eq_zero (k4.length hb)
  refine ⟨R, _, g4, ?_, ?_, _, g7, ?_⟩
  · rw [List.map_append, g5, h.split]
    simp
  · intro i x res hx hr
    rw [h.split] at hx
    by_cases hi : i < a.length
    · rw [List.getElem?_append_left hi] at hx
      rw [List.getElem?_append_left (by omega)] at hr
      exact g6 i x res hx hr
    · rw [List.getElem?_append_right (by omega)] at hx
      rw [List.getElem?_append_right (by omega), hlen] at hr
      cases hj : i - a.length with
      | zero =>
        rw [hj] at hx hr
        simp only [List.getElem?_cons_zero, Option.some.injEq] at hx hr
        subst hx; subst hr
        exact hres
      | succ j => rw [hj] at hx; simp at hx
  · intro p hp
    rw [putAll_not_mem]
    · rfl
    · intro hm
      obtain ⟨⟨p', b⟩, hm2, rfl⟩ := List.mem_map.1 hm
      obtain ⟨x, hx, hk⟩ := List.mem_filterMap.1 hm2
      by_cases hn : x.2.kind.next = []
      · obtain ⟨b', hb'⟩ := (g3 x hx).2.1 hn
        rw [hb'] at hk; cases hk
      · obtain ⟨b', hb', _⟩ := (g3 x hx).2.2 hn
        rw [hb'] at hk
        cases hk
        unfold changeOf at hp
        have := List.find?_eq_none.1 hp x.2 (hmem x hx)
        simp at this

/-- The checkpoint that is written after the unknown commit: it has only the files that the commit changes. -/
theorem stale_checkpoint {env : Env} {H : History} {G : Str → Str → List Str} {m : GoMap Str (List Str)} {order : List (Str × List Str)} {a : History} {c : HCommit}
    (h : Stale env H G m order a c []) {es : List LogEntry} (hlog : LogOf H es) {q : Str} (hq : c.parents = [q]) {cs : List FileChange} (hcs : c.diffs = [cs])
    (hall : ∀ f ∈ cs, f.Standalone ∨ f.ModeOnly ∨ f.FromEmpty) (read : Str → Go Repo) :
    ∃ log, parseLog (logText es) = .ok log ∧ ∃ R rs, run env {} read (Graph.newFromMap m order) log = { sent := rs, fault := none, written := some (R, c.hash) } ∧
      rs.map (·.commit) = H.map (·.hash) ∧ ∃ fs, GoMap.get R c.hash = some fs ∧ ∀ p, changeOf cs p = none → GoMap.get fs p = none := by
  refine ⟨_, C11_log_parser es (logOf_ok hlog), ?_⟩
  have hreg : c.Regular := by unfold HCommit.Regular; rw [hq]; simp
  obtain ⟨changes, l, act, R, sa, g0, g1, g2, g3, g4, g5, g6, g7⟩ := stale_last h hlog hreg hcs hall read
  have hmem : ∀ x ∈ l, x.2 ∈ cs := fun x hx => g2 ▸ List.mem_map_of_mem hx
  refine ⟨R, _, g4, ?_, _, g7, ?_⟩
  · rw [List.map_append, g5, h.split]
    simp
  · intro p hp
    rw [putAll_not_mem]
    · rfl
    · intro hm
      obtain ⟨⟨p', b⟩, hm2, rfl⟩ := List.mem_map.1 hm
      obtain ⟨x, hx, hk⟩ := List.mem_filterMap.1 hm2
      by_cases hn : x.2.kind.next = []
      · obtain ⟨b', hb'⟩ := (g3 x hx).2.1 hn
        rw [hb'] at hk; cases hk
      · obtain ⟨b', hb', _⟩ := (g3 x hx).2.2 hn
        rw [hb'] at hk
        cases hk
        unfold changeOf at hp
        have := List.find?_eq_none.1 hp x.2 (hmem x hx)
        simp at this

/-- **C89 (a later run fails).** Let the last commit `c` of the log be newer than the graph, and let its run succeed, because `c` only creates, deletes or changes the mode of files, changes binary files or adds lines to empty
ones. After that, let another commit `d` on top of `c` change, or rename, a text file that `c` left as it was. A later run that starts from this checkpoint, with a graph that
knows all commits, fails at `d`: it sends no results. -/
theorem C89_later_run_fails {env : Env} {H : History} {G : Str → Str → List Str} {m : GoMap Str (List Str)} {order : List (Str × List Str)} {a : History} {c : HCommit}
    (h : Stale env H G m order a c []) {es : List LogEntry} (hlog : LogOf H es) {q : Str} (hq : c.parents = [q]) {cs : List FileChange} (hcs : c.diffs = [cs])
    (hall : ∀ f ∈ cs, f.Standalone ∨ f.ModeOnly ∨ f.FromEmpty) (read : Str → Go Repo) {d : HCommit} (hdok : d.Ok H) (hd : d.parents = [c.hash]) {ds : List FileChange} (hds : d.diffs = [ds]) {f : FileChange} (hf : f ∈ ds)
    (hnext : f.kind.next ≠ []) (hbin : f.body ≠ .binary) (hneed : f.ShowsOld ∨ f.Renames ∧ f.body = .empty) (huntouched : changeOf cs f.kind.prev = none) :
    ∃ log, parseLog (logText es) = .ok log ∧ ∃ R, (run env {} read (Graph.newFromMap m order) log).written = some (R, c.hash) ∧
      ∀ (env' : Env), SortsHunks env'.srt → ∀ (opts : RunOpts) (read' : Str → Go Repo) (R' : Repo), initCheckpoints opts read' = .ok R' → Restored R R' →
      ∀ (m' : GoMap Str (List Str)) (order' : List (Str × List Str)), GoMap.get m' d.hash = some d.parents →
      ∀ (r' : History) (es' : List LogEntry), LogOf (d :: r') es' →
        ∃ log', parseLog (logText es') = .ok log' ∧ FailsAfter [] (run env' opts read' (Graph.newFromMap m' order') log') := by
  obtain ⟨log, h1, R, rs, h2, _, fs, h5, h6⟩ := stale_checkpoint h hlog hq hcs hall read
  refine ⟨log, h1, R, by rw [h2], ?_⟩
  intro env' hs' opts read' R' hinit hrest m' order' hm' r' es' hlog'
  refine ⟨_, C11_log_parser es' (logOf_ok hlog'), ?_⟩
  cases hlog' with
  | @cons _ ec _ es'' hp hl =>
    have hdesc := hdok.diffs (c.hash, ds) (by rw [hd, hds]; simp)
    have hreg : d.Regular := by unfold HCommit.Regular; rw [hd]; simp
    rcases hp with ⟨_, ds', e, hds', he, rfl⟩ | ⟨hn, _⟩
    · rw [hds] at hds'
      cases hds'
      have hch := entry_changes he hdesc.ok
      obtain ⟨ch, hchm, hparse⟩ := changesOf_mem hch hf
      obtain ⟨m1, m2, m3⟩ := meaning_norm f
      have hok := hdesc.ok f hf
      have hbody := hdesc.body f hf
      have hprev : f.kind.prev ≠ [] := by
        rcases hneed with ⟨cut, heads, hb, sg, hsg, hold⟩ | ⟨hr, _⟩
        · intro h0
          rw [hb, h0] at hbody
          obtain ⟨b1, _, _⟩ := hbody
          simp only [content, if_true] at b1
          have : ∀ (segs : List (List Str × List BodyLine)) tl, oldLines (segScript segs ++ tl) = [] → ∀ x ∈ segs, oldLines (edits x.2) = [] := by
            intro segs
            induction segs with
            | nil => intro tl _ x hx; cases hx
            | cons y segs ih =>
              intro tl ho x hx
              obtain ⟨gap, body⟩ := y
              simp only [segScript, List.append_assoc] at ho
              rw [oldLines_append, oldLines_append, List.append_eq_nil_iff, List.append_eq_nil_iff] at ho
              rcases List.mem_cons.1 hx with rfl | hx
              · exact ho.2.1
              · exact ih _ ho.2.2 x hx
          exact hold (this cut.segs _ b1 sg hsg)
        · exact hr.1
      have hhash : e.meaning.hash = d.hash := he.2.1
      refine C65_missing_file (a := []) (c := e.meaning) hs' hinit (p := c.hash) ?_ ?_ hchm hparse ?_ ?_ (by simp)
      · unfold Graph.parentsOf
        rw [show (Graph.newFromMap m' order').parents = m' from rfl, hhash, hm', hd]
        rfl
      · rw [hhash]
        exact hdok.new c (by rw [h.split]; simp)
      · refine ⟨by rw [m3]; cases hb : f.body <;> simp_all [Body.isBinary], by rw [m2]; exact hnext, by rw [m1]; exact hprev, ?_⟩
        rcases hneed with hs | ⟨hr, hb⟩
        · exact .inr (showsOld_hunk hok (next_not_delete hok hnext) hbody hs)
        · exact .inl ⟨by rw [m1, m2]; exact hr.2.2, mode_hunks hb⟩
      · intro fs' hfs'
        obtain ⟨fs0, g1, g2⟩ := hrest.sound _ _ hfs'
        rw [h5] at g1
        cases g1
        rw [g2, m1]
        exact h6 _ huntouched
    · exact absurd hreg hn

/-- What the result of the unknown commit says of a file that exists. -/
theorem stale_file {env : Env} {H : History} {G : Str → Str → List Str} {m : GoMap Str (List Str)} {order : List (Str × List Str)} {a : History} {c : HCommit}
    (h : Stale env H G m order a c []) {es : List LogEntry} (hlog : LogOf H es) {q : Str} (hq : c.parents = [q]) {cs : List FileChange} (hcs : c.diffs = [cs])
    (hall : ∀ f ∈ cs, f.Standalone ∨ f.ModeOnly ∨ f.FromEmpty) {f : FileChange} (hf : f ∈ cs) (hn : f.kind.next ≠ []) (read : Str → Go Repo) :
    let out := run env {} read (Graph.newFromMap m order) (es.map LogEntry.meaning)
    out.fault = none ∧ ∃ res b, out.sent.getLast? = some res ∧ res.commit = c.hash ∧ GoMap.get res.files f.kind.next = some b ∧
      (f.ModeOnly → b = { commit := c.hash, lines := [] }) ∧ (f.FromEmpty → AllNew c.hash (content c.tree f.kind.next) b) := by
  have hreg : c.Regular := by unfold HCommit.Regular; rw [hq]; simp
  have hcok : c.Ok a := history_ok_at (r := []) (h.split ▸ h.history)
  obtain ⟨t, hdesc⟩ := diffs_describe hcok (cs := cs) (by rw [hcs]; simp)
  obtain ⟨changes, l, act, R, sa, g0, g1, g2, g3, g4, g5, g6, g7⟩ := stale_last h hlog hreg hcs hall read
  have hmem : ∀ x ∈ l, x.2 ∈ cs := fun x hx => g2 ▸ List.mem_map_of_mem hx
  obtain ⟨x, hx, hxf⟩ := List.mem_map.1 (g2 ▸ hf)
  obtain ⟨l1, l2, hl⟩ := List.append_of_mem hx
  obtain ⟨b, hb, hb2⟩ := (g3 x hx).2.2 (by rw [hxf]; exact hn)
  rw [hxf] at hb hb2
  simp only [g4]
  refine ⟨trivial, _, b, by simp only [List.getLast?_append, List.getLast?_singleton]; rfl, rfl, ?_, hb2⟩
  have hcs' : cs = l1.map Prod.snd ++ f :: l2.map Prod.snd := by rw [← g2, hl, ← hxf]; simp
  rw [hl, List.filterMap_append, List.filterMap_cons]
  rw [hb]
  show GoMap.get (putAll [] (_ ++ (f.kind.next, _) :: _)) f.kind.next = _
  refine putAll_last _ _ _ _ _ ?_
  intro hm
  obtain ⟨e, hm2, hpe⟩ := List.mem_map.1 hm
  obtain ⟨y, hy, hk⟩ := List.mem_filterMap.1 hm2
  have hyl : y ∈ l := by rw [hl]; simp [hy]
  have hy2 : y.2 ∈ l2.map Prod.snd := List.mem_map_of_mem hy
  by_cases hyn : y.2.kind.next = []
  · -- a later deletion of the same path
    obtain ⟨b', hb'⟩ := (g3 y hyl).2.1 hyn
    rw [hb'] at hk
    simp only [Act.reported, Option.some.injEq] at hk
    subst hk
    have hord := hdesc.order
    rw [hcs', List.pairwise_append] at hord
    exact (List.pairwise_cons.1 hord.2.1).1 y.2 hy2 hyn hpe.symm
  · obtain ⟨b', hb', _⟩ := (g3 y hyl).2.2 hyn
    rw [hb'] at hk
    simp only [Act.reported, Option.some.injEq] at hk
    subst hk
    simp only at hpe
    have hnd := hdesc.once
    rw [hcs', List.map_append, List.map_cons, List.nodup_append] at hnd
    exact (List.nodup_cons.1 hnd.2.1).1 (List.mem_map.2 ⟨y.2, hy2, by simp [FileChange.target, hn, hpe]⟩)

/-- **C89 (a wrong record).** Let the last commit `c` of the log be newer than the graph, with changes that can be understood without the old version, or only change the mode of a file. Then the run
succeeds, and the result of `c` has each file of which only the mode changes as an empty text file, whatever its content. -/
theorem C89_mode_change {env : Env} {H : History} {G : Str → Str → List Str} {m : GoMap Str (List Str)} {order : List (Str × List Str)} {a : History} {c : HCommit}
    (h : Stale env H G m order a c []) {es : List LogEntry} (hlog : LogOf H es) {q : Str} (hq : c.parents = [q]) {cs : List FileChange} (hcs : c.diffs = [cs])
    (hall : ∀ f ∈ cs, f.Standalone ∨ f.ModeOnly ∨ f.FromEmpty) {f : FileChange} (hf : f ∈ cs) (hmode : f.ModeOnly) (read : Str → Go Repo) :
    ∃ log, parseLog (logText es) = .ok log ∧
      let out := run env {} read (Graph.newFromMap m order) log
      out.fault = none ∧ ∃ res, out.sent.getLast? = some res ∧ res.commit = c.hash ∧ GoMap.get res.files f.kind.next = some { commit := c.hash, lines := [] } ∧ (c.tree f.kind.next).isSome := by
  refine ⟨_, C11_log_parser es (logOf_ok hlog), ?_⟩
  have hcok : c.Ok a := history_ok_at (r := []) (h.split ▸ h.history)
  obtain ⟨t, hdesc⟩ := diffs_describe hcok (cs := cs) (by rw [hcs]; simp)
  have hok := hdesc.ok f hf
  have hn : f.kind.next ≠ [] := by
    intro h0
    have hdel := (next_nil_iff hok).1 h0
    have h1 := hmode.1
    rw [h0] at h1
    have hk := hok.1
    cases hkk : f.kind with
    | delete p mode => rw [hkk] at h1 hk; exact absurd h1 (Spec.NameOk.ne hk.1)
    | _ => rw [hkk] at hdel; cases hdel
  obtain ⟨h1, res, b, h2, h3, h4, h5, _⟩ := stale_file h hlog hq hcs hall hf hn read
  rw [h5 hmode] at h4
  exact ⟨h1, res, h2, h3, h4, hdesc.next f hf hn⟩

/-- **C89 (an empty file).** Let the last commit `c` of the log be newer than the graph, and let it add lines to a text file that was empty. (Its other changes can be understood without the old version, or are of the same
kind, or only change the mode of a file.) Then the run succeeds, and the result of `c` lists this file rightly: with exactly its lines, each written in `c`. -/
theorem C89_from_empty {env : Env} {H : History} {G : Str → Str → List Str} {m : GoMap Str (List Str)} {order : List (Str × List Str)} {a : History} {c : HCommit}
    (h : Stale env H G m order a c []) {es : List LogEntry} (hlog : LogOf H es) {q : Str} (hq : c.parents = [q]) {cs : List FileChange} (hcs : c.diffs = [cs])
    (hall : ∀ f ∈ cs, f.Standalone ∨ f.ModeOnly ∨ f.FromEmpty) {f : FileChange} (hf : f ∈ cs) (hempty : f.FromEmpty) (read : Str → Go Repo) :
    ∃ log, parseLog (logText es) = .ok log ∧
      let out := run env {} read (Graph.newFromMap m order) log
      out.fault = none ∧ ∃ res b, out.sent.getLast? = some res ∧ res.commit = c.hash ∧ GoMap.get res.files f.kind.next = some b ∧ AllNew c.hash (content c.tree f.kind.next) b := by
  refine ⟨_, C11_log_parser es (logOf_ok hlog), ?_⟩
  have hn : f.kind.next ≠ [] := hempty.2.1 ▸ hempty.1
  obtain ⟨h1, res, b, h2, h3, h4, _, h5⟩ := stale_file h hlog hq hcs hall hf hn read
  exact ⟨h1, res, b, h2, h3, h4, h5 hempty⟩

/-! ### Examples -/

namespace ExStale

/-- The graph knows `c1` and `c2`; `c3`, which changes `f`, is newer. -/
def graph2 : GoMap Str (List Str) := [(b!"c1", []), (b!"c2", [b!"c1"])]

theorem stale3 : Stale Ex.env Ex.H Ex.blames graph2 graph2 [Ex.c1, Ex.c2] Ex.c3 [Ex.c4, Ex.c5] :=
  ⟨isort_sortsHunks, fun _ _ _ => .refl _, Ex.history_ok, Ex.blame_works, by decide, .refl _, rfl, by decide, by decide⟩

theorem needs3 : (Ex.appendF b!"f" b!"a" [b!"b"]).NeedsOld :=
  ⟨by decide, by simp [Ex.appendF], .inr ⟨_, _, rfl, _, List.mem_singleton.2 rfl, by decide⟩⟩

/-- The hypotheses of `C89_needs_old` are met: only the results of `c1` and `c2` are sent. -/
example : ∃ log, parseLog (logText (Ex.H.flatMap Ex.entries)) = .ok log ∧
    let out := run Ex.env {} (fun _ => .ok []) (Graph.newFromMap graph2 graph2) log
    (∃ w, out.fault = some (.panic w)) ∧ out.written = none ∧ out.sent.map (·.commit) = [b!"c1", b!"c2"] := by
  obtain ⟨log, h1, h2, h3, ra, rc, h4, h5, _, _, h6⟩ := C89_needs_old stale3 ex_log (cs := [Ex.appendF b!"f" b!"a" [b!"b"]]) (by simp [Ex.c3]) (List.mem_singleton.2 rfl) needs3 (fun _ => .ok [])
  refine ⟨log, h1, h2, h3, ?_⟩
  rw [h4, h6 (by decide), List.append_nil, h5]
  rfl

/-- And those of `C89_crash`. -/
example : ∀ n u, Conc.Steps ({ exPipe with graph := Graph.newFromMap graph2 graph2 } : Pipe Nat).act n Pipe.init u → ∀ w e res, u.procs .caller ≠ some (.returned w e res) :=
  fun n u hs => (C89_crash ({ exPipe with graph := Graph.newFromMap graph2 graph2 } : Pipe Nat) rfl rfl rfl rfl stale3 ex_log rfl (cs := [Ex.appendF b!"f" b!"a" [b!"b"]]) (by simp [Ex.c3])
    (List.mem_singleton.2 rfl) needs3 n u hs).1

/-- `c2`, which creates `g`, is newer than the graph. -/
def graph1 : GoMap Str (List Str) := [(b!"c1", [])]

theorem ok12 : History.Ok [] [Ex.c1, Ex.c2] := (history_ok_append (a := [Ex.c1, Ex.c2]).1 Ex.history_ok).1

theorem blame12 : BlameWorks [Ex.c1, Ex.c2] Ex.blames Ex.env.blameOut := by
  refine sub_blameWorks (H := Ex.H) ok12 Ex.history_ok ?_ Ex.blame_works
  intro c hc
  simp only [List.mem_cons, List.not_mem_nil, or_false] at hc
  rcases hc with rfl | rfl <;> simp [Ex.H]

theorem stale2 : Stale Ex.env [Ex.c1, Ex.c2] Ex.blames graph1 graph1 [Ex.c1] Ex.c2 [] :=
  ⟨isort_sortsHunks, fun _ _ _ => .refl _, ok12, blame12, by decide, .refl _, rfl, by decide, by decide⟩

theorem log12 : LogOf [Ex.c1, Ex.c2] ([Ex.c1, Ex.c2].flatMap Ex.entries) :=
  log_of_entries _ (fun c hc => Ex.printed c (by
    simp only [List.mem_cons, List.not_mem_nil, or_false] at hc
    rcases hc with rfl | rfl <;> simp [Ex.H]))

/-- The next commit changes `f`, which `c2` left as it was. -/
def next : HCommit where
  hash := b!"n"
  parents := [b!"c2"]
  tree := Ex.assocTree [(b!"f", [b!"a", b!"b"]), (b!"g", [b!"x"])]
  diffs := [[Ex.appendF b!"f" b!"a" [b!"b"]]]

theorem next_describes : Describes (Ex.assocTree Ex.t2) next.tree [Ex.appendF b!"f" b!"a" [b!"b"]] :=
  Ex.describes_assoc (by simpa using Ex.ok3) (by decide) (by decide) (by simp only [List.mem_singleton, forall_eq]; exact ⟨rfl, rfl, by decide⟩)
    (by decide) (by decide) (by simp) (by decide)

theorem next_ok : next.Ok [Ex.c1, Ex.c2] := by
  refine ⟨by decide, by decide, by decide, Ex.pathsOk rfl (by decide), fun h => absurd h (by decide), fun _ => rfl, ?_⟩
  intro x hx
  simp only [next, List.zip_cons_cons, List.zip_nil_right, List.mem_singleton] at hx
  subst hx
  exact next_describes

/-- The checkpoint that is read in the later run, as it was written. -/
example : ∃ log, parseLog (logText ([Ex.c1, Ex.c2].flatMap Ex.entries)) = .ok log ∧ ∃ R, (run Ex.env {} (fun _ => .ok []) (Graph.newFromMap graph1 graph1) log).written = some (R, b!"c2") ∧
    let log' := [Ex.entryOf b!"n" none [Ex.appendF b!"f" b!"a" [b!"b"]]]
    ∃ log2, parseLog (logText log') = .ok log2 ∧
      FailsAfter [] (run Ex.env { commitFromIncl := b!"c2" } (fun _ => .ok R) (Graph.newFromMap ((b!"n", [b!"c2"]) :: graph2) ((b!"n", [b!"c2"]) :: graph2)) log2) := by
  obtain ⟨log, h1, R, h2, h3⟩ := C89_later_run_fails stale2 log12 rfl (cs := [Ex.createF b!"g" [b!"x"]]) rfl (by simp [FileChange.Standalone, Ex.createF, Kind.prev]) (fun _ => .ok []) next_ok rfl rfl
    (f := Ex.appendF b!"f" b!"a" [b!"b"]) (List.mem_singleton.2 rfl) (by decide) (by simp [Ex.appendF]) (.inl ⟨_, _, rfl, _, List.mem_singleton.2 rfl, by decide⟩) rfl
  refine ⟨log, h1, R, h2, ?_⟩
  obtain ⟨log2, h4, h5⟩ := h3 Ex.env isort_sortsHunks { commitFromIncl := b!"c2" } (fun _ => .ok R) R rfl ⟨fun h fs hf => ⟨fs, hf, fun _ => rfl⟩, fun h fs hf _ => ⟨fs, hf⟩⟩
    ((b!"n", [b!"c2"]) :: graph2) ((b!"n", [b!"c2"]) :: graph2) rfl [] _ (.cons (c := next) (.inl ⟨by decide, _, _, rfl, ⟨Ex.entryOf_ok (hash := b!"n") (frm := none) (cs := [Ex.appendF b!"f" b!"a" [b!"b"]])
      (by decide) (by simp) (by decide) (by simpa using Ex.ok3), rfl, rfl, rfl⟩, rfl⟩) .nil)
  exact ⟨log2, h4, h5⟩

/-- `e3` creates `h` next to `c2`, the merge `e4` of both is newer than the graph. -/
def e3 : HCommit where
  hash := b!"e3"
  parents := [b!"c1"]
  tree := Ex.assocTree [(b!"f", [b!"a"]), (b!"h", [b!"x"])]
  diffs := [[Ex.createF b!"h" [b!"x"]]]

def e4 : HCommit where
  hash := b!"e4"
  parents := [b!"c2", b!"e3"]
  tree := Ex.assocTree [(b!"f", [b!"a"]), (b!"g", [b!"x"]), (b!"h", [b!"x"])]
  diffs := [[Ex.createF b!"h" [b!"x"]], [Ex.createF b!"g" [b!"x"]]]

def Hm : History := [Ex.c1, Ex.c2, e3, e4]

theorem okh : (Ex.createF b!"h" [b!"x"]).Ok :=
  ⟨⟨by decide, by decide, by decide⟩, by simp [Ex.createF], by simpa [Ex.createF] using Ex.other1, ⟨by decide, by decide⟩, by decide⟩

theorem de3 : Describes (Ex.assocTree Ex.t1) e3.tree [Ex.createF b!"h" [b!"x"]] :=
  Ex.describes_assoc (by simpa using okh) (by simp [Ex.createF, Kind.prev]) (by decide) (by simp only [List.mem_singleton, forall_eq]; exact ⟨rfl, rfl, by decide⟩)
    (by decide) (by decide) (by simp) (by decide)

theorem de4a : Describes (Ex.assocTree Ex.t2) e4.tree [Ex.createF b!"h" [b!"x"]] :=
  Ex.describes_assoc (by simpa using okh) (by simp [Ex.createF, Kind.prev]) (by decide) (by simp only [List.mem_singleton, forall_eq]; exact ⟨rfl, rfl, by decide⟩)
    (by decide) (by decide) (by simp) (by decide)

theorem de4b : Describes e3.tree e4.tree [Ex.createF b!"g" [b!"x"]] :=
  Ex.describes_assoc (by simpa using Ex.ok2) (by simp [Ex.createF, Kind.prev]) (by decide) (by simp only [List.mem_singleton, forall_eq]; exact ⟨rfl, rfl, by decide⟩)
    (by decide) (by decide) (by simp) (by decide)

theorem hm_ok : History.Ok [] Hm := by
  refine ⟨⟨by simp, by decide, by decide, Ex.pathsOk rfl (by decide), fun _ => ⟨_, rfl, Ex.d1⟩, fun h => absurd rfl h, by simp [Ex.c1]⟩, ?_⟩
  refine ⟨⟨by decide, by decide, by decide, Ex.pathsOk rfl (by decide), fun h => absurd h (by decide), fun _ => rfl, ?_⟩, ?_⟩
  · intro x hx
    simp only [Ex.c2, List.zip_cons_cons, List.zip_nil_right, List.mem_singleton] at hx
    subst hx
    exact Ex.d2
  refine ⟨⟨by decide, by decide, by decide, Ex.pathsOk rfl (by decide), fun h => absurd h (by decide), fun _ => rfl, ?_⟩, ?_⟩
  · intro x hx
    simp only [e3, List.zip_cons_cons, List.zip_nil_right, List.mem_singleton] at hx
    subst hx
    exact de3
  refine ⟨⟨by decide, by decide, by decide, Ex.pathsOk rfl (by decide), fun h => absurd h (by decide), fun _ => rfl, ?_⟩, trivial⟩
  intro x hx
  simp only [e4, List.zip_cons_cons, List.zip_nil_right, List.mem_cons, List.not_mem_nil, or_false] at hx
  rcases hx with rfl | rfl
  · exact de4a
  · exact de4b

theorem hm_blame : BlameWorks Hm (fun _ _ => []) Ex.env.blameOut := by
  refine ⟨?_, by simp⟩
  rintro c _ p n _ ⟨_, q, _, f, _, _, _, _, hb, _⟩
  refine absurd hb (no_binary ?_ _ _)
  intro c hc
  simp only [Hm, List.mem_cons, List.not_mem_nil, or_false] at hc
  rcases hc with rfl | rfl | rfl | rfl <;> simp [Ex.c1, Ex.c2, e3, e4, Ex.createF, Body.isBinary]

theorem stale4 : Stale Ex.env Hm (fun _ _ => []) ((b!"e3", [b!"c1"]) :: graph2) ((b!"e3", [b!"c1"]) :: graph2) [Ex.c1, Ex.c2, e3] e4 [] :=
  ⟨isort_sortsHunks, fun _ _ _ => .refl _, hm_ok, hm_blame, by decide, .refl _, rfl, by decide, by decide⟩

theorem hm_log : LogOf Hm (Hm.flatMap Ex.entries) := by
  refine log_of_entries _ ?_
  intro c hc
  simp only [Hm, List.mem_cons, List.not_mem_nil, or_false] at hc
  rcases hc with rfl | rfl | rfl | rfl
  · exact Ex.printed _ (by simp [Ex.H])
  · exact Ex.printed _ (by simp [Ex.H])
  · exact .inl ⟨by decide, _, _, rfl, ⟨Ex.entryOf_ok (by decide) (by simp) (by decide) (by simpa [e3] using okh), rfl, rfl, rfl⟩, rfl⟩
  · refine .inr ⟨by decide, ?_⟩
    unfold MergeEntries
    have hf : (e4.parents.zip e4.diffs).filter (fun x => !x.2.isEmpty) = e4.parents.zip e4.diffs := rfl
    simp only [hf]
    rw [if_neg (by simp [e4])]
    refine ⟨rfl, ?_⟩
    intro x hx
    simp only [e4, Ex.entries, List.zip_cons_cons, List.zip_nil_right, List.map_cons, List.map_nil, List.length_cons, List.length_nil,
      Nat.reduceAdd, Nat.reduceLeDiff, if_false, List.mem_cons, List.not_mem_nil, or_false] at hx
    rcases hx with rfl | rfl
    · exact ⟨Ex.entryOf_ok (by decide) (by simp; decide) (by decide) (by simpa using okh), rfl, rfl, rfl⟩
    · exact ⟨Ex.entryOf_ok (by decide) (by simp; decide) (by decide) (by simpa using Ex.ok2), rfl, rfl, rfl⟩

/-- The hypotheses of `C89_merge_repeated` are met: there are two results for the merge. -/
example : ∃ log, parseLog (logText (Hm.flatMap Ex.entries)) = .ok log ∧
    let out := run Ex.env {} (fun _ => .ok []) (Graph.newFromMap ((b!"e3", [b!"c1"]) :: graph2) ((b!"e3", [b!"c1"]) :: graph2)) log
    out.fault = none ∧ out.sent.map (·.commit) = [b!"c1", b!"c2", b!"e3", b!"e4", b!"e4"] :=
  C89_merge_repeated stale4 hm_log (by decide) ⟨_, List.mem_cons_self .., by simp⟩ (by simp [e4, Ex.createF, FileChange.Standalone, Kind.prev]) _

/-- `d2`, which makes the file `b` executable, is newer than the graph. -/
theorem staleMode : Stale (ExMode.env true b!"b") (ExMode.hist b!"b") (ExMode.blames b!"b") [(b!"d1", [])] [(b!"d1", [])] [ExMode.x1 b!"b"] (ExMode.x2 b!"b") [] :=
  ⟨isort_sortsHunks, fun _ _ _ => .refl _, ExMode.history_ok (.inl rfl), (ExMode.setting (.inl rfl)).blame, by decide, .refl _, rfl, by decide, by decide⟩

/-- The hypotheses of `C89_mode_change` are met: the file is reported as empty; it has two lines. -/
example : ∃ log, parseLog (logText [Ex.entryOf b!"d1" none [ExMode.binF b!"b"], Ex.entryOf b!"d2" none [ExMode.chmodF b!"b"]]) = .ok log ∧
    let out := run (ExMode.env true b!"b") {} (fun _ => .ok []) (Graph.newFromMap [(b!"d1", [])] [(b!"d1", [])]) log
    out.fault = none ∧ ∃ res, out.sent.getLast? = some res ∧ res.commit = b!"d2" ∧ GoMap.get res.files b!"b" = some { commit := b!"d2", lines := [] } ∧ ((ExMode.x2 b!"b").tree b!"b").isSome :=
  C89_mode_change staleMode (ExMode.log_ok (.inl rfl)) rfl rfl (f := ExMode.chmodF b!"b") (by simp [FileChange.ModeOnly, ExMode.chmodF, Kind.prev, Kind.next]) (List.mem_singleton.2 rfl) ⟨rfl, rfl⟩ _

/-! An empty file `f` is created by `g1`; `g2`, which is newer than the graph, adds two lines to it. -/

def emptyF : FileChange where
  kind := .create b!"f" b!"100644"
  before := []
  after := [b!"index 0000000..e69de29"]
  body := .empty

def growF : FileChange where
  kind := .modify b!"f"
  before := []
  after := [b!"index e69de29..422c2b7 100644"]
  body := .text { segs := [([], [.edit (.add b!"a"), .edit (.add b!"b")])], tail := [] } (fun _ => [])

def y1 : HCommit where
  hash := b!"g1"
  parents := []
  tree := Ex.assocTree [(b!"f", [])]
  diffs := [[emptyF]]

def y2 : HCommit where
  hash := b!"g2"
  parents := [b!"g1"]
  tree := Ex.assocTree [(b!"f", [b!"a", b!"b"])]
  diffs := [[growF]]

theorem okE : emptyF.Ok :=
  ⟨⟨by decide, by decide, by decide⟩, by simp [emptyF], by simp only [emptyF, List.mem_singleton, forall_eq]; exact ⟨by decide, Or.inl ⟨_, rfl⟩⟩, trivial, by decide⟩
theorem okG : growF.Ok :=
  ⟨by show NameOk _; decide, by simp [growF], by simp only [growF, List.mem_singleton, forall_eq]; exact ⟨by decide, Or.inl ⟨_, rfl⟩⟩, ⟨by decide, by decide⟩, by decide⟩

theorem dE : Describes emptyTree y1.tree [emptyF] :=
  Ex.describes_assoc (o := []) (by simpa using okE) (by simp [emptyF, Kind.prev]) (by decide) (by simp only [List.mem_singleton, forall_eq]; rfl) (by decide) (by decide) (by simp) (by decide)
theorem dG : Describes y1.tree y2.tree [growF] :=
  Ex.describes_assoc (by simpa using okG) (by decide) (by decide) (by simp only [List.mem_singleton, forall_eq]; exact ⟨rfl, rfl, by decide⟩) (by decide) (by decide) (by simp) (by decide)

theorem grow_ok : History.Ok [] [y1, y2] := by
  refine ⟨⟨by simp, by simp [y1], by simp [y1], Ex.pathsOk rfl (by decide), fun _ => ⟨_, rfl, dE⟩, fun h => absurd rfl h, by simp [y1]⟩, ?_⟩
  refine ⟨⟨by simp [y1, y2], by simp [y1, y2], by simp [y1, y2], Ex.pathsOk rfl (by decide), fun h => absurd h (by simp [y2]), fun _ => rfl, ?_⟩, trivial⟩
  intro x hx
  simp only [y2, List.zip_cons_cons, List.zip_nil_right, List.mem_singleton] at hx
  subst hx
  exact dG

theorem grow_blame : BlameWorks [y1, y2] (fun _ _ => []) Ex.env.blameOut := by
  refine ⟨?_, by simp⟩
  rintro c _ p n _ ⟨_, q, _, f, _, _, _, _, hb, _⟩
  refine absurd hb (no_binary ?_ _ _)
  intro c hc
  simp only [List.mem_cons, List.not_mem_nil, or_false] at hc
  rcases hc with rfl | rfl <;> simp [y1, y2, emptyF, growF, Body.isBinary]

theorem staleGrow : Stale Ex.env [y1, y2] (fun _ _ => []) [(b!"g1", [])] [(b!"g1", [])] [y1] y2 [] :=
  ⟨isort_sortsHunks, fun _ _ _ => .refl _, grow_ok, grow_blame, by decide, .refl _, rfl, by decide, by decide⟩

theorem grow_log : LogOf [y1, y2] [Ex.entryOf b!"g1" none [emptyF], Ex.entryOf b!"g2" none [growF]] := by
  have e1 : EntryFor y1 none [emptyF] (Ex.entryOf b!"g1" none [emptyF]) :=
    ⟨Ex.entryOf_ok (hash := b!"g1") (by decide) (by simp) (show 7 + 2 < logMaxLine by decide) (by simpa using okE), rfl, rfl, rfl⟩
  have e2 : EntryFor y2 none [growF] (Ex.entryOf b!"g2" none [growF]) :=
    ⟨Ex.entryOf_ok (hash := b!"g2") (by decide) (by simp) (show 7 + 2 < logMaxLine by decide) (by simpa using okG), rfl, rfl, rfl⟩
  exact .cons (c := y1) (.inl ⟨by simp [HCommit.Regular, y1], _, _, rfl, e1, rfl⟩)
    (.cons (c := y2) (.inl ⟨by simp [HCommit.Regular, y2], _, _, rfl, e2, rfl⟩) .nil)

theorem grow_from : growF.FromEmpty := ⟨by decide, rfl, _, _, rfl, rfl⟩

/-- The hypotheses of `C89_from_empty` are met. -/
example : ∃ log, parseLog (logText [Ex.entryOf b!"g1" none [emptyF], Ex.entryOf b!"g2" none [growF]]) = .ok log ∧
    let out := run Ex.env {} (fun _ => .ok []) (Graph.newFromMap [(b!"g1", [])] [(b!"g1", [])]) log
    out.fault = none ∧ ∃ res b, out.sent.getLast? = some res ∧ res.commit = b!"g2" ∧ GoMap.get res.files b!"f" = some b ∧ AllNew b!"g2" [b!"a", b!"b"] b :=
  C89_from_empty staleGrow grow_log rfl rfl (f := growF) (by simpa using Or.inr (Or.inr grow_from)) (List.mem_singleton.2 rfl) grow_from _

/-- And those of `C89_damaged_checkpoint`, with an empty file to which lines are added: all results are right. -/
example : ∃ log, parseLog (logText [Ex.entryOf b!"g1" none [emptyF], Ex.entryOf b!"g2" none [growF]]) = .ok log ∧
    ∃ R rs, run Ex.env {} (fun _ => .ok []) (Graph.newFromMap [(b!"g1", [])] [(b!"g1", [])]) log = { sent := rs, fault := none, written := some (R, b!"g2") } ∧
      ∀ (i : Nat) x res, [y1, y2][i]? = some x → rs[i]? = some res → ResultOk [y1, y2] (fun _ _ => []) x res := by
  have hnb : ¬ IsBin [y1, y2] b!"g1" b!"f" := by
    refine no_binary ?_ _ _
    intro c hc
    simp only [List.mem_cons, List.not_mem_nil, or_false] at hc
    rcases hc with rfl | rfl <;> simp [y1, y2, emptyF, growF, Body.isBinary]
  obtain ⟨log, h1, R, rs, h2, _, h3, _⟩ := C89_damaged_checkpoint staleGrow grow_log rfl rfl (by simpa using Or.inr ⟨grow_from, hnb⟩) (fun _ => .ok [])
  exact ⟨log, h1, R, rs, h2, h3⟩

end ExStale

end Ripsrc
