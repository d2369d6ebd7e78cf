import Verif.Lib.Unattributed
import Verif.Lib.Ran
import Verif.Props.Stored
import Verif.Props.BrokenLog
import Verif.Props.Parse
import Verif.Props.Missing
import Verif.Props.ExHistory
/-!
# C76: settings of the user that change what git prints
-/
namespace Ripsrc
open Spec

/-! ## `log.decorate` -/

/-- The commit line with decoration. -/
theorem parseCommitLine_decorated {e : LogEntry} (h : e.Ok) {names : Str} (hlen : e.from? = none → 5 ≤ names.length) (p : LogParser) :
    p.parseCommitLine (e.commitLine ++ b!" (" ++ names ++ b!")") =
      .ok { p with commit := { (decoratedMeaning e (some names)) with changes := [] }, state := .parentsNext } := by
  have key : ∀ t : Str, 7 ≤ t.length → ∀ q : LogParser, q.parseCommitLine (b!"commit " ++ e.hash ++ 32 :: t) =
      .ok { q with commit := { hash := e.hash, mergeDiffFrom := (t.drop 6).dropLast }, state := .parentsNext } := by
    intro t ht q
    unfold LogParser.parseCommitLine
    have hs : startsWith (b!"commit " ++ e.hash ++ 32 :: t) b!"commit " = true := by simp [startsWith]
    have hd : (b!"commit " ++ e.hash ++ 32 :: t).drop 7 = e.hash ++ 32 :: t := by
      rw [List.append_assoc, List.drop_append_of_le_length (by decide)]
      rfl
    have hcn : (e.hash ++ 32 :: t).contains 32 = true := by simp
    simp only [hs, hd, idxOf_append _ _ h.hash.2.1, hcn, Bool.true_eq_false, if_false]
    have : ((e.hash ++ 32 :: t).drop (e.hash.length + 1)) = t := by
      rw [List.drop_append, List.drop_eq_nil_of_le (by omega)]
      simp
    rw [this, if_neg (by omega), List.take_left]
  unfold LogEntry.commitLine
  cases hf : e.from? with
  | none =>
    have e1 : b!"commit " ++ e.hash ++ [] ++ b!" (" ++ names ++ b!")" = b!"commit " ++ e.hash ++ 32 :: (40 :: (names ++ b!")")) := by simp
    have hl := hlen hf
    simp only [e1]
    rw [key _ (by simp; omega)]
    have e2 : ((40 :: (names ++ b!")")).drop 6).dropLast = names.drop 5 := by
      have : (40 :: (names ++ b!")")).drop 6 = names.drop 5 ++ b!")" := by
        rw [List.drop_succ_cons, List.drop_append_of_le_length hl]
      rw [this, List.dropLast_concat]
    rw [e2]
    simp [decoratedMeaning, hf, LogEntry.meaning]
  | some q =>
    have e1 : b!"commit " ++ e.hash ++ (b!" (from " ++ q ++ b!")") ++ b!" (" ++ names ++ b!")" = b!"commit " ++ e.hash ++ 32 :: (b!"(from " ++ q ++ b!") (" ++ names ++ b!")") := by simp
    simp only [e1]
    rw [key _ (by simp; omega)]
    have e2 : ((b!"(from " ++ q ++ b!") (" ++ names ++ b!")").drop 6).dropLast = q ++ b!") (" ++ names := by
      have : (b!"(from " ++ q ++ b!") (" ++ names ++ b!")").drop 6 = (q ++ b!") (" ++ names) ++ b!")" := by simp
      rw [this, List.dropLast_concat]
    rw [e2]
    simp [decoratedMeaning, hf, LogEntry.meaning]

/-- The lines after the commit line. -/
theorem entry_tail_fold {e : LogEntry} (h : e.Ok) {p : LogParser} (hs : p.state = .parentsNext) (hc : p.commit.changes = []) :
    ∃ p', (e.lines.tail.map dropCR).foldlM LogParser.line p = .ok p' ∧ Pending p' p.out { p.commit with changes := e.meaning.changes } := by
  have h3 := skip_fold (MsgLine.blank :: e.message) { p with state := .skippingMessageDiffOrCommitNext } rfl
  obtain ⟨M, e0, h2⟩ : ∃ M, e.lines.tail = M ++ (MsgLine.blank :: e.message).map MsgLine.render ++ (if e.diffs = [] then [] else [] :: e.diffs.flatten) ∧
      (M.map dropCR).foldlM LogParser.line p = .ok { p with state := .skippingMessageDiffOrCommitNext } := by
    refine ⟨_, ?_, merge_author (e := e) p hs⟩
    simp only [LogEntry.lines, List.append_assoc, List.map_cons, MsgLine.render, List.singleton_append, List.tail_cons]
    rfl
  rw [e0]
  rw [List.map_append, List.foldlM_append, List.map_append, List.foldlM_append, h2]
  simp only [bind, Except.bind]
  rw [h3]
  simp only
  cases hd : e.diffs with
  | nil =>
    simp only [if_true, List.map_nil, List.foldlM_nil]
    refine ⟨_, rfl, rfl, Or.inl ⟨rfl, by simp [LogEntry.meaning, hd], ?_⟩⟩
    show p.commit = _
    rw [show e.meaning.changes = p.commit.changes by simp [LogEntry.meaning, hd, hc]]
  | cons d0 ds =>
    have hds := h.diffs
    rw [hd] at hds
    obtain ⟨a, tl, rfl, ⟨r, hr, hr2⟩, htl⟩ := diff_first (hds d0 (by simp))
    simp only [reduceCtorEq, if_false, List.flatten_cons, List.map_cons, List.foldlM_cons, List.cons_append, List.map_append,
      List.foldlM_append]
    have hblank : LogParser.line { p with state := .skippingMessageDiffOrCommitNext } (dropCR []) = .ok { p with state := .skippingMessageDiffOrCommitNext } := rfl
    have hstart : LogParser.line { p with state := .skippingMessageDiffOrCommitNext } (dropCR a) = .ok { p with state := .inDiff, diff := dropCR a ++ [10] } := by
      rw [hr]
      simp [LogParser.line, hr2, LogParser.startDiff]
    rw [hblank]
    simp only [bind, Except.bind]
    rw [hstart]
    simp only
    rw [diff_body tl htl _ rfl]
    simp only
    obtain ⟨p', g1, g2, g3, g4⟩ := diffs_fold ds (fun x hx => hds x (by simp [hx]))
      { p with state := .inDiff, diff := dropCR a ++ [10] ++ unlines (tl.map dropCR) } rfl
    refine ⟨p', g1, g3, Or.inr ⟨g2, ?_⟩⟩
    rw [g4]
    simp [LogParser.endDiff, LogEntry.meaning, hd, hc]

theorem ready_of_parse {b : Str} {m : LogCommit} (hm : ∀ q : LogParser, q.parseCommitLine (b!"commit " ++ b) = .ok { q with commit := m, state := .parentsNext })
    {p : LogParser} {out : List LogCommit} (hr : Ready p out) :
    ∃ d, p.line (b!"commit " ++ b) = .ok { commit := m, state := .parentsNext, out := out, diff := d } := by
  refine ⟨p.diff, ?_⟩
  rcases hr with ⟨h1, rfl⟩ | ⟨h1, rfl⟩ | ⟨h1, rfl⟩
  · unfold LogParser.line; rw [h1]; exact hm p
  · unfold LogParser.line; rw [h1]; exact hm p
  · have hs : startsWith (b!"commit " ++ b) b!"commit " = true := startsWith_append _ _
    have hd : isDiffStart (b!"commit " ++ b) = false := commit_not_diff _
    have hr : b!"commit " ++ b = 99 :: (b!"ommit " ++ b) := rfl
    unfold LogParser.line
    rw [h1]
    simp only [hr] at hs hd ⊢
    have hsp : ¬ ((99 : UInt8) = 32) := by decide
    simp only [if_neg hsp, hd, hs, if_true, Bool.false_eq_true, if_false]
    rw [← hr, hm]
    simp [LogParser.endCommit, h1]

/-- What an entry, decorated or not, must be. -/
def DecoratedOk (x : LogEntry × Option Str) : Prop :=
  x.1.Ok ∧ ∀ names, x.2 = some names → NamesOk x.1 names ∧ (x.1.from? = none → 5 ≤ names.length)

theorem commitLine_split (e : LogEntry) : ∃ b, e.commitLine = b!"commit " ++ b := by
  unfold LogEntry.commitLine
  rw [List.append_assoc]; exact ⟨_, rfl⟩

theorem decorated_fold {x : LogEntry × Option Str} (h : DecoratedOk x) {p : LogParser} {out : List LogCommit} (hr : Ready p out) :
    ∃ p', ((decorated x.1 x.2).map dropCR).foldlM LogParser.line p = .ok p' ∧ Pending p' out (decoratedMeaning x.1 x.2) := by
  obtain ⟨e, o⟩ := x
  cases o with
  | none => exact entry_fold h.1 hr
  | some names =>
    obtain ⟨hn, hlen⟩ := h.2 names rfl
    have hcr : dropCR (e.commitLine ++ b!" (" ++ names ++ b!")") = e.commitLine ++ b!" (" ++ names ++ b!")" := by
      apply dropCR_of_ne
      rw [List.getLast?_append]; simp
    obtain ⟨b, hb⟩ := commitLine_split e
    have hpc := parseCommitLine_decorated h.1 hlen
    have hb' : e.commitLine ++ b!" (" ++ names ++ b!")" = b!"commit " ++ (b ++ b!" (" ++ names ++ b!")") := by rw [hb]; simp
    obtain ⟨d, hl⟩ := ready_of_parse (b := b ++ b!" (" ++ names ++ b!")") (m := { (decoratedMeaning e (some names)) with changes := [] })
      (by intro q; rw [← hb']; exact hpc q) hr
    simp only [decorated, List.map_cons, List.foldlM_cons]
    rw [hcr, hb', hl]
    simp only [bind, Except.bind]
    exact entry_tail_fold h.1 rfl rfl

theorem joinBlank_cons (b : List Str) (bs : List (List Str)) (h : bs ≠ []) : joinBlank (b :: bs) = b ++ [[]] ++ joinBlank bs := by
  cases bs with
  | nil => exact absurd rfl h
  | cons _ _ => rfl

theorem decorated_log_fold (es : List (LogEntry × Option Str)) (hes : es ≠ []) (h : ∀ x ∈ es, DecoratedOk x) {p : LogParser} {out : List LogCommit} (hr : Ready p out) :
    ∃ p', ((joinBlank (es.map (fun x => decorated x.1 x.2))).map dropCR).foldlM LogParser.line p = .ok p' ∧ p'.state ≠ .notStarted ∧
      p'.endCommit.out = out ++ es.map (fun x => decoratedMeaning x.1 x.2) := by
  induction es generalizing p out with
  | nil => exact absurd rfl hes
  | cons x es ih =>
    obtain ⟨p1, g1, g2⟩ := decorated_fold (h x (by simp)) hr
    cases es with
    | nil =>
      obtain ⟨k1, k2⟩ := pending_end g2
      exact ⟨p1, g1, k1, by simpa using k2⟩
    | cons e2 es =>
      obtain ⟨p2, k1, k2⟩ := pending_blank g2
      obtain ⟨p3, l1, l2, l3⟩ := ih (by simp) (fun x hx => h x (by simp [hx])) k2
      refine ⟨p3, ?_, l2, by rw [l3]; simp⟩
      rw [List.map_cons, joinBlank_cons _ _ (by simp)]
      simp only [List.map_append, List.foldlM_append, g1, List.map_cons, List.map_nil, List.foldlM_cons,
        List.foldlM_nil, bind, Except.bind, k1, pure, Except.pure] at l1 ⊢
      exact l1

theorem joinBlank_mem {bs : List (List Str)} {l : Str} (h : l ∈ joinBlank bs) : l = [] ∨ ∃ b ∈ bs, l ∈ b := by
  induction bs with
  | nil => cases h
  | cons b bs ih =>
    cases bs with
    | nil => exact .inr ⟨b, by simp, h⟩
    | cons c bs =>
      rw [joinBlank_cons _ _ (by simp)] at h
      rcases List.mem_append.1 h with h | h
      · rcases List.mem_append.1 h with h | h
        · exact .inr ⟨b, by simp, h⟩
        · exact .inl (List.mem_singleton.1 h)
      · rcases ih h with h | ⟨x, hx, h⟩
        · exact .inl h
        · exact .inr ⟨x, List.mem_cons_of_mem _ hx, h⟩

theorem decorated_lines_ok {x : LogEntry × Option Str} (h : DecoratedOk x) : ∀ l ∈ decorated x.1 x.2, NoNL l ∧ l.length < logMaxLine := by
  obtain ⟨e, o⟩ := x
  have he := entry_lines_ok h.1
  cases o with
  | none => exact he
  | some names =>
    obtain ⟨hn, _⟩ := h.2 names rfl
    intro l hl
    rcases List.mem_cons.1 hl with rfl | hl
    · have hc := he e.commitLine (by simp [LogEntry.lines])
      refine ⟨?_, ?_⟩
      · have h1 := hc.1
        have h2 := hn.nonl
        unfold NoNL at h1 h2 ⊢
        simp only [List.mem_append, not_or]
        exact ⟨⟨⟨h1, by decide⟩, h2⟩, by decide⟩
      · have := hn.short
        simp only [List.length_append, List.length_cons, List.length_nil]
        simp only at this
        omega
    · exact he l (List.mem_of_mem_tail hl)

/-- **C76 (decorated log).** With `log.decorate` set, the log is read completely, with the right hashes and file diffs, as long as the names shown for an entry that is not
of a merge have at least five characters; but where there are names the parent of the entry is misread. -/
theorem C76_decorated_log (es : List (LogEntry × Option Str)) (h : ∀ x ∈ es, DecoratedOk x) :
    parseLog (unlines (joinBlank (es.map (fun x => decorated x.1 x.2)))) = .ok (es.map (fun x => decoratedMeaning x.1 x.2)) := by
  have hl : ∀ l ∈ joinBlank (es.map (fun x => decorated x.1 x.2)), NoNL l ∧ l.length < logMaxLine := by
    intro l hl
    rcases joinBlank_mem hl with rfl | ⟨b, hb, hlb⟩
    · exact ⟨by simp [NoNL], by decide⟩
    · obtain ⟨x, hx, rfl⟩ := List.mem_map.1 hb
      exact decorated_lines_ok (h x hx) l hlb
  unfold parseLog
  rw [scan_unlines _ _ (fun l hl' => (hl l hl').1) (fun l hl' => (hl l hl').2)]
  cases es with
  | nil => rfl
  | cons e es =>
    obtain ⟨p, h1, h2, h3⟩ := decorated_log_fold (e :: es) (by simp) h (p := {}) (out := []) (Or.inl ⟨rfl, rfl⟩)
    simp only [h1, bind, Except.bind, Bool.false_eq_true, if_false, if_pos h2, h3, List.nil_append]

/-- **C76 (short names).** If the names shown for an entry that is not of a merge have fewer than five characters - a branch `dev`, a tag `v1` - the log parser panics; it
has sent the commits before. -/
theorem C76_short_names (es : List LogEntry) (hne : es ≠ []) (h : ∀ e ∈ es, e.Ok) (e : LogEntry) (he : e.Ok) (hreg : e.from? = none) (names : Str) (hn : NamesOk e names)
    (hshort : names.length < 5) (hcr : 13 ∉ names) (more : List Str) (hmore : ∀ l ∈ more, NoNL l ∧ l.length < logMaxLine) :
    ∃ why, parseSent (unlines (logLines es ++ [[]] ++ decorated e (some names) ++ more)) = (es.map LogEntry.meaning, some (.panic why)) := by
  have e1 : e.commitLine ++ b!" (" ++ names ++ b!")" = b!"commit " ++ e.hash ++ 32 :: (b!"(" ++ names ++ b!")") := by
    simp [LogEntry.commitLine, hreg]
  have e2 : logLines es ++ [[]] ++ decorated e (some names) ++ more =
      logLines es ++ [[]] ++ (b!"commit " ++ e.hash ++ 32 :: (b!"(" ++ names ++ b!")")) :: (e.lines.tail ++ more) := by
    simp only [decorated]
    rw [e1]
    simp only [List.append_assoc (logLines es ++ [[]]), List.cons_append (bs := more)]
  rw [e2]
  refine C56_broken_commit_line es hne h e.hash (b!"(" ++ names ++ b!")") _ he.hash.2.1 (by simp; omega) (by simp [hcr]) ?_
  intro l hl
  rcases List.mem_cons.1 hl with rfl | hl
  · rw [← e1]
    refine ⟨?_, ?_⟩
    · have h1 := (entry_lines_ok he e.commitLine (by simp [LogEntry.lines])).1
      have h2 := hn.nonl
      unfold NoNL at h1 h2 ⊢
      simp only [List.mem_append, not_or]
      exact ⟨⟨⟨h1, by decide⟩, h2⟩, by decide⟩
    · have := hn.short
      simp only [List.length_append, List.length_cons, List.length_nil]
      omega
  · rcases List.mem_append.1 hl with hl | hl
    · exact entry_lines_ok he l (List.mem_of_mem_tail hl)
    · exact hmore l hl

/-! ## The parent of an entry -/

theorem commit_congr {env : Env} {g : Graph} {log : List LogCommit} {s : Proc} {a b : LogCommit} (hs : Along (fun _ _ => True) g log s) (h : SameButFrom g a b) :
    s.commit env a = s.commit env b := by
  obtain ⟨h1, h2, h3⟩ := h
  by_cases hm : 1 < (g.parentsOf a.hash).length
  · have : a = b := by
      cases a; cases b
      simp only at h1 h2 h3 hm
      subst h1 h2
      rw [h3 hm]
    rw [this]
  · have hn : ∀ t : Proc, t.graph = g → t.newCommit env a = t.newCommit env b := by
      intro t ht
      have hpar : t.parents a.hash = g.parentsOf a.hash := by simp only [Proc.parents, ht]; rfl
      unfold Proc.newCommit
      rw [← h1, ← h2, hpar, if_neg (by omega), if_neg (by omega)]
    unfold Proc.commit
    by_cases hl : s.mergeParts.length > 0
    · rw [if_pos hl, if_pos hl]
      have hne : s.mergePartsCommit ≠ a.hash := by
        intro he
        have := hs.pending hl
        rw [he] at this
        exact hm this
      rw [if_neg hne, if_neg (h1 ▸ hne)]
      cases hf : s.finishMerge env with
      | error e => rfl
      | ok t => simp only [hn t ((finishMerge_sent hf).2.1.trans hs.graph)]
    · rw [if_neg hl, if_neg hl, hn s hs.graph]

/-- **C76 (regular commits).** The parent that the log names matters for merges only: two logs with the same commits and changes, and the same parents named for merges,
give the same run. In particular decorations of commits that are not merges change nothing. -/
theorem C76_regular_unaffected {env : Env} {opts : RunOpts} {read : Str → Go Repo} {g : Graph} {l1 l2 : List LogCommit} (hlen : l1.length = l2.length)
    (h : ∀ (i : Nat) a b, l1[i]? = some a → l2[i]? = some b → SameButFrom g a b) : run env opts read g l1 = run env opts read g l2 := by
  have key : ∀ (l1 l2 : List LogCommit) (s : Proc), l1.length = l2.length → (∀ (i : Nat) a b, l1[i]? = some a → l2[i]? = some b → SameButFrom g a b) →
      Along (fun _ _ => True) g s.mergeParts.unzip.2 s → s.loop env l1 = s.loop env l2 := by
    intro l1
    induction l1 with
    | nil =>
      intro l2 s hlen _ _
      cases l2 with
      | nil => rfl
      | cons _ _ => simp at hlen
    | cons a l1 ih =>
      intro l2 s hlen h hs
      cases l2 with
      | nil => simp at hlen
      | cons b l2 =>
        have hab := h 0 a b rfl rfl
        unfold Proc.loop
        rw [commit_congr hs hab]
        cases hc : s.commit env b with
        | mk s' e =>
          cases e with
          | some e => rfl
          | none =>
            refine ih l2 s' (by simpa using hlen) (fun i x y hx hy => h (i + 1) x y hx hy) ?_
            have ha := commit_along (I := fun _ _ => True) (log := b :: s.mergeParts.unzip.2) (fun _ => trivial) (fun _ _ _ _ _ _ _ _ _ => trivial)
              (fun _ _ _ _ _ _ _ _ _ _ => trivial) ⟨hs.graph, hs.repo, hs.pending, fun q e he => ⟨List.mem_cons_of_mem _ (hs.parts q e he).1, (hs.parts q e he).2⟩⟩
              List.mem_cons_self hc
            refine ⟨ha.graph, ha.repo, ha.pending, fun q e he => ⟨?_, (ha.parts q e he).2⟩⟩
            rw [List.unzip_snd]
            exact List.mem_map.2 ⟨_, GoMap.mem_of_get he, rfl⟩
  cases l1 with
  | nil =>
    cases l2 with
    | nil => rfl
    | cons _ _ => simp at hlen
  | cons a l1 =>
    cases l2 with
    | nil => simp at hlen
    | cons b l2 =>
      unfold run
      cases hi : initCheckpoints opts read with
      | error e => rfl
      | ok R0 =>
        simp only
        rw [key (a :: l1) (b :: l2) { graph := g, repo := R0 } hlen h ⟨rfl, fun _ => trivial, by simp, by intro q e he; simp at he⟩]

/-- The parent misread from a decorated entry of a merge is none of the commits: it contains a space. -/
theorem C76_decorated_parent (e : LogEntry) (names p : Str) (h : e.from? = some p) : (32 : UInt8) ∈ (decoratedMeaning e (some names)).mergeDiffFrom := by
  simp [decoratedMeaning, h]

/-- **C76 (merge, taken over).** No entry of a merge names one of its parents (decorated log, or `log.diffMerges=first-parent` where no parent is named). If a parent other than the
first has the file, then the merge takes over the version of the first such parent and reports no change of the file - whatever the diffs against the parents are. -/
theorem C76_merge_taken_over {env : Env} (horder : ∀ n k l, (env.order n k l).Perm l) {n : Nat} {repo r : Repo} {hash p1 k : Str} {rest : List Str}
    {parts : GoMap Str LogCommit} {res : Result} (hparts : ∀ q ∈ GoMap.keys parts, q ∉ p1 :: rest) (hne : hash ∉ p1 :: rest) (hrest : rest ≠ [])
    (hpl : PlainChange repo parts p1 k) (h : processMergeCommit env n repo hash (p1 :: rest) parts = .ok (r, res)) :
    ∃ b, firstStored repo k rest = some b ∧ (∃ fs, GoMap.get r hash = some fs ∧ GoMap.get fs k = some b) ∧ GoMap.get res.files k = none :=
  merge_first horder hparts hne hrest hpl h

/-- **C76 (merge, failure).** A run from the beginning, a merge none of whose entries names one of its two parents, and a file that the merge creates relative to one parent while
neither the second parent nor an ancestor of it has written that path (so it comes from the first parent's side): the run fails. -/
theorem C76_merge_fails {env : Env} (horder : ∀ n k l, (env.order n k l).Perm l) {opts : RunOpts} (hopts : opts.commitFromIncl = []) {read : Str → Go Repo} {g : Graph}
    (hself : ∀ h, h ∉ g.parentsOf h) {log : List LogCommit} {e : LogCommit} (he : e ∈ log) {p1 p2 k : Str} (hpar : g.parentsOf e.hash = [p1, p2])
    (hfrom : ∀ x ∈ log, x.hash = e.hash → x.mergeDiffFrom ≠ p1 ∧ x.mergeDiffFrom ≠ p2)
    (hk : k ≠ [] ∧ ¬ deletedPrefix <+: k)
    (hcreate : ∀ x ∈ log, x.hash = e.hash → x.mergeDiffFrom = e.mergeDiffFrom → WritesPath x k)
    (hall : ∀ x ∈ log, x.hash = e.hash → ∀ ch ∈ x.changes, ∀ d, parseDiff ch = .ok d → d.path = k → d.pathPrev = [] ∧ d.isBinary = false)
    (hdel : ∀ x ∈ log, x.hash = e.hash → ¬ RemovesPath x k)
    (hside : ∀ a, g.Reach p2 a → ∀ x ∈ log, x.hash = a → ¬ WritesPath x k) :
    (run env opts read g log).fault ≠ none := by
  intro hf
  have hinit : initCheckpoints opts read = .ok [] := by simp [initCheckpoints, hopts]
  obtain ⟨n, repo, parts, r, res, e2, hI, hp, he2, hm, _⟩ := run_ran (I := FromAncestor g log) (fun h f fs hfs => by cases hfs) (fromAncestor_reg horder hself)
    (fromAncestor_mer horder hself) hinit (fun h f fs hfs => by cases hfs) hf e he (by rw [hpar]; simp)
  rw [hpar] at hm
  have hpl : PlainChange repo parts p1 k := by
    refine ⟨?_, ?_, hk, ?_, ?_⟩
    · obtain ⟨a, b, c⟩ := hp _ _ he2
      obtain ⟨_, ch, hch, d, hd, hdk⟩ := hcreate e2 a b c
      exact ⟨d, ⟨_, e2, he2, ch, hch, hd⟩, hdk⟩
    · rintro d ⟨q, x, hx, ch, hch, hd⟩ hpath hprev
      obtain ⟨a, b, _⟩ := hp q x hx
      exact hdel x a b ⟨ch, hch, d, hd, hpath, hprev⟩
    · rintro d ⟨q, x, hx, ch, hch, hd⟩ hpath
      obtain ⟨a, b, _⟩ := hp q x hx
      exact (hall x a b ch hch d hd hpath).2
    · rintro d ⟨q, x, hx, ch, hch, hd⟩ hpath hprev
      obtain ⟨a, b, _⟩ := hp q x hx
      exact absurd (hall x a b ch hch d hd hpath).1 hprev
  obtain ⟨b, hb, _⟩ := merge_first horder (k := k) (by
      intro q hq
      cases hg : GoMap.get parts q with
      | none => exact absurd hq ((GoMap.get_eq_none_iff _ _).1 hg)
      | some x =>
        obtain ⟨a, b, c⟩ := hp q x hg
        have := hfrom x a b
        rw [c] at this
        simpa using this) (by rw [← hpar]; exact hself _) (by simp) hpl hm
  simp only [firstStored] at hb
  cases hg : GoMap.get repo p2 with
  | none => rw [hg] at hb; cases hb
  | some fs =>
    rw [hg] at hb
    simp only [Option.bind_some] at hb
    cases hk2 : GoMap.get fs k with
    | none => rw [hk2] at hb; cases hb
    | some b' =>
      obtain ⟨a, ha, x, hx, hxa, hw⟩ := hI p2 k fs hg ((GoMap.get_isSome_iff _ _).1 (by rw [hk2]; rfl))
      exact hside a ha x hx hxa hw

/-! ## `diff.noprefix`, `diff.srcPrefix`, `diff.dstPrefix` -/

theorem decl_with (s d p q : Str) : (declLineWith s d p q).drop 11 = (s ++ p) ++ 32 :: (d ++ q) ∧ startsWith (declLineWith s d p q) b!"diff --git " = true := by
  have e : declLineWith s d p q = b!"diff --git " ++ ((s ++ p) ++ 32 :: (d ++ q)) := by simp [declLineWith]
  rw [e]
  exact ⟨rfl, startsWith_append _ _⟩

/-- **C76 (other prefixes).** If the first name is not printed with the prefix `a/` (and not in quotes) and the names have no spaces, reading the diff panics. -/
theorem C76_prefix_panics (s d p q : Str) (hsp : (32 : UInt8) ∉ s ++ p) (hsq : (32 : UInt8) ∉ d ++ q) (ha : ¬ b!"a/" <+: s ++ p) (hquote : (s ++ p).head? ≠ some 34)
    (hcr : (13 : UInt8) ∉ q) (hq : q ≠ []) (ls : List Str) (hok : ∀ l ∈ declLineWith s d p q :: ls, NoNL l ∧ l.length < incMaxLine) :
    ∃ w, parseDiff (unlines (declLineWith s d p q :: ls)) = .error (.panic w) := by
  obtain ⟨h1, h2⟩ := decl_with s d p q
  have hdecl : parseDiffDecl (declLineWith s d p q) = .error .invalid := by
    unfold parseDiffDecl
    rw [if_neg (by simp [declLineWith]), h2, h1]
    have hc : ((s ++ p) ++ 32 :: (d ++ q)).count 32 = 1 := by
      rw [List.count_append, List.count_cons, List.count_eq_zero.2 hsp, List.count_eq_zero.2 hsq]
      decide
    simp only [hc, Bool.true_eq_false, if_false, idxOf_append _ _ hsp, if_true, Nat.one_ne_zero]
    split
    · rfl
    · rw [List.take_left]
      have hrem : remPrefix (s ++ p) b!"a/" = .error .invalid := by
        have hd2 : (if (s ++ p).length ≥ 2 ∧ (s ++ p).head? = some 34 ∧ (s ++ p).getLast? = some 34 then ((s ++ p).drop 1).dropLast else s ++ p) = s ++ p :=
          if_neg (fun h => hquote h.2.1)
        unfold remPrefix
        simp only [hd2]
        rw [if_pos]
        by_cases hl : (s ++ p).length ≤ (b!"a/").length
        · exact .inl hl
        · right
          intro ht
          exact ha ⟨(s ++ p).drop 2, by rw [← ht]; exact List.take_append_drop _ _⟩
      rw [hrem]
  refine ⟨"parseDiffDecl", ?_⟩
  have hcrl : dropCR (declLineWith s d p q) = declLineWith s d p q := by
    have e : declLineWith s d p q = (b!"diff --git " ++ (s ++ p) ++ b!" " ++ d) ++ q := by simp [declLineWith]
    rw [e, dropCR_append _ _ (.inl hq), dropCR_of_not_mem hcr]
  unfold parseDiff
  rw [if_neg (by simp [unlines_cons, declLineWith]), scan_unlines incMaxLine _ (fun l h => (hok l h).1) (fun l h => (hok l h).2)]
  simp only [List.map_cons, List.foldlM_cons, hcrl]
  have hline : ({} : Parser).line (declLineWith s d p q) = .error (.panic "parseDiffDecl") := by
    unfold Parser.line
    simp only [hdecl]
  rw [hline]
  rfl

/-- The paths of a parser that is past the declaration line. -/
def NoPaths (p : Parser) : Prop := p.state ≠ .parseDiff ∧ p.path = [] ∧ p.pathPrev = [] ∧ p.renameFrom = []

theorem noPaths_line {p p' : Parser} {l : Str} (h : NoPaths p) (hl : startsWith l b!"rename from " = false) (hp : p.line l = .ok p') : NoPaths p' := by
  obtain ⟨h1, h2, h3, h4⟩ := h
  unfold Parser.line at hp
  split at hp
  · rename_i hs; exact absurd hs h1
  · split at hp
    · cases hp
      refine ⟨by simpa [Parser.metaLine] using h1, h2, h3, ?_⟩
      have e : b!"rename from" ++ b!" " = b!"rename from " := rfl
      simp only [Parser.metaLine, metaValue, e, hl, h4]
      rfl
    · cases hp; exact ⟨by simp, h2, h3, h4⟩
  · cases hp; exact ⟨by simp, h2, h3, h4⟩
  · have hctx : ∀ {q q' : Parser}, q.path = [] → q.pathPrev = [] → q.renameFrom = [] → q.parseContext l = .ok q' → NoPaths q' := by
      intro q q' a b c h
      unfold Parser.parseContext at h
      obtain ⟨x, _, h⟩ := bind_ok h
      cases h; exact ⟨by simp, a, b, c⟩
    split at hp
    · cases hp; exact ⟨h1, h2, h3, h4⟩
    · split at hp
      · exact hctx h2 h3 h4 hp
      · cases hp; exact ⟨h1, h2, h3, h4⟩
  · unfold Parser.lineInPatchLines at hp
    split at hp
    · unfold Parser.parseContext at hp
      obtain ⟨x, _, hp⟩ := bind_ok hp
      cases hp; exact ⟨by simp, h2, h3, h4⟩
    · cases hp; exact ⟨h1, h2, h3, h4⟩

/-- A diff whose declaration line is not understood because of spaces, and without rename lines, has no path. -/
theorem lost_path (decl : Str) (ls : List Str) (hdecl : parseDiffDecl decl = .error .renameWithSpaces) (hcr : dropCR decl = decl) (hne : decl ≠ [])
    (hren : ∀ l ∈ ls, startsWith (dropCR l) b!"rename from " = false) (hok : ∀ l ∈ decl :: ls, NoNL l ∧ l.length < incMaxLine) {d : Diff}
    (h : parseDiff (unlines (decl :: ls)) = .ok d) : d.path = [] ∧ d.pathPrev = [] := by
  unfold parseDiff at h
  rw [if_neg (by simp [unlines_cons]), scan_unlines incMaxLine _ (fun l h => (hok l h).1) (fun l h => (hok l h).2)] at h
  simp only [List.map_cons, List.foldlM_cons, hcr] at h
  have hline : ({} : Parser).line decl = .ok { ({} : Parser) with state := .preMeta } := by
    unfold Parser.line
    simp only [hdecl]
  rw [hline] at h
  obtain ⟨p, hp, h⟩ := bind_ok h
  have key : ∀ (ls : List Str) (a b : Parser), (∀ l ∈ ls, startsWith (dropCR l) b!"rename from " = false) → NoPaths a →
      (ls.map dropCR).foldlM Parser.line a = .ok b → NoPaths b := by
    intro ls
    induction ls with
    | nil => intro a b _ ha h; cases h; exact ha
    | cons l ls ih =>
      intro a b hr ha h
      simp only [List.map_cons, List.foldlM_cons] at h
      obtain ⟨a1, h1, h2⟩ := bind_ok h
      exact ih a1 b (fun x hx => hr x (List.mem_cons_of_mem _ hx)) (noPaths_line ha (hr l List.mem_cons_self) h1) h2
  obtain ⟨_, n2, n3, n4⟩ := key ls _ _ hren ⟨by simp, rfl, rfl, rfl⟩ hp
  simp only [Bool.false_eq_true, if_false] at h
  unfold Parser.finish Parser.finishHunk at h
  simp only [n2, n3, n4] at h
  have : ∀ (x : Diff), x.path = [] → x.pathPrev = [] → (Except.map (fun d : Diff => if p.binaryFiles ≠ [] then { d with isBinary := true } else d) (.ok x : Go Diff)) = .ok d →
      d.path = [] ∧ d.pathPrev = [] := by
    intro x a b h
    have h' := Except.ok.inj h
    rw [← h']
    split <;> exact ⟨a, b⟩
  refine this _ ?_ ?_ (by simpa using h)
  · repeat' split
    all_goals rfl
  · repeat' split
    all_goals rfl

/-- **C76 (other prefixes, name with a space).** With a name that contains a space, the diff is read without a name, unless it is a rename: the change of the file is
reported as the deletion of a file with the empty name. -/
theorem C76_prefix_space (s d p : Str) (hsp : (32 : UInt8) ∈ p) (ha : ¬ b!"a/" <+: s ++ p) (hcr : (13 : UInt8) ∉ p) (ls : List Str)
    (hren : ∀ l ∈ ls, startsWith (dropCR l) b!"rename from " = false) (hok : ∀ l ∈ declLineWith s d p p :: ls, NoNL l ∧ l.length < incMaxLine) {x : Diff}
    (h : parseDiff (unlines (declLineWith s d p p :: ls)) = .ok x) {env : Env} {hash : Str} {parents : List Str} {st st' : Repo × Files}
    (hst : regularChange env hash parents st (unlines (declLineWith s d p p :: ls)) = .ok st') :
    x.path = [] ∧ x.pathPrev = [] ∧ st'.1 = st.1 ∧ ∀ f, f ≠ [] → GoMap.get st'.2 f = GoMap.get st.2 f := by
  obtain ⟨h1, h2⟩ := decl_with s d p p
  have hp : p ≠ [] := by intro h; rw [h] at hsp; cases hsp
  have hdecl : parseDiffDecl (declLineWith s d p p) = .error .renameWithSpaces := by
    unfold parseDiffDecl
    rw [if_neg (by simp [declLineWith]), h2, h1]
    have hc : 2 ≤ ((s ++ p) ++ 32 :: (d ++ p)).count 32 := by
      have : 1 ≤ p.count 32 := List.count_pos_iff.2 hsp
      simp only [List.count_append, List.count_cons]
      simp
      omega
    simp only [Bool.true_eq_false, if_false]
    rw [if_neg (by omega), if_neg (by omega), if_pos]
    right; right; left
    intro ht
    have hlen : 2 ≤ (s ++ p).length ∨ (s ++ p).length < 2 := by omega
    rcases hlen with hlen | hlen
    · rw [List.take_append_of_le_length hlen] at ht
      exact ha ⟨(s ++ p).drop 2, by rw [← ht]; exact List.take_append_drop _ _⟩
    · -- the name is one byte, a space
      have hpl : 0 < p.length := List.length_pos_iff.2 hp
      have hs0 : s = [] := by
        apply List.length_eq_zero_iff.1
        simp only [List.length_append] at hlen
        omega
      subst hs0
      match p, hsp, hlen with
      | [c], hsp, _ =>
        have hc : c = 32 := (List.mem_singleton.1 hsp).symm
        subst hc
        simp at ht
  have hcrl : dropCR (declLineWith s d p p) = declLineWith s d p p := by
    have e : declLineWith s d p p = (b!"diff --git " ++ (s ++ p) ++ b!" " ++ d) ++ p := by simp [declLineWith]
    rw [e, dropCR_append _ _ (.inl hp), dropCR_of_not_mem hcr]
  obtain ⟨a, b⟩ := lost_path _ ls hdecl hcrl (by simp [declLineWith]) hren hok h
  refine ⟨a, b, ?_⟩
  unfold regularChange at hst
  rw [h] at hst
  simp only [bind, Except.bind, if_pos a] at hst
  split at hst
  · cases hst
    exact ⟨rfl, fun f hf => GoMap.get_set_ne _ _ (by rw [b]; exact fun he => hf he.symm)⟩
  · cases hst
    exact ⟨rfl, fun f hf => GoMap.get_set_ne _ _ (by rw [b]; exact fun he => hf he.symm)⟩

/-! ## `log.diffMerges=dense-combined` -/

/-- **C76 (dense combined diffs).** A `diff --cc` declaration is not understood: reading the diff panics. -/
theorem C76_dense_combined (r : Str) (ls : List Str) (hok : ∀ l ∈ (b!"diff --cc " ++ r) :: ls, NoNL l ∧ l.length < incMaxLine) :
    ∃ w, parseDiff (unlines ((b!"diff --cc " ++ r) :: ls)) = .error (.panic w) := by
  refine ⟨"parseDiffDecl", ?_⟩
  unfold parseDiff
  rw [if_neg (by simp [unlines_cons]), scan_unlines incMaxLine _ (fun l h => (hok l h).1) (fun l h => (hok l h).2)]
  simp only [List.map_cons, List.foldlM_cons]
  rw [dropCR_append _ _ (.inr (by decide))]
  have hdecl : parseDiffDecl (b!"diff --cc " ++ dropCR r) = .error .invalid := by
    unfold parseDiffDecl
    rw [if_neg (by simp)]
    have h1 : startsWith (b!"diff --cc " ++ dropCR r) b!"diff --git " = false := startsWith_diff (a := b!"diff --cc ") 7 99 103 rfl rfl (by decide)
    have h2 : startsWith (b!"diff --cc " ++ dropCR r) b!"diff --combined " = false := startsWith_diff (a := b!"diff --cc ") 8 99 111 rfl rfl (by decide)
    rw [h1, h2]
    rfl
  have hline : ({} : Parser).line (b!"diff --cc " ++ dropCR r) = .error (.panic "parseDiffDecl") := by
    unfold Parser.line
    simp only [hdecl]
  rw [hline]
  rfl

/-! ## `color.ui=always`, `log.showSignature` -/

/-- **C76 (coloured output).** A log whose first line does not start with `commit ` - with colours it starts with an escape sequence - is not read at all. -/
theorem C76_coloured (first : Str) (ls : List Str) (hfirst : startsWith (dropCR first) b!"commit " = false) (hok : ∀ l ∈ first :: ls, NoNL l ∧ l.length < logMaxLine) :
    ∃ why, parseSent (unlines (first :: ls)) = ([], some (.panic why)) := by
  refine ⟨"no 'commit ' prefix", ?_⟩
  unfold parseSent
  rw [scan_unlines _ _ (fun l hl' => (hok l hl').1) (fun l hl' => (hok l hl').2)]
  have hline : ({} : LogParser).line (dropCR first) = .error (.panic "no 'commit ' prefix") := by
    show LogParser.parseCommitLine {} _ = _
    unfold LogParser.parseCommitLine
    rw [if_pos hfirst]
  simp only [List.map_cons, LogParser.lines, hline]
  rfl

/-- A header line: neither empty nor indented, and neither a commit line nor the start of a diff. -/
structure HeaderLine (l : Str) : Prop where
  first : ∃ c t, dropCR l = c :: t ∧ c ≠ 32
  commit : startsWith (dropCR l) b!"commit " = false
  diff : isDiffStart (dropCR l) = false
  line : NoNL l ∧ l.length < logMaxLine

/-- **C76 (signatures).** With `log.showSignature` the report on the signature is printed between the commit line and the next header lines: the log parser panics there,
after it has sent the commits before. -/
theorem C76_signature (es : List LogEntry) (hne : es ≠ []) (h : ∀ e ∈ es, e.Ok) (e : LogEntry) (he : e.Ok) (sig : List Str) (hsig : sig ≠ [])
    (hs : ∀ l ∈ sig, HeaderLine l ∧ startsWith (dropCR l) b!"Merge: " = false) (more : List Str) (hmore : ∀ l ∈ more, NoNL l ∧ l.length < logMaxLine) :
    ∃ why, parseSent (unlines (logLines es ++ [[]] ++ (e.commitLine :: (sig ++ e.lines.tail)) ++ more)) = (es.map LogEntry.meaning, some (.panic why)) := by
  obtain ⟨es, e1, rfl⟩ : ∃ es' e, es = es' ++ [e] := ⟨es.dropLast, es.getLast hne, (List.dropLast_concat_getLast hne).symm⟩
  obtain ⟨p, g1, g2⟩ := log_blank es e1 h (p := {}) (out := []) (Or.inl ⟨rfl, rfl⟩)
  have hready : Ready p ((es ++ [e1]).map LogEntry.meaning) := by
    rcases g2 with ⟨_, a, b, _⟩ | ⟨_, a, b, c⟩
    · exact .inr (.inl ⟨a, by simpa using b⟩)
    · exact .inr (.inr ⟨a, by rw [b, c]; simp⟩)
  obtain ⟨dd, hcl⟩ := ready_commit he hready
  have hall : ∀ l ∈ logLines (es ++ [e1]) ++ [[]] ++ (e.commitLine :: (sig ++ e.lines.tail)) ++ more, NoNL l ∧ l.length < logMaxLine := by
    intro l hl
    rcases List.mem_append.1 hl with hl | hl
    · rcases List.mem_append.1 hl with hl | hl
      · rcases List.mem_append.1 hl with hl | hl
        · exact log_lines_ok _ h l hl
        · rw [List.mem_singleton.1 hl]; exact ⟨by simp [NoNL], by decide⟩
      · rcases List.mem_cons.1 hl with rfl | hl
        · exact entry_lines_ok he _ (by simp [LogEntry.lines])
        · rcases List.mem_append.1 hl with hl | hl
          · exact (hs l hl).1.line
          · exact entry_lines_ok he l (List.mem_of_mem_tail hl)
    · exact hmore l hl
  -- the line after the first line of the report
  obtain ⟨s1, l2, rest, hsplit, hs1, hl2⟩ : ∃ s1 l2 rest, sig ++ e.lines.tail ++ more = s1 :: l2 :: rest ∧ startsWith (dropCR s1) b!"Merge: " = false ∧
      (∃ c t, dropCR l2 = c :: t ∧ c ≠ 32) ∧ startsWith (dropCR l2) b!"commit " = false ∧ isDiffStart (dropCR l2) = false := by
    cases sig with
    | nil => exact absurd rfl hsig
    | cons s1 sig =>
      cases sig with
      | cons s2 sig =>
        have := (hs s2 (by simp)).1
        exact ⟨s1, s2, sig ++ e.lines.tail ++ more, by simp, (hs s1 (by simp)).2, this.first, this.commit, this.diff⟩
      | nil =>
        have hA : dropCR (b!"Author: " ++ e.author) = b!"Author: " ++ dropCR e.author := dropCR_append _ _ (Or.inr (by decide))
        have hM : ∀ m, dropCR (b!"Merge: " ++ m) = b!"Merge: " ++ dropCR m := fun m => dropCR_append _ _ (Or.inr (by decide))
        have nd : ∀ (c : UInt8) (t : Str), c ≠ 100 → isDiffStart (c :: t) = false := by
          intro c t hc
          simp only [isDiffStart, Bool.and_eq_false_iff, decide_eq_false_iff_not]
          right
          simp [hc]
        cases hm : e.mergeOf with
        | none =>
          refine ⟨s1, b!"Author: " ++ e.author, _, by simp [LogEntry.lines, hm]; rfl, (hs s1 (by simp)).2, ?_, ?_, ?_⟩
          · exact ⟨65, b!"uthor: " ++ dropCR e.author, hA, by decide⟩
          · rw [hA]; exact startsWith_cons_ne (by decide)
          · rw [hA]; exact nd _ _ (by decide)
        | some m =>
          refine ⟨s1, b!"Merge: " ++ m, _, by simp [LogEntry.lines, hm]; rfl, (hs s1 (by simp)).2, ?_, ?_, ?_⟩
          · exact ⟨77, b!"erge: " ++ dropCR m, hM m, by decide⟩
          · rw [hM]; exact startsWith_cons_ne (by decide)
          · rw [hM]; exact nd _ _ (by decide)
  obtain ⟨⟨c, t, hct, hc32⟩, hncommit, hndiff⟩ := hl2
  refine ⟨"stSkippingMessageDiffOrCommitNext unexpected line", ?_⟩
  unfold parseSent
  rw [scan_unlines _ _ (fun l hl' => (hall l hl').1) (fun l hl' => (hall l hl').2)]
  rw [List.append_assoc, List.cons_append, hsplit, List.map_append, List.map_cons, List.map_cons, List.map_cons]
  simp only [lines_append _ g1, LogParser.lines, hcl]
  have h1 : LogParser.line { commit := { hash := e.hash, mergeDiffFrom := e.from?.getD [] }, state := .parentsNext, out := (es ++ [e1]).map LogEntry.meaning, diff := dd } (dropCR s1) =
      .ok { commit := { hash := e.hash, mergeDiffFrom := e.from?.getD [] }, state := .skippingMessageDiffOrCommitNext, out := (es ++ [e1]).map LogEntry.meaning, diff := dd } := by
    unfold LogParser.line
    simp only [hs1, Bool.false_eq_true, if_false]
  rw [h1]
  simp only
  rw [hct] at hncommit hndiff ⊢
  have h2 : LogParser.line { commit := { hash := e.hash, mergeDiffFrom := e.from?.getD [] }, state := .skippingMessageDiffOrCommitNext, out := (es ++ [e1]).map LogEntry.meaning, diff := dd } (c :: t) =
      .error (.panic "stSkippingMessageDiffOrCommitNext unexpected line") := by
    unfold LogParser.line
    simp only [hc32, if_false, hndiff, hncommit, Bool.false_eq_true]
  rw [h2]
  simp [hncommit]

/-! ## `diff.submodule=log` -/

/-- **C76 (submodules).** With `diff.submodule=log` (or `diff`) the change of a submodule is printed as a line `Submodule …`, not as a file diff: the log parser panics there. (Here the
submodule is the first change of its commit `e`; `e` itself is then not sent either.) -/
theorem C76_submodule (es : List LogEntry) (e : LogEntry) (h : ∀ x ∈ es ++ [e], x.Ok) (hd : e.diffs = []) (what : Str) (more : List Str)
    (hok : ∀ l ∈ (b!"Submodule " ++ what) :: more, NoNL l ∧ l.length < logMaxLine) :
    ∃ why, parseSent (unlines (logLines (es ++ [e]) ++ [[]] ++ (b!"Submodule " ++ what) :: more)) = (es.map LogEntry.meaning, some (.panic why)) := by
  have hdr : dropCR (b!"Submodule " ++ what) = b!"Submodule " ++ dropCR what := dropCR_append _ _ (Or.inr (by decide))
  have := C56_foreign_line es e h 83 (b!"ubmodule " ++ what) more (by decide)
    (by
      have e1 : (83 : UInt8) :: (b!"ubmodule " ++ what) = b!"Submodule " ++ what := rfl
      rw [e1, hdr]; exact startsWith_cons_ne (by decide)) (startsWith_cons_ne (by decide)) hok
  rw [if_pos hd] at this
  exact this

/-! ## The hypotheses are met -/

namespace ExConfig

def parents : GoMap Str (List Str) := [(b!"c1", []), (b!"c2", [b!"c1"]), (b!"c3", [b!"c1"]), (b!"m", [b!"c2", b!"c3"])]

def g : Graph := Graph.newFromMap parents parents

def chF : List Str := [b!"diff --git a/f b/f", b!"new file mode 100644", b!"index 0000000..7898192", b!"--- /dev/null", b!"+++ b/f", b!"@@ -0,0 +1 @@", b!"+a"]
def chG : List Str := [b!"diff --git a/g b/g", b!"new file mode 100644", b!"index 0000000..587be6b", b!"--- /dev/null", b!"+++ b/g", b!"@@ -0,0 +1 @@", b!"+x"]
def chA : List Str := [b!"diff --git a/f b/f", b!"index 7898192..422c2b7 100644", b!"--- a/f", b!"+++ b/f", b!"@@ -1 +1,2 @@", b!" a", b!"+b"]

/-- `c1` creates `f`, `c2` creates `g`, `c3` changes `f`, `m` merges `c2` and `c3`; nothing else happens. -/
def entry (h : Str) (frm : Option Str) (ds : List (List Str)) : LogEntry where
  hash := h
  from? := frm
  mergeOf := frm.map (fun _ => b!"c2 c3")
  author := b!"A <a@b>"
  message := [.text b!"message"]
  diffs := ds

theorem entry_ok {h : Str} {frm : Option Str} {ds : List (List Str)} (h1 : NoNL h ∧ 32 ∉ h ∧ 13 ∉ h) (hf : ∀ p, frm = some p → NoNL p)
    (hl : (entry h frm ds).commitLine.length < logMaxLine) (hds : ∀ d ∈ ds, FileDiffOk d) : (entry h frm ds).Ok := by
  refine ⟨h1, hf, hl, ?_, ⟨show NoNL b!"A <a@b>" by decide, show 7 + 8 < logMaxLine by decide⟩, ?_, hds⟩
  · intro m hm
    cases frm with
    | none => cases hm
    | some p => cases hm; exact ⟨show NoNL b!"c2 c3" by decide, show 5 + 7 < logMaxLine by decide⟩
  · intro m hm
    have : m = .text b!"message" := by simpa [entry] using hm
    subst this
    constructor <;> decide

theorem okLine {l : Str} (h : l ≠ [] ∧ l.head? ≠ some 13 ∧ startsWith l b!"diff" = false ∧ NoNL l ∧ l.length < logMaxLine) : DiffLineOk l :=
  ⟨h.1, h.2.1, h.2.2.1, h.2.2.2.1, h.2.2.2.2⟩

theorem okF : FileDiffOk chF := ⟨⟨b!"a/f b/f", rfl, by decide, by decide⟩, fun l hl => okLine (by revert l; decide)⟩
theorem okG : FileDiffOk chG := ⟨⟨b!"a/g b/g", rfl, by decide, by decide⟩, fun l hl => okLine (by revert l; decide)⟩
theorem okA : FileDiffOk chA := ⟨⟨b!"a/f b/f", rfl, by decide, by decide⟩, fun l hl => okLine (by revert l; decide)⟩

/-- The log with decorations: `c3` is a branch `topic`, `m` is the branch `master`. -/
def shown : List (LogEntry × Option Str) := [(entry b!"c1" none [chF], none), (entry b!"c2" none [chG], none), (entry b!"c3" none [chA], some b!"topic"),
  (entry b!"m" (some b!"c2") [chA], some b!"HEAD -> master"), (entry b!"m" (some b!"c3") [chG], some b!"HEAD -> master")]

theorem shown_ok : ∀ x ∈ shown, DecoratedOk x := by
  intro x hx
  simp only [shown, List.mem_cons, List.not_mem_nil, or_false] at hx
  rcases hx with rfl | rfl | rfl | rfl | rfl
  · exact ⟨entry_ok (by decide) (by simp) (by decide) (by simpa using okF), by simp⟩
  · exact ⟨entry_ok (by decide) (by simp) (by decide) (by simpa using okG), by simp⟩
  · exact ⟨entry_ok (by decide) (by simp) (by decide) (by simpa using okA), by rintro n ⟨⟩; exact ⟨⟨by decide, by decide⟩, by decide⟩⟩
  · exact ⟨entry_ok (by decide) (by rintro p ⟨⟩; decide) (by decide) (by simpa using okA), by rintro n ⟨⟩; exact ⟨⟨by decide, by decide⟩, by decide⟩⟩
  · exact ⟨entry_ok (by decide) (by rintro p ⟨⟩; decide) (by decide) (by simpa using okG), by rintro n ⟨⟩; exact ⟨⟨by decide, by decide⟩, by decide⟩⟩

/-- What is read from it. -/
def log : List LogCommit := [{ hash := b!"c1", changes := [unlines chF] }, { hash := b!"c2", changes := [unlines chG] }, { hash := b!"c3", changes := [unlines chA] },
  { hash := b!"m", mergeDiffFrom := b!"c2) (HEAD -> master", changes := [unlines chA] }, { hash := b!"m", mergeDiffFrom := b!"c3) (HEAD -> master", changes := [unlines chG] }]

/-- `C76_decorated_log` applies. -/
example : parseLog (unlines (joinBlank (shown.map (fun x => decorated x.1 x.2)))) = .ok log := by
  rw [C76_decorated_log shown shown_ok]
  decide +kernel

/-- A branch `dev`: `C76_short_names` applies. -/
example : ∃ why, parseSent (unlines (logLines [entry b!"c1" none [chF]] ++ [[]] ++ decorated (entry b!"c2" none [chG]) (some b!"dev") ++ [])) =
    ([{ hash := b!"c1", changes := [unlines chF] }], some (.panic why)) :=
  C76_short_names _ (by simp) (by simpa using entry_ok (by decide) (by simp) (by decide) (by simpa using okF)) _
    (entry_ok (by decide) (by simp) (by decide) (by simpa using okG)) rfl _ ⟨by decide, by decide⟩ (by decide) (by decide) [] (by simp)

/-- A decoration of `c3` alone: `C76_regular_unaffected` applies. -/
example : run Ex.env {} (fun _ => .ok []) g (log.take 3) = run Ex.env {} (fun _ => .ok [])
    g (shown.map (fun x => decoratedMeaning x.1 (x.2.map (fun _ => b!"origin/other")))  |>.take 3) :=
  C76_regular_unaffected (by decide +kernel) (by
    intro i a b ha hb
    match i, ha, hb with
    | 0, ha, hb => cases ha; cases hb; exact ⟨by decide +kernel, by decide +kernel, by decide +kernel⟩
    | 1, ha, hb => cases ha; cases hb; exact ⟨by decide +kernel, by decide +kernel, by decide +kernel⟩
    | 2, ha, hb => cases ha; cases hb; exact ⟨by decide +kernel, by decide +kernel, by decide +kernel⟩
    | i + 3, ha, hb => simp [log] at ha)

theorem self : ∀ h, h ∉ g.parentsOf h := by
  intro h hc
  have hp : ∀ e ∈ g.parents, e.1 ∉ e.2 := by decide +kernel
  unfold Graph.parentsOf at hc
  cases hg : GoMap.get g.parents h with
  | none => rw [hg] at hc; cases hc
  | some ps => rw [hg] at hc; exact hp _ (GoMap.mem_of_get hg) hc

theorem reach_c3 {a : Str} (h : g.Reach b!"c3" a) : a = b!"c3" ∨ a = b!"c1" := by
  induction h with
  | refl => exact .inl rfl
  | tail _ hp ih =>
    rcases ih with rfl | rfl
    · right
      have h : g.parentsOf b!"c3" = [b!"c1"] := by decide +kernel
      unfold Graph.Parent at hp
      rw [h] at hp
      exact List.mem_singleton.1 hp
    · have h : g.parentsOf b!"c1" = [] := by decide +kernel
      unfold Graph.Parent at hp
      rw [h] at hp
      cases hp

theorem parsed {P : Diff → Prop} [DecidablePred P] {ch : Str} (h : (match parseDiff ch with | .ok d => decide (P d) | .error _ => true) = true) : ∀ d, parseDiff ch = .ok d → P d := by
  intro d hd
  rw [hd] at h
  exact of_decide_eq_true h

/-- The decorated log is read, and the run on it fails: `C76_merge_fails` applies, whatever the order of iteration of maps, sorting and the answers of `git blame`. -/
example (env : Env) (horder : ∀ n k l, (env.order n k l).Perm l) : (run env {} (fun _ => .ok []) g log).fault ≠ none :=
  C76_merge_fails horder rfl self (e := { hash := b!"m", mergeDiffFrom := b!"c3) (HEAD -> master", changes := [unlines chG] }) (by simp [log]) (p1 := b!"c2") (p2 := b!"c3") (k := b!"g")
    (by decide +kernel) (by decide +kernel) (by decide)
    (by
      intro x hx h1 h2
      have : ∀ x ∈ log, x.hash = b!"m" → x.mergeDiffFrom = b!"c3) (HEAD -> master" → x.changes = [unlines chG] := by decide +kernel
      exact ⟨by decide, unlines chG, by rw [this x hx h1 h2]; simp, _, rfl, by decide +kernel⟩)
    (by
      intro x hx _ ch hch d hd hp
      have : ∀ x ∈ log, ∀ ch ∈ x.changes, (match parseDiff ch with | .ok d => decide (d.path = b!"g" → d.pathPrev = [] ∧ d.isBinary = false) | .error _ => true) = true := by
        decide +kernel
      exact parsed (P := fun d => d.path = b!"g" → d.pathPrev = [] ∧ d.isBinary = false) (this x hx ch hch) d hd hp)
    (by
      rintro x hx _ ⟨ch, hch, d, hd, hp, _⟩
      have : ∀ x ∈ log, ∀ ch ∈ x.changes, (match parseDiff ch with | .ok d => decide (d.path ≠ []) | .error _ => true) = true := by decide +kernel
      exact parsed (P := fun d => d.path ≠ []) (this x hx ch hch) d hd hp)
    (by
      rintro a ha x hx hxa ⟨_, ch, hch, d, hd, hp⟩
      have : ∀ x ∈ log, x.hash = b!"c3" ∨ x.hash = b!"c1" → ∀ ch ∈ x.changes, (match parseDiff ch with | .ok d => decide (d.path ≠ b!"g") | .error _ => true) = true := by
        decide +kernel
      exact parsed (P := fun d => d.path ≠ b!"g") (this x hx (by rw [hxa]; exact reach_c3 ha) ch hch) d hd hp)

/-- Without the decorations the same run succeeds. -/
example : (run Ex.env {} (fun _ => .ok []) g (shown.map (fun x => x.1.meaning))).fault = none := by decide +kernel

/-- `log.diffMerges=first-parent`: `f` is `a` in `c2` and `a`, `b` in `c3`; the merge `m` makes it `a`, `z`. -/
def repo : Repo := [(b!"c2", [(b!"f", { commit := b!"c1", lines := [⟨b!"a", b!"c1"⟩] })]), (b!"c3", [(b!"f", { commit := b!"c3", lines := [⟨b!"a", b!"c1"⟩, ⟨b!"b", b!"c3"⟩] })])]
def chZ : Str := unlines [b!"diff --git a/f b/f", b!"index 7898192..9f23b1f 100644", b!"--- a/f", b!"+++ b/f", b!"@@ -1 +1,2 @@", b!" a", b!"+z"]
def parts : GoMap Str LogCommit := [([], { hash := b!"m", changes := [chZ] })]

/-- The line `z` of the merge is nowhere: `m` is recorded with the `f` of `c3`, and no change of `f` is reported. `C76_merge_taken_over` applies. -/
example : ∃ r res, processMergeCommit Ex.env 0 repo b!"m" [b!"c2", b!"c3"] parts = .ok (r, res) ∧
    (∃ fs, GoMap.get r b!"m" = some fs ∧ GoMap.get fs b!"f" = some { commit := b!"c3", lines := [⟨b!"a", b!"c1"⟩, ⟨b!"b", b!"c3"⟩] }) ∧ GoMap.get res.files b!"f" = none := by
  have h1 : (processMergeCommit Ex.env 0 repo b!"m" [b!"c2", b!"c3"] parts).isOk = true := by decide +kernel
  have hone : ∀ h e, GoMap.get parts h = some e → e.changes = [chZ] := by
    intro h e he
    have := GoMap.mem_of_get he
    simp only [parts, List.mem_singleton, Prod.mk.injEq] at this
    rw [this.2]
  cases h : processMergeCommit Ex.env 0 repo b!"m" [b!"c2", b!"c3"] parts with
  | error e => rw [h] at h1; cases h1
  | ok x =>
    obtain ⟨r, res⟩ := x
    obtain ⟨b, h2, h3, h4⟩ := C76_merge_taken_over (k := b!"f") (fun _ _ _ => List.Perm.refl _) (by decide) (by decide) (by decide)
      ⟨⟨_, ⟨[], _, rfl, chZ, by simp, rfl⟩, by decide +kernel⟩,
        by
          rintro d ⟨q, e, he, ch, hch, hd⟩ hp
          rw [hone q e he, List.mem_singleton] at hch
          subst hch
          exact absurd hp (parsed (P := fun d => d.path ≠ []) (by decide +kernel) d hd),
        by decide,
        by
          rintro d ⟨q, e, he, ch, hch, hd⟩ _
          rw [hone q e he, List.mem_singleton] at hch
          subst hch
          exact parsed (P := fun d => d.isBinary = false) (by decide +kernel) d hd,
        by
          rintro d _ _ _ fs b hfs hb
          cases hfs
          have := GoMap.mem_of_get hb
          simp only [List.mem_singleton, Prod.mk.injEq] at this
          rw [this.2]⟩ h
    have hb : firstStored repo b!"f" [b!"c3"] = some { commit := b!"c3", lines := [⟨b!"a", b!"c1"⟩, ⟨b!"b", b!"c3"⟩] } := by decide
    rw [hb] at h2
    cases h2
    exact ⟨r, res, rfl, h3, h4⟩

/-- `C76_prefix_panics`: `diff.noprefix`, and other prefixes. -/
example : ∃ w, parseDiff (unlines (declLineWith [] [] b!"main.go" b!"main.go" :: [b!"index 7898192..422c2b7 100644"])) = .error (.panic w) :=
  C76_prefix_panics [] [] _ _ (by decide) (by decide) (by decide) (by decide) (by decide) (by decide) _ (by decide)

example : ∃ w, parseDiff (unlines (declLineWith b!"old/" b!"new/" b!"main.go" b!"main.go" :: [b!"index 7898192..422c2b7 100644"])) = .error (.panic w) :=
  C76_prefix_panics b!"old/" b!"new/" _ _ (by decide) (by decide) (by decide) (by decide) (by decide) (by decide) _ (by decide)

/-- `diff.noprefix` and a name with a space. -/
def chSpace : List Str := declLineWith [] [] b!"my file" b!"my file" :: [b!"index 7898192..422c2b7 100644", b!"--- my file", b!"+++ my file", b!"@@ -1 +1,2 @@", b!" a", b!"+b"]

/-- The change of `my file` is lost, and a file without name is reported as deleted: `C76_prefix_space` applies. -/
example : ∃ x st', parseDiff (unlines chSpace) = .ok x ∧ regularChange Ex.env b!"c2" [b!"c1"] ([], []) (unlines chSpace) = .ok st' ∧ x.path = [] ∧ x.pathPrev = [] ∧ st'.1 = [] ∧
    (∀ f, f ≠ [] → GoMap.get st'.2 f = none) ∧ GoMap.get st'.2 [] ≠ none := by
  have h1 : (parseDiff (unlines chSpace)).isOk = true := by decide +kernel
  have h2 : (match regularChange Ex.env b!"c2" [b!"c1"] ([], []) (unlines chSpace) with | .ok st => (GoMap.get st.2 []).isSome | .error _ => false) = true := by decide +kernel
  cases hx : parseDiff (unlines chSpace) with
  | error e => rw [hx] at h1; cases h1
  | ok x =>
    cases hst : regularChange Ex.env b!"c2" [b!"c1"] ([], []) (unlines chSpace) with
    | error e => rw [hst] at h2; cases h2
    | ok st' =>
      obtain ⟨a, b, c, d⟩ := C76_prefix_space [] [] b!"my file" (by decide) (by decide) (by decide) _ (by decide) (by decide) hx hst
      refine ⟨x, st', rfl, rfl, a, b, c, d, ?_⟩
      rw [hst] at h2
      intro h
      simp [h] at h2

/-- `log.diffMerges=dense-combined`. -/
example : ∃ w, parseDiff (unlines [b!"diff --cc f", b!"index 7898192,587be6b..422c2b7"]) = .error (.panic w) :=
  C76_dense_combined b!"f" [b!"index 7898192,587be6b..422c2b7"] (by decide)

/-- `diff.submodule=log`. -/
example : ∃ why, parseSent (unlines (logLines ([entry b!"c1" none [chF]] ++ [entry b!"c2" none []]) ++ [[]] ++ (b!"Submodule " ++ b!"lib 1a2b3c4..5d6e7f8:") :: [b!"  > fix"])) =
    ([{ hash := b!"c1", changes := [unlines chF] }], some (.panic why)) :=
  C76_submodule _ _ (by
    intro x hx
    simp only [List.cons_append, List.nil_append, List.mem_cons, List.not_mem_nil, or_false] at hx
    rcases hx with rfl | rfl
    · exact entry_ok (by decide) (by simp) (by decide) (by simpa using okF)
    · exact entry_ok (by decide) (by simp) (by decide) (by simp)) rfl _ _ (by decide)

/-- `color.ui=always`. -/
example : ∃ why, parseSent (unlines ((27 :: b!"[33mcommit c1" ++ 27 :: b!"[m") :: [b!"Author: A"])) = ([], some (.panic why)) :=
  C76_coloured _ _ (by decide) (by decide)

/-- `log.showSignature`. -/
example : ∃ why, parseSent (unlines (logLines [entry b!"c1" none [chF]] ++ [[]] ++
      ((entry b!"c2" none [chG]).commitLine :: ([b!"gpg: Signature made Mon Jan  1 00:00:00 2018 UTC", b!"gpg: Good signature"] ++ (entry b!"c2" none [chG]).lines.tail)) ++ [])) =
    ([{ hash := b!"c1", changes := [unlines chF] }], some (.panic why)) :=
  C76_signature _ (by simp) (by simpa using entry_ok (by decide) (by simp) (by decide) (by simpa using okF)) _
    (entry_ok (by decide) (by simp) (by decide) (by simpa using okG)) _ (by simp) (by
      intro l hl
      simp only [List.mem_cons, List.not_mem_nil, or_false] at hl
      rcases hl with rfl | rfl
      · exact ⟨⟨⟨_, _, rfl, by decide⟩, by decide, by decide, by decide, by decide⟩, by decide⟩
      · exact ⟨⟨⟨_, _, rfl, by decide⟩, by decide, by decide, by decide, by decide⟩, by decide⟩) [] (by simp)

end ExConfig

end Ripsrc
