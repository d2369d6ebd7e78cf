import Verif.Spec.GitLog
import Verif.Lib.Parse
/-! Helper lemmas for C11. -/
namespace Ripsrc
open Spec

/-- A state from which a `commit` line starts a new commit; `out` are the commits sent once that has happened. -/
def Ready (p : LogParser) (out : List LogCommit) : Prop :=
  (p.state = .notStarted ∧ p.out = out) ∨ (p.state = .commitNext ∧ p.out = out) ∨
  (p.state = .skippingMessageDiffOrCommitNext ∧ p.out ++ [p.commit] = out)

/-- A state in which the current commit is complete as `m`, and `out` were sent before. -/
def Pending (p : LogParser) (out : List LogCommit) (m : LogCommit) : Prop :=
  p.out = out ∧ ((p.state = .skippingMessageDiffOrCommitNext ∧ m.changes = [] ∧ p.commit = m) ∨ (p.state = .inDiff ∧ p.endDiff.commit = m))

theorem dropCR_commitLine {e : LogEntry} (h : e.Ok) : dropCR e.commitLine = e.commitLine := by
  apply dropCR_of_ne
  unfold LogEntry.commitLine
  cases hf : e.from? with
  | none =>
    intro hc
    have hm := List.mem_of_getLast? hc
    simp only [List.append_nil, List.mem_append] at hm
    rcases hm with hm | hm
    · simp at hm
    · exact h.hash.2.2 hm
  | some p =>
    simp only [← List.append_assoc]
    rw [List.getLast?_append]
    simp

theorem parseCommitLine_entry {e : LogEntry} (h : e.Ok) (p : LogParser) :
    p.parseCommitLine e.commitLine = .ok { p with commit := { hash := e.hash, mergeDiffFrom := e.from?.getD [] }, state := .parentsNext } := by
  unfold LogParser.parseCommitLine
  have hs : startsWith e.commitLine b!"commit " = true := by
    unfold LogEntry.commitLine
    rw [List.append_assoc]; exact startsWith_append _ _
  rw [hs]
  simp only [Bool.true_eq_false, if_false]
  have hd : e.commitLine.drop 7 = e.hash ++ (match e.from? with
    | none => []
    | some p => b!" (from " ++ p ++ b!")") := by
    unfold LogEntry.commitLine
    rw [List.append_assoc]; rfl
  rw [hd]
  cases hf : e.from? with
  | none =>
    have : e.hash.contains 32 = false := by
      simpa using h.hash.2.1
    simp only [List.append_nil, this, if_true]
    rfl
  | some q =>
    simp only
    have e1 : e.hash ++ (b!" (from " ++ q ++ b!")") = e.hash ++ 32 :: (b!"(from " ++ q ++ b!")") := by simp
    rw [e1, idxOf_append _ _ h.hash.2.1]
    have hc : (e.hash ++ 32 :: (b!"(from " ++ q ++ b!")")).contains 32 = true := by simp
    rw [hc]
    simp only [Bool.true_eq_false, if_false]
    have h1 : (e.hash ++ 32 :: (b!"(from " ++ q ++ b!")")).drop (e.hash.length + 1) = b!"(from " ++ q ++ b!")" := by
      rw [← List.drop_drop, List.drop_left]; rfl
    rw [h1, List.take_left]
    have h2 : ¬ (b!"(from " ++ q ++ b!")").length < 7 := by simp
    rw [if_neg h2]
    have h3 : ((b!"(from " ++ q ++ b!")").drop 6).dropLast = q := by
      have : (b!"(from " ++ q ++ b!")").drop 6 = q ++ b!")" := by simp
      rw [this, List.dropLast_concat]
    rw [h3]
    rfl

theorem commit_not_diff (r : Str) : isDiffStart (b!"commit " ++ r) = false := by
  simp [isDiffStart]

theorem ready_commit {e : LogEntry} (h : e.Ok) {p : LogParser} {out : List LogCommit} (hr : Ready p out) :
    ∃ d, p.line (dropCR e.commitLine) = .ok
      { commit := { hash := e.hash, mergeDiffFrom := e.from?.getD [] }, state := .parentsNext, out := out, diff := d } := by
  rw [dropCR_commitLine h]
  refine ⟨p.diff, ?_⟩
  rcases hr with ⟨h1, rfl⟩ | ⟨h1, rfl⟩ | ⟨h1, rfl⟩
  · unfold LogParser.line; rw [h1]; exact parseCommitLine_entry h p
  · unfold LogParser.line; rw [h1]; exact parseCommitLine_entry h p
  · have hs : startsWith e.commitLine b!"commit " = true := by
      unfold LogEntry.commitLine
      rw [List.append_assoc]; exact startsWith_append _ _
    have hd : isDiffStart e.commitLine = false := by
      unfold LogEntry.commitLine
      rw [List.append_assoc]; exact commit_not_diff _
    obtain ⟨r, hr⟩ : ∃ r, e.commitLine = 99 :: r := by
      unfold LogEntry.commitLine
      rw [List.append_assoc]; exact ⟨_, rfl⟩
    unfold LogParser.line
    rw [h1]
    simp only [hr] at hs hd ⊢
    have hsp : ¬ ((99 : UInt8) = 32) := by decide
    simp only [if_neg hsp, hd, hs, if_true, Bool.false_eq_true, if_false]
    rw [← hr, parseCommitLine_entry h]
    simp [LogParser.endCommit, h1]

theorem merge_author {e : LogEntry} (p : LogParser) (hs : p.state = .parentsNext) :
    (((match e.mergeOf with
      | none => []
      | some m => [b!"Merge: " ++ m]) ++ [b!"Author: " ++ e.author]).map dropCR).foldlM LogParser.line p
      = .ok { p with state := .skippingMessageDiffOrCommitNext } := by
  have ha : p.line (dropCR (b!"Author: " ++ e.author)) = .ok { p with state := .skippingMessageDiffOrCommitNext } := by
    rw [dropCR_append _ _ (Or.inr (by decide))]
    unfold LogParser.line
    rw [hs]
    have : startsWith (b!"Author: " ++ dropCR e.author) b!"Merge: " = false := startsWith_cons_ne (by decide)
    simp only [this, Bool.false_eq_true, if_false]
  cases e.mergeOf with
  | none =>
    simp only [List.nil_append, List.map_cons, List.map_nil, List.foldlM_cons, List.foldlM_nil, ha]
    rfl
  | some m =>
    have hm : p.line (dropCR (b!"Merge: " ++ m)) = .ok p := by
      rw [dropCR_append _ _ (Or.inr (by decide))]
      unfold LogParser.line
      rw [hs]
      simp only [startsWith_append, if_true]
    rw [List.map_append, List.foldlM_append]
    simp only [List.map_cons, List.map_nil, List.foldlM_cons, List.foldlM_nil, hm, bind, Except.bind, ha, pure, Except.pure]

theorem skip_line (p : LogParser) (hs : p.state = .skippingMessageDiffOrCommitNext) (m : MsgLine) :
    p.line (dropCR m.render) = .ok p := by
  cases m with
  | blank =>
    simp only [MsgLine.render]
    unfold LogParser.line
    rw [hs]
    rfl
  | text t =>
    simp only [MsgLine.render]
    rw [dropCR_append _ _ (Or.inr (by decide))]
    unfold LogParser.line
    rw [hs]
    rfl

theorem skip_fold (ms : List MsgLine) (p : LogParser) (hs : p.state = .skippingMessageDiffOrCommitNext) :
    ((ms.map MsgLine.render).map dropCR).foldlM LogParser.line p = .ok p := by
  induction ms with
  | nil => rfl
  | cons m ms ih =>
    simp only [List.map_cons, List.foldlM_cons, skip_line p hs m]
    exact ih

theorem diffLine_keep {l : Str} (h : DiffLineOk l) : dropCR l ≠ [] ∧ isDiffStart (dropCR l) = false := by
  have hne : dropCR l ≠ [] := by
    cases l with
    | nil => exact absurd rfl h.nonempty
    | cons c l =>
      have : c ≠ 13 := by simpa using h.first
      rw [dropCR_cons_of_ne c l (Or.inl this)]
      simp
  refine ⟨hne, ?_⟩
  cases hd : isDiffStart (dropCR l) with
  | false => rfl
  | true =>
    exfalso
    simp only [isDiffStart, Bool.and_eq_true, decide_eq_true_eq] at hd
    have hp : ∃ r, l = b!"diff" ++ r := by
      have h4 : l.take 4 = b!"diff" := by
        rw [← hd.2]
        unfold dropCR
        split
        · rename_i hlast
          have hlen := hd.1
          unfold dropCR at hlen
          rw [if_pos hlast, List.length_dropLast] at hlen
          rw [List.dropLast_eq_take, List.take_take, Nat.min_eq_left (by omega)]
        · rfl
      exact ⟨l.drop 4, by rw [← h4, List.take_append_drop]⟩
    have := startsWith_iff.2 hp
    rw [h.notDiff] at this
    cases this

theorem diff_body (ls : List Str) (h : ∀ l ∈ ls, DiffLineOk l) (p : LogParser) (hs : p.state = .inDiff) :
    (ls.map dropCR).foldlM LogParser.line p = .ok { p with diff := p.diff ++ unlines (ls.map dropCR) } := by
  induction ls generalizing p with
  | nil => simp; rfl
  | cons l ls ih =>
    obtain ⟨h1, h2⟩ := diffLine_keep (h l (by simp))
    have hstep : p.line (dropCR l) = .ok { p with diff := p.diff ++ dropCR l ++ [10] } := by
      unfold LogParser.line
      rw [hs]
      have : ¬ (dropCR l).length = 0 := fun hh => h1 (List.length_eq_zero_iff.1 hh)
      simp only [this, if_false, h2, Bool.false_eq_true]
    simp only [List.map_cons, List.foldlM_cons, hstep, bind, Except.bind]
    rw [ih (fun x hx => h x (by simp [hx])) { p with diff := p.diff ++ dropCR l ++ [10] } hs]
    simp

theorem diff_first {d : List Str} (h : FileDiffOk d) : ∃ a tl, d = a :: tl ∧
    (∃ r, dropCR a = 100 :: r ∧ isDiffStart (100 :: r) = true) ∧ (∀ l ∈ tl, DiffLineOk l) := by
  obtain ⟨⟨r, h1, _⟩, h2⟩ := h
  cases d with
  | nil => cases h1
  | cons a tl =>
    simp only [List.head?_cons, Option.some.injEq] at h1
    subst h1
    refine ⟨_, tl, rfl, ?_, h2⟩
    rw [dropCR_append _ _ (Or.inr (by decide))]
    exact ⟨_, rfl, by simp [isDiffStart]⟩

/-- All further file diffs of an entry, once in one. -/
theorem diffs_fold (ds : List (List Str)) (h : ∀ d ∈ ds, FileDiffOk d) (p : LogParser) (hs : p.state = .inDiff) :
    ∃ p', (ds.flatten.map dropCR).foldlM LogParser.line p = .ok p' ∧ p'.state = .inDiff ∧ p'.out = p.out ∧
      p'.endDiff.commit = { p.endDiff.commit with changes := p.endDiff.commit.changes ++ ds.map (fun d => unlines (d.map dropCR)) } := by
  induction ds generalizing p with
  | nil => exact ⟨p, rfl, hs, rfl, by simp⟩
  | cons d ds ih =>
    obtain ⟨a, tl, rfl, ⟨r, hr, hr2⟩, htl⟩ := diff_first (h d (by simp))
    simp only [List.flatten_cons, List.map_append, List.foldlM_append, List.cons_append, List.map_cons, List.foldlM_cons]
    have hstep : p.line (dropCR a) = .ok (p.endDiff.startDiff (dropCR a)) := by
      rw [hr]
      unfold LogParser.line
      rw [hs]
      simp [hr2]
    rw [hstep]
    simp only [bind, Except.bind]
    rw [diff_body tl htl _ (by rfl)]
    simp only
    obtain ⟨p', g1, g2, g3, g4⟩ := ih (fun x hx => h x (by simp [hx]))
      ({ p.endDiff.startDiff (dropCR a) with
        diff := (p.endDiff.startDiff (dropCR a)).diff ++ unlines (tl.map dropCR) } : LogParser) rfl
    refine ⟨p', g1, g2, g3, ?_⟩
    rw [g4]
    simp [LogParser.endDiff, LogParser.startDiff]

theorem entry_fold {e : LogEntry} (h : e.Ok) {p : LogParser} {out : List LogCommit} (hr : Ready p out) :
    ∃ p', (e.lines.map dropCR).foldlM LogParser.line p = .ok p' ∧ Pending p' out e.meaning := by
  obtain ⟨d, h1⟩ := ready_commit h hr
  have h2 := merge_author (e := e) { commit := { hash := e.hash, mergeDiffFrom := e.from?.getD [] }, state := .parentsNext, out := out, diff := d } rfl
  have h3 := skip_fold (MsgLine.blank :: e.message)
    { commit := { hash := e.hash, mergeDiffFrom := e.from?.getD [] }, state := .skippingMessageDiffOrCommitNext, out := out, diff := d } rfl
  have e0 : e.lines = [e.commitLine] ++ ((match e.mergeOf with
      | none => []
      | some m => [b!"Merge: " ++ m]) ++ [b!"Author: " ++ e.author]) ++ (MsgLine.blank :: e.message).map MsgLine.render
        ++ (if e.diffs = [] then [] else [] :: e.diffs.flatten) := by
    simp only [LogEntry.lines, List.append_assoc, List.map_cons, MsgLine.render]
    rfl
  rw [e0]
  simp only [List.map_append (l₂ := if e.diffs = [] then [] else [] :: e.diffs.flatten), List.foldlM_append]
  rw [List.map_append, List.foldlM_append, List.map_append, List.foldlM_append]
  simp only [List.map_cons, List.map_nil, List.foldlM_cons, List.foldlM_nil, h1] at h2 h3 ⊢
  simp only [bind, Except.bind, pure, Except.pure] at h2 h3 ⊢
  rw [h2]
  simp only [h3]
  cases hd : e.diffs with
  | nil =>
    simp only [if_true, List.map_nil, List.foldlM_nil]
    refine ⟨_, rfl, rfl, Or.inl ⟨rfl, ?_, ?_⟩⟩ <;> simp [LogEntry.meaning, hd]
  | cons d0 ds =>
    have hds := h.diffs
    rw [hd] at hds
    obtain ⟨a, tl, rfl, ⟨r, hr, hr2⟩, htl⟩ := diff_first (hds d0 (by simp))
    have hb : ([[]] : List Str).map dropCR = [[]] := rfl
    simp only [reduceCtorEq, if_false, List.flatten_cons, List.map_cons, List.foldlM_cons, List.cons_append, List.map_append,
      List.foldlM_append]
    have hblank : LogParser.line { commit := { hash := e.hash, mergeDiffFrom := e.from?.getD [] }, state := .skippingMessageDiffOrCommitNext, out := out, diff := d } (dropCR [])
      = .ok { commit := { hash := e.hash, mergeDiffFrom := e.from?.getD [] }, state := .skippingMessageDiffOrCommitNext, out := out, diff := d } := rfl
    have hstart : LogParser.line { commit := { hash := e.hash, mergeDiffFrom := e.from?.getD [] }, state := .skippingMessageDiffOrCommitNext, out := out, diff := d } (dropCR a)
      = .ok { commit := { hash := e.hash, mergeDiffFrom := e.from?.getD [] }, state := .inDiff, out := out, diff := dropCR a ++ [10] } := by
      rw [hr]
      simp [LogParser.line, hr2, LogParser.startDiff]
    rw [hblank]
    simp only [bind, Except.bind]
    rw [hstart]
    simp only
    rw [diff_body tl htl _ rfl]
    simp only
    obtain ⟨p', g1, g2, g3, g4⟩ := diffs_fold ds (fun x hx => hds x (by simp [hx]))
      { commit := { hash := e.hash, mergeDiffFrom := e.from?.getD [] }, state := .inDiff, out := out, diff := dropCR a ++ [10] ++ unlines (tl.map dropCR) } rfl
    refine ⟨p', g1, g3, Or.inr ⟨g2, ?_⟩⟩
    rw [g4]
    simp [LogParser.endDiff, LogEntry.meaning, hd]

theorem pending_blank {p : LogParser} {out : List LogCommit} {m : LogCommit} (h : Pending p out m) :
    ∃ p', p.line (dropCR []) = .ok p' ∧ Ready p' (out ++ [m]) := by
  obtain ⟨rfl, ⟨h1, _, rfl⟩ | ⟨h1, rfl⟩⟩ := h
  · refine ⟨p, ?_, Or.inr (Or.inr ⟨h1, rfl⟩)⟩
    unfold LogParser.line; rw [h1]; rfl
  · refine ⟨p.endCommit, ?_, Or.inr (Or.inl ⟨rfl, ?_⟩)⟩
    · unfold LogParser.line; rw [h1]; rfl
    · simp [LogParser.endCommit, h1, LogParser.endDiff]

theorem pending_end {p : LogParser} {out : List LogCommit} {m : LogCommit} (h : Pending p out m) :
    p.state ≠ .notStarted ∧ p.endCommit.out = out ++ [m] := by
  obtain ⟨rfl, ⟨h1, _, rfl⟩ | ⟨h1, rfl⟩⟩ := h
  · simp [LogParser.endCommit, h1]
  · simp [LogParser.endCommit, h1, LogParser.endDiff]

theorem log_fold (es : List LogEntry) (hes : es ≠ []) (h : ∀ e ∈ es, e.Ok) {p : LogParser} {out : List LogCommit}
    (hr : Ready p out) :
    ∃ p', ((logLines es).map dropCR).foldlM LogParser.line p = .ok p' ∧ p'.state ≠ .notStarted ∧
      p'.endCommit.out = out ++ es.map LogEntry.meaning := by
  induction es generalizing p out with
  | nil => exact absurd rfl hes
  | cons e es ih =>
    obtain ⟨p1, g1, g2⟩ := entry_fold (h e (by simp)) hr
    cases es with
    | nil =>
      obtain ⟨k1, k2⟩ := pending_end g2
      exact ⟨p1, g1, k1, by simpa using k2⟩
    | cons e2 es =>
      obtain ⟨p2, k1, k2⟩ := pending_blank g2
      obtain ⟨p3, l1, l2, l3⟩ := ih (by simp) (fun x hx => h x (by simp [hx])) k2
      refine ⟨p3, ?_, l2, by rw [l3]; simp⟩
      simp only [logLines, List.map_append, List.foldlM_append, g1, List.map_cons, List.map_nil, List.foldlM_cons,
        List.foldlM_nil, bind, Except.bind, k1, pure, Except.pure]
      exact l1

theorem entry_lines_ok {e : LogEntry} (h : e.Ok) : ∀ l ∈ e.lines, NoNL l ∧ l.length < logMaxLine := by
  intro l hl
  simp only [LogEntry.lines, List.mem_append, List.mem_singleton] at hl
  rcases hl with ((((rfl | hl) | rfl) | rfl) | hl) | hl
  · refine ⟨?_, h.header⟩
    unfold LogEntry.commitLine
    simp only [NoNL, List.mem_append, not_or]
    refine ⟨⟨by decide, h.hash.1⟩, ?_⟩
    cases hf : e.from? with
    | none => simp
    | some p =>
      simp only [List.mem_append, not_or]
      exact ⟨⟨by decide, h.from? p hf⟩, by decide⟩
  · cases hm : e.mergeOf with
    | none => rw [hm] at hl; cases hl
    | some m =>
      rw [hm] at hl
      simp only [List.mem_singleton] at hl
      subst hl
      obtain ⟨h1, h2⟩ := h.merge m hm
      refine ⟨?_, by simp; omega⟩
      simp only [NoNL, List.mem_append, not_or]
      exact ⟨by decide, h1⟩
  · obtain ⟨h1, h2⟩ := h.author
    refine ⟨?_, by simp; omega⟩
    simp only [NoNL, List.mem_append, not_or]
    exact ⟨by decide, h1⟩
  · exact ⟨by simp [NoNL], by decide⟩
  · obtain ⟨m, hm, rfl⟩ := List.mem_map.1 hl
    exact h.message m hm
  · split at hl
    · cases hl
    · rcases List.mem_cons.1 hl with rfl | hl
      · exact ⟨by simp [NoNL], by decide⟩
      · obtain ⟨d, hd, hl⟩ := List.mem_flatten.1 hl
        obtain ⟨⟨r, h1, h2, h3⟩, h4⟩ := h.diffs d hd
        cases d with
        | nil => cases h1
        | cons a tl =>
          simp only [List.head?_cons, Option.some.injEq] at h1
          subst h1
          rcases List.mem_cons.1 hl with rfl | hl
          · refine ⟨?_, by simp; omega⟩
            simp only [NoNL, List.mem_append, not_or]
            exact ⟨by decide, h2⟩
          · exact ⟨(h4 l hl).nonl, (h4 l hl).short⟩

theorem log_lines_ok (es : List LogEntry) (h : ∀ e ∈ es, e.Ok) : ∀ l ∈ logLines es, NoNL l ∧ l.length < logMaxLine := by
  induction es with
  | nil => simp [logLines]
  | cons e es ih =>
    cases es with
    | nil => exact entry_lines_ok (h e (by simp))
    | cons e2 es =>
      intro l hl
      simp only [logLines, List.mem_append, List.mem_singleton] at hl
      rcases hl with (hl | rfl) | hl
      · exact entry_lines_ok (h e (by simp)) l hl
      · exact ⟨by simp [NoNL], by decide⟩
      · exact ih (fun x hx => h x (by simp [hx])) l hl

theorem parseLog_render (es : List LogEntry) (h : ∀ e ∈ es, e.Ok) : parseLog (logText es) = .ok (es.map LogEntry.meaning) := by
  have hl := log_lines_ok es h
  unfold parseLog logText
  rw [scan_unlines _ _ (fun l hl' => (hl l hl').1) (fun l hl' => (hl l hl').2)]
  cases es with
  | nil => rfl
  | cons e es =>
    obtain ⟨p, h1, h2, h3⟩ := log_fold (e :: es) (by simp) h (p := {}) (out := []) (Or.inl ⟨rfl, rfl⟩)
    simp only [h1, bind, Except.bind, Bool.false_eq_true, if_false, if_pos h2, h3, List.nil_append]

end Ripsrc
