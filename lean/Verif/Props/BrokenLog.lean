import Verif.Lib.GitLog
import Verif.Model.Pipeline
/-!
# C56: what the log parser has sent when it meets a line that it does not understand
-/
namespace Ripsrc
open Spec

theorem lines_append {s s' : LogParser} {a : List Str} (b : List Str) (h : a.foldlM LogParser.line s = .ok s') : s.lines (a ++ b) = s'.lines b := by
  induction a generalizing s with
  | nil => cases h; rfl
  | cons x a ih =>
    rw [List.foldlM_cons] at h
    cases hx : s.line x with
    | error e => rw [hx] at h; cases h
    | ok t => rw [hx] at h; simp only [List.cons_append, LogParser.lines, hx]; exact ih h

/-- After a whole log and an empty line: the last commit has been sent if it had diffs, otherwise it waits for the next line. -/
theorem log_blank (es : List LogEntry) (e : LogEntry) (h : ∀ x ∈ es ++ [e], x.Ok) {p : LogParser} {out : List LogCommit} (hr : Ready p out) :
    ∃ p', ((logLines (es ++ [e]) ++ [[]]).map dropCR).foldlM LogParser.line p = .ok p' ∧
      ((e.diffs ≠ [] ∧ p'.state = .commitNext ∧ p'.out = out ++ (es ++ [e]).map LogEntry.meaning ∧ p'.commit = e.meaning) ∨
       (e.diffs = [] ∧ p'.state = .skippingMessageDiffOrCommitNext ∧ p'.out = out ++ es.map LogEntry.meaning ∧ p'.commit = e.meaning)) := by
  induction es generalizing p out with
  | nil =>
    obtain ⟨p1, g1, g2⟩ := entry_fold (h e (by simp)) hr
    have e1 : logLines ([] ++ [e]) = e.lines := rfl
    rw [e1, List.map_append, List.foldlM_append, g1]
    simp only [List.map_cons, List.map_nil, List.foldlM_cons, List.foldlM_nil, bind, Except.bind, pure, Except.pure]
    obtain ⟨rfl, ⟨h1, h2, h3⟩ | ⟨h1, h2⟩⟩ := g2
    · have : p1.line (dropCR []) = .ok p1 := by unfold LogParser.line; rw [h1]; rfl
      rw [this]
      exact ⟨p1, rfl, .inr ⟨by simpa [LogEntry.meaning] using h2, h1, by simp, h3⟩⟩
    · have : p1.line (dropCR []) = .ok p1.endCommit := by unfold LogParser.line; rw [h1]; rfl
      rw [this]
      refine ⟨_, rfl, ?_⟩
      have hout : p1.endCommit.out = p1.out ++ ([] ++ [e]).map LogEntry.meaning := by simp [LogParser.endCommit, h1, LogParser.endDiff] at h2 ⊢; exact h2
      refine .inl ⟨?_, rfl, hout, by simpa [LogParser.endCommit, h1] using h2⟩
      intro hd
      have := congrArg LogCommit.changes h2
      simp [LogParser.endDiff, LogEntry.meaning, hd] at this
  | cons x es ih =>
    obtain ⟨p1, g1, g2⟩ := entry_fold (h x (by simp)) hr
    obtain ⟨p2, k1, k2⟩ := pending_blank g2
    obtain ⟨p3, l1, l2⟩ := ih (fun y hy => h y (by rw [List.cons_append]; exact List.mem_cons_of_mem _ hy)) k2
    refine ⟨p3, ?_, by simpa using l2⟩
    have e1 : logLines (x :: es ++ [e]) = x.lines ++ [[]] ++ logLines (es ++ [e]) := by cases es <;> rfl
    rw [e1]
    rw [List.append_assoc, List.map_append, List.foldlM_append, List.map_append, List.foldlM_append, g1]
    simp only [List.map_cons, List.map_nil, List.foldlM_cons, List.foldlM_nil, bind, Except.bind, k1, pure, Except.pure]
    exact l1

/-- **C56, a broken commit line.** After a log as git prints it comes a commit line that ends in the middle of `(from ...)`: every commit before it has been sent,
then the parser panics, whatever follows. -/
theorem C56_broken_commit_line (es : List LogEntry) (hne : es ≠ []) (h : ∀ e ∈ es, e.Ok) (hash from? : Str) (more : List Str) (h1 : 32 ∉ hash) (h2 : from?.length < 7)
    (hcr : 13 ∉ from?) (hok : ∀ l ∈ (b!"commit " ++ hash ++ 32 :: from?) :: more, NoNL l ∧ l.length < logMaxLine) :
    ∃ why, parseSent (unlines (logLines es ++ [[]] ++ (b!"commit " ++ hash ++ 32 :: from?) :: more)) = (es.map LogEntry.meaning, some (.panic why)) := by
  obtain ⟨es, e, rfl⟩ : ∃ es' e, es = es' ++ [e] := ⟨es.dropLast, es.getLast hne, (List.dropLast_concat_getLast hne).symm⟩
  obtain ⟨p, g1, g2⟩ := log_blank es e h (p := {}) (out := []) (Or.inl ⟨rfl, rfl⟩)
  have hl := log_lines_ok _ h
  have hscan := scan_unlines logMaxLine (logLines (es ++ [e]) ++ [[]] ++ (b!"commit " ++ hash ++ 32 :: from?) :: more) (by
      intro l hl'
      rcases List.mem_append.1 hl' with hl' | hl'
      · rcases List.mem_append.1 hl' with hl' | hl'
        · exact (hl l hl').1
        · rw [List.mem_singleton.1 hl']; simp [NoNL]
      · exact (hok l hl').1) (by
      intro l hl'
      rcases List.mem_append.1 hl' with hl' | hl'
      · rcases List.mem_append.1 hl' with hl' | hl'
        · exact (hl l hl').2
        · rw [List.mem_singleton.1 hl']; decide
      · exact (hok l hl').2)
  have hcr' : dropCR (b!"commit " ++ hash ++ 32 :: from?) = b!"commit " ++ hash ++ 32 :: from? := by
    apply dropCR_of_ne
    rw [List.getLast?_append]
    cases hf : (32 :: from?).getLast? with
    | none => simp at hf
    | some x =>
      simp only [Option.some_or, ne_eq, Option.some.injEq]
      rintro rfl
      have := List.mem_of_getLast? hf
      rcases List.mem_cons.1 this with h | h
      · exact absurd h (by decide)
      · exact hcr h
  have hpc : ∀ q : LogParser, q.parseCommitLine (b!"commit " ++ hash ++ 32 :: from?) = .error (.panic "slice bounds out of range") := by
    intro q
    unfold LogParser.parseCommitLine
    have hs : startsWith (b!"commit " ++ hash ++ 32 :: from?) b!"commit " = true := by simp [startsWith]
    have hd : (b!"commit " ++ hash ++ 32 :: from?).drop 7 = hash ++ 32 :: from? := by
      rw [List.append_assoc, List.drop_append_of_le_length (by decide)]
      rfl
    have hi : (hash ++ 32 :: from?).idxOf 32 = hash.length := by
      rw [List.idxOf_append, if_neg h1]; simp
    have hcn : (hash ++ 32 :: from?).contains 32 = true := by simp
    simp only [hs, hd, hi, hcn, Bool.true_eq_false, if_false]
    have : ((hash ++ 32 :: from?).drop (hash.length + 1)) = from? := by
      rw [List.drop_append, List.drop_eq_nil_of_le (by omega)]
      simp
    rw [this, if_pos h2]
  have hs : startsWith (b!"commit " ++ hash ++ 32 :: from?) b!"commit " = true := by simp [startsWith]
  refine ⟨"slice bounds out of range", ?_⟩
  unfold parseSent
  rw [hscan]
  simp only [List.map_append (l₂ := _ :: more), List.map_cons]
  rw [lines_append _ g1, hcr']
  rcases g2 with ⟨_, s1, s2, _⟩ | ⟨_, s1, s2, s3⟩
  · have hline : p.line (b!"commit " ++ hash ++ 32 :: from?) = .error (.panic "slice bounds out of range") := by
      unfold LogParser.line; rw [s1]; exact hpc p
    simp only [LogParser.lines, hline, s1, reduceCtorEq, false_and, if_false, s2, List.nil_append]
  · have hline : p.line (b!"commit " ++ hash ++ 32 :: from?) = .error (.panic "slice bounds out of range") := by
      unfold LogParser.line; rw [s1]
      have hnd : isDiffStart (b!"commit " ++ hash ++ 32 :: from?) = false := by
        simp [isDiffStart]
      have hc : b!"commit " ++ hash ++ 32 :: from? = 99 :: (b!"ommit " ++ hash ++ 32 :: from?) := rfl
      rw [hc] at hnd hs ⊢
      simp only [hnd, hs]
      exact hpc _
    simp only [LogParser.lines, hline, s1, hs, true_and, if_true]
    simp [LogParser.endCommit, s1, s2, s3]

/-- **C56, a foreign line.** The line after the log and its empty line is not a commit line (nor a message line or the start of a diff): the parser panics; it has sent
the commits before it, except the last one if that has no diffs. -/
theorem C56_foreign_line (es : List LogEntry) (e : LogEntry) (h : ∀ x ∈ es ++ [e], x.Ok) (c : UInt8) (bad : Str) (more : List Str) (h1 : c ≠ 32 ∧ c ≠ 13)
    (h2 : startsWith (dropCR (c :: bad)) b!"commit " = false) (h3 : startsWith (c :: bad) b!"diff" = false)
    (hok : ∀ l ∈ (c :: bad) :: more, NoNL l ∧ l.length < logMaxLine) :
    ∃ why, parseSent (unlines (logLines (es ++ [e]) ++ [[]] ++ (c :: bad) :: more)) =
      ((if e.diffs = [] then es else es ++ [e]).map LogEntry.meaning, some (.panic why)) := by
  obtain ⟨p, g1, g2⟩ := log_blank es e h (p := {}) (out := []) (Or.inl ⟨rfl, rfl⟩)
  have hl := log_lines_ok _ h
  have hscan := scan_unlines logMaxLine (logLines (es ++ [e]) ++ [[]] ++ (c :: bad) :: more) (by
      intro l hl'
      rcases List.mem_append.1 hl' with hl' | hl'
      · rcases List.mem_append.1 hl' with hl' | hl'
        · exact (hl l hl').1
        · rw [List.mem_singleton.1 hl']; simp [NoNL]
      · exact (hok l hl').1) (by
      intro l hl'
      rcases List.mem_append.1 hl' with hl' | hl'
      · rcases List.mem_append.1 hl' with hl' | hl'
        · exact (hl l hl').2
        · rw [List.mem_singleton.1 hl']; decide
      · exact (hok l hl').2)
  have hcr : dropCR (c :: bad) = c :: dropCR bad := dropCR_cons_of_ne c bad (.inl h1.2)
  have hnd : isDiffStart (c :: dropCR bad) = false := by
    have hpre : dropCR bad <+: bad := by
      unfold dropCR
      split
      · exact List.dropLast_prefix _
      · exact List.prefix_rfl
    obtain ⟨t, ht⟩ := hpre
    cases hd : isDiffStart (c :: dropCR bad) with
    | false => rfl
    | true =>
      exfalso
      simp only [isDiffStart, Bool.and_eq_true, decide_eq_true_eq] at hd
      have : startsWith (c :: bad) b!"diff" = true := by
        rw [← ht]
        have h4 : (c :: (dropCR bad ++ t)).take 4 = (c :: dropCR bad).take 4 := by
          rw [← List.cons_append, List.take_append_of_le_length (by omega)]
        unfold startsWith
        have h5 : (b!"diff").length = 4 := rfl
        simp only [h5, h4, hd.2]
        have : 4 ≤ (c :: (dropCR bad ++ t)).length := by
          have := hd.1
          simp only [List.length_cons, List.length_append] at this ⊢
          omega
        simp only [List.length_cons, List.length_append] at this
        simp
        exact Nat.le_of_succ_le_succ this
      rw [this] at h3; cases h3
  rw [hcr] at h2
  unfold parseSent
  rw [hscan]
  simp only [List.map_append (l₂ := _ :: more), List.map_cons]
  rw [lines_append _ g1, hcr]
  rcases g2 with ⟨hd, s1, s2, _⟩ | ⟨hd, s1, s2, s3⟩
  · refine ⟨"no 'commit ' prefix", ?_⟩
    have hline : p.line (c :: dropCR bad) = .error (.panic "no 'commit ' prefix") := by
      unfold LogParser.line; rw [s1]
      show p.parseCommitLine _ = _
      unfold LogParser.parseCommitLine; rw [if_pos h2]
    simp only [LogParser.lines, hline, s1, reduceCtorEq, false_and, if_false, s2, List.nil_append, if_neg hd]
  · refine ⟨"stSkippingMessageDiffOrCommitNext unexpected line", ?_⟩
    have hline : p.line (c :: dropCR bad) = .error (.panic "stSkippingMessageDiffOrCommitNext unexpected line") := by
      unfold LogParser.line; rw [s1]
      simp only [h1.1, if_false, hnd, Bool.false_eq_true, h2]
    simp only [LogParser.lines, hline, h2, Bool.false_eq_true, and_false, if_false, s2, List.nil_append, if_pos hd]

/-- One commit without a diff, then a commit line that was cut. -/
example : ∃ why, parseSent (unlines (logLines [{ hash := b!"c1", author := b!"A", message := [.text b!"m"], diffs := [] }] ++ [[]] ++ [b!"commit " ++ b!"c2" ++ 32 :: b!"(fro"])) =
    ([{ hash := b!"c1" }], some (.panic why)) :=
  C56_broken_commit_line _ (by simp) (by
    intro e he
    rw [List.mem_singleton.1 he]
    exact ⟨by decide, by simp, by decide, by simp, by decide, by intro m hm; rw [List.mem_singleton.1 hm]; exact ⟨by decide, by decide⟩, by simp⟩) _ _ [] (by decide) (by decide) (by decide) (by decide)

/-- One commit without a diff, then a line of another program. -/
example : ∃ why, parseSent (unlines (logLines ([] ++ [{ hash := b!"c1", author := b!"A", message := [.text b!"m"], diffs := [] }]) ++ [[]] ++ (119 :: b!"arning: x") :: [])) =
    ([], some (.panic why)) :=
  C56_foreign_line [] _ (by
    intro e he
    rw [List.mem_singleton.1 he]
    exact ⟨by decide, by simp, by decide, by simp, by decide, by intro m hm; rw [List.mem_singleton.1 hm]; exact ⟨by decide, by decide⟩, by simp⟩) _ _ [] (by decide) (by decide) (by decide) (by decide)

end Ripsrc
