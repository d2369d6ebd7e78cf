import Verif.Lib.LogPatch
import Verif.Props.Parse
/-!
# C11: the `git log` parser
-/
namespace Ripsrc
open Spec

/-- **C11.** For every log in git's format the parser sends exactly one commit per entry, in order, with its hash, the
parent a merge diff is against, and the bytes of each file diff (line endings normalised). -/
theorem C11_log_parser (es : List LogEntry) (h : ∀ e ∈ es, e.Ok) : parseLog (logText es) = .ok (es.map LogEntry.meaning) :=
  parseLog_render es h

/-- **C11 with C07.** If the file diffs of the entries are file changes, then each change the parser passes on is parsed by
`Parse` as what the change means (shown lines without trailing carriage returns). -/
theorem C11_then_parse (es : List (LogEntry × List FileChange)) (h : ∀ x ∈ es, x.1.Ok ∧ x.1.diffs = x.2.map FileChange.lines ∧ ∀ f ∈ x.2, f.Ok) :
    parseLog (logText (es.map Prod.fst)) = .ok (es.map (fun x => x.1.meaning)) ∧
    ∀ x ∈ es, x.1.meaning.changes.map parseDiff = x.2.map (fun f => .ok f.norm.meaning) := by
  constructor
  · have := parseLog_render (es.map Prod.fst) (by
      intro e he
      obtain ⟨x, hx, rfl⟩ := List.mem_map.1 he
      exact (h x hx).1)
    rw [this, List.map_map]
    rfl
  · intro x hx
    obtain ⟨_, h2, h3⟩ := h x hx
    simp only [LogEntry.meaning, h2, List.map_map]
    refine List.map_congr_left (fun f hf => ?_)
    simp only [Function.comp_apply]
    rw [norm_lines (h3 f hf)]
    exact parse_change f.norm (norm_ok (h3 f hf))

/-- The file changes of C07 are file diffs in the sense of the log format, so `LogEntry.Ok` can be met by entries with
arbitrary file changes. -/
theorem C11_changes_are_diffs (f : FileChange) (h : f.Ok) : FileDiffOk f.lines := change_fileDiffOk h

/-- A merge against one parent, with a message that looks like the start of an entry, and a commit without changes. -/
def exLog : List LogEntry :=
  [{ hash := b!"c0ffee", author := b!"A <a@b>", message := [.text b!"commit x"], diffs := [] },
   { hash := b!"beef", from? := some b!"c0ffee", mergeOf := some b!"c0f dea", author := b!"B <b@b>",
     message := [.text b!"diff --git a/x b/x", .blank, .text b!"end"],
     diffs := [exChange.lines, [b!"diff --git a/e b/e", b!"deleted file mode 100644", b!"index 1..0"]] },
   { hash := b!"dead", author := b!"", message := [], diffs := [] }]

theorem exChange_ok : exChange.Ok := by
  refine ⟨⟨by decide, by decide⟩, ?_, ?_, ⟨by decide, by decide⟩, by decide⟩
  · intro l hl
    simp only [exChange, List.mem_singleton] at hl
    subst hl
    exact ⟨by decide, Or.inr (Or.inr (Or.inr (Or.inl ⟨b!"90%", rfl⟩)))⟩
  · intro l hl
    simp only [exChange, List.mem_singleton] at hl
    subst hl
    exact ⟨by decide, Or.inl ⟨_, rfl⟩⟩

instance (l : Str) : Decidable (DiffLineOk l) :=
  decidable_of_iff (l ≠ [] ∧ l.head? ≠ some 13 ∧ startsWith l b!"diff" = false ∧ NoNL l ∧ l.length < logMaxLine)
    ⟨fun ⟨a, b, c, d, e⟩ => ⟨a, b, c, d, e⟩, fun ⟨a, b, c, d, e⟩ => ⟨a, b, c, d, e⟩⟩

example : (∀ e ∈ exLog, e.Ok) ∧ (exLog.map LogEntry.meaning).length = 3 := by
  refine ⟨?_, rfl⟩
  intro e he
  simp only [exLog, List.mem_cons, List.not_mem_nil, or_false] at he
  rcases he with rfl | rfl | rfl
  · refine ⟨by decide, by simp, by decide, by simp, by decide, ?_, by simp⟩
    intro m hm
    simp only [List.mem_singleton] at hm
    subst hm
    exact ⟨by decide, by decide⟩
  · refine ⟨by decide, ?_, by decide, ?_, by decide, ?_, ?_⟩
    · intro p hp; cases hp; decide
    · intro p hp; cases hp; decide
    · intro m hm
      simp only [List.mem_cons, List.not_mem_nil, or_false] at hm
      rcases hm with rfl | rfl | rfl <;> exact ⟨by decide, by decide⟩
    · intro d hd
      simp only [List.mem_cons, List.not_mem_nil, or_false] at hd
      rcases hd with rfl | rfl
      · exact change_fileDiffOk exChange_ok
      · exact ⟨⟨b!"a/e b/e", rfl, by decide, by decide⟩, by decide⟩
  · exact ⟨by decide, by simp, by decide, by simp, by decide, by simp, by simp⟩

/-- Outside git's default format: if an empty context line is printed as an empty line (git's `diff.suppressBlankEmpty`),
the parser takes it for the end of the commit and panics on the next line of the patch. -/
theorem C11_blank_context_line_panics (e : LogEntry) (he : e.Ok) (hd : e.diffs ≠ []) (rest : Str) (more : List Str)
    (hrest : startsWith (dropCR rest) b!"commit " = false)
    (hok : ∀ l ∈ e.lines ++ [[]] ++ rest :: more, NoNL l ∧ l.length < logMaxLine) :
    ∃ why, parseLog (unlines (e.lines ++ [[]] ++ rest :: more)) = .error (.panic why) := by
  obtain ⟨p1, g1, g2⟩ := entry_fold he (p := {}) (out := []) (Or.inl ⟨rfl, rfl⟩)
  have hin : p1.state = .inDiff := by
    rcases g2.2 with h | h
    · exfalso
      exact hd (by simpa [LogEntry.meaning] using h.2.1)
    · exact h.1
  have h2 : p1.line (dropCR []) = .ok p1.endCommit := by
    unfold LogParser.line; rw [hin]; rfl
  have h3 : p1.endCommit.line (dropCR rest) = .error (.panic "no 'commit ' prefix") := by
    show p1.endCommit.parseCommitLine (dropCR rest) = _
    unfold LogParser.parseCommitLine
    rw [hrest]
    rfl
  refine ⟨"no 'commit ' prefix", ?_⟩
  unfold parseLog
  rw [scan_unlines _ _ (fun l hl => (hok l hl).1) (fun l hl => (hok l hl).2)]
  simp only [List.map_append, List.map_cons, List.map_nil, List.foldlM_append, List.foldlM_cons, List.foldlM_nil, g1, bind,
    Except.bind, h2, pure, Except.pure, h3]

/-- A log that ends with an empty line after a diff (git prints none) would send its last commit twice. -/
theorem C11_trailing_blank_duplicates (es : List LogEntry) (e : LogEntry) (h : ∀ x ∈ es ++ [e], x.Ok) (hd : e.diffs ≠ []) :
    parseLog (unlines (logLines (es ++ [e]) ++ [[]])) = .ok ((es ++ [e, e]).map LogEntry.meaning) := by
  have hl := log_lines_ok (es ++ [e]) h
  have key : ∀ (es : List LogEntry) (p : LogParser) (out : List LogCommit), (∀ x ∈ es ++ [e], x.Ok) → Ready p out →
      ∃ p', ((logLines (es ++ [e])).map dropCR).foldlM LogParser.line p = .ok p' ∧
        Pending p' (out ++ es.map LogEntry.meaning) e.meaning := by
    intro es
    induction es with
    | nil =>
      intro p out h hr
      obtain ⟨p1, g1, g2⟩ := entry_fold (h e (by simp)) hr
      exact ⟨p1, g1, by simpa using g2⟩
    | cons x es ih =>
      intro p out h hr
      obtain ⟨p1, g1, g2⟩ := entry_fold (h x (by simp)) hr
      obtain ⟨p2, k1, k2⟩ := pending_blank g2
      obtain ⟨p3, l1, l2⟩ := ih p2 _ (fun y hy => h y (by
        rw [List.cons_append]; exact List.mem_cons_of_mem _ hy)) k2
      refine ⟨p3, ?_, by simpa using l2⟩
      have e1 : logLines (x :: es ++ [e]) = x.lines ++ [[]] ++ logLines (es ++ [e]) := by
        cases es <;> rfl
      rw [e1]
      simp only [List.map_append, List.foldlM_append, g1, List.map_cons, List.map_nil, List.foldlM_cons,
        List.foldlM_nil, bind, Except.bind, k1, pure, Except.pure]
      simpa using l1
  obtain ⟨p1, g1, g2⟩ := key es {} [] h (Or.inl ⟨rfl, rfl⟩)
  have hin : p1.state = .inDiff := by
    rcases g2.2 with h | h
    · exfalso
      exact hd (by simpa [LogEntry.meaning] using h.2.1)
    · exact h.1
  have hm : p1.endDiff.commit = e.meaning := by
    rcases g2.2 with h | h
    · rw [hin] at h; cases h.1
    · exact h.2
  have h2 : p1.line (dropCR []) = .ok p1.endCommit := by
    unfold LogParser.line; rw [hin]; rfl
  unfold parseLog
  rw [scan_unlines _ _ (fun l hl' => ?_) (fun l hl' => ?_)]
  · simp only []
    rw [List.map_append, List.foldlM_append, g1]
    simp only [List.map_cons, List.map_nil, List.foldlM_cons, List.foldlM_nil, bind, Except.bind, h2, pure, Except.pure,
      Bool.false_eq_true, if_false]
    have h4 : p1.endCommit.state = .commitNext := rfl
    have h5 : p1.endCommit.commit = e.meaning := by
      rw [← hm]; simp [LogParser.endCommit, hin]
    have h6 : p1.endCommit.out = es.map LogEntry.meaning ++ [e.meaning] := by
      have := (pending_end g2).2
      simpa using this
    have h7 : p1.endCommit.endCommit.out = es.map LogEntry.meaning ++ [e.meaning] ++ [e.meaning] := by
      rw [← h6, ← h5]; rfl
    rw [h4, h7]
    simp
  · rcases List.mem_append.1 hl' with h | h
    · exact (hl l h).1
    · simp only [List.mem_singleton] at h; subst h; simp [NoNL]
  · rcases List.mem_append.1 hl' with h | h
    · exact (hl l h).2
    · simp only [List.mem_singleton] at h; subst h; decide

end Ripsrc
