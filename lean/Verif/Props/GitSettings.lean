import Verif.Props.GitConfig
import Verif.Props.Quoted
/-!
# C76: more settings of the user that change what git prints - `diff.suppressBlankEmpty`, `diff.renames=copies`, `log.showRoot=false`
-/
namespace Ripsrc
open Spec

/-! ## `diff.suppressBlankEmpty` -/

/-- **C76 (empty context lines).** With `diff.suppressBlankEmpty` a kept empty line of a file is printed as an empty line, not as a space. `e` is a commit up to such a line in one of its
diffs; `l` is whatever line follows (of the same diff, of the next one, the empty line before the next commit), not a commit line: the parser panics. It has sent `e` with what came before
the empty line. -/
theorem C76_suppress_blank_empty (es : List LogEntry) (e : LogEntry) (h : ∀ x ∈ es ++ [e], x.Ok) (hd : e.diffs ≠ []) (l : Str) (more : List Str)
    (h2 : startsWith (dropCR l) b!"commit " = false) (hok : ∀ x ∈ l :: more, NoNL x ∧ x.length < logMaxLine) :
    ∃ why, parseSent (unlines (logLines (es ++ [e]) ++ [[]] ++ l :: more)) = ((es ++ [e]).map LogEntry.meaning, some (.panic why)) := by
  obtain ⟨p, g1, g2⟩ := log_blank es e h (p := {}) (out := []) (Or.inl ⟨rfl, rfl⟩)
  have hl := log_lines_ok _ h
  have hscan := scan_unlines logMaxLine (logLines (es ++ [e]) ++ [[]] ++ l :: more) (by
      intro l hl'
      rcases List.mem_append.1 hl' with hl' | hl'
      · rcases List.mem_append.1 hl' with hl' | hl'
        · exact (hl l hl').1
        · rw [List.mem_singleton.1 hl']; simp [NoNL]
      · exact (hok l hl').1) (by
      intro l hl'
      rcases List.mem_append.1 hl' with hl' | hl'
      · rcases List.mem_append.1 hl' with hl' | hl'
        · exact (hl l hl').2
        · rw [List.mem_singleton.1 hl']; decide
      · exact (hok l hl').2)
  unfold parseSent
  rw [hscan]
  simp only [List.map_append (l₂ := _ :: more), List.map_cons]
  rw [lines_append _ g1]
  rcases g2 with ⟨_, s1, s2, _⟩ | ⟨hd', _⟩
  · refine ⟨"no 'commit ' prefix", ?_⟩
    have hline : p.line (dropCR l) = .error (.panic "no 'commit ' prefix") := by
      unfold LogParser.line; rw [s1]
      show p.parseCommitLine _ = _
      unfold LogParser.parseCommitLine; rw [if_pos h2]
    simp only [LogParser.lines, hline, s1, reduceCtorEq, false_and, if_false, s2, List.nil_append]
  · exact absurd hd' hd

/-- Only if the empty line is the last line of the whole log, the log is accepted - but then the last commit is sent twice. -/
theorem C76_suppress_blank_empty_end (es : List LogEntry) (e : LogEntry) (h : ∀ x ∈ es ++ [e], x.Ok) (hd : e.diffs ≠ []) :
    parseLog (unlines (logLines (es ++ [e]) ++ [[]])) = .ok ((es ++ [e]).map LogEntry.meaning ++ [e.meaning]) := by
  obtain ⟨p, g1, g2⟩ := log_blank es e h (p := {}) (out := []) (Or.inl ⟨rfl, rfl⟩)
  have hl := log_lines_ok _ h
  have hscan := scan_unlines logMaxLine (logLines (es ++ [e]) ++ [[]]) (by
      intro l hl'
      rcases List.mem_append.1 hl' with hl' | hl'
      · exact (hl l hl').1
      · rw [List.mem_singleton.1 hl']; simp [NoNL]) (by
      intro l hl'
      rcases List.mem_append.1 hl' with hl' | hl'
      · exact (hl l hl').2
      · rw [List.mem_singleton.1 hl']; decide)
  rcases g2 with ⟨_, s1, s2, s3⟩ | ⟨hd', _⟩
  · unfold parseLog
    rw [hscan]
    simp only [g1, bind, Except.bind, Bool.false_eq_true, if_false, s1]
    simp [LogParser.endCommit, s1, s2, s3]
  · exact absurd hd' hd

/-! ## `diff.renames=copies` -/

theorem parse_copy {before after : List Str} (hbe : ∀ l ∈ before, OtherHeader l) (haf : ∀ l ∈ after, OtherHeader l) {p q : Str} (hp : NameOk p) (hq : NameOk q)
    (hps : (32 : UInt8) ∉ p) (hqs : (32 : UInt8) ∉ q) {body : Body} (hbo : body.Ok) (hl : ∀ l ∈ copyLines before after p q body, NoNL l ∧ l.length < 100000000) :
    parseDiff (unlines (copyLines before after p q body)) = .ok { pathPrev := p, path := q, isBinary := body.isBinary, hunks := body.hunks } :=
  parse_change { kind := .copy p q, before := before, after := after, body := body } ⟨⟨hp, hq, hps, hqs⟩, hbe, haf, hbo, hl⟩

/-- **C76 (copies).** With `diff.renames=copies`, the diff of a copied file whose names have no space is read as it is meant: from the old file, to the new one, with these changes. (The names
may be quoted by git: the names of the declaration line are used, not those of the `copy` lines.) -/
theorem C76_copy {before after : List Str} (hbe : ∀ l ∈ before, OtherHeader l) (haf : ∀ l ∈ after, OtherHeader l) {p q : Str} (hp : NameOk p) (hq : NameOk q)
    (hps : (32 : UInt8) ∉ p) (hqs : (32 : UInt8) ∉ q) {body : Body} (hbo : body.Ok) (hl : ∀ l ∈ copyLines before after p q body, NoNL l ∧ l.length < 100000000) :
    parseDiff (unlines (copyLines before after p q body)) = .ok { pathPrev := p, path := q, isBinary := body.isBinary, hunks := body.hunks } :=
  parse_copy hbe haf hp hq hps hqs hbo hl

/-- A declaration line that is not understood. -/
theorem decl_two_names {p q : Str} (hs : (32 : UInt8) ∈ p ∨ (32 : UInt8) ∈ q) (hamb : ∀ n c, p ++ b!" b/" ++ q ≠ n ++ c :: (b!"b/" ++ n)) :
    parseDiffDecl (declLine p q) = .error .renameWithSpaces := by
  rw [decl_spaces p q hs]
  simp only
  by_cases hc : (b!"a/" ++ p ++ b!" b/" ++ q).length < 7 ∨ (b!"a/" ++ p ++ b!" b/" ++ q).length % 2 ≠ 1 ∨ (b!"a/" ++ p ++ b!" b/" ++ q).take 2 ≠ b!"a/" ∨
      ((b!"a/" ++ p ++ b!" b/" ++ q).drop ((b!"a/" ++ p ++ b!" b/" ++ q).length / 2 + 1)).take 2 ≠ b!"b/"
  · rw [if_pos hc]
  · rw [if_neg hc, if_pos]
    intro heq
    obtain ⟨c1, c2, _, c4⟩ : 7 ≤ (b!"a/" ++ p ++ b!" b/" ++ q).length ∧ (b!"a/" ++ p ++ b!" b/" ++ q).length % 2 = 1 ∧ True ∧
      ((b!"a/" ++ p ++ b!" b/" ++ q).drop ((b!"a/" ++ p ++ b!" b/" ++ q).length / 2 + 1)).take 2 = b!"b/" := by
      refine ⟨?_, ?_, trivial, ?_⟩
      · exact Nat.le_of_not_lt fun h => hc (.inl h)
      · exact Classical.not_not.1 fun h => hc (.inr (.inl h))
      · exact Classical.not_not.1 fun h => hc (.inr (.inr (.inr h)))
    generalize hD : p ++ b!" b/" ++ q = D at hamb
    have e0 : b!"a/" ++ p ++ b!" b/" ++ q = 97 :: 47 :: D := by rw [← hD]; simp
    rw [e0] at heq c1 c2 c4
    simp only [List.length_cons] at c1 c2 c4 heq
    have hm : (D.length + 1 + 1) / 2 = (D.length / 2 - 1) + 2 := by omega
    generalize D.length / 2 - 1 = k at hm
    rw [hm] at heq c4
    have hk : D.length = 2 * k + 3 := by omega
    simp only [List.take_succ_cons, List.drop_succ_cons, List.drop_zero] at heq c4
    have e1 : D = D.take k ++ D.drop k := (List.take_append_drop _ _).symm
    have e2 : D.drop k = D[k]'(by omega) :: D.drop (k + 1) := List.drop_eq_getElem_cons (by omega)
    have e3 : D.drop (k + 1) = (D.drop (k + 1)).take 2 ++ (D.drop (k + 1)).drop 2 := (List.take_append_drop _ _).symm
    rw [c4, List.drop_drop, ← heq] at e3
    exact hamb (D.take k) (D[k]'(by omega)) (by rw [← e3, ← e2]; exact e1)

/-- **C76 (copies, name with a space).** If one of the two names has a space, the diff of a copied file is read without a name (there are no `rename` lines to read it from): the copy is reported
as the deletion of a file with the empty name, and the new file is not stored. (Condition: the two names of the declaration line cannot be mistaken for the same name printed twice.) -/
theorem C76_copy_space {p q : Str} (hs : (32 : UInt8) ∈ p ∨ (32 : UInt8) ∈ q) (hamb : ∀ n c, p ++ b!" b/" ++ q ≠ n ++ c :: (b!"b/" ++ n)) (hq : q ≠ []) (hcr : (13 : UInt8) ∉ q)
    (ls : List Str) (hren : ∀ l ∈ ls, startsWith (dropCR l) b!"rename from " = false) (hok : ∀ l ∈ declLine p q :: ls, NoNL l ∧ l.length < incMaxLine) {x : Diff}
    (h : parseDiff (unlines (declLine p q :: ls)) = .ok x) {env : Env} {hash : Str} {parents : List Str} {st st' : Repo × Files}
    (hst : regularChange env hash parents st (unlines (declLine p q :: ls)) = .ok st') :
    x.path = [] ∧ x.pathPrev = [] ∧ st'.1 = st.1 ∧ ∀ f, f ≠ [] → GoMap.get st'.2 f = GoMap.get st.2 f := by
  have hcrl : dropCR (declLine p q) = declLine p q := by
    have e : declLine p q = (b!"diff --git a/" ++ p ++ b!" b/") ++ q := by simp [declLine]
    rw [e, dropCR_append _ _ (.inl hq), dropCR_of_not_mem hcr]
  obtain ⟨a, b⟩ := lost_path _ ls (decl_two_names hs hamb) hcrl (by simp [declLine]) hren hok h
  refine ⟨a, b, ?_⟩
  unfold regularChange at hst
  rw [h] at hst
  simp only [bind, Except.bind, if_pos a] at hst
  split at hst
  · cases hst
    exact ⟨rfl, fun f hf => GoMap.get_set_ne _ _ (by rw [b]; exact fun he => hf he.symm)⟩
  · cases hst
    exact ⟨rfl, fun f hf => GoMap.get_set_ne _ _ (by rw [b]; exact fun he => hf he.symm)⟩

/-! ## `log.showRoot=false`, and every other way in which a file was not shown -/

/-- **C65 (source).** For every log: if a run from the beginning does not fail, then each file from which a commit with one parent keeps or removes a line, or which it renames without a change,
was the new name in a diff of an earlier entry of the log, of an ancestor of the commit. -/
theorem C65_source {env : Env} (hsrt : SortsHunks env.srt) (horder : ∀ n k l, (env.order n k l).Perm l) {opts : RunOpts} (hopts : opts.commitFromIncl = []) {read : Str → Go Repo}
    {g : Graph} (hself : ∀ h, h ∉ g.parentsOf h) {pre post : List LogCommit} {e : LogCommit} (h : (run env opts read g (pre ++ e :: post)).fault = none)
    {q : Str} (hone : g.parentsOf e.hash = [q]) {ch : Str} (hch : ch ∈ e.changes) {d : Diff} (hd : parseDiff ch = .ok d) (hn : NeedsFile d) :
    ∃ a, g.Reach q a ∧ ∃ e' ∈ pre, e'.hash = a ∧ WritesPath e' d.pathPrev := by
  have hinit : initCheckpoints opts read = .ok [] := by simp [initCheckpoints, hopts]
  have hloop : ∃ t, Proc.loop env { graph := g, repo := [] } (pre ++ e :: post) = (t, none) := by
    unfold run at h
    split at h
    · rename_i h0; simp at h0
    · rw [hinit] at h
      simp only at h
      split at h
      · rename_i hl; cases h
      · rename_i s hl
        exact ⟨s, hl⟩
  obtain ⟨t, ht⟩ := hloop
  obtain ⟨n, repo, r, res, hI, hr⟩ := loop_at (I := FromAncestor g pre) (fun h f fs hfs => by cases hfs) (fromAncestor_reg horder hself) (fromAncestor_mer horder hself) (by rw [hone]; simp)
    (⟨rfl, fun h f fs hfs => (by cases hfs), by simp, by intro q e he; simp at he⟩ : Along (FromAncestor g pre) g pre { graph := g, repo := [] }) ht
  rw [hone] at hr
  have hne : q ≠ e.hash := fun he => hself e.hash (by rw [hone, he]; simp)
  apply Classical.byContradiction
  intro hc
  refine regular_lacks hsrt hch hd hn hne ?_ hr
  intro fs hfs
  cases hf : GoMap.get fs d.pathPrev with
  | none => rfl
  | some b => exact absurd (hI q _ fs hfs ((GoMap.get_isSome_iff _ _).1 (by rw [hf]; rfl))) hc

/-- **C76 (root not shown).** With `log.showRoot=false` the log shows no diff for a root commit. The first change of a file that was there in the root - a change that keeps or removes one of its
lines, or a rename - makes the run fail: nothing is written, whatever else is in the log. -/
theorem C76_show_root {env : Env} (hsrt : SortsHunks env.srt) (horder : ∀ n k l, (env.order n k l).Perm l) {opts : RunOpts} (hopts : opts.commitFromIncl = []) {read : Str → Go Repo}
    {g : Graph} (hself : ∀ h, h ∉ g.parentsOf h) {pre post : List LogCommit} {e : LogCommit} {q : Str} (hone : g.parentsOf e.hash = [q])
    (hroot : ∀ x ∈ pre, g.parentsOf x.hash = [] → x.changes = []) {ch : Str} (hch : ch ∈ e.changes) {d : Diff} (hd : parseDiff ch = .ok d) (hn : NeedsFile d)
    (hfirst : ∀ a, g.Reach q a → g.parentsOf a ≠ [] → ∀ x ∈ pre, x.hash = a → ¬ WritesPath x d.pathPrev) :
    (run env opts read g (pre ++ e :: post)).fault ≠ none ∧ (run env opts read g (pre ++ e :: post)).written = none := by
  have hf : (run env opts read g (pre ++ e :: post)).fault ≠ none := by
    intro h
    obtain ⟨a, ha, x, hx, hxa, hw⟩ := C65_source hsrt horder hopts hself h hone hch hd hn
    by_cases hr : g.parentsOf a = []
    · have := hroot x hx (by rw [hxa]; exact hr)
      obtain ⟨_, c, hc, _⟩ := hw
      rw [this] at hc
      cases hc
    · exact hfirst a ha hr x hx hxa hw
  exact ⟨hf, run_fails_writes_nothing hf⟩

/-! ## The hypotheses are met -/

/-- Two different names of the same length, or of an odd total length, cannot be mistaken for one name printed twice. -/
theorem not_ambiguous {p q : Str} (h : (p.length = q.length ∧ p ≠ q) ∨ (p.length + q.length) % 2 = 1) : ∀ n c, p ++ b!" b/" ++ q ≠ n ++ c :: (b!"b/" ++ n) := by
  intro n c he
  have hl := congrArg List.length he
  simp only [List.length_append, List.length_cons, List.length_nil] at hl
  rcases h with ⟨h1, h2⟩ | h
  · have hn : n.length = p.length := by omega
    rw [List.append_assoc] at he
    obtain ⟨rfl, h4⟩ := List.append_inj he hn.symm
    simp only [List.cons_append, List.cons.injEq, List.nil_append] at h4
    exact h2 h4.2.2.2.symm
  · omega

namespace ExSettings

/-- `f` is `a`, an empty line, `b`; the commit `c2` replaces `b`: with `diff.suppressBlankEmpty` the second line is shown as an empty line. -/
def chCut : List Str := [b!"diff --git a/f b/f", b!"index 7898192..422c2b7 100644", b!"--- a/f", b!"+++ b/f", b!"@@ -1,3 +1,3 @@", b!" a"]

theorem okCut : FileDiffOk chCut := ⟨⟨b!"a/f b/f", rfl, by decide, by decide⟩, fun l hl => ExConfig.okLine (by revert l; decide)⟩

theorem ok2 : ∀ x ∈ [ExConfig.entry b!"c1" none [ExConfig.chF]] ++ [ExConfig.entry b!"c2" none [chCut]], x.Ok := by
  intro x hx
  simp only [List.cons_append, List.nil_append, List.mem_cons, List.not_mem_nil, or_false] at hx
  rcases hx with rfl | rfl
  · exact ExConfig.entry_ok (by decide) (by simp) (by decide) (by simpa using ExConfig.okF)
  · exact ExConfig.entry_ok (by decide) (by simp) (by decide) (by simpa using okCut)

example : ∃ why, parseSent (unlines (logLines ([ExConfig.entry b!"c1" none [ExConfig.chF]] ++ [ExConfig.entry b!"c2" none [chCut]]) ++ [[]] ++ b!"-b" :: [b!"+c"])) =
    ([{ hash := b!"c1", changes := [unlines ExConfig.chF] }, { hash := b!"c2", changes := [unlines chCut] }], some (.panic why)) :=
  C76_suppress_blank_empty _ _ ok2 (by simp [ExConfig.entry]) _ _ (by decide) (by decide)

/-- The empty line is the last line of the log: `c2` is sent twice. -/
example : parseLog (unlines (logLines ([ExConfig.entry b!"c1" none [ExConfig.chF]] ++ [ExConfig.entry b!"c2" none [chCut]]) ++ [[]])) =
    .ok [{ hash := b!"c1", changes := [unlines ExConfig.chF] }, { hash := b!"c2", changes := [unlines chCut] }, { hash := b!"c2", changes := [unlines chCut] }] :=
  C76_suppress_blank_empty_end _ _ ok2 (by simp [ExConfig.entry])

/-- `g` starts as a copy of `ä`. -/
example : parseDiff (unlines (copyLines [b!"similarity index 100%"] [] b!"\\303\\244" b!"g" .empty)) = .ok { pathPrev := b!"\\303\\244", path := b!"g", isBinary := false, hunks := [] } :=
  C76_copy (by
    intro l hl
    rw [List.mem_singleton.1 hl]
    exact ⟨by decide, .inr (.inr (.inr (.inl ⟨_, rfl⟩)))⟩) (by simp) (.inr (by decide)) (.inl (by decide)) (by decide) (by decide) trivial (by decide)

/-- `my copy` starts as a copy of `my file`. -/
def chCopy : List Str := copyLines [b!"similarity index 100%"] [] b!"my file" b!"my copy" .empty

/-- The copy is lost, and a file without name is reported as deleted. -/
example : ∃ x st', parseDiff (unlines chCopy) = .ok x ∧ regularChange Ex.env b!"c2" [b!"c1"] ([], []) (unlines chCopy) = .ok st' ∧ x.path = [] ∧ x.pathPrev = [] ∧ st'.1 = [] ∧
    (∀ f, f ≠ [] → GoMap.get st'.2 f = none) ∧ GoMap.get st'.2 [] ≠ none := by
  have h1 : (parseDiff (unlines chCopy)).isOk = true := by decide +kernel
  have h2 : (match regularChange Ex.env b!"c2" [b!"c1"] ([], []) (unlines chCopy) with | .ok st => (GoMap.get st.2 []).isSome | .error _ => false) = true := by decide +kernel
  have e : chCopy = declLine b!"my file" b!"my copy" :: [b!"similarity index 100%", b!"copy from my file", b!"copy to my copy"] := by decide
  cases hx : parseDiff (unlines chCopy) with
  | error e => rw [hx] at h1; cases h1
  | ok x =>
    cases hst : regularChange Ex.env b!"c2" [b!"c1"] ([], []) (unlines chCopy) with
    | error e => rw [hst] at h2; cases h2
    | ok st' =>
      obtain ⟨a, b, c, d⟩ := C76_copy_space (p := b!"my file") (q := b!"my copy") (.inl (by decide)) (not_ambiguous (.inl (by decide))) (by decide) (by decide)
        [b!"similarity index 100%", b!"copy from my file", b!"copy to my copy"] (by decide) (by decide) (by rw [← e]; exact hx) (by rw [← e]; exact hst)
      refine ⟨x, st', rfl, rfl, a, b, c, d, ?_⟩
      rw [hst] at h2
      intro h
      simp [h] at h2

/-- `c1`, the root, creates `f`, but is shown without a diff; `c3` adds a line to `f`. -/
example (env : Env) (hsrt : SortsHunks env.srt) (horder : ∀ n k l, (env.order n k l).Perm l) :
    (run env {} (fun _ => .ok []) ExConfig.g ([{ hash := b!"c1" }] ++ { hash := b!"c3", changes := [unlines ExConfig.chA] } :: [])).fault ≠ none := by
  have hd : (match parseDiff (unlines ExConfig.chA) with | .ok d => decide (d.isBinary = false ∧ d.path ≠ [] ∧ d.pathPrev ≠ [] ∧ ∃ h ∈ d.hunks, ∃ l ∈ hunkLines h, usesOld l = true) | .error _ => false) = true := by
    decide +kernel
  cases hp : parseDiff (unlines ExConfig.chA) with
  | error e => rw [hp] at hd; cases hd
  | ok d =>
    rw [hp] at hd
    obtain ⟨n1, n2, n3, n4⟩ := of_decide_eq_true hd
    refine (C76_show_root hsrt horder rfl ExConfig.self (q := b!"c1") (by decide +kernel) (by simp) (List.mem_singleton.2 rfl) hp ⟨n1, n2, n3, .inr n4⟩ ?_).1
    intro a _ hnr x hx hxa
    exfalso
    apply hnr
    rw [← hxa, List.mem_singleton.1 hx]
    decide +kernel

/-- The run with the diff of the root succeeds: `C65_source` finds `c1`. -/
example : ∃ a, ExConfig.g.Reach b!"c1" a ∧ ∃ e' ∈ [{ hash := b!"c1", changes := [unlines ExConfig.chF] : LogCommit }], e'.hash = a ∧ WritesPath e' b!"f" := by
  have hd : (match parseDiff (unlines ExConfig.chA) with
    | .ok d => decide (d.isBinary = false ∧ d.path ≠ [] ∧ d.pathPrev = b!"f" ∧ ∃ h ∈ d.hunks, ∃ l ∈ hunkLines h, usesOld l = true) | .error _ => false) = true := by
    decide +kernel
  cases hp : parseDiff (unlines ExConfig.chA) with
  | error e => rw [hp] at hd; cases hd
  | ok d =>
    rw [hp] at hd
    obtain ⟨n1, n2, n3, n4⟩ := of_decide_eq_true hd
    have := C65_source (env := Ex.env) isort_sortsHunks (fun _ _ _ => .refl _) (opts := {}) rfl (read := fun _ => .ok []) ExConfig.self (q := b!"c1")
      (pre := [{ hash := b!"c1", changes := [unlines ExConfig.chF] }]) (e := { hash := b!"c3", changes := [unlines ExConfig.chA] }) (post := [])
      (by decide +kernel) (by decide +kernel) (List.mem_singleton.2 rfl) hp ⟨n1, n2, by rw [n3]; decide, .inr n4⟩
    rw [n3] at this
    exact this

end ExSettings

end Ripsrc
