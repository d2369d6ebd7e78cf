import Verif.Props.QuotedRename
import Verif.Lib.PowerLoss
/-!
# C83: a binary file with a quoted name is renamed and changed in one commit
-/
namespace Ripsrc
open Spec

/-- The path under which the result of the commit shows the diff. -/
def reportedPath (d : Diff) : Str := if d.path = [] then d.pathPrev else d.path

theorem regularChange_reports {env : Env} {hash : Str} {parents : List Str} {st st' : Repo × Files} {ch : Str} (h : regularChange env hash parents st ch = .ok st') :
    ∃ d b, parseDiff ch = .ok d ∧ st'.2 = GoMap.set st.2 (reportedPath d) b ∧ (d.isBinary = true → b = blameBinaryFile hash) := by
  have hstore : ∀ p b, store hash st p b = .ok st' → st'.2 = GoMap.set st.2 p b := by
    intro p b h
    unfold store at h
    obtain ⟨r, _, h⟩ := bind_ok h
    cases h
    rfl
  obtain ⟨d, hd⟩ : ∃ d, parseDiff ch = .ok d := by
    unfold regularChange at h
    obtain ⟨d, hd, _⟩ := bind_ok h
    exact ⟨d, hd⟩
  unfold regularChange at h
  simp only [hd, bind, Except.bind] at h
  refine ⟨d, ?_⟩
  by_cases hb : d.isBinary = true
  · rw [if_pos hb] at h
    by_cases hp : d.path = []
    · rw [if_pos hp] at h
      cases h
      exact ⟨_, hd, by simp [reportedPath, hp], fun _ => rfl⟩
    · rw [if_neg hp] at h
      exact ⟨_, hd, by simp [reportedPath, hp, hstore _ _ h], fun _ => rfl⟩
  · rw [if_neg hb] at h
    by_cases hp : d.path = []
    · rw [if_pos hp] at h
      cases h
      exact ⟨{ commit := hash, lines := [] }, hd, by simp [reportedPath, hp], fun hh => absurd hh hb⟩
    · rw [if_neg hp] at h
      cases hrb : renamedBinary st.1 parents d with
      | error e => rw [hrb] at h; cases h
      | ok rb =>
      rw [hrb] at h
      cases rb with
      | some pb => exact ⟨pb, hd, by simp [reportedPath, hp, hstore _ _ h], fun hh => absurd hh hb⟩
      | none =>
        simp only at h
        cases hpb : parentBlameOf st.1 parents d with
        | error e => rw [hpb] at h; cases h
        | ok pb =>
        rw [hpb] at h
        simp only at h
        cases hbl : newBlame env hash pb d with
        | error e => rw [hbl] at h; cases h
        | ok bl =>
        rw [hbl] at h
        simp only at h
        exact ⟨bl, hd, by simp [reportedPath, hp, hstore _ _ h], fun hh => absurd hh hb⟩

/-- What a regular commit reports: a path that no diff is about is not shown; one that all diffs about it show as binary is shown as binary. -/
theorem regular_reports {env : Env} {hash : Str} {parents : List Str} (p : Str) : ∀ (l : List Str) (s s' : Repo × Files), l.foldlM (regularChange env hash parents) s = .ok s' →
    ((∀ ch ∈ l, ∀ d, parseDiff ch = .ok d → reportedPath d ≠ p) → GoMap.get s'.2 p = GoMap.get s.2 p) ∧
    ((∀ ch ∈ l, ∀ d, parseDiff ch = .ok d → reportedPath d = p → d.isBinary = true) →
      GoMap.get s'.2 p = GoMap.get s.2 p ∨ GoMap.get s'.2 p = some (blameBinaryFile hash)) ∧
    ((∀ ch ∈ l, ∀ d, parseDiff ch = .ok d → reportedPath d = p → d.isBinary = true) → (∃ ch ∈ l, ∃ d, parseDiff ch = .ok d ∧ reportedPath d = p) →
      GoMap.get s'.2 p = some (blameBinaryFile hash))
  | [], s, s', h => by cases h; exact ⟨fun _ => rfl, fun _ => .inl rfl, fun _ ⟨_, h, _⟩ => by cases h⟩
  | x :: l, s, s', h => by
    rw [List.foldlM_cons] at h
    obtain ⟨s1, h1, h2⟩ := bind_ok h
    obtain ⟨i1, i2, i3⟩ := regular_reports p l s1 s' h2
    obtain ⟨d, b, hd, hs, hb⟩ := regularChange_reports h1
    refine ⟨?_, ?_, ?_⟩
    · intro hall
      rw [i1 (fun ch hc => hall ch (List.mem_cons_of_mem _ hc)), hs, GoMap.get_set_ne _ _ (hall x (List.mem_cons_self ..) d hd)]
    · intro hall
      have hall' := fun ch hc => hall ch (List.mem_cons_of_mem x hc)
      rcases i2 hall' with e | e
      · rw [e, hs]
        by_cases hp : reportedPath d = p
        · rw [hp, GoMap.get_set_self, hb (hall x (List.mem_cons_self ..) d hd hp)]
          exact .inr rfl
        · rw [GoMap.get_set_ne _ _ hp]
          exact .inl rfl
      · exact .inr e
    · rintro hall ⟨ch, hc, d', hd', hp⟩
      have hall' := fun ch hc => hall ch (List.mem_cons_of_mem x hc)
      rcases List.mem_cons.1 hc with rfl | hc
      · rw [hd] at hd'
        cases hd'
        rcases i2 hall' with e | e
        · rw [e, hs, hp, GoMap.get_set_self, hb (hall _ (List.mem_cons_self ..) d hd hp)]
        · exact e
      · exact i3 hall' ⟨ch, hc, d', hd', hp⟩

theorem regular_result {env : Env} {n : Nat} {repo r : Repo} {hash : Str} {parents changes : List Str} {res : Result}
    (h : processRegularCommit env n repo hash parents changes = .ok (r, res)) :
    res.commit = hash ∧ ∃ s s' : Repo × Files, s.2 = [] ∧ changes.foldlM (regularChange env hash parents) s = .ok s' ∧ res.files = s'.2 := by
  unfold processRegularCommit at h
  split at h
  · cases h
  · obtain ⟨st, hst, h⟩ := bind_ok h
    cases parents with
    | nil => cases h; exact ⟨rfl, _, st, rfl, hst, rfl⟩
    | cons p ps =>
      simp only at h
      obtain ⟨fs, _, h⟩ := bind_ok h
      obtain ⟨r', _, h⟩ := bind_ok h
      cases h
      exact ⟨rfl, _, st, rfl, hst, rfl⟩

theorem newCommit_sends {env : Env} {s t : Proc} {e : LogCommit} (hone : (s.parents e.hash).length ≤ 1) (h : s.newCommit env e = .ok t) :
    ∃ n repo r res, processRegularCommit env n repo e.hash (s.parents e.hash) e.changes = .ok (r, res) ∧ res ∈ t.sent := by
  unfold Proc.newCommit at h
  rw [if_neg (by omega)] at h
  obtain ⟨⟨r, res⟩, hr, h⟩ := bind_ok h
  cases h
  exact ⟨_, _, _, _, hr, by simp⟩

/-- A merge whose parts are being collected has several parents. -/
def PendingMerge (g : Graph) (s : Proc) : Prop := s.graph = g ∧ (s.mergeParts = [] ∨ 1 < (g.parentsOf s.mergePartsCommit).length)

theorem newCommit_pendingMerge {env : Env} {g : Graph} {s t : Proc} {e : LogCommit} (hg : s.graph = g) (h0 : s.mergeParts = []) (h : s.newCommit env e = .ok t) : PendingMerge g t := by
  obtain ⟨h1, h2⟩ := newCommit_sent h0 h
  rw [hg] at h1 h2
  refine ⟨h1, ?_⟩
  split at h2
  · rename_i hm
    rw [h2.2.2]
    exact .inr (by unfold isMergeIn at hm; simpa using hm)
  · exact .inl h2.2

/-- A commit is processed: if it has at most one parent, its result is sent. -/
theorem commit_sends {env : Env} {g : Graph} {s t : Proc} {e : LogCommit} (hs : PendingMerge g s) (h : s.commit env e = (t, none)) :
    PendingMerge g t ∧ ((g.parentsOf e.hash).length ≤ 1 →
      ∃ n repo r res, processRegularCommit env n repo e.hash (g.parentsOf e.hash) e.changes = .ok (r, res) ∧ res ∈ t.sent) := by
  have fin : ∀ u : Proc, u.graph = g → u.newCommit env e = .ok t → (g.parentsOf e.hash).length ≤ 1 →
      ∃ n repo r res, processRegularCommit env n repo e.hash (g.parentsOf e.hash) e.changes = .ok (r, res) ∧ res ∈ t.sent := by
    intro u hu hn hone
    have hpar : u.parents e.hash = g.parentsOf e.hash := by simp only [Proc.parents, hu]; rfl
    obtain ⟨n, repo, r, res, h1, h2⟩ := newCommit_sends (by rw [hpar]; exact hone) hn
    rw [hpar] at h1
    exact ⟨n, repo, r, res, h1, h2⟩
  obtain ⟨hg, hp⟩ := hs
  unfold Proc.commit at h
  split at h
  · rename_i hl
    have hp := hp.resolve_left (fun h0 => by rw [h0] at hl; simp at hl)
    split at h
    · rename_i hm
      cases h
      refine ⟨⟨hg, .inr hp⟩, fun hone => ?_⟩
      rw [hm] at hp
      omega
    · split at h
      · cases h
      · rename_i s3 hf
        obtain ⟨_, k2, k3⟩ := finishMerge_sent hf
        cases hn : s3.newCommit env e with
        | error y => rw [hn] at h; cases h
        | ok v =>
          rw [hn] at h
          cases h
          exact ⟨newCommit_pendingMerge (k2.trans hg) k3 hn, fin s3 (k2.trans hg) hn⟩
  · rename_i hl
    have h0 : s.mergeParts = [] := by
      cases hc : s.mergeParts with
      | nil => rfl
      | cons a l => rw [hc] at hl; simp at hl
    cases hn : s.newCommit env e with
    | error y => rw [hn] at h; cases h
    | ok v =>
      rw [hn] at h
      cases h
      exact ⟨newCommit_pendingMerge hg h0 hn, fin s hg hn⟩

/-- The result of a regular commit of the log is among the results. -/
theorem loop_sends {env : Env} {g : Graph} {e : LogCommit} (hone : (g.parentsOf e.hash).length ≤ 1) : ∀ (log : List LogCommit) (s t : Proc), PendingMerge g s → e ∈ log →
    s.loop env log = (t, none) → ∃ n repo r res, processRegularCommit env n repo e.hash (g.parentsOf e.hash) e.changes = .ok (r, res) ∧ res ∈ t.sent := by
  intro log
  induction log with
  | nil => intro _ _ _ he; cases he
  | cons x l ih =>
    intro s t hs he h
    rw [Proc.loop] at h
    cases hc : s.commit env x with
    | mk s1 o =>
      rw [hc] at h
      cases o with
      | some y => simp at h
      | none =>
        simp only at h
        obtain ⟨c1, c2⟩ := commit_sends hs hc
        rcases List.mem_cons.1 he with rfl | he
        · obtain ⟨n, repo, r, res, h1, h2⟩ := c2 hone
          have := loop_sent_prefix (env := env) l s1
          rw [h] at this
          exact ⟨n, repo, r, res, h1, this.subset h2⟩
        · exact ih s1 t c1 he h

/-- In a run that succeeds, every commit of the log with at most one parent has a result, made by `processRegularCommit` from its changes. -/
theorem run_sends {env : Env} {opts : RunOpts} {read : Str → Go Repo} {g : Graph} {log : List LogCommit} (h : (run env opts read g log).fault = none) {e : LogCommit} (he : e ∈ log)
    (hone : (g.parentsOf e.hash).length ≤ 1) :
    ∃ n repo r res, processRegularCommit env n repo e.hash (g.parentsOf e.hash) e.changes = .ok (r, res) ∧ res ∈ (run env opts read g log).sent := by
  unfold run at h ⊢
  split at h
  · cases he
  · cases hi : initCheckpoints opts read with
    | error x => rw [hi] at h; cases h
    | ok repo =>
      rw [hi] at h
      simp only at h ⊢
      cases hl : Proc.loop env { graph := g, repo := repo } log with
      | mk s o =>
        rw [hl] at h
        cases o with
        | some y => cases h
        | none =>
          simp only at h ⊢
          obtain ⟨n, repo, r, res, h1, h2⟩ := loop_sends hone log _ s ⟨rfl, .inl rfl⟩ he hl
          refine ⟨n, repo, r, res, h1, ?_⟩
          split at h
          · rename_i hm
            rw [if_pos hm]
            cases hf : s.finishMerge env with
            | error y => rw [hf] at h; cases h
            | ok v => exact (loop_sent_finish hf).subset h2
          · rename_i hm
            rw [if_neg hm]
            exact h2

/-- **C83 (a binary file with a quoted name is renamed and changed).** Let git print a log in which a commit with at most one parent renames the binary file `p`, whose name is quoted, to `q` and changes it in
the same step, and otherwise changes other files. If the run succeeds, the result of the commit has the new file, as a binary file, but with the quotes if `q` is quoted: then it is not there under
its name of all other results. The result says nothing of the old name. -/
theorem C83_binary_rename {env : Env} {opts : RunOpts} {read : Str → Go Repo} {g : Graph} {es : List LogEntry} (hok : ∀ x ∈ es, x.Ok) {e : LogEntry} (he : e ∈ es)
    (hone : (g.parentsOf e.hash).length ≤ 1) {before after : List Str} (hbe : ∀ l ∈ before, OtherHeader l) (haf : ∀ l ∈ after, OtherHeader l) {p q : Str} (hp : QuotedName p) (hq : NameOk q)
    (hqs : (32 : UInt8) ∉ q) (hpq : p ≠ q) (hl : ∀ l ∈ renameChangedLines before after p q .binary, NoNL l ∧ l.length < 100000000)
    (hd : renameChangedLines before after p q .binary ∈ e.diffs)
    (hother : ∀ x ∈ e.diffs, x = renameChangedLines before after p q .binary ∨ ∃ f : FileChange, f.Ok ∧ x = f.lines ∧ f.target.2 ≠ p ∧ f.target.2 ≠ q) :
    ∃ log, parseLog (logText es) = .ok log ∧ ((run env opts read g log).fault = none →
      ∃ res ∈ (run env opts read g log).sent, res.commit = e.hash ∧
        GoMap.get res.files (quoteIf (isQuoted q) q) = some (blameBinaryFile e.hash) ∧
        GoMap.has res.files p = false ∧ (isQuoted q = true → GoMap.has res.files q = false)) := by
  refine ⟨_, C11_log_parser _ hok, fun hf => ?_⟩
  have hps : (32 : UInt8) ∉ p := fun h => absurd (hp.2.2 32 h).1 (by decide)
  obtain ⟨n, repo, r, res, h1, h2⟩ := run_sends hf (List.mem_map_of_mem he) hone
  obtain ⟨k1, s, s', k2, k3, k4⟩ := regular_result h1
  refine ⟨res, h2, k1, ?_⟩
  -- the diff as the program gets it
  have hcr : ∀ l ∈ renameChangedLines before after p q .binary, (13 : UInt8) ∉ l := by
    have h1 := NameOk.noCR (.inr hp)
    have h2 := hq.noCR
    have hquote : ∀ (b : Bool) (s : Str), (13 : UInt8) ∉ s → (13 : UInt8) ∉ quoteIf b s := by
      intro b s h; cases b <;> simp [quoteIf, h]
    have n1 := nameText_noCR b!"a/" p (by decide) h1
    have n2 := nameText_noCR b!"b/" q (by decide) h2
    intro l h
    simp only [renameChangedLines, renameLines, Body.lines, Kind.prev, Kind.next, List.mem_append, List.mem_singleton, List.mem_cons, List.not_mem_nil, or_false] at h
    rcases h with (((rfl | h) | rfl | rfl) | h) | rfl
    · cases isQuoted p <;> cases isQuoted q <;> simp [declLineQ, quoteIf, h1, h2]
    · exact (hbe l h).1
    · simp [hquote _ _ h1]
    · simp [hquote _ _ h2]
    · exact (haf l h).1
    · simp [n1, n2]
  have hsame : (renameChangedLines before after p q .binary).map dropCR = renameChangedLines before after p q .binary := map_dropCR_id _ hcr
  have hpd := parse_renameChanged (body := .binary) hbe haf (.inr hp) hq hps hqs trivial hl
  have hqne : quoteIf (isQuoted q) q ≠ [] := by have := hq.ne; cases isQuoted q <;> simp [quoteIf, this]
  have hno : ∀ s, NameOk s → s ≠ quoteIf true q := by
    rintro s (h | h) rfl
    · exact (h.2 34 (by simp [quoteIf])).2.1 rfl
    · exact h.2.1 rfl
  -- the other diffs
  have hall : ∀ ch ∈ (LogEntry.meaning e).changes, ∀ d, parseDiff ch = .ok d →
      (d.isBinary = true ∧ reportedPath d = quoteIf (isQuoted q) q) ∨ (NameOk (reportedPath d) ∧ reportedPath d ≠ p ∧ reportedPath d ≠ q) := by
    intro ch hch d hpar
    obtain ⟨x, hx, rfl⟩ := List.mem_map.1 hch
    rcases hother x hx with rfl | ⟨f, f1, rfl, f2, f3⟩
    · left
      rw [hsame, hpd] at hpar
      cases hpar
      exact ⟨rfl, by simp [reportedPath, hqne]⟩
    · right
      rw [norm_lines f1] at hpar
      have := parse_change f.norm (norm_ok f1)
      rw [show unlines f.norm.lines = f.norm.text from rfl, this] at hpar
      cases hpar
      obtain ⟨m1, m2, _⟩ := meaning_norm f
      have ht : reportedPath f.norm.meaning = f.target.2 := by
        unfold reportedPath FileChange.target
        rw [m1, m2]
        split <;> rfl
      rw [ht]
      refine ⟨?_, f2, f3⟩
      have hk := f1.1
      unfold FileChange.target
      cases hkk : f.kind with
      | modify a => rw [hkk] at hk; have := hk.ne; simp [Kind.next, this]; exact hk
      | create a m => rw [hkk] at hk; have := hk.1.ne; simp [Kind.next, this]; exact hk.1
      | delete a m => rw [hkk] at hk; simp [Kind.next, Kind.prev]; exact hk.1
      | rename a b => rw [hkk] at hk; have := NameOk.ne (.inl hk.2); simp [Kind.next, this]; exact .inl hk.2
      | copy a b => rw [hkk] at hk; have := hk.2.1.ne; simp [Kind.next, this]; exact hk.2.1
  have hthis : ∃ ch ∈ (LogEntry.meaning e).changes, ∃ d, parseDiff ch = .ok d ∧ reportedPath d = quoteIf (isQuoted q) q := by
    refine ⟨_, List.mem_map_of_mem hd, { pathPrev := quoteIf (isQuoted p) p, path := quoteIf (isQuoted q) q, isBinary := true, hunks := [] }, ?_, ?_⟩
    · rw [hsame, hpd]
      rfl
    · simp [reportedPath, hqne]
  obtain ⟨_, _, b3⟩ := regular_reports (quoteIf (isQuoted q) q) _ s s' k3
  have gone : ∀ x, (∀ ch ∈ (LogEntry.meaning e).changes, ∀ d, parseDiff ch = .ok d → reportedPath d ≠ x) → GoMap.has res.files x = false := by
    intro x hx
    rw [k4]
    unfold GoMap.has
    rw [(regular_reports x _ s s' k3).1 hx, k2]
    rfl
  refine ⟨?_, ?_, ?_⟩
  · rw [k4]
    refine b3 ?_ hthis
    intro ch hch d hpar hrp
    rcases hall ch hch d hpar with h | ⟨h, _, h3⟩
    · exact h.1
    · exfalso
      rw [hrp] at h h3
      cases hqq : isQuoted q with
      | false => rw [hqq] at h3; exact h3 rfl
      | true => rw [hqq] at h; exact hno _ h rfl
  · refine gone p ?_
    intro ch hch d hpar hrp
    rcases hall ch hch d hpar with h | h
    · rw [hrp] at h
      cases hqq : isQuoted q with
      | false => rw [hqq] at h; exact hpq h.2
      | true =>
        rw [hqq] at h
        exact hno _ (.inr hp) h.2
    · exact h.2.1 hrp
  · intro hqq
    refine gone q ?_
    intro ch hch d hpar hrp
    rcases hall ch hch d hpar with h | h
    · rw [hrp, hqq] at h
      exact hno _ hq h.2
    · exact h.2.2 hrp

/-! ### Example: `ä`, a binary file, is renamed to `ö` and changed -/

namespace ExQuotedBinary
open Ex

/-- `ö`, as git spells it. -/
def new : Str := b!"\\303\\266"

def create : FileChange where
  kind := .create ExCopy.dst b!"100644"
  before := []
  after := [b!"index 0000000..7898192"]
  body := .binary

def lines : List Str := renameChangedLines [b!"similarity index 66%"] [b!"index 7898192..422c2b7 100644"] ExCopy.dst new .binary

/-- What git prints. -/
example : lines =
    [b!"diff --git \"a/\\303\\244\" \"b/\\303\\266\"",
     b!"similarity index 66%",
     b!"rename from \"\\303\\244\"",
     b!"rename to \"\\303\\266\"",
     b!"index 7898192..422c2b7 100644",
     b!"Binary files \"a/\\303\\244\" and \"b/\\303\\266\" differ"] := by decide +kernel

def log : List LogEntry := [entryOf b!"e1" none [create], { entryOf b!"e2" none [] with diffs := [lines] }]

theorem create_ok : create.Ok := ⟨⟨by decide, by decide, by decide⟩, by simp [create], by simpa [create, createF] using other1, trivial, by decide⟩

theorem log_ok : ∀ x ∈ log, x.Ok := by
  intro x hx
  simp only [log, List.mem_cons, List.not_mem_nil, or_false] at hx
  rcases hx with rfl | rfl
  · exact entryOf_ok (by decide) (by simp) (by decide) (by simpa using create_ok)
  · have h0 := entryOf_ok (hash := b!"e2") (frm := none) (cs := []) (by decide) (by simp) (by decide) (by simp)
    refine ⟨h0.hash, h0.from?, h0.header, h0.merge, h0.author, h0.message, ?_⟩
    intro d hd
    rw [List.mem_singleton] at hd
    subst hd
    refine ⟨⟨_, rfl, by decide, by decide⟩, ?_⟩
    intro l hl
    revert l
    decide +kernel

/-- The hypotheses are met, and the run succeeds: the result of the second commit has `"\303\266"`, with the quotes, and not `\303\266`. -/
example : (run ExCopy.env {} (fun _ => .ok []) (Graph.newFromMap ExCopy.parents ExCopy.parents) (log.map LogEntry.meaning)).fault = none ∧
    ∃ l, parseLog (logText log) = .ok l ∧ ((run ExCopy.env {} (fun _ => .ok []) (Graph.newFromMap ExCopy.parents ExCopy.parents) l).fault = none →
      ∃ res ∈ (run ExCopy.env {} (fun _ => .ok []) (Graph.newFromMap ExCopy.parents ExCopy.parents) l).sent, res.commit = b!"e2" ∧
        GoMap.get res.files b!"\"\\303\\266\"" = some (blameBinaryFile b!"e2") ∧ GoMap.has res.files ExCopy.dst = false ∧ (isQuoted new = true → GoMap.has res.files new = false)) := by
  refine ⟨by decide +kernel, ?_⟩
  have ho : ∀ l ∈ [b!"similarity index 66%"], OtherHeader l := by
    intro l hl
    rw [List.mem_singleton] at hl
    subst hl
    exact ⟨by decide, .inr (.inr (.inr (.inl ⟨_, rfl⟩)))⟩
  exact C83_binary_rename log_ok (e := { entryOf b!"e2" none [] with diffs := [lines] }) (by simp [log]) (by decide +kernel) ho (by simpa using other2) (p := ExCopy.dst) (q := new)
    (by decide) (.inr (by decide)) (by decide) (by decide) (by decide) (List.mem_singleton.2 rfl) (fun x hx => .inl (List.mem_singleton.1 hx))

end ExQuotedBinary

end Ripsrc
