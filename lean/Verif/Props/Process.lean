import Verif.Lib.RunAll
import Verif.Lib.RunLog
import Verif.Lib.Frame
import Verif.Props.ExHistory
import Verif.Props.GitLog
/-!
# C24 – C30, C33: runs over a git history

All theorems start from the text `git log` prints (`logText es`), which the log parser turns into the log that is processed.
-/
namespace Ripsrc
open Spec

/-- A run from scratch. -/
theorem history_run {env : Env} {G : Str → Str → List Str} {m : GoMap Str (List Str)} {order : List (Str × List Str)} {done rest : History}
    (h : Setting env (done ++ rest) G m order) {es : List LogEntry} (hlog : LogOf done es) (hne : done ≠ []) (read : Str → Go Repo) :
    ∃ log s, parseLog (logText es) = .ok log ∧ run env {} read (Graph.newFromMap m order) log =
        { sent := s.sent, fault := none, written := some (s.repo, s.lastProcessed) } ∧
      PInv (done ++ rest) G (Graph.newFromMap m order) 0 done rest s := by
  obtain ⟨s, h1, h2⟩ := run_core h (B := []) rfl hlog hne (opts := {}) (read := read) (R := []) rfl (by simp) (by simp)
  exact ⟨_, s, C11_log_parser es (logOf_ok hlog), h1, h2⟩

theorem history_run_all {env : Env} {G : Str → Str → List Str} {m : GoMap Str (List Str)} {order : List (Str × List Str)} {H : History}
    (h : Setting env H G m order) {es : List LogEntry} (hlog : LogOf H es) (hne : H ≠ []) (read : Str → Go Repo) :
    ∃ log s, parseLog (logText es) = .ok log ∧ run env {} read (Graph.newFromMap m order) log =
        { sent := s.sent, fault := none, written := some (s.repo, s.lastProcessed) } ∧
      PInv H G (Graph.newFromMap m order) 0 H [] s := by
  obtain ⟨log, s, h1, h2, h3⟩ := history_run (rest := []) (by rw [List.append_nil]; exact h) hlog hne read
  rw [List.append_nil] at h3
  exact ⟨log, s, h1, h2, h3⟩

theorem ex_log : LogOf Ex.H (Ex.H.flatMap Ex.entries) := log_of_entries Ex.H Ex.printed

/-! ## C24 -/

/-- **C24.** For any log (the entries of a merge adjacent or not), any graph and any environment: a run that does not fail sends
exactly one result for each commit of the log, in the order of the log; a run that fails has sent the results of an initial part. -/
theorem C24_one_result_per_commit (env : Env) (opts : RunOpts) (read : Str → Go Repo) (g : Graph) (log : List LogCommit) :
    let out := run env opts read g log
    (out.fault = none → out.sent.map (·.commit) = logCommits (isMergeIn g) none log) ∧
    out.sent.map (·.commit) <+: logCommits (isMergeIn g) none log := by
  obtain ⟨rest, h1, h2⟩ := run_sent env opts read g log
  refine ⟨fun h => ?_, ⟨rest, h1.symm⟩⟩
  rw [h1, h2 h, List.append_nil]

/-- **C24, for histories.** Over the log of a git history the run does not fail and sends one result per commit, in order; the
commit recorded in the checkpoint is the last one. -/
theorem C24_history {env : Env} {G : Str → Str → List Str} {m : GoMap Str (List Str)} {order : List (Str × List Str)} {H : History}
    (h : Setting env H G m order) {es : List LogEntry} (hlog : LogOf H es) (hne : H ≠ []) (read : Str → Go Repo) :
    ∃ log, parseLog (logText es) = .ok log ∧
      let out := run env {} read (Graph.newFromMap m order) log
      out.fault = none ∧ out.sent.map (·.commit) = H.map (·.hash) ∧ ∃ R, out.written.map (·.1) = some R ∧
        out.written.map (·.2) = H.getLast?.map (·.hash) := by
  obtain ⟨log, s, h1, h2, h3⟩ := history_run_all h hlog hne read
  refine ⟨log, h1, ?_⟩
  rw [h2]
  have hlen : s.sent.length = H.length := h3.sentLen
  refine ⟨rfl, ?_, s.repo, rfl, ?_⟩
  · apply List.ext_getElem?
    intro i
    rw [List.getElem?_map, List.getElem?_map]
    cases hi : s.sent[i]? with
    | none =>
      rw [List.getElem?_eq_none_iff] at hi
      rw [List.getElem?_eq_none (by omega)]
      rfl
    | some r =>
      have hlt := (List.getElem?_eq_some_iff.1 hi).1
      have hc : H[i]? = some (H[i]'(by omega)) := List.getElem?_eq_getElem _
      rw [hc]
      simp only [Option.map_some, Option.some.injEq]
      exact (h3.sentOk i _ r hc hi).commit
  · have := h3.last
    rw [List.drop_zero, if_neg] at this
    · rw [this]
      rfl
    · intro he
      rw [he] at hlen
      exact hne (List.length_eq_zero_iff.1 hlen.symm)

example : ∃ log, parseLog (logText (Ex.H.flatMap Ex.entries)) = .ok log ∧
    (run Ex.env {} (fun _ => .ok []) (Graph.newFromMap Ex.parents Ex.parents) log).sent.map (·.commit) =
      [b!"c1", b!"c2", b!"c3", b!"c4", b!"c5"] := by
  obtain ⟨log, h1, _, h3, _⟩ := C24_history Ex.setting ex_log (by decide) (fun _ => .ok [])
  exact ⟨log, h1, h3⟩

/-! ## C25, C26 -/

theorem Right.content {H : History} {G : Str → Str → List Str} {c p : Str} {n : List Str} {b : Blame} (h : Right H G c p n b)
    (hb : b.isBinary = false) : HasContent b n ∧ Attributed H G c p b :=
  ⟨⟨h.length hb, fun j l hl => (h.line hb j l hl).1⟩, fun j l hl => (h.line hb j l hl).2⟩

/-- The last commit has no children. -/
theorem last_no_child {H : History} (hH : History.Ok [] H) {c : HCommit} (hc : H.getLast? = some c) : nc H c.hash = 0 := by
  apply Classical.byContradiction
  intro hn
  obtain ⟨d, hd, hp⟩ := nc_pos hn
  obtain ⟨a, rfl⟩ := List.getLast?_eq_some_iff.1 hc
  have hall : ∀ x ∈ a ++ [c], ∀ q ∈ x.parents, ∃ y ∈ a, y.hash = q := by
    intro x hx q hq
    rcases List.mem_append.1 hx with hx | hx
    · obtain ⟨l, r, rfl⟩ := List.append_of_mem hx
      have := history_ok_at (a := l) (c := x) (r := r ++ [c]) (by simpa using hH)
      obtain ⟨y, hy, he⟩ := this.parentsKnown q hq
      exact ⟨y, by simp [hy], he⟩
    · simp only [List.mem_singleton] at hx
      subst hx
      exact (history_ok_at (a := a) (r := []) hH).parentsKnown q hq
  obtain ⟨y, hy, he⟩ := hall d hd _ hp
  exact (history_ok_at (a := a) (r := []) hH).new y hy he

/-- **C25.** A run over the log of any history — any graph with any number of parents, any trees, edits, renames, deletions, binary
files — does not fail. The stored state has, for each commit still retained (the last one always is), every file of its tree;
the stored blame has exactly the lines of the file or is marked binary, the latter exactly for the files git has shown as
binary since they were last text. As every prefix of a history is a history, this holds after each commit of the log. -/
theorem C25_blame_content {env : Env} {G : Str → Str → List Str} {m : GoMap Str (List Str)} {order : List (Str × List Str)} {H : History}
    (h : Setting env H G m order) {es : List LogEntry} (hlog : LogOf H es) (hne : H ≠ []) (read : Str → Go Repo) :
    ∃ log R last, parseLog (logText es) = .ok log ∧
      let out := run env {} read (Graph.newFromMap m order) log
      out.fault = none ∧ out.written = some (R, last) ∧
      (∀ c ∈ H, ∀ fs, GoMap.get R c.hash = some fs → ∀ p n, c.tree p = some n →
        ∃ b, GoMap.get fs p = some b ∧ (b.isBinary = true ↔ IsBin H c.hash p) ∧ (b.isBinary = false → HasContent b n)) ∧
      (∀ c, H.getLast? = some c → ∃ fs, GoMap.get R c.hash = some fs) := by
  obtain ⟨log, s, h1, h2, h3⟩ := history_run_all h hlog hne read
  refine ⟨log, s.repo, s.lastProcessed, h1, by rw [h2], by rw [h2], ?_, ?_⟩
  · intro c hc fs hfs p n hn
    obtain ⟨b, k1, k2⟩ := h3.stored c hc fs hfs p n (by rw [treeOf_of_mem h.history hc]; exact hn)
    exact ⟨b, k1, k2.binary, fun hb => (Right.content k2 hb).1⟩
  · intro c hc
    exact h3.heads c (List.mem_of_getLast? hc) (Or.inl (last_no_child h.history hc))

/-- **C25, results.** The blame sent for a changed file has exactly the lines of the file in that commit, or is marked binary. -/
theorem C25_result_content {env : Env} {G : Str → Str → List Str} {m : GoMap Str (List Str)} {order : List (Str × List Str)} {H : History}
    (h : Setting env H G m order) {es : List LogEntry} (hlog : LogOf H es) (hne : H ≠ []) (read : Str → Go Repo) :
    ∃ log, parseLog (logText es) = .ok log ∧
      let out := run env {} read (Graph.newFromMap m order) log
      ∀ (i : Nat) c res, H[i]? = some c → out.sent[i]? = some res → ∀ p, c.Writes H p → NoTypeChange H c →
        ∃ b n, GoMap.get res.files p = some b ∧ c.tree p = some n ∧ (b.isBinary = true ↔ IsBin H c.hash p) ∧
          (b.isBinary = false → HasContent b n) := by
  obtain ⟨log, s, h1, h2, h3⟩ := history_run_all h hlog hne read
  refine ⟨log, h1, ?_⟩
  rw [h2]
  intro _ i c res hc hr p hw ht
  obtain ⟨b, n, k1, k2, k3⟩ := (h3.sentOk i c res hc hr).written p hw (ht.imp id (fun h hd => h p ⟨hd, hw⟩))
  exact ⟨b, n, k1, k2, k3.binary, fun hb => (Right.content k3 hb).1⟩

/-- **C26.** Each line of each stored blame and of each blame sent names the commit that following the changes back leads to. This
commit is unique, and it is the commit itself or one of its ancestors. -/
theorem C26_blame_attribution {env : Env} {G : Str → Str → List Str} {m : GoMap Str (List Str)} {order : List (Str × List Str)} {H : History}
    (h : Setting env H G m order) {es : List LogEntry} (hlog : LogOf H es) (hne : H ≠ []) (read : Str → Go Repo) :
    ∃ log R last, parseLog (logText es) = .ok log ∧
      let out := run env {} read (Graph.newFromMap m order) log
      out.written = some (R, last) ∧
      (∀ c ∈ H, ∀ fs, GoMap.get R c.hash = some fs → ∀ p n, c.tree p = some n →
        ∃ b, GoMap.get fs p = some b ∧ (b.isBinary = false → b.lines.length = n.length ∧ Attributed H G c.hash p b)) ∧
      (∀ (i : Nat) c res, H[i]? = some c → out.sent[i]? = some res → ∀ p, c.Writes H p → NoTypeChange H c →
        ∃ b, GoMap.get res.files p = some b ∧ (b.isBinary = false → Attributed H G c.hash p b)) ∧
      (∀ c p (j : Nat) o, Origin H G c p j o → H.Reach c o ∧ ∀ o', Origin H G c p j o' → o' = o) := by
  obtain ⟨log, s, h1, h2, h3⟩ := history_run_all h hlog hne read
  refine ⟨log, s.repo, s.lastProcessed, h1, by rw [h2], ?_, ?_, ?_⟩
  · intro c hc fs hfs p n hn
    obtain ⟨b, k1, k2⟩ := h3.stored c hc fs hfs p n (by rw [treeOf_of_mem h.history hc]; exact hn)
    exact ⟨b, k1, fun hb => ⟨(Right.content k2 hb).1.1, (Right.content k2 hb).2⟩⟩
  · rw [h2]
    intro i c res hc hr p hw ht
    obtain ⟨b, n, k1, k2, k3⟩ := (h3.sentOk i c res hc hr).written p hw (ht.imp id (fun h hd => h p ⟨hd, hw⟩))
    exact ⟨b, k1, fun hb => (Right.content k3 hb).2⟩
  · intro c p j o ho
    exact ⟨origin_reach h.blame.ancestors ho, fun o' ho' => origin_unique h.history ho' ho⟩

/-- In the example the merge `c4` gets `y` in `g`, which neither parent has, and keeps `x` from `c2`. -/
example : Origin Ex.H Ex.blames b!"c4" b!"g" 1 b!"c4" := by
  have hb : ∀ h p, ¬ IsBin Ex.H h p := by
    intro h p hb
    have key : ∀ c ∈ Ex.H, ∀ cs ∈ c.diffs, ∀ f ∈ cs, f.body.isBinary = false := by
      intro c hc
      simp only [Ex.H, List.mem_cons, List.not_mem_nil, or_false] at hc
      rcases hc with rfl | rfl | rfl | rfl | rfl <;> decide
    induction hb with
    | change a b c d e f =>
      have := key _ a _ (by rw [c]; exact List.mem_singleton.2 rfl) _ (List.mem_of_find?_eq_some e)
      rw [f] at this
      cases this
    | moved _ _ _ _ _ _ _ _ _ ih => exact ih
    | untouched _ _ _ _ _ ih => exact ih
    | mergeChange a b c d e =>
      obtain ⟨y, hy, he⟩ := List.mem_map.1 d
      rw [Prod.mk.injEq] at he
      have := key _ a _ (List.of_mem_zip hy).2 _ (List.mem_of_find?_eq_some he.2)
      rw [e] at this
      cases this
    | mergeParent _ _ _ _ _ _ ih => exact ih
    | mergeSame _ _ _ _ _ ih => exact ih
    | mergeUntouched _ _ _ _ _ ih => exact ih
  refine Origin.mergeAdded (c := Ex.c4) (by simp [Ex.H]) (by decide) (hb _ _) ?_
  decide

end Ripsrc
