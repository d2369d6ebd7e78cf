import Verif.Props.QuotedBinary
import Verif.Props.MissingMerge
/-!
# C83: a file with a quoted name is renamed in a merge
-/
namespace Ripsrc
open Spec

/-- **C83 (a quoted name is renamed in a merge).** Let git print a log in which a merge, in its diff against one of its parents, renames the file `p`, whose name is quoted, to `q`, with or without a
change of it, as text or binary (and has no other change that results in `q`), and in which nothing is renamed *to* `p`. Then the run fails and writes no checkpoint. -/
theorem C83_merge_rename_fails {env : Env} (horder : ∀ n k l, (env.order n k l).Perm l) {opts : RunOpts} (hopts : opts.commitFromIncl = []) {read : Str → Go Repo} {g : Graph}
    (hself : ∀ h, h ∉ g.parentsOf h) {es : List LogEntry} (hok : ∀ x ∈ es, x.Ok) {e : LogEntry} (he : e ∈ es)
    (hn : (g.parentsOf e.hash).Nodup) (hmerge : 1 < (g.parentsOf e.hash).length) (hparts : ∀ x ∈ es, x.hash = e.hash → x.from?.getD [] ∈ g.parentsOf e.hash)
    (honce : ∀ x ∈ es, x.hash = e.hash → x.from?.getD [] = e.from?.getD [] → x = e)
    {before after : List Str} {p q : Str} {body : Body} (hr : RenameOk before after p q body) (hp : QuotedName p) (hmark : ¬ deletedPrefix <+: q)
    (hd : renameChangedLines before after p q body ∈ e.diffs)
    (hother : ∀ y ∈ e.diffs, y = renameChangedLines before after p q body ∨ ∃ b n, DiffOf y b n ∧ n ≠ q)
    (hall : ∀ x ∈ es, ∀ y ∈ x.diffs, ∃ b n, DiffOf y b n ∧ (b = true → n ≠ p)) :
    ∃ log, parseLog (logText es) = .ok log ∧ (run env opts read g log).fault ≠ none ∧ (run env opts read g log).written = none := by
  refine ⟨_, C11_log_parser _ hok, ?_⟩
  obtain ⟨hs, hread⟩ := renameChanged_read hr.headers hr.headers' hr.prev hr.next hr.prevSpace hr.nextSpace hr.patch hr.short
  have hqne : quoteIf (isQuoted q) q ≠ [] := by have := hr.next.ne; cases isQuoted q <;> simp [quoteIf, this]
  have hfault : (run env opts read g (es.map LogEntry.meaning)).fault ≠ none := by
    intro hf
    obtain ⟨a, _, e', he', _, hw⟩ := C65_source_merge horder hopts hself hf (List.mem_map_of_mem he) hn hmerge (by
        intro x hx hxh
        obtain ⟨y, hy, rfl⟩ := List.mem_map.1 hx
        exact hparts y hy hxh) (by
        intro x hx h1 h2
        obtain ⟨y, hy, rfl⟩ := List.mem_map.1 hx
        rw [honce y hy h1 h2]) (List.mem_map_of_mem hd) hread hqne (by rw [hp.isQuoted]; simp [quoteIf]) (by
        rintro ⟨r, hr⟩
        cases hqq : isQuoted q with
        | false => rw [hqq] at hr; exact hmark ⟨r, hr⟩
        | true => rw [hqq] at hr; simp [quoteIf, deletedPrefix] at hr) (by
        intro x hx d' hd' hdp
        obtain ⟨y, hy, rfl⟩ := List.mem_map.1 hx
        rcases hother y hy with rfl | ⟨b, n, hy1, hy2⟩
        · rw [hread] at hd'
          cases hd'
          rfl
        · exfalso
          obtain ⟨d2, e1, e2, e3⟩ := diffOf_read hy1
          rw [e1] at hd'
          cases hd'
          rw [e2] at hdp
          simp only at hdp
          cases b with
          | false =>
            simp only [Bool.false_eq_true, if_false] at hdp
            cases hqq : isQuoted q with
            | false => rw [hqq] at hdp; exact hy2 hdp
            | true => rw [hqq] at hdp; exact not_quoted _ e3 hdp
          | true =>
            simp only [if_true] at hdp
            cases hqq : isQuoted q with
            | false =>
              rw [hqq] at hdp
              cases hnn : isQuoted n with
              | false => rw [hnn] at hdp; exact hy2 hdp
              | true => rw [hnn] at hdp; exact not_quoted _ (.inr hr.next) hdp.symm
            | true =>
              rw [hqq] at hdp
              cases hnn : isQuoted n with
              | false => rw [hnn] at hdp; exact not_quoted _ e3 hdp
              | true => rw [hnn] at hdp; exact hy2 (quoteIf_inj hdp))
    obtain ⟨x, hx, rfl⟩ := List.mem_map.1 he'
    rw [hp.isQuoted] at hw
    exact quoted_not_written (hall x hx) hw
  exact ⟨hfault, run_fails_writes_nothing hfault⟩

/-! ### Example: `ä` is created, and a merge renames it to `b`, which shows in its diffs against both parents -/

namespace ExQuotedMerge
open Ex

def lines : List Str := renameChangedLines [b!"similarity index 100%"] [] ExCopy.dst b!"b" .empty

/-- What git prints. -/
example : lines = [b!"diff --git \"a/\\303\\244\" b/b", b!"similarity index 100%", b!"rename from \"\\303\\244\"", b!"rename to b"] := by decide +kernel

def part (frm : Str) : LogEntry := { entryOf b!"c4" (some frm) [] with diffs := [lines] }

def log : List LogEntry := [entryOf b!"c1" none [createF ExCopy.dst [b!"a"]], entryOf b!"c2" none [], entryOf b!"c3" none [], part b!"c2", part b!"c3"]

theorem rename_ok : RenameOk [b!"similarity index 100%"] [] ExCopy.dst b!"b" .empty := by
  refine ⟨?_, by simp, .inr (by decide), by decide, by decide, by decide, trivial, by decide⟩
  intro l hl
  rw [List.mem_singleton] at hl
  subst hl
  exact ⟨by decide, .inr (.inr (.inr (.inl ⟨_, rfl⟩)))⟩

theorem part_ok {frm : Str} (h : NoNL frm) (hl : (entryOf b!"c4" (some frm) []).commitLine.length < logMaxLine) : (part frm).Ok := by
  have h0 := entryOf_ok (hash := b!"c4") (frm := some frm) (cs := []) (by decide) (by rintro p hp; cases hp; exact h) hl (by simp)
  refine ⟨h0.hash, h0.from?, h0.header, h0.merge, h0.author, h0.message, ?_⟩
  intro d hd
  simp only [part, List.mem_singleton] at hd
  subst hd
  refine ⟨⟨_, rfl, by decide, by decide⟩, ?_⟩
  intro l hl
  revert l
  decide +kernel

theorem source_ok : (createF ExCopy.dst [b!"a"]).Ok :=
  ⟨⟨by decide, by decide, by decide⟩, by simp [createF], by simpa [createF] using other1, ⟨by decide, by decide⟩, by decide⟩

/-- The hypotheses are met. -/
example : ∃ l, parseLog (logText log) = .ok l ∧ (run Ex.env {} (fun _ => .ok []) (Graph.newFromMap Ex.parents Ex.parents) l).fault ≠ none ∧
    (run Ex.env {} (fun _ => .ok []) (Graph.newFromMap Ex.parents Ex.parents) l).written = none := by
  have hentry : ∀ h : Str, NoNL h ∧ 32 ∉ h ∧ 13 ∉ h → (entryOf h none []).commitLine.length < logMaxLine → (entryOf h none []).Ok := fun h h1 h2 => entryOf_ok h1 (by simp) h2 (by simp)
  refine C83_merge_rename_fails (fun _ _ _ => .refl _) rfl ?_ ?_ (e := part b!"c3") (by simp [log]) (by decide +kernel) (by decide +kernel) ?_ ?_ rename_ok (by decide) (by decide)
    (List.mem_singleton.2 rfl) (fun y hy => .inl (List.mem_singleton.1 hy)) ?_
  · intro h hc
    have hp : ∀ e ∈ (Graph.newFromMap Ex.parents Ex.parents).parents, e.1 ∉ e.2 := by decide +kernel
    unfold Graph.parentsOf at hc
    cases hg : GoMap.get (Graph.newFromMap Ex.parents Ex.parents).parents h with
    | none => rw [hg] at hc; cases hc
    | some ps => rw [hg] at hc; exact hp _ (GoMap.mem_of_get hg) hc
  · intro x hx
    simp only [log, List.mem_cons, List.not_mem_nil, or_false] at hx
    rcases hx with rfl | rfl | rfl | rfl | rfl
    · exact entryOf_ok (by decide) (by simp) (by decide) (by simpa using source_ok)
    · exact hentry _ (by decide) (by decide)
    · exact hentry _ (by decide) (by decide)
    · exact part_ok (by decide) (by decide)
    · exact part_ok (by decide) (by decide)
  · intro x hx
    simp only [log, List.mem_cons, List.not_mem_nil, or_false] at hx
    rcases hx with rfl | rfl | rfl | rfl | rfl <;> intro h <;> first | (exact absurd h (by decide)) | decide +kernel
  · intro x hx
    simp only [log, List.mem_cons, List.not_mem_nil, or_false] at hx
    rcases hx with rfl | rfl | rfl | rfl | rfl <;> intro h h2 <;> first | rfl | (exact absurd h (by decide)) | (exact absurd h2 (by decide))
  · intro x hx y hy
    simp only [log, List.mem_cons, List.not_mem_nil, or_false] at hx
    rcases hx with rfl | rfl | rfl | rfl | rfl
    · simp only [entryOf, List.map_cons, List.map_nil, List.mem_singleton] at hy
      subst hy
      exact ⟨_, _, .change source_ok, by simp⟩
    · simp [entryOf] at hy
    · simp [entryOf] at hy
    all_goals
      simp only [part, List.mem_singleton] at hy
      subst hy
      exact ⟨_, _, .rename rename_ok, fun _ => by decide⟩

end ExQuotedMerge

end Ripsrc
