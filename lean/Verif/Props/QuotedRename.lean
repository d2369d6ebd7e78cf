import Verif.Props.QuotedDiff
/-!
# C83: a file with a quoted name is renamed
-/
namespace Ripsrc
open Spec

/-- **C83 (a quoted name is renamed).** Let git print a log in which a commit with at most one parent renames, without a change, a file whose name is quoted, and in which no earlier entry
renames a file *to* that name. Then the run fails and writes no checkpoint. -/
theorem C83_rename_of_quoted_fails {env : Env} (horder : ∀ n k l, (env.order n k l).Perm l) {opts : RunOpts} (hopts : opts.commitFromIncl = []) {read : Str → Go Repo} {g : Graph}
    (hself : ∀ h, h ∉ g.parentsOf h) {pre post : List LogEntry} {e : LogEntry} (hok : ∀ x ∈ pre ++ e :: post, x.Ok)
    (hone : (g.parentsOf e.hash).length ≤ 1)
    {before : List Str} (hbe : ∀ l ∈ before, OtherHeader l) {p q : Str} (hp : QuotedName p) (hq : NameOk q) (hqs : (32 : UInt8) ∉ q) (hne : p ≠ q)
    (hl : ∀ l ∈ renameLines before p q, NoNL l ∧ l.length < 100000000) (hd : renameLines before p q ∈ e.diffs)
    (hpre : ∀ x ∈ pre, ∀ y ∈ x.diffs, ∃ b n, DiffOf y b n ∧ (b = true → n ≠ p)) :
    ∃ log, parseLog (logText (pre ++ e :: post)) = .ok log ∧ (run env opts read g log).fault ≠ none ∧ (run env opts read g log).written = none := by
  refine ⟨_, C11_log_parser _ hok, ?_⟩
  have hps : (32 : UInt8) ∉ p := fun h => absurd (hp.2.2 32 h).1 (by decide)
  have hquote : ∀ (b : Bool) (s : Str), (13 : UInt8) ∉ s → (13 : UInt8) ∉ quoteIf b s := by
    intro b s h; cases b <;> simp [quoteIf, h]
  have hcr : ∀ l ∈ renameLines before p q, (13 : UInt8) ∉ l := by
    have h1 := NameOk.noCR (.inr hp)
    have h2 := hq.noCR
    intro l h
    simp only [renameLines, List.mem_append, List.mem_singleton, List.mem_cons, List.not_mem_nil, or_false] at h
    rcases h with (rfl | h) | rfl | rfl
    · cases isQuoted p <;> cases isQuoted q <;> simp [declLineQ, quoteIf, h1, h2]
    · exact (hbe l h).1
    · simp [hquote _ _ h1]
    · simp [hquote _ _ h2]
  have hch : unlines (renameLines before p q) ∈ e.meaning.changes := by
    refine List.mem_map.2 ⟨_, hd, ?_⟩
    congr 1
    conv => rhs; rw [← List.map_id (renameLines before p q)]
    exact List.map_congr_left (fun l h => dropCR_of_not_mem (hcr l h))
  have hpd := parse_rename hbe (.inr hp) hq hps hqs hl
  rw [hp.isQuoted] at hpd
  have hfault : (run env opts read g ((pre ++ e :: post).map LogEntry.meaning)).fault ≠ none := by
    intro hf
    rw [List.map_append, List.map_cons] at hf
    obtain ⟨_, _, a, _, e', he', _, hw⟩ := C83_rename_source horder hopts hself hf hone hch hpd rfl
      (by have := hq.ne; cases isQuoted q <;> simp [quoteIf, this]) (by simp [quoteIf])
      (by
        intro h
        cases hqq : isQuoted q with
        | false =>
          rw [hqq] at h
          simp only [quoteIf, if_true, Bool.false_eq_true, if_false] at h
          rw [isQuoted, decide_eq_false_iff_not] at hqq
          exact hqq (h ▸ by simp [hp.1])
        | true =>
          rw [hqq] at h
          simp only [quoteIf, if_true, List.append_assoc, List.cons_append, List.nil_append, List.cons.injEq, true_and, List.append_cancel_right_eq] at h
          exact hne h) rfl
    obtain ⟨x, hx, rfl⟩ := List.mem_map.1 he'
    exact quoted_not_written (hpre x hx) hw
  refine ⟨hfault, ?_⟩
  exact run_fails_writes_nothing hfault

/-- **C83 (a quoted name is renamed and changed).** Let git print a log in which a commit with one parent renames a file whose name is quoted and changes it in the same step, so that the patch
shows a line of the old version, and in which no earlier entry renames a file *to* that name. Then the run fails and writes no checkpoint. -/
theorem C83_rename_with_change_fails {env : Env} (hsrt : SortsHunks env.srt) (horder : ∀ n k l, (env.order n k l).Perm l) {opts : RunOpts} (hopts : opts.commitFromIncl = [])
    {read : Str → Go Repo} {g : Graph} (hself : ∀ h, h ∉ g.parentsOf h) {pre post : List LogEntry} {e : LogEntry} (hok : ∀ x ∈ pre ++ e :: post, x.Ok)
    {parent : Str} (hone : g.parentsOf e.hash = [parent])
    {before after : List Str} (hbe : ∀ l ∈ before, OtherHeader l) (haf : ∀ l ∈ after, OtherHeader l) {p q : Str} (hp : QuotedName p) (hq : NameOk q) (hqs : (32 : UInt8) ∉ q)
    {cut : Cut} {heads : Nat → Str} {old new : List Str} (hb : (Body.text cut heads).Ok) (ht : (Body.text cut heads).Takes old new) (hs : ∃ s ∈ cut.segs, oldLines (edits s.2) ≠ [])
    (hl : ∀ l ∈ renameChangedLines before after p q (.text cut heads), NoNL l ∧ l.length < 100000000) (hd : renameChangedLines before after p q (.text cut heads) ∈ e.diffs)
    (hpre : ∀ x ∈ pre, ∀ y ∈ x.diffs, ∃ b n, DiffOf y b n ∧ (b = true → n ≠ p)) :
    ∃ log, parseLog (logText (pre ++ e :: post)) = .ok log ∧ (run env opts read g log).fault ≠ none ∧ (run env opts read g log).written = none := by
  refine ⟨_, C11_log_parser _ hok, ?_⟩
  have hps : (32 : UInt8) ∉ p := fun h => absurd (hp.2.2 32 h).1 (by decide)
  have hfok := asCopy_ok hbe haf (.inr hp) hq hps hqs hb hl
  have hnok := norm_ok hfok
  have hold := showsOld_hunk hfok rfl ht ⟨cut, heads, rfl, hs⟩
  have hcr : ∀ l ∈ renameLines before p q ++ after, (13 : UInt8) ∉ l := by
    have h1 := NameOk.noCR (.inr hp)
    have h2 := hq.noCR
    have hquote : ∀ (b : Bool) (s : Str), (13 : UInt8) ∉ s → (13 : UInt8) ∉ quoteIf b s := by
      intro b s h; cases b <;> simp [quoteIf, h]
    intro l h
    simp only [renameLines, List.mem_append, List.mem_singleton, List.mem_cons, List.not_mem_nil, or_false] at h
    rcases h with ((rfl | h) | rfl | rfl) | h
    · cases isQuoted p <;> cases isQuoted q <;> simp [declLineQ, quoteIf, h1, h2]
    · exact (hbe l h).1
    · simp [hquote _ _ h1]
    · simp [hquote _ _ h2]
    · exact (haf l h).1
  -- the patch as the program gets it: a carriage return at the end of a line is gone
  have hbody : ((Body.text cut heads).lines (.rename p q)).map dropCR = (Body.text cut.norm (fun o => dropCR (heads o))).lines (.rename p q) := by
    have h1 := nameText_noCR b!"a/" p (by decide) (NameOk.noCR (.inr hp))
    have h2 := nameText_noCR b!"b/" q (by decide) hq.noCR
    simp only [Body.lines, List.map_append, segLines_norm]
    congr 1
    exact map_dropCR_id _ (by simp [Kind.prev, Kind.next, h1, h2])
  have hlines : (renameChangedLines before after p q (.text cut heads)).map dropCR = renameChangedLines before after p q (.text cut.norm (fun o => dropCR (heads o))) := by
    simp only [renameChangedLines]
    rw [List.map_append, map_dropCR_id _ hcr, hbody]
  have hch : unlines (renameChangedLines before after p q (.text cut.norm (fun o => dropCR (heads o)))) ∈ e.meaning.changes := by
    rw [← hlines]
    exact List.mem_map.2 ⟨_, hd, rfl⟩
  have hpd := parse_renameChanged (body := .text cut.norm (fun o => dropCR (heads o))) hbe haf (.inr hp) hq hps hqs hnok.2.2.2.1 (by
    rw [← hlines]
    intro l' h'
    obtain ⟨l, h, rfl⟩ := List.mem_map.1 h'
    exact ⟨dropCR_noNL (hl l h).1, Nat.lt_of_le_of_lt (dropCR_length _) (hl l h).2⟩)
  have hfault : (run env opts read g ((pre ++ e :: post).map LogEntry.meaning)).fault ≠ none := by
    intro hf
    rw [List.map_append, List.map_cons] at hf
    obtain ⟨a, _, e', he', _, hw⟩ := C65_source hsrt horder hopts hself hf hone hch hpd
      ⟨rfl, by have := hq.ne; cases isQuoted q <;> simp [quoteIf, this], by rw [hp.isQuoted]; simp [quoteIf], .inr (by simpa [FileChange.norm, FileChange.meaning, Kind.isDelete] using hold)⟩
    obtain ⟨x, hx, rfl⟩ := List.mem_map.1 he'
    rw [hp.isQuoted] at hw
    exact quoted_not_written (hpre x hx) hw
  exact ⟨hfault, run_fails_writes_nothing hfault⟩

/-! ### Example: `ä`, a file of one line, is renamed to `b`, and a line is appended -/

namespace ExQuotedRename
open Ex

def cut : Cut := { segs := [([], [.edit (.keep b!"a"), .edit (.add b!"y")])], tail := [] }

def lines : List Str :=
  renameChangedLines [b!"similarity index 66%"] [b!"index 7898192..422c2b7 100644"] ExCopy.dst b!"b" (.text cut (fun _ => []))

/-- What git prints. -/
example : lines =
    [b!"diff --git \"a/\\303\\244\" b/b",
     b!"similarity index 66%",
     b!"rename from \"\\303\\244\"",
     b!"rename to b",
     b!"index 7898192..422c2b7 100644",
     b!"--- \"a/\\303\\244\"",
     b!"+++ b/b",
     b!"@@ -1 +1,2 @@",
     b!" a",
     b!"+y"] := by decide +kernel

theorem okA : (createF ExCopy.dst [b!"a"]).Ok :=
  ⟨⟨by decide, by decide, by decide⟩, by simp [createF], by simpa [createF] using other1, ⟨by decide, by decide⟩, by decide⟩

/-- The hypotheses are met. -/
example : ∃ log, parseLog (logText ([entryOf b!"e1" none [createF ExCopy.dst [b!"a"]]] ++ { entryOf b!"e2" none [] with diffs := [lines] } :: [])) = .ok log ∧
    (run ExCopy.env {} (fun _ => .ok []) (Graph.newFromMap ExCopy.parents ExCopy.parents) log).fault ≠ none ∧
    (run ExCopy.env {} (fun _ => .ok []) (Graph.newFromMap ExCopy.parents ExCopy.parents) log).written = none := by
  have ho : ∀ l ∈ [b!"similarity index 66%"], OtherHeader l := by
    intro l hl
    rw [List.mem_singleton] at hl
    subst hl
    exact ⟨by decide, .inr (.inr (.inr (.inl ⟨_, rfl⟩)))⟩
  refine C83_rename_with_change_fails (parent := b!"e1") (old := [b!"a"]) (new := [b!"a", b!"y"]) isort_sortsHunks (fun _ _ _ => .refl _) rfl ?_ ?_ (by decide +kernel) ho
    (by simpa using other2) (p := ExCopy.dst) (q := b!"b") (by decide) (by decide) (by decide) (cut := cut) (heads := fun _ => []) ⟨by decide, by decide⟩ ⟨rfl, rfl, by decide⟩
    ⟨_, List.mem_singleton.2 rfl, by decide⟩ (by decide) (List.mem_singleton.2 rfl) ?_
  · intro h hc
    have hp : ∀ e ∈ (Graph.newFromMap ExCopy.parents ExCopy.parents).parents, e.1 ∉ e.2 := by decide +kernel
    unfold Graph.parentsOf at hc
    cases hg : GoMap.get (Graph.newFromMap ExCopy.parents ExCopy.parents).parents h with
    | none => rw [hg] at hc; cases hc
    | some ps => rw [hg] at hc; exact hp _ (GoMap.mem_of_get hg) hc
  · intro x hx
    simp only [List.cons_append, List.nil_append, List.mem_cons, List.not_mem_nil, or_false] at hx
    rcases hx with rfl | rfl
    · exact entryOf_ok (by decide) (by simp) (by decide) (by simpa using okA)
    · have h0 := entryOf_ok (hash := b!"e2") (frm := none) (cs := []) (by decide) (by simp) (by decide) (by simp)
      refine ⟨h0.hash, h0.from?, h0.header, h0.merge, h0.author, h0.message, ?_⟩
      intro d hd
      rw [List.mem_singleton] at hd
      subst hd
      refine ⟨⟨_, rfl, by decide, by decide⟩, ?_⟩
      intro l hl
      revert l
      decide +kernel
  · intro x hx
    simp only [List.mem_singleton] at hx
    subst hx
    intro y hy
    simp only [entryOf, List.map_cons, List.map_nil, List.mem_singleton] at hy
    subst hy
    exact ⟨_, _, .change okA, by simp⟩

end ExQuotedRename

/-! ### Example: the third commit renames the file `ä` to `b` -/

/-- The third commit renames the file `ä` to `b`. -/
example : ∃ log, parseLog (logText ([Ex.entryOf b!"d1" none [ExMode.binF b!"\\303\\244"], Ex.entryOf b!"d2" none [ExMode.chmodF b!"\\303\\244"]] ++
      { Ex.entryOf b!"d3" none [] with diffs := [renameLines [b!"similarity index 100%"] b!"\\303\\244" b!"b"] } :: [])) = .ok log ∧
    (run (ExMode.env true b!"\\303\\244") {} (fun _ => .ok []) (Graph.newFromMap (ExMode.parents ++ [(b!"d3", [b!"d2"])]) (ExMode.parents ++ [(b!"d3", [b!"d2"])])) log).fault ≠ none ∧
    (run (ExMode.env true b!"\\303\\244") {} (fun _ => .ok []) (Graph.newFromMap (ExMode.parents ++ [(b!"d3", [b!"d2"])]) (ExMode.parents ++ [(b!"d3", [b!"d2"])])) log).written = none := by
  have ho : ∀ l ∈ [b!"similarity index 100%"], OtherHeader l := by
    intro l hl
    rw [List.mem_singleton] at hl
    subst hl
    exact ⟨by decide, .inr (.inr (.inr (.inl ⟨_, rfl⟩)))⟩
  have hb := ExMode.okB (p := b!"\\303\\244") (.inr rfl)
  have hm := ExMode.okM (p := b!"\\303\\244") (.inr rfl)
  refine C83_rename_of_quoted_fails (fun _ _ _ => .refl _) rfl ?_ ?_ (by decide +kernel) ho (by decide) (by decide) (by decide) (by decide) (by decide) (List.mem_singleton.2 rfl) ?_
  · intro h hc
    have hp : ∀ e ∈ (Graph.newFromMap (ExMode.parents ++ [(b!"d3", [b!"d2"])]) (ExMode.parents ++ [(b!"d3", [b!"d2"])])).parents, e.1 ∉ e.2 := by decide +kernel
    unfold Graph.parentsOf at hc
    cases hg : GoMap.get (Graph.newFromMap (ExMode.parents ++ [(b!"d3", [b!"d2"])]) (ExMode.parents ++ [(b!"d3", [b!"d2"])])).parents h with
    | none => rw [hg] at hc; cases hc
    | some ps => rw [hg] at hc; exact hp _ (GoMap.mem_of_get hg) hc
  · intro x hx
    simp only [List.mem_append, List.mem_cons, List.not_mem_nil, or_false] at hx
    rcases hx with (rfl | rfl) | rfl
    · exact Ex.entryOf_ok (by decide) (by simp) (by decide) (by simpa using hb)
    · exact Ex.entryOf_ok (by decide) (by simp) (by decide) (by simpa using hm)
    · have h0 := Ex.entryOf_ok (hash := b!"d3") (frm := none) (cs := []) (by decide) (by simp) (by decide) (by simp)
      refine ⟨h0.hash, h0.from?, h0.header, h0.merge, h0.author, h0.message, ?_⟩
      intro d hd
      rw [List.mem_singleton] at hd
      subst hd
      refine ⟨⟨_, rfl, by decide, by decide⟩, by decide⟩
  · intro x hx
    simp only [List.mem_cons, List.not_mem_nil, or_false] at hx
    rcases hx with rfl | rfl
    · intro y hy
      simp only [Ex.entryOf, List.map_cons, List.map_nil, List.mem_singleton] at hy
      subst hy
      exact ⟨_, _, .change hb, by simp⟩
    · intro y hy
      simp only [Ex.entryOf, List.map_cons, List.map_nil, List.mem_singleton] at hy
      subst hy
      exact ⟨_, _, .change hm, by simp⟩

end Ripsrc
