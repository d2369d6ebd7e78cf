import Verif.Props.Quoted
import Verif.Props.GitSettings
import Verif.Lib.StaleGraph
import Verif.Props.Copies
/-!
# C83: diffs with quoted names that rename, with or without a patch
-/
namespace Ripsrc
open Spec

/-- How git prints that the file `p` is renamed to `q` and changed: the `rename` lines are quoted as the declaration line, the `---` line and the `+++` line are. -/
def Spec.renameChangedLines (before after : List Str) (p q : Str) (body : Body) : List Str :=
  renameLines before p q ++ after ++ body.lines (.rename p q)

/-- The same patch as that of a copy: the lines of the patch are the same for both. -/
theorem asCopy_ok {before after : List Str} (hbe : ∀ l ∈ before, OtherHeader l) (haf : ∀ l ∈ after, OtherHeader l) {p q : Str} (hp : NameOk p) (hq : NameOk q) (hps : (32 : UInt8) ∉ p)
    (hqs : (32 : UInt8) ∉ q) {body : Body} (hb : body.Ok) (hl : ∀ l ∈ renameChangedLines before after p q body, NoNL l ∧ l.length < 100000000) :
    ({ kind := .copy p q, before := before, after := after, body := body } : FileChange).Ok := by
  refine ⟨⟨hp, hq, hps, hqs⟩, hbe, haf, hb, ?_⟩
  have h1 := hl (b!"rename from " ++ quoteIf (isQuoted p) p) (by simp [renameChangedLines, renameLines])
  have h2 := hl (b!"rename to " ++ quoteIf (isQuoted q) q) (by simp [renameChangedLines, renameLines])
  intro l h
  simp only [FileChange.lines, Kind.lines, Kind.names, List.mem_append, List.mem_singleton, List.mem_cons, List.not_mem_nil, or_false] at h
  rcases h with (((rfl | h) | rfl | rfl) | h) | h
  · exact hl _ (by simp [renameChangedLines, renameLines])
  · exact hl _ (by simp [renameChangedLines, renameLines, h])
  · refine ⟨?_, ?_⟩
    · have := h1.1
      simp [NoNL] at this ⊢
      exact this
    · have := h1.2
      simp at this ⊢
      omega
  · refine ⟨?_, ?_⟩
    · have := h2.1
      simp [NoNL] at this ⊢
      exact this
    · have := h2.2
      simp at this ⊢
      omega
  · exact hl _ (by simp [renameChangedLines, h])
  · exact hl _ (by simp only [renameChangedLines, List.mem_append]; exact .inr h)

/-- What the program reads from such a diff: the names keep their quotes. -/
theorem parse_renameChanged {before after : List Str} (hbe : ∀ l ∈ before, OtherHeader l) (haf : ∀ l ∈ after, OtherHeader l) {p q : Str} (hp : NameOk p) (hq : NameOk q)
    (hps : (32 : UInt8) ∉ p) (hqs : (32 : UInt8) ∉ q) {body : Body} (hb : body.Ok) (hl : ∀ l ∈ renameChangedLines before after p q body, NoNL l ∧ l.length < 100000000) :
    parseDiff (unlines (renameChangedLines before after p q body)) =
      .ok { pathPrev := quoteIf (isQuoted p) p, path := quoteIf (isQuoted q) q, isBinary := body.isBinary, hunks := body.hunks } := by
  have hscan := scan_unlines incMaxLine (renameChangedLines before after p q body) (fun l h => (hl l h).1) (fun l h => (hl l h).2)
  have hne : (unlines (renameChangedLines before after p q body)).length ≠ 0 := by simp [renameChangedLines, renameLines, unlines_cons]
  have hp13 := hp.noCR
  have hq13 := hq.noCR
  have hquote : ∀ (b : Bool) (s : Str), (13 : UInt8) ∉ s → (13 : UInt8) ∉ quoteIf b s := by
    intro b s h; cases b <;> simp [quoteIf, h]
  have hd : dropCR (declLineQ (isQuoted p) (isQuoted q) p q) = declLineQ (isQuoted p) (isQuoted q) p q := by
    apply dropCR_of_not_mem
    cases isQuoted p <;> cases isQuoted q <;> simp [declLineQ, quoteIf, hp13, hq13]
  have hf : dropCR (b!"rename from " ++ quoteIf (isQuoted p) p) = b!"rename from " ++ quoteIf (isQuoted p) p :=
    dropCR_of_not_mem (by simp [hquote _ _ hp13])
  have ht : dropCR (b!"rename to " ++ quoteIf (isQuoted q) q) = b!"rename to " ++ quoteIf (isQuoted q) q :=
    dropCR_of_not_mem (by simp [hquote _ _ hq13])
  unfold parseDiff
  rw [if_neg hne, hscan]
  simp only [renameChangedLines, renameLines, List.map_append, List.map_cons, List.map_nil, List.foldlM_append, List.foldlM_cons, List.foldlM_nil, hd, hf, ht]
  have h1 : ({} : Parser).line (declLineQ (isQuoted p) (isQuoted q) p q) = .ok { ({} : Parser) with state := .preMeta, pathPrev := p, path := q } := by
    unfold Parser.line
    simp only [decl_nospace _ _ p q hp.ne hq.ne hps hqs]
  have e1 := other_fold before hbe { ({} : Parser) with state := .preMeta, pathPrev := p, path := q } rfl
  simp only [h1, bind, Except.bind, pure, Except.pure]
  simp only at e1
  rw [e1]
  simp only
  rw [meta_step _ rfl _ (startsWith_diff (a := b!"rename from ") 0 _ _ rfl rfl (by decide)), metaLine_from]
  simp only
  rw [meta_step _ rfl _ (startsWith_diff (a := b!"rename to ") 0 _ _ rfl rfl (by decide)), metaLine_to]
  simp only
  let p2 : Parser := { ({} : Parser) with
    state := .preMeta
    pathPrev := p
    path := q
    renameFrom := quoteIf (isQuoted p) p
    renameTo := quoteIf (isQuoted q) q }
  have e3 := other_fold after haf p2 rfl
  obtain ⟨st, bf, p', hp', hbf, hfin⟩ := body_lines_fold (.rename p q) ⟨hp13, hq13⟩ body hb p2 rfl rfl rfl rfl
  simp only [p2] at e3 hp'
  rw [e3]
  simp only
  rw [hp']
  simp only [Bool.false_eq_true, if_false]
  unfold Parser.finish
  rw [hfin]
  have n1 : quoteIf (isQuoted p) p ≠ [] := by cases isQuoted p <;> simp [quoteIf, hp.ne]
  have n2 : quoteIf (isQuoted q) q ≠ [] := by cases isQuoted q <;> simp [quoteIf, hq.ne]
  have hB : body.isBinary = !decide (bf = []) := by
    by_cases h : bf = []
    · have : ¬ body.isBinary = true := fun hh => (hbf.2 hh) h
      simpa [h] using this
    · simp [h, hbf.1 h]
  generalize body.hunks = H
  rw [hB]
  by_cases h : bf = [] <;> simp [h, p2, n1, n2, Except.map]

/-- How the program reads the diff of such a rename in the log, whatever its patch is: the names keep their quotes. -/
theorem renameChanged_read {before after : List Str} (hbe : ∀ l ∈ before, OtherHeader l) (haf : ∀ l ∈ after, OtherHeader l) {p q : Str} (hp : NameOk p) (hq : NameOk q)
    (hps : (32 : UInt8) ∉ p) (hqs : (32 : UInt8) ∉ q) {body : Body} (hb : body.Ok) (hl : ∀ l ∈ renameChangedLines before after p q body, NoNL l ∧ l.length < 100000000) :
    ∃ hs, parseDiff (unlines ((renameChangedLines before after p q body).map dropCR)) =
      .ok { pathPrev := quoteIf (isQuoted p) p, path := quoteIf (isQuoted q) q, isBinary := body.isBinary, hunks := hs } := by
  have h1 := hp.noCR
  have h2 := hq.noCR
  have n1 := nameText_noCR b!"a/" p (by decide) h1
  have n2 := nameText_noCR b!"b/" q (by decide) h2
  have hcr : ∀ l ∈ renameLines before p q ++ after, (13 : UInt8) ∉ l := by
    have hquote : ∀ (b : Bool) (s : Str), (13 : UInt8) ∉ s → (13 : UInt8) ∉ quoteIf b s := by
      intro b s h; cases b <;> simp [quoteIf, h]
    intro l h
    simp only [renameLines, List.mem_append, List.mem_singleton, List.mem_cons, List.not_mem_nil, or_false] at h
    rcases h with ((rfl | h) | rfl | rfl) | h
    · cases isQuoted p <;> cases isQuoted q <;> simp [declLineQ, quoteIf, h1, h2]
    · exact (hbe l h).1
    · simp [hquote _ _ h1]
    · simp [hquote _ _ h2]
    · exact (haf l h).1
  obtain ⟨body', hb', hbin, hbody⟩ : ∃ body' : Body, body'.Ok ∧ body'.isBinary = body.isBinary ∧ (body.lines (.rename p q)).map dropCR = body'.lines (.rename p q) := by
    have hnok := norm_ok (asCopy_ok hbe haf hp hq hps hqs hb hl)
    cases body with
    | empty => exact ⟨.empty, trivial, rfl, rfl⟩
    | binary =>
      refine ⟨.binary, trivial, rfl, map_dropCR_id _ ?_⟩
      intro l h
      simp only [Body.lines, Kind.prev, Kind.next, List.mem_singleton] at h
      subst h
      simp [n1, n2]
    | text cut heads =>
      refine ⟨_, hnok.2.2.2.1, rfl, ?_⟩
      simp only [FileChange.norm, Body.lines, List.map_append, segLines_norm]
      congr 1
      exact map_dropCR_id _ (by simp [Kind.prev, Kind.next, n1, n2])
  have hlines : (renameChangedLines before after p q body).map dropCR = renameChangedLines before after p q body' := by
    simp only [renameChangedLines]
    rw [List.map_append, map_dropCR_id _ hcr, hbody]
  refine ⟨body'.hunks, ?_⟩
  rw [hlines, parse_renameChanged hbe haf hp hq hps hqs hb' (by
    rw [← hlines]
    intro l' h'
    obtain ⟨l, h, rfl⟩ := List.mem_map.1 h'
    exact ⟨dropCR_noNL (hl l h).1, Nat.lt_of_le_of_lt (dropCR_length _) (hl l h).2⟩), hbin]

/-- The parts of such a diff are as git prints them. -/
structure Spec.RenameOk (before after : List Str) (p q : Str) (body : Body) : Prop where
  headers : ∀ l ∈ before, OtherHeader l
  headers' : ∀ l ∈ after, OtherHeader l
  prev : NameOk p
  next : NameOk q
  prevSpace : (32 : UInt8) ∉ p
  nextSpace : (32 : UInt8) ∉ q
  patch : body.Ok
  short : ∀ l ∈ renameChangedLines before after p q body, NoNL l ∧ l.length < 100000000

/-- The diff is the change of a file that results in the path `n` (empty for a deleted file); `true` if it is a rename with names in quotes where they need them. -/
inductive Spec.DiffOf : List Str → Bool → Str → Prop
  | change {f : FileChange} : f.Ok → DiffOf f.lines false f.kind.next
  | rename {before after p q body} : RenameOk before after p q body → DiffOf (renameChangedLines before after p q body) true q

theorem diffOf_read {y : List Str} {b : Bool} {n : Str} (h : DiffOf y b n) :
    ∃ d, parseDiff (unlines (y.map dropCR)) = .ok d ∧ d.path = (if b then quoteIf (isQuoted n) n else n) ∧ (n = [] ∨ NameOk n) := by
  cases h with
  | rename h =>
    obtain ⟨hs, hread⟩ := renameChanged_read h.headers h.headers' h.prev h.next h.prevSpace h.nextSpace h.patch h.short
    exact ⟨_, hread, rfl, .inr h.next⟩
  | @change f f1 =>
    refine ⟨_, ?_, (meaning_norm f).2.1, ?_⟩
    · rw [norm_lines f1]
      exact parse_change f.norm (norm_ok f1)
    · have hk := f1.1
      cases hkk : f.kind with
      | modify a => rw [hkk] at hk; exact .inr hk
      | create a m => rw [hkk] at hk; exact .inr hk.1
      | delete a m => exact .inl rfl
      | rename a b => rw [hkk] at hk; exact .inr (.inl hk.2)
      | copy a b => rw [hkk] at hk; exact .inr hk.2.1

theorem not_quoted {s : Str} (r : Str) (h : s = [] ∨ NameOk s) : s ≠ quoteIf true r := by
  rintro rfl
  rcases h with h | h | h
  · simp [quoteIf] at h
  · exact (h.2 34 (by simp [quoteIf])).2.1 rfl
  · exact h.2.1 rfl

theorem quoteIf_inj {a b : Str} (h : quoteIf true a = quoteIf true b) : a = b := by
  simp only [quoteIf, if_true, List.append_assoc, List.cons_append, List.nil_append, List.cons.injEq, true_and, List.append_cancel_right_eq] at h
  exact h

/-- Nothing in a log that renames nothing to `p` writes the name in quotes. -/
theorem quoted_not_written {x : LogEntry} {p : Str} (h : ∀ y ∈ x.diffs, ∃ b n, DiffOf y b n ∧ (b = true → n ≠ p)) : ¬ WritesPath x.meaning (quoteIf true p) := by
  rintro ⟨_, ch, hch, d, hd1, hd2⟩
  obtain ⟨y, hy, rfl⟩ := List.mem_map.1 hch
  obtain ⟨b, n, hy1, hy2⟩ := h y hy
  obtain ⟨d2, e1, e2, e3⟩ := diffOf_read hy1
  rw [e1] at hd1
  cases hd1
  rw [e2] at hd2
  cases b with
  | false => exact not_quoted _ e3 hd2
  | true =>
    simp only [if_true] at hd2
    cases hnn : isQuoted n with
    | false => rw [hnn] at hd2; exact not_quoted _ e3 hd2
    | true => rw [hnn] at hd2; exact hy2 rfl (quoteIf_inj hd2)

end Ripsrc
