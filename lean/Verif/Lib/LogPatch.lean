import Verif.Lib.GitLog
/-! File changes inside a log: the log parser passes on the text of the normalised change. -/
namespace Ripsrc
open Spec

theorem dropCR_header (rs : List Range) (heading : Str) : dropCR (headerText 2 rs heading) = headerText 2 rs (dropCR heading) := by
  unfold headerText
  apply dropCR_append
  right
  apply dropCR_of_ne
  rw [List.getLast?_append]
  exact (by decide : (some (64 : UInt8)) ≠ some 13)

theorem segLines_norm (heads : Nat → Str) (o n : Nat) (segs : List (List Str × List BodyLine)) :
    (segLines heads o n segs).map dropCR
      = segLines (fun o => dropCR (heads o)) o n (segs.map (fun s => (s.1, s.2.map BodyLine.norm))) := by
  induction segs generalizing o n with
  | nil => rfl
  | cons x segs ih =>
    obtain ⟨gap, body⟩ := x
    simp only [segLines, List.map_cons, List.map_append, oldLines_norm, newLines_norm, dropCR_header, ih, List.map_map]
    congr 1
    congr 1
    refine List.map_congr_left (fun b _ => ?_)
    exact (norm_text b).symm

theorem kind_noCR {k : Kind} (hk : k.Ok) : (13 : UInt8) ∉ k.prev ∧ (13 : UInt8) ∉ k.next ∧ (13 : UInt8) ∉ k.names.1 ∧
    (13 : UInt8) ∉ k.names.2 := by
  cases k with
  | modify a => exact ⟨NameOk.noCR hk, NameOk.noCR hk, NameOk.noCR hk, NameOk.noCR hk⟩
  | create a m => exact ⟨by simp [Kind.prev], hk.1.noCR, hk.1.noCR, hk.1.noCR⟩
  | delete a m => exact ⟨hk.1.noCR, by simp [Kind.next], hk.1.noCR, hk.1.noCR⟩
  | rename a b => exact ⟨hk.1.noCR, hk.2.noCR, hk.1.noCR, hk.2.noCR⟩
  | copy a b => exact ⟨hk.1.noCR, hk.2.1.noCR, hk.1.noCR, hk.2.1.noCR⟩

theorem mode_noCR {m : Str} (h : ModeText m) : (13 : UInt8) ∉ m := by
  intro hc
  have := (h.2 13 hc).1
  exact absurd this (by decide)

theorem map_dropCR_id (ls : List Str) (h : ∀ l ∈ ls, (13 : UInt8) ∉ l) : ls.map dropCR = ls := by
  rw [List.map_congr_left (fun l hl => dropCR_of_not_mem (h l hl))]
  exact List.map_id' ls

theorem norm_lines {f : FileChange} (hok : f.Ok) : f.lines.map dropCR = f.norm.lines := by
  obtain ⟨hk, hbe, haf, hbo, hl⟩ := hok
  obtain ⟨k1, k2, k3, k4⟩ := kind_noCR hk
  simp only [FileChange.lines, FileChange.norm, List.map_append]
  congr 1
  · congr 1
    · congr 1
      · congr 1
        · refine map_dropCR_id _ ?_
          cases isQuoted f.kind.names.1 <;> cases isQuoted f.kind.names.2 <;> simp [declLineQ, quoteIf, k3, k4]
        · exact map_dropCR_id _ (fun l hl => (hbe l hl).1)
      · apply map_dropCR_id
        cases hkk : f.kind with
        | modify p => simp [Kind.lines]
        | create p m =>
          rw [hkk] at hk
          simp [Kind.lines, mode_noCR hk.2]
        | delete p m =>
          rw [hkk] at hk
          simp [Kind.lines, mode_noCR hk.2]
        | rename p q =>
          rw [hkk] at hk
          simp [Kind.lines, hk.1.noCR, hk.2.noCR]
        | copy p q =>
          rw [hkk] at hk
          simp [Kind.lines, quoteIf_noCR _ hk.1.noCR, quoteIf_noCR _ hk.2.1.noCR]
    · exact map_dropCR_id _ (fun l hl => (haf l hl).1)
  · have h1 := nameText_noCR b!"a/" f.kind.prev (by decide) k1
    have h2 := nameText_noCR b!"b/" f.kind.next (by decide) k2
    cases f.body with
    | empty => rfl
    | binary => exact map_dropCR_id _ (by simp [Body.lines, h1, h2])
    | text cut heads =>
      simp only [Body.lines, List.map_append, segLines_norm]
      congr 1
      exact map_dropCR_id _ (by simp [h1, h2])

theorem segScript_norm (segs : List (List Str × List BodyLine)) :
    (oldLines (segScript (segs.map (fun s => (s.1, s.2.map BodyLine.norm))))).length = (oldLines (segScript segs)).length ∧
    (newLines (segScript (segs.map (fun s => (s.1, s.2.map BodyLine.norm))))).length = (newLines (segScript segs)).length := by
  induction segs with
  | nil => exact ⟨rfl, rfl⟩
  | cons x segs ih =>
    obtain ⟨gap, body⟩ := x
    simp only [List.map_cons, segScript, oldLines_append, newLines_append, List.length_append, oldLines_norm, newLines_norm, ih.1, ih.2,
      oldLines_keep, newLines_keep]
    exact ⟨trivial, trivial⟩

theorem norm_ok {f : FileChange} (hok : f.Ok) : f.norm.Ok := by
  have hn := norm_lines hok
  obtain ⟨hk, hbe, haf, hbo, hl⟩ := hok
  refine ⟨hk, hbe, haf, ?_, ?_⟩
  · simp only [FileChange.norm]
    cases hb : f.body with
    | empty => trivial
    | binary => trivial
    | text cut heads =>
      rw [hb] at hbo
      simp only [Body.Ok, Cut.script, Cut.norm, oldLines_append, newLines_append, List.length_append] at hbo ⊢
      rw [(segScript_norm cut.segs).1, (segScript_norm cut.segs).2]
      exact hbo
  · rw [← hn]
    intro l hl'
    obtain ⟨l', h1, rfl⟩ := List.mem_map.1 hl'
    exact ⟨dropCR_noNL (hl l' h1).1, Nat.lt_of_le_of_lt (dropCR_length _) (hl l' h1).2⟩

/-- The line starts with a byte that is neither CR nor `d`. -/
theorem diffLineOk_of_head {l : Str} {c : UInt8} {r : Str} (h : l = c :: r) (h1 : c ≠ 13) (h2 : c ≠ 100) (hn : NoNL l)
    (hs : l.length < logMaxLine) : DiffLineOk l := by
  subst h
  exact ⟨by simp, by simpa using h1, startsWith_cons_ne h2, hn, hs⟩

theorem otherHeader_diffLine {l : Str} (h : OtherHeader l) (hn : NoNL l) (hs : l.length < logMaxLine) : DiffLineOk l := by
  obtain ⟨_, h⟩ := h
  rcases h with ⟨r, rfl⟩ | ⟨r, rfl⟩ | ⟨r, rfl⟩ | ⟨r, rfl⟩ | ⟨r, rfl⟩
  · exact diffLineOk_of_head rfl (by decide) (by decide) hn hs
  · exact diffLineOk_of_head rfl (by decide) (by decide) hn hs
  · exact diffLineOk_of_head rfl (by decide) (by decide) hn hs
  · exact diffLineOk_of_head rfl (by decide) (by decide) hn hs
  · exact ⟨by simp, by simp, startsWith_diff (a := b!"dissimilarity index ") 2 _ _ rfl rfl (by decide), hn, hs⟩

theorem segLines_diffLine (heads : Nat → Str) (o n : Nat) (segs : List (List Str × List BodyLine)) :
    ∀ l ∈ segLines heads o n segs, ∃ c r, l = c :: r ∧ c ≠ 13 ∧ c ≠ 100 := by
  induction segs generalizing o n with
  | nil => simp [segLines]
  | cons x segs ih =>
    obtain ⟨gap, body⟩ := x
    intro l hl
    simp only [segLines, List.mem_append, List.mem_cons, List.mem_map] at hl
    rcases hl with (rfl | ⟨b, _, rfl⟩) | hl
    · refine ⟨64, (headerText 2 [gitRange 45 (o + gap.length) (oldLines (edits body)).length,
          gitRange 43 (n + gap.length) (newLines (edits body)).length] (heads (o + gap.length))).tail, ?_, by decide, by decide⟩
      simp [headerText, List.replicate]
    · cases b with
      | noNewline => exact ⟨_, _, rfl, by decide, by decide⟩
      | edit e => cases e <;> exact ⟨_, _, rfl, by decide, by decide⟩
    · exact ih _ _ l hl

/-- The lines of a file change form a file diff in the sense of the log format. -/
theorem change_fileDiffOk {f : FileChange} (hok : f.Ok) : FileDiffOk f.lines := by
  obtain ⟨hk, hbe, haf, hbo, hl⟩ := hok
  constructor
  · have h0 := hl _ (show declLineQ (isQuoted f.kind.names.1) (isQuoted f.kind.names.2) f.kind.names.1 f.kind.names.2 ∈ f.lines by simp [FileChange.lines])
    refine ⟨quoteIf (isQuoted f.kind.names.1) (b!"a/" ++ f.kind.names.1) ++ b!" " ++ quoteIf (isQuoted f.kind.names.2) (b!"b/" ++ f.kind.names.2), ?_, ?_, ?_⟩
    · simp [FileChange.lines, declLineQ]
    · intro hc
      exact h0.1 (by simp only [declLineQ, List.mem_append] at hc ⊢; exact hc.elim (fun h => h.elim (fun h => .inl (.inl (.inr h))) (fun h => .inl (.inr h))) .inr)
    · have := h0.2
      simp only [declLineQ, List.length_append, List.length_cons, List.length_nil, logMaxLine] at this ⊢
      omega
  · intro l hlt
    have hmem : l ∈ f.before ++ f.kind.lines ++ f.after ++ f.body.lines f.kind := by
      simpa [FileChange.lines] using hlt
    obtain ⟨hn, hs⟩ := hl l (by
      have := hmem
      simp only [FileChange.lines, List.mem_append] at this ⊢
      rcases this with ((h | h) | h) | h
      · exact Or.inl (Or.inl (Or.inl (Or.inr h)))
      · exact Or.inl (Or.inl (Or.inr h))
      · exact Or.inl (Or.inr h)
      · exact Or.inr h)
    have hs : l.length < logMaxLine := hs
    simp only [List.mem_append] at hmem
    rcases hmem with ((h | h) | h) | h
    · exact otherHeader_diffLine (hbe l h) hn hs
    · cases hkk : f.kind with
      | modify p => rw [hkk] at h; cases h
      | create p m =>
        rw [hkk] at h
        simp only [Kind.lines, List.mem_singleton] at h
        exact diffLineOk_of_head h (by decide) (by decide) hn hs
      | delete p m =>
        rw [hkk] at h
        simp only [Kind.lines, List.mem_singleton] at h
        subst h
        exact ⟨by simp, by simp, startsWith_diff (a := b!"deleted file mode ") 1 _ _ rfl rfl (by decide), hn, hs⟩
      | rename p q =>
        rw [hkk] at h
        simp only [Kind.lines, List.mem_cons, List.not_mem_nil, or_false] at h
        rcases h with h | h
        · exact diffLineOk_of_head h (by decide) (by decide) hn hs
        · exact diffLineOk_of_head h (by decide) (by decide) hn hs
      | copy p q =>
        rw [hkk] at h
        simp only [Kind.lines, List.mem_cons, List.not_mem_nil, or_false] at h
        rcases h with h | h
        · exact diffLineOk_of_head h (by decide) (by decide) hn hs
        · exact diffLineOk_of_head h (by decide) (by decide) hn hs
    · exact otherHeader_diffLine (haf l h) hn hs
    · cases hb : f.body with
      | empty => rw [hb] at h; cases h
      | binary =>
        rw [hb] at h
        simp only [Body.lines, List.mem_singleton] at h
        simp only [List.append_assoc] at h
        exact diffLineOk_of_head h (by decide) (by decide) hn hs
      | text cut heads =>
        rw [hb] at h
        simp only [Body.lines, List.mem_append, List.mem_cons, List.not_mem_nil, or_false] at h
        rcases h with (h | h) | h
        · exact diffLineOk_of_head h (by decide) (by decide) hn hs
        · exact diffLineOk_of_head h (by decide) (by decide) hn hs
        · obtain ⟨c, r, h0, h1, h2⟩ := segLines_diffLine heads 0 0 cut.segs l h
          exact diffLineOk_of_head h0 h1 h2 hn hs

end Ripsrc
