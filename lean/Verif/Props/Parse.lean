import Verif.Lib.Parse
import Verif.Props.Apply
/-!
# C07, C08, C10, C53: parsing the diff of one file
-/
namespace Ripsrc
open Spec

/-! ## C07 -/

/-- **C07.** `Parse` of the text git prints for a file change returns what the change means: paths, binary flag, and the
hunks with their locations and exact lines (modulo one trailing CR per line, `Cut.norm`). -/
theorem C07_parse_inverts_render (f : FileChange) (hok : f.Ok) : parseDiff f.text = .ok f.meaning := parse_change f hok

/-- A rename with a change, with names containing spaces, and a heading after the hunk header. -/
def exChange : FileChange where
  kind := .rename b!"old name" b!"dir/new name"
  before := [b!"similarity index 90%"]
  after := [b!"index 7898192..e61ef7b 100644"]
  body := .text exCut (fun _ => b!" func main() { @@")

example : exChange.Ok ∧ exChange.meaning.hunks.length = 2 ∧ exChange.meaning.path = b!"dir/new name" := by
  refine ⟨⟨⟨by decide, by decide⟩, ?_, ?_, ⟨by decide, by decide⟩, by decide⟩, by decide, by decide⟩
  · intro l hl
    simp only [exChange, List.mem_singleton] at hl
    subst hl
    exact ⟨by decide, Or.inr (Or.inr (Or.inr (Or.inl ⟨b!"90%", rfl⟩)))⟩
  · intro l hl
    simp only [exChange, List.mem_singleton] at hl
    subst hl
    exact ⟨by decide, Or.inl ⟨_, rfl⟩⟩

/-- End to end (C01 with C07): parsing git's text and applying the result to the blame of the old version gives the blame
of the new version. -/
theorem C07_parse_then_apply (srt : List Hunk → List Hunk) (hsrt : SortsHunks srt) (f : FileChange) (hok : f.Ok)
    (cut : Cut) (heads : Nat → Str) (hbody : f.body = .text cut heads) (hdel : f.kind.isDelete = false) (hcut : segsOk 0 cut.segs)
    (file : Blame) (hbin : file.isBinary = false) (hold : file.lines.map (·.line) = oldLines cut.norm.script) (commit : Str) :
    ∃ d, parseDiff f.text = .ok d ∧ d.pathPrev = f.kind.prev ∧ d.path = f.kind.next ∧
      apply srt file d commit = .ok { commit := commit, lines := blameEdit commit cut.norm.script file.lines } := by
  refine ⟨f.meaning, parse_change f hok, rfl, rfl, ?_⟩
  have hl : ∀ s ∈ cut.segs, ∀ b ∈ s.2, NoNL b.text ∧ b.text.length < 100000000 := by
    obtain ⟨_, _, _, _, hl⟩ := hok
    have hsub : ∀ (o n : Nat) (segs : List (List Str × List BodyLine)), ∀ s ∈ segs, ∀ b ∈ s.2,
        b.text ∈ segLines heads o n segs := by
      intro o n segs
      induction segs generalizing o n with
      | nil => simp
      | cons x segs ih =>
        intro s hs b hb
        obtain ⟨gap, body⟩ := x
        simp only [segLines]
        rcases List.mem_cons.1 hs with rfl | hs
        · exact List.mem_append_left _ (List.mem_cons_of_mem _ (List.mem_map_of_mem hb))
        · exact List.mem_append_right _ (ih _ _ s hs b hb)
    intro s hs b hb
    apply hl
    simp only [FileChange.lines, hbody, Body.lines, List.mem_append]
    exact Or.inr (Or.inr (hsub 0 0 _ s hs b hb))
  have hsegs : ∀ (o : Nat) (segs : List (List Str × List BodyLine)), segsOk o segs →
      segsOk o (segs.map (fun s => (s.1, s.2.map BodyLine.norm))) := by
    intro o segs
    induction segs generalizing o with
    | nil => simp [segsOk]
    | cons x segs ih =>
      obtain ⟨gap, body⟩ := x
      rintro ⟨h1, h2, h3⟩
      simp only [List.map_cons, segsOk, oldLines_norm]
      refine ⟨h1, ?_, ih _ h3⟩
      intro s hs
      cases segs with
      | nil => simp at hs
      | cons y segs =>
        simp only [List.map_cons, List.head?_cons, Option.some.injEq] at hs
        subst hs
        exact h2 y rfl
  apply C02_apply_attribution srt hsrt cut.norm ⟨hsegs 0 _ hcut, ?_⟩ file hbin hold
  · simp [FileChange.meaning, hbody, Body.isBinary]
  · simp [FileChange.meaning, hdel, hbody, Body.hunks]
  · intro s hs b hb
    obtain ⟨s', hs', rfl⟩ := List.mem_map.1 hs
    obtain ⟨b', hb', rfl⟩ := List.mem_map.1 hb
    rw [norm_text]
    have := hl s' hs' b' hb'
    exact ⟨dropCR_noNL this.1, Nat.lt_of_le_of_lt (dropCR_length _) this.2⟩

/-! ## C08 -/

/-- **C08.** A hunk header with any number of ranges and any heading is read as exactly those ranges. -/
theorem C08_hunk_header (k : Nat) (hk : 1 ≤ k) (rs : List Range) (hne : rs ≠ []) (hrs : ∀ r ∈ rs, r.Ok) (heading : Str) :
    parseContext (headerText k rs heading) = .ok (rs.map Range.read) := parseContext_header k hk rs hne hrs heading

/-- **C08**, the ordinary form spelled out. -/
theorem C08_plain_header (a b c d : Nat) (ha : a < 2 ^ 63) (hb : b < 2 ^ 63) (hc : c < 2 ^ 63) (hd : d < 2 ^ 63) (heading : Str) :
    parseContext (b!"@@ -" ++ itoa a ++ b!"," ++ itoa b ++ b!" +" ++ itoa c ++ b!"," ++ itoa d ++ b!" @@" ++ heading)
      = .ok [⟨45, a, b⟩, ⟨43, c, d⟩] := by
  have := parseContext_header 2 (by decide) [⟨45, a, some b⟩, ⟨43, c, some d⟩] (by simp) (by
    intro r hr
    simp only [List.mem_cons, List.not_mem_nil, or_false] at hr
    rcases hr with rfl | rfl
    · exact ⟨Or.inr rfl, ha, fun n hn => by cases hn; exact hb⟩
    · exact ⟨Or.inl rfl, hc, fun n hn => by cases hn; exact hd⟩) heading
  rw [show headerText 2 [⟨45, a, some b⟩, ⟨43, c, some d⟩] heading
    = b!"@@ -" ++ itoa a ++ b!"," ++ itoa b ++ b!" +" ++ itoa c ++ b!"," ++ itoa d ++ b!" @@" ++ heading by
      simp [headerText, Range.text, joinWith, List.replicate]] at this
  exact this

example : headerText 2 [⟨45, 12, some 5⟩, ⟨43, 12, none⟩] b!" @@ x" = b!"@@ -12,5 +12 @@ @@ x" ∧
    headerText 3 [⟨45, 1, some 2⟩, ⟨45, 1, some 2⟩, ⟨43, 1, some 3⟩] [] = b!"@@@ -1,2 -1,2 +1,3 @@@" ∧
    parseContext b!"@@ -12,5 +12 @@ @@ x" = .ok [⟨45, 12, 5⟩, ⟨43, 0, 12⟩] := by decide

/-! ## C10 -/

/-- **C10.** Names without spaces, each possibly quoted. -/
theorem C10_decl_without_spaces (q₁ q₂ : Bool) (p q : Str) (hp : p ≠ []) (hq : q ≠ []) (hps : (32 : UInt8) ∉ p)
    (hqs : (32 : UInt8) ∉ q) : parseDiffDecl (declLineQ q₁ q₂ p q) = .ok (p, q) := decl_nospace q₁ q₂ p q hp hq hps hqs

/-- **C10.** The same name twice, whatever spaces it contains. -/
theorem C10_decl_same_name (p : Str) (hp : p ≠ []) : parseDiffDecl (declLine p p) = .ok (p, p) := decl_same p hp

/-- **C10.** Two names of which one contains a space: a pair is only returned if the text after `diff --git ` consists of
two equal halves around one byte; everything else is reported as "rename with spaces". -/
theorem C10_decl_spaced_rename (p q : Str) (hs : (32 : UInt8) ∈ p ∨ (32 : UInt8) ∈ q) :
    (∃ r c, parseDiffDecl (declLine p q) = .ok (r, r) ∧ b!"a/" ++ p ++ b!" b/" ++ q = b!"a/" ++ r ++ [c] ++ b!"b/" ++ r) ∨
    parseDiffDecl (declLine p q) = .error .renameWithSpaces := by
  rw [decl_spaces p q hs]
  simp only
  generalize hdata : b!"a/" ++ p ++ b!" b/" ++ q = data
  split
  · exact Or.inr rfl
  · rename_i h1
    split
    · exact Or.inr rfl
    · rename_i h2
      simp only [not_or, Decidable.not_not, ne_eq] at h1 h2
      obtain ⟨hlen, hodd, ha, hb⟩ := h1
      left
      have hm : data.length / 2 < data.length := by omega
      refine ⟨data.drop (data.length / 2 + 3), data[data.length / 2], by rw [h2], ?_⟩
      have e1 : data = data.take (data.length / 2) ++ data.drop (data.length / 2) := (List.take_append_drop _ _).symm
      have e2 : data.take (data.length / 2) = b!"a/" ++ (data.take (data.length / 2)).drop 2 := by
        have := (List.take_append_drop 2 (data.take (data.length / 2))).symm
        rw [List.take_take, Nat.min_eq_left (by omega), ha] at this
        exact this
      have e3 : data.drop (data.length / 2) = data[data.length / 2] :: data.drop (data.length / 2 + 1) :=
        List.drop_eq_getElem_cons hm
      have e4 : data.drop (data.length / 2 + 1) = b!"b/" ++ data.drop (data.length / 2 + 3) := by
        have := (List.take_append_drop 2 (data.drop (data.length / 2 + 1))).symm
        rw [hb, List.drop_drop] at this
        exact this
      rw [h2] at e2
      rw [e4] at e3
      rw [e2, e3] at e1
      exact e1.trans (by simp)

/-- **C10.** The claim "never a wrong pair" is false of the code: for every path `p`, the rename of `p` to `p b/p b/p` is reported as the unchanged name `p b/p`.
(`Parse` repairs it from the `rename from` / `rename to` lines, see C07, which holds for such names.) -/
theorem C10_wrong_pair (p : Str) : parseDiffDecl (declLine p (p ++ b!" b/" ++ p ++ b!" b/" ++ p)) = .ok (p ++ b!" b/" ++ p, p ++ b!" b/" ++ p) := by
  have h : declLine p (p ++ b!" b/" ++ p ++ b!" b/" ++ p) = declLine (p ++ b!" b/" ++ p) (p ++ b!" b/" ++ p) := by simp [declLine]
  rw [h]
  exact C10_decl_same_name _ (by simp)

example : parseDiffDecl (declLine b!"z" b!"z b/z b/z") = .ok (b!"z b/z", b!"z b/z") := C10_wrong_pair b!"z"

example : parseDiffDecl b!"diff --git \"a/x\" \"b/y\"" = .ok (b!"x", b!"y") ∧
    parseDiffDecl (declLine b!"a b" b!"a b") = .ok (b!"a b", b!"a b") ∧
    parseDiffDecl (declLine b!"a b" b!"c d") = .error .renameWithSpaces := by decide

/-! ## C53 -/

/-- **C53.** A quoted name that contains a space: the declaration is not understood … -/
theorem C53_quoted_with_space (p q : Str) (hs : (32 : UInt8) ∈ p ∨ (32 : UInt8) ∈ q) :
    parseDiffDecl (declLineQ true true p q) = .error .renameWithSpaces := by
  have e : declLineQ true true p q = b!"diff --git " ++ (b!"\"a/" ++ p ++ b!"\" \"b/" ++ q ++ [34]) := by
    simp [declLineQ, quoteIf]
  unfold parseDiffDecl
  rw [e, if_neg (by simp), if_neg (by rw [startsWith_append]; decide)]
  have hd : (b!"diff --git " ++ (b!"\"a/" ++ p ++ b!"\" \"b/" ++ q ++ [34])).drop 11
      = b!"\"a/" ++ p ++ b!"\" \"b/" ++ q ++ [34] := rfl
  rw [hd]
  have hc : 2 ≤ (b!"\"a/" ++ p ++ b!"\" \"b/" ++ q ++ [34]).count 32 := by
    simp only [List.count_append]
    have h1 : (b!"\" \"b/" : Str).count 32 = 1 := by decide
    rw [h1]
    rcases hs with h | h
    · have := List.count_pos_iff.2 h; omega
    · have := List.count_pos_iff.2 h; omega
  simp only
  rw [if_neg (by omega), if_neg (by omega), if_pos]
  right; right; left
  simp

/-- … and, there being no rename lines for a modified file, both paths of the parsed diff are empty. -/
theorem C53_quoted_path_lost (p : Str) (hs : (32 : UInt8) ∈ p) (hp : ∀ b ∈ p, 32 ≤ b) (hl : p.length < 1000)
    (other : List Str) (ho : ∀ l ∈ other, OtherHeader l ∧ NoNL l ∧ l.length < 1000) :
    parseDiff (unlines (declLineQ true true p p :: other)) = .ok {} := by
  have hnl : ∀ l ∈ declLineQ true true p p :: other, NoNL l ∧ l.length < 100000000 := by
    intro l hm
    rcases List.mem_cons.1 hm with rfl | hm
    · constructor
      · have : (10 : UInt8) ∉ p := fun h => absurd (hp 10 h) (by decide)
        simp [NoNL, declLineQ, quoteIf, this]
      · simp [declLineQ, quoteIf]; omega
    · have := (ho l hm).2
      exact ⟨this.1, by omega⟩
  have hscan := scan_unlines incMaxLine (declLineQ true true p p :: other) (fun l h => (hnl l h).1) (fun l h => (hnl l h).2)
  have hcr : dropCR (declLineQ true true p p) = declLineQ true true p p := by
    apply dropCR_of_not_mem
    have : (13 : UInt8) ∉ p := fun h => absurd (hp 13 h) (by decide)
    simp [declLineQ, quoteIf, this]
  have hne : (unlines (declLineQ true true p p :: other)).length ≠ 0 := by simp [unlines_cons]
  unfold parseDiff
  rw [if_neg hne, hscan]
  simp only [List.map_cons, List.foldlM_cons, hcr]
  have h1 : ({} : Parser).line (declLineQ true true p p) = .ok { ({} : Parser) with state := .preMeta } := by
    unfold Parser.line
    simp only [C53_quoted_with_space p p (Or.inl hs)]
  simp only [h1, bind, Except.bind]
  have e := other_fold other (fun l h => (ho l h).1) { ({} : Parser) with state := .preMeta } rfl
  simp only at e
  rw [e]
  rfl

/-- **C53.** A rename to a name that git quotes is stored with its quotes and escapes, while the next diff of that file is
looked up without the quotes: the two keys differ, so the file is not found there. -/
theorem C53_rename_to_quoted (q : Str) (hq : q ≠ []) (hqs : (32 : UInt8) ∉ q) (p : Parser) :
    (p.metaLine (b!"rename to " ++ quoteIf true q)).renameTo = quoteIf true q ∧
    parseDiffDecl (declLineQ true true q q) = .ok (q, q) ∧ quoteIf true q ≠ q := by
  refine ⟨by rw [metaLine_to], decl_nospace true true q q hq hq hqs hqs, ?_⟩
  intro h
  have := congrArg List.length h
  simp [quoteIf] at this
  omega

/-- The same on whole diffs: `x` is renamed to `ä` (quoted by git as `"\\303\\244"`); then `ä` is modified. -/
theorem C53_rename_example :
    (parseDiff b!"diff --git a/x \"b/\\303\\244\"\nsimilarity index 100%\nrename from x\nrename to \"\\303\\244\"\n").map (·.path)
      = .ok b!"\"\\303\\244\"" ∧
    (parseDiff b!"diff --git \"a/\\303\\244\" \"b/\\303\\244\"\nindex 1..2 100644\n").map (·.path) = .ok b!"\\303\\244" := by
  decide

end Ripsrc
