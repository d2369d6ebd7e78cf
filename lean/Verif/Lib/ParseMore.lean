import Verif.Lib.Parse
import Verif.Spec.Combined
/-! # Over-long lines and combined diffs -/
namespace Ripsrc
open Spec

theorem rawLines_long : ∀ (a l b : Str), NoNL l → l ≠ [] → ∃ x ∈ rawLines (a ++ l ++ b), l.length ≤ x.length := by
  intro a l b hl hne
  induction a with
  | nil =>
    rw [List.nil_append]
    cases l with
    | nil => exact absurd rfl hne
    | cons c l =>
      have gen : ∀ (l : Str) (c : UInt8), NoNL (c :: l) → ∃ x ls, rawLines (c :: l ++ b) = x :: ls ∧ (c :: l).length ≤ x.length := by
        intro l
        induction l with
        | nil =>
          intro c hc
          have hc : c ≠ 10 := fun h => hc (by simp [h])
          simp only [List.cons_append, List.nil_append, rawLines, if_neg hc]
          cases rawLines b with
          | nil => exact ⟨_, _, rfl, by simp⟩
          | cons x xs => exact ⟨_, _, rfl, by simp⟩
        | cons d l ih =>
          intro c hc
          have hd : NoNL (d :: l) := fun h => hc (List.mem_cons_of_mem _ h)
          have hc : c ≠ 10 := fun h => hc (by simp [h])
          obtain ⟨x, xs, h1, h2⟩ := ih d hd
          rw [List.cons_append, rawLines, if_neg hc, h1]
          exact ⟨_, _, rfl, by simp only [List.length_cons] at h2 ⊢; omega⟩
      obtain ⟨x, xs, h1, h2⟩ := gen l c hl
      exact ⟨x, by rw [h1]; simp, h2⟩
  | cons c a ih =>
    obtain ⟨x, hx, hlen⟩ := ih
    simp only [List.cons_append, rawLines]
    by_cases hc : c = 10
    · rw [if_pos hc]; exact ⟨x, List.mem_cons_of_mem _ hx, hlen⟩
    · rw [if_neg hc]
      cases hr : rawLines (a ++ l ++ b) with
      | nil => rw [hr] at hx; cases hx
      | cons y ys =>
        rw [hr] at hx
        rcases List.mem_cons.1 hx with rfl | hx
        · exact ⟨c :: x, by simp, by simp only [List.length_cons]; omega⟩
        · exact ⟨x, by simp [hx], hlen⟩

theorem scanRaw_long (max : Nat) : ∀ (ls : List Str), (∃ x ∈ ls, max ≤ x.length) → (scanRaw max ls).2 = true
  | [], ⟨_, h, _⟩ => by cases h
  | y :: ls, ⟨x, hx, hl⟩ => by
    unfold scanRaw
    by_cases hy : y.length ≥ max
    · rw [if_pos hy]
    · rw [if_neg hy]
      rcases List.mem_cons.1 hx with rfl | hx
      · exact absurd hl hy
      · exact scanRaw_long max ls ⟨x, hx, hl⟩

/-- A run of `max` bytes without line end stops the scanner with an error. -/
theorem scan_long (max : Nat) (hmax : 0 < max) (a l b : Str) (hl : NoNL l) (hlen : max ≤ l.length) : (scan max (a ++ l ++ b)).2 = true := by
  obtain ⟨x, hx, h⟩ := rawLines_long a l b hl (by rintro rfl; simp at hlen; omega)
  exact scanRaw_long max _ ⟨x, hx, by omega⟩

theorem parser_foldlM_panic {w : Fault} : ∀ (ls : List Str) (p : Parser), ls.foldlM Parser.line p = .error w → ∃ s, w = .panic s := by
  have hloc : ∀ (s : Str) {w : Fault}, parseLocation s = .error w → ∃ m, w = .panic m := by
    intro s w h
    unfold parseLocation at h
    simp only at h
    repeat' split at h
    all_goals first | (cases h; done) | (cases h; exact ⟨_, rfl⟩)
  have hmap : ∀ (l : List Str) {w : Fault}, l.mapM parseLocation = .error w → ∃ m, w = .panic m := by
    intro l
    induction l with
    | nil => intro w h; cases h
    | cons s l ih =>
      intro w h
      rw [List.mapM_cons] at h
      cases hs : parseLocation s with
      | error e => rw [hs] at h; cases h; exact hloc s hs
      | ok v =>
        rw [hs] at h
        cases hl : l.mapM parseLocation with
        | error e => simp only [hl, bind, Except.bind] at h; cases h; exact ih hl
        | ok vs => simp only [hl, bind, Except.bind] at h; cases h
  have hctx : ∀ (b : Str) {w : Fault}, parseContext b = .error w → ∃ m, w = .panic m := by
    intro b w h
    unfold parseContext at h
    simp only at h
    split at h
    · cases h; exact ⟨_, rfl⟩
    · exact hmap _ h
  have hctx2 : ∀ (p : Parser) (b : Str) {w : Fault}, p.parseContext b = .error w → ∃ m, w = .panic m := by
    intro p b w h
    unfold Parser.parseContext at h
    cases hc : Ripsrc.parseContext b with
    | error e => rw [hc] at h; cases h; exact hctx b hc
    | ok v => rw [hc] at h; cases h
  have hline : ∀ (p : Parser) (b : Str) {w : Fault}, p.line b = .error w → ∃ m, w = .panic m := by
    intro p b w h
    unfold Parser.line at h
    split at h
    · split at h
      · cases h
      · cases h
      · cases h
      · cases h; exact ⟨_, rfl⟩
    · split at h <;> cases h
    · cases h
    · split at h
      · cases h
      · split at h
        · exact hctx2 _ _ h
        · cases h
    · unfold Parser.lineInPatchLines at h
      split at h
      · exact hctx2 _ _ h
      · cases h
  intro ls
  induction ls with
  | nil => intro p h; cases h
  | cons l ls ih =>
    intro p h
    rw [List.foldlM_cons] at h
    cases hl : p.line l with
    | error e => rw [hl] at h; cases h; exact hline p l hl
    | ok q => rw [hl] at h; exact ih q h

/-! ### Combined diffs -/

theorem headerText_dropCR (k : Nat) (hk : 1 ≤ k) (rs : List Range) (heading : Str) :
    dropCR (headerText k rs heading) = headerText k rs (dropCR heading) := by
  unfold headerText
  apply dropCR_append
  right
  apply dropCR_of_ne
  obtain ⟨j, rfl⟩ : ∃ j, k = j + 1 := ⟨k - 1, by omega⟩
  rw [List.getLast?_append, List.replicate_succ', List.getLast?_append]
  exact (by decide : (some (64 : UInt8)) ≠ some 13)

theorem header_line_k (p : Parser) (k : Nat) (hk : 2 ≤ k) (rs : List Range) (hne : rs ≠ []) (hrs : ∀ r ∈ rs, r.Ok) (heading : Str)
    (hst : p.state = .inPatchLines ∨ (p.state = .nextIsContext ∧ p.contexts = [] ∧ p.lines = [])) :
    p.line (dropCR (headerText k rs heading))
      = .ok { p.finishHunk with contexts := rs.map Range.read, state := .inPatchLines } := by
  rw [headerText_dropCR k (by omega)]
  have hsw : startsWith (headerText k rs (dropCR heading)) b!"@@" = true := by
    obtain ⟨j, rfl⟩ : ∃ j, k = 2 + j := ⟨k - 2, by omega⟩
    have e : headerText (2 + j) rs (dropCR heading) = b!"@@" ++ (List.replicate j 64 ++ (b!" " ++ joinWith b!" " (rs.map Range.text) ++ b!" " ++
      List.replicate (2 + j) 64 ++ dropCR heading)) := by
      simp [headerText, ← List.replicate_append_replicate, List.replicate, List.append_assoc]
    rw [e]; exact startsWith_append _ _
  have hlen : ¬ (headerText k rs (dropCR heading)).length ≤ 2 := by simp [headerText]; omega
  unfold Parser.line
  rcases hst with hst | ⟨hst, hc, hl⟩
  · rw [hst]
    simp only [Parser.lineInPatchLines, hsw, if_true, Parser.parseContext, parseContext_header k (by omega) rs hne hrs]
    rfl
  · rw [hst]
    simp only [if_neg hlen, hsw, if_true, Parser.parseContext, parseContext_header k (by omega) rs hne hrs]
    simp only [bind, Except.bind, Parser.finishHunk, hc, hl]
    simp

theorem cbody_fold (body : List Str) (hb : ∀ l ∈ body, CBodyLine l) (p : Parser) (hst : p.state = .inPatchLines) :
    (body.map dropCR).foldlM Parser.line p = .ok { p with lines := p.lines ++ unlines (body.map dropCR) } := by
  induction body generalizing p with
  | nil => simp; rfl
  | cons b body ih =>
    obtain ⟨c, r, rfl, hc⟩ := hb b (by simp)
    have hs : startsWith (dropCR (c :: r)) b!"@@" = false := by
      rw [dropCR_cons_of_ne c r (Or.inl (by rcases hc with rfl | rfl | rfl | rfl <;> decide))]
      exact startsWith_cons_ne (by rcases hc with rfl | rfl | rfl | rfl <;> decide)
    have h1 : p.line (dropCR (c :: r)) = .ok { p with lines := p.lines ++ dropCR (c :: r) ++ [10] } := by
      unfold Parser.line
      rw [hst]
      simp only [Parser.lineInPatchLines, hs, Bool.false_eq_true, if_false]
      rw [hst]
    simp only [List.map_cons, List.foldlM_cons, h1]
    refine (ih (fun l hl => hb l (by simp [hl])) { p with lines := p.lines ++ dropCR (c :: r) ++ [10] } hst).trans ?_
    simp [unlines_cons]

theorem chunks_fold (hs : List CHunk) (hok : ∀ h ∈ hs, h.Ok ∧ 2 ≤ h.ranges.length) (p : Parser)
    (hst : p.state = .inPatchLines ∨ (p.state = .nextIsContext ∧ p.contexts = [] ∧ p.lines = [])) :
    ∃ st p', ((hs.flatMap CHunk.lines).map dropCR).foldlM Parser.line p = .ok p' ∧
      p'.finishHunk = { p.finishHunk with state := st, res := p.finishHunk.res ++ hs.map CHunk.kept } := by
  induction hs generalizing p with
  | nil => exact ⟨p.state, p, rfl, by simp; rfl⟩
  | cons h hs ih =>
    obtain ⟨⟨h1, h2, h3⟩, h4⟩ := hok h (by simp)
    have e1 := header_line_k p h.ranges.length h4 h.ranges h1 h2 h.heading hst
    have e2 := cbody_fold h.body h3 { p.finishHunk with contexts := h.ranges.map Range.read, state := .inPatchLines } rfl
    obtain ⟨st, p', hp', hf⟩ := ih (fun x hx => hok x (by simp [hx]))
      { p.finishHunk with contexts := h.ranges.map Range.read, state := .inPatchLines, lines := unlines (h.body.map dropCR) } (Or.inl rfl)
    refine ⟨st, p', ?_, ?_⟩
    · simp only [List.flatMap_cons, CHunk.lines, List.cons_append, List.map_cons, List.map_append, List.foldlM_cons, List.foldlM_append, e1]
      simp only [bind, Except.bind]
      rw [e2]
      simp only
      rw [← hp']
      simp only [Parser.finishHunk, List.nil_append]
    · rw [hf, finishHunk_run p _ (by simpa using h1)]
      simp [CHunk.kept]

theorem combinedLines_ne (p : Str) (hd : List Str) (hs : List CHunk) : (unlines (combinedLines p hd hs)).length ≠ 0 := by
  simp [combinedLines, unlines_cons]

/-- The parser on a combined diff. -/
theorem parse_combined (p : Str) (hd : List Str) (hs : List CHunk) (hhd : ∀ l ∈ hd, OtherHeader l)
    (hok : ∀ h ∈ hs, h.Ok ∧ 2 ≤ h.ranges.length) (hl : ∀ l ∈ combinedLines p hd hs, NoNL l ∧ l.length < 100000000) :
    parseDiff (unlines (combinedLines p hd hs)) = .ok { pathPrev := [], path := [], hunks := hs.map CHunk.kept } := by
  have hscan := scan_unlines incMaxLine (combinedLines p hd hs) (fun l h => (hl l h).1) (fun l h => (hl l h).2)
  unfold parseDiff
  rw [if_neg (combinedLines_ne p hd hs), hscan]
  have hcr : ∀ (pfx r : Str), pfx.getLast? ≠ some 13 → ∃ t, dropCR (pfx ++ r) = pfx ++ t :=
    fun pfx r h2 => ⟨dropCR r, dropCR_append _ _ (Or.inr (dropCR_of_ne _ h2))⟩
  obtain ⟨t0, ht0⟩ := hcr b!"diff --combined " p (by decide)
  obtain ⟨t1, ht1⟩ := hcr b!"--- " (nameText b!"a/" p) (by decide)
  have h0 : Parser.line {} (b!"diff --combined " ++ t0) = .ok { state := .preMeta } := by
    have hd0 : parseDiffDecl (b!"diff --combined " ++ t0) = .error .merge := by
      unfold parseDiffDecl
      rw [if_neg (by simp), if_pos (startsWith_diff (a := b!"diff --combined ") 7 _ _ rfl rfl (by decide)), startsWith_append]
      rfl
    unfold Parser.line
    simp only [hd0]
  have h1 : ∀ q : Parser, q.state = .preMeta → q.line (b!"--- " ++ t1) = .ok { q with state := .nextIsCurrName } := by
    intro q hq
    unfold Parser.line
    rw [hq]
    simp only
    rw [show b!"--- " ++ t1 = b!"---" ++ (b!" " ++ t1) from rfl, startsWith_append]
    rfl
  obtain ⟨st, p', hp', hf⟩ := chunks_fold hs hok { state := .nextIsContext } (Or.inr ⟨rfl, rfl, rfl⟩)
  simp only [combinedLines, List.map_append, List.map_cons, List.map_nil, List.foldlM_append, List.foldlM_cons, List.foldlM_nil, ht0, ht1, h0]
  simp only [bind, Except.bind, pure, Except.pure]
  rw [other_fold hd hhd _ rfl]
  simp only
  rw [h1 _ rfl]
  simp only
  have h2 : ∀ l, ({ state := .nextIsCurrName } : Parser).line l = .ok { state := .nextIsContext } := fun _ => rfl
  rw [h2]
  simp only
  rw [hp']
  simp only [Bool.false_eq_true, if_false, Parser.finish, hf]
  simp [Parser.finishHunk, Except.map]

end Ripsrc
