import Verif.Lib.ApplyScript
/-!
# C01–C06, C09: applying patches and merges

`apply srt file diff commit` is `incblame.Apply`; `srt` is any sort (Go's `sort.Slice` is not stable).
-/
namespace Ripsrc
open Spec

/-! ## C01, C02 -/

/-- **C01, C02.** If the blame holds the old version of an edit script and the diff's hunks (in any order) are the
script's hunks cut the way git does, then `Apply` succeeds; kept lines keep their record, added lines belong to `commit`,
deleted lines vanish (`blameEdit`), and the blame's commit is `commit`. -/
theorem C02_apply_attribution (srt : List Hunk → List Hunk) (hsrt : SortsHunks srt) (cut : Cut) (hok : cut.Ok)
    (file : Blame) (hbin : file.isBinary = false) (hold : file.lines.map (·.line) = oldLines cut.script)
    (diff : Diff) (hdbin : diff.isBinary = false) (hh : diff.hunks.Perm cut.hunks) (commit : Str) :
    apply srt file diff commit = .ok { commit := commit, lines := blameEdit commit cut.script file.lines } :=
  apply_script srt hsrt cut hok file hbin (by simpa using congrArg List.length hold) diff hdbin hh commit

/-- **C01.** The lines of the result are the lines of the new version (`newStored`: added lines without one trailing
CR). -/
theorem C01_apply_reproduces_new_file (srt : List Hunk → List Hunk) (hsrt : SortsHunks srt) (cut : Cut) (hok : cut.Ok)
    (file : Blame) (hbin : file.isBinary = false) (hold : file.lines.map (·.line) = oldLines cut.script)
    (diff : Diff) (hdbin : diff.isBinary = false) (hh : diff.hunks.Perm cut.hunks) (commit : Str) :
    ∃ b, apply srt file diff commit = .ok b ∧ b.lines.map (·.line) = newStored cut.script ∧
      b.isBinary = false ∧ b.commit = commit :=
  ⟨_, C02_apply_attribution srt hsrt cut hok file hbin hold diff hdbin hh commit, blameEdit_lines commit _ _ hold, rfl, rfl⟩

/-- Without carriage returns, "stored" lines are exactly the new version. -/
theorem C01_no_cr (es : List Edit) (h : ∀ l, Edit.add l ∈ es → l.getLast? ≠ some 13) : newStored es = newLines es := by
  induction es with
  | nil => rfl
  | cons e es ih =>
    have ih := ih (fun l hl => h l (by simp [hl]))
    cases e with
    | keep l => simp [newStored, newLines, ih]
    | del l => simp [newStored, newLines, ih]
    | add l => simp [newStored, newLines, ih, dropCR_of_ne l (h l (by simp))]

/-- A two-hunk change of an eight-line file. -/
def exCut : Cut :=
  { segs := [([], [.edit (.add b!"new0"), .edit (.keep b!"1"), .edit (.keep b!"2")]),
             ([b!"3", b!"4"], [.edit (.keep b!"5"), .edit (.del b!"6"), .edit (.add b!"six\r"), .edit (.keep b!"7"),
               .noNewline])],
    tail := [b!"8"] }

def exFile : Blame where
  commit := b!"p"
  lines := ([b!"1", b!"2", b!"3", b!"4", b!"5", b!"6", b!"7", b!"8"]).map (fun l => { line := l, commit := b!"old" })

theorem exCut_ok : exCut.Ok := by
  refine ⟨by decide, ?_⟩
  intro s hs b hb
  simp only [exCut, List.mem_cons, List.not_mem_nil, or_false] at hs
  rcases hs with rfl | rfl <;> simp only [List.mem_cons, List.not_mem_nil, or_false] at hb
  · rcases hb with rfl | rfl | rfl <;> exact ⟨by decide, by decide⟩
  · rcases hb with rfl | rfl | rfl | rfl | rfl <;> exact ⟨by decide, by decide⟩

/-- The hypotheses of C01/C02 hold for it (with the hunks in the wrong order), and the result is as expected. -/
example : exCut.Ok ∧ exFile.lines.map (·.line) = oldLines exCut.script ∧ exCut.hunks.length = 2 ∧
    exCut.hunks.reverse.Perm exCut.hunks ∧
    blameEdit b!"c" exCut.script exFile.lines =
      [⟨b!"new0", b!"c"⟩, ⟨b!"1", b!"old"⟩, ⟨b!"2", b!"old"⟩, ⟨b!"3", b!"old"⟩, ⟨b!"4", b!"old"⟩, ⟨b!"5", b!"old"⟩,
       ⟨b!"six", b!"c"⟩, ⟨b!"7", b!"old"⟩, ⟨b!"8", b!"old"⟩] ∧ SortsHunks (isort hunkLe) := by
  exact ⟨exCut_ok, by decide, by decide, List.reverse_perm _, by decide, isort_sortsHunks⟩

/-! ## C03 -/

/-- **C03.** The result (or the panic) does not depend on the order of the hunks, nor on which sorting algorithm is used,
if the old-file offsets of the hunks are distinct. -/
theorem C03_hunk_order (srt₁ srt₂ : List Hunk → List Hunk) (h₁ : SortsHunks srt₁) (h₂ : SortsHunks srt₂)
    (file : Blame) (d₁ d₂ : Diff) (hb : d₁.isBinary = d₂.isBinary) (hp : d₁.hunks.Perm d₂.hunks)
    (hdist : ∀ a ∈ d₁.hunks, ∀ b ∈ d₁.hunks, hunkOffset a = hunkOffset b → a = b) (commit : Str) :
    apply srt₁ file d₁ commit = apply srt₂ file d₂ commit := by
  have hany : d₁.hunks.any (fun h => h.locations.isEmpty) = d₂.hunks.any (fun h => h.locations.isEmpty) :=
    Bool.eq_iff_iff.2 (by simp only [List.any_eq_true]; constructor
                          · rintro ⟨x, hx, h⟩; exact ⟨x, hp.mem_iff.1 hx, h⟩
                          · rintro ⟨x, hx, h⟩; exact ⟨x, hp.mem_iff.2 hx, h⟩)
  unfold apply
  rw [hb, hany]
  by_cases hl : d₂.hunks.any (fun h => h.locations.isEmpty) = true
  · simp only [hl, if_true]
  · have hloc : ∀ h ∈ d₁.hunks, h.locations ≠ [] := by
      intro h hh he
      apply hl
      rw [List.any_eq_true]
      exact ⟨h, hp.mem_iff.1 hh, by simp [he]⟩
    rw [srt_unique h₁ h₂ hp hloc hdist]

example : ∀ a ∈ exCut.hunks, ∀ b ∈ exCut.hunks, hunkOffset a = hunkOffset b → a = b := by decide

/-- Distinct offsets are needed: two hunks with the same offset, in two orders, give two results. -/
theorem C03_equal_offsets_matter :
    ∃ (file : Blame) (h₁ h₂ : Hunk), hunkOffset h₁ = hunkOffset h₂ ∧
      apply (isort hunkLe) file { hunks := [h₁, h₂] } b!"c" ≠ apply (isort hunkLe) file { hunks := [h₂, h₁] } b!"c" :=
  ⟨{ commit := [], lines := [] }, { locations := [⟨45, 0, 0⟩], data := b!"+a\n" },
   { locations := [⟨45, 0, 0⟩], data := b!"+b\n" }, by decide, by decide⟩

/-! ## C04 -/

/-- All faults of the computation are panics. -/
def OnlyPanics {α : Type} (g : Go α) : Prop := ∀ e, g = .error e → ∃ m, e = .panic m

/-- **C04.** `Apply` returns a blame exactly when nothing is binary, every hunk has a location, every patch line is one of
the known forms (and short enough to be read), and the hunks, in order of offset, follow each other without overlap inside
the file. Otherwise it panics. -/
theorem C04_apply_rejects (srt : List Hunk → List Hunk) (hsrt : SortsHunks srt) (file : Blame) (diff : Diff)
    (commit : Str) :
    ((∃ b, apply srt file diff commit = .ok b) ↔
      file.isBinary = false ∧ diff.isBinary = false ∧ (∀ h ∈ diff.hunks, h.locations ≠ []) ∧
      (∀ h ∈ diff.hunks, (∀ b ∈ hunkLines h, PatchLine b) ∧ (scan 100000000 h.data).2 = false) ∧
      Fits file.lines.length 0 (srt diff.hunks)) ∧
    OnlyPanics (apply srt file diff commit) := by
  unfold apply
  by_cases h1 : file.isBinary = true
  · rw [if_pos h1]
    exact ⟨⟨fun ⟨b, hb⟩ => (by cases hb), fun h => (by rw [h.1] at h1; cases h1)⟩, fun e he => (by cases he; exact ⟨_, rfl⟩)⟩
  by_cases h2 : diff.isBinary = true
  · rw [if_neg h1, if_pos h2]
    exact ⟨⟨fun ⟨b, hb⟩ => (by cases hb), fun h => (by rw [h.2.1] at h2; cases h2)⟩, fun e he => (by cases he; exact ⟨_, rfl⟩)⟩
  by_cases h3 : diff.hunks.any (fun h => h.locations.isEmpty) = true
  · rw [if_neg h1, if_neg h2, if_pos h3]
    refine ⟨⟨fun ⟨b, hb⟩ => (by cases hb), fun h => ?_⟩, fun e he => (by cases he; exact ⟨_, rfl⟩)⟩
    obtain ⟨x, hx, hxe⟩ := List.any_eq_true.1 h3
    exact absurd (by simpa using hxe) (h.2.2.1 x hx)
  rw [if_neg h1, if_neg h2, if_neg h3]
  have hloc : ∀ h ∈ diff.hunks, h.locations ≠ [] := by
    intro h hh he
    apply h3
    rw [List.any_eq_true]
    exact ⟨h, hh, by simp [he]⟩
  have hperm := (hsrt diff.hunks hloc).1
  obtain ⟨ha, hb, hc⟩ := applyHunks_iff file.lines commit (srt diff.hunks) { res := [], idx := 0 }
    (fun h hh => hloc h (hperm.mem_iff.1 hh))
  cases hr : (srt diff.hunks).foldlM (applyHunk file.lines commit) { res := [], idx := 0 } with
  | error e =>
    refine ⟨⟨fun ⟨b, hb⟩ => (by cases hb), fun h => ?_⟩, fun e' he => (by cases he; exact hc e hr)⟩
    obtain ⟨s, hs, _⟩ := hb (fun h' hh => h.2.2.2.1 h' (hperm.mem_iff.1 hh)) h.2.2.2.2
    rw [hr] at hs
    cases hs
  | ok s =>
    obtain ⟨ha1, ha2⟩ := ha s hr
    simp only [bind, Except.bind, copyRange]
    by_cases hle : s.idx ≤ file.lines.length
    · rw [if_neg (by omega)]
      refine ⟨⟨fun _ => ⟨by simpa using h1, by simpa using h2, hloc, fun h hh => ha1 h (hperm.mem_iff.2 hh), ?_⟩,
        fun _ => ⟨_, rfl⟩⟩, fun e he => (by cases he)⟩
      exact (ha2 file.lines.length).2 (by omega)
    · rw [if_pos (by omega)]
      refine ⟨⟨fun ⟨b, hb⟩ => (by cases hb), fun h => ?_⟩, fun e he => (by cases he; exact ⟨_, rfl⟩)⟩
      have := (ha2 file.lines.length).1 h.2.2.2.2
      omega

/-- Both sides of C04 occur: a good diff, and one rejection of each kind listed in the property. -/
example :
    (∃ b, apply (isort hunkLe) exFile { hunks := exCut.hunks } b!"c" = .ok b) ∧
    OnlyPanics (apply (isort hunkLe) { exFile with isBinary := true } { hunks := exCut.hunks } b!"c") ∧
    (∀ d ∈ [b!"?x\n", b!"\n", b!"\\ other\n", b!" 1\n 2\n 3\n 4\n 5\n 6\n 7\n 8\n 9\n"],
      ¬ ∃ b, apply (isort hunkLe) exFile { hunks := [{ locations := [⟨45, 1, 0⟩], data := d }] } b!"c" = .ok b) := by
  have hno : ∀ g : Go Blame, (match g with | .ok _ => False | .error _ => True) → ¬ ∃ b, g = .ok b := by
    rintro g hg ⟨b, rfl⟩; exact hg
  refine ⟨⟨_, C02_apply_attribution _ isort_sortsHunks exCut ?_ exFile rfl (by decide) _ rfl (.refl _) _⟩, ?_, ?_⟩
  · exact exCut_ok
  · intro e he; cases he; exact ⟨_, rfl⟩
  · intro d hd
    apply hno
    simp only [List.mem_cons, List.not_mem_nil, or_false] at hd
    rcases hd with rfl | rfl | rfl | rfl <;> exact trivial

/-! ## C05 -/

/-- **C05.** All parents' scripts lead to the same new version, and no parent's line is attributed to the merge commit
itself. Then the merge has exactly the lines of the new version, and each line carries the commit it has in the first
parent that keeps it, or else the merge commit. -/
theorem C05_merge_blame (srt : List Hunk → List Hunk) (hsrt : SortsHunks srt) (commit : Str) (version : List Str)
    (ps : List (Blame × Diff × Cut)) (hne : ps ≠ [])
    (hps : ∀ p ∈ ps, p.2.2.Ok ∧ p.1.isBinary = false ∧ p.1.lines.map (·.line) = oldLines p.2.2.script ∧
      p.2.1.isBinary = false ∧ p.2.1.hunks.Perm p.2.2.hunks ∧ newStored p.2.2.script = version ∧
      ∀ l ∈ p.1.lines, l.commit ≠ commit) :
    ∃ lines, applyMerge srt (ps.map (·.1)) (ps.map (·.2.1)) commit = .ok { commit := commit, lines := lines } ∧
      lines.map (·.line) = version ∧
      lines.map (·.commit) = (List.range version.length).map (fun i =>
        (firstSome (ps.map (fun p => ((attributions p.2.2.script p.1.lines)[i]?).getD none))).getD commit) := by
  have hv : ∀ p ∈ ps, (newLines p.2.2.script).length = version.length := by
    intro p hp
    obtain ⟨_, _, _, _, _, h6, _⟩ := hps p hp
    rw [← h6, newStored_length]
  obtain ⟨lines, h1, h2, h3⟩ := applyMerge_script srt hsrt commit version.length ps hne (fun p hp => by
    obtain ⟨a1, a2, a3, a4, a5, a6, a7⟩ := hps p hp
    exact ⟨a1, a2, by simpa using congrArg List.length a3, a4, a5, hv p hp, a7⟩)
  refine ⟨lines, h1, ?_, h3⟩
  cases ps with
  | nil => exact absurd rfl hne
  | cons p0 ps =>
    obtain ⟨_, _, a3, _, _, a6, _⟩ := hps p0 (by simp)
    rw [h2 p0 ps rfl, blameEdit_lines commit _ _ a3, a6]

/-- A merge of two parents of which the second has the line the first lacks. -/
def exMerge : List (Blame × Diff × Cut) :=
  let c1 : Cut := ⟨[([], [.edit (.add b!"x"), .edit (.keep b!"a"), .edit (.keep b!"b")])], []⟩
  let c2 : Cut := ⟨[([], [.edit (.keep b!"x"), .edit (.add b!"a"), .edit (.keep b!"b")])], []⟩
  [({ commit := b!"p1", lines := [⟨b!"a", b!"1"⟩, ⟨b!"b", b!"1"⟩] }, { hunks := c1.hunks }, c1),
   ({ commit := b!"p2", lines := [⟨b!"x", b!"2"⟩, ⟨b!"b", b!"2"⟩] }, { hunks := c2.hunks }, c2)]

/-- It meets the hypotheses of C05; the result takes `x` from parent 2 and the rest from parent 1. -/
example : (∀ p ∈ exMerge, p.2.2.Ok ∧ p.1.isBinary = false ∧ p.1.lines.map (·.line) = oldLines p.2.2.script ∧
      p.2.1.isBinary = false ∧ p.2.1.hunks.Perm p.2.2.hunks ∧ newStored p.2.2.script = [b!"x", b!"a", b!"b"] ∧
      ∀ l ∈ p.1.lines, l.commit ≠ b!"m") ∧
    applyMerge (isort hunkLe) (exMerge.map (·.1)) (exMerge.map (·.2.1)) b!"m" =
      .ok { commit := b!"m", lines := [⟨b!"x", b!"2"⟩, ⟨b!"a", b!"1"⟩, ⟨b!"b", b!"1"⟩] } := by
  refine ⟨?_, by decide⟩
  intro p hp
  simp only [exMerge, List.mem_cons, List.not_mem_nil, or_false] at hp
  rcases hp with rfl | rfl
  all_goals
    refine ⟨⟨by decide, ?_⟩, rfl, by decide, rfl, .refl _, by decide, by decide⟩
    intro s hs b hb
    simp only [List.mem_cons, List.not_mem_nil, or_false] at hs
    subst hs
    simp only [List.mem_cons, List.not_mem_nil, or_false] at hb
    rcases hb with rfl | rfl | rfl <;> exact ⟨by decide, by decide⟩

/-! ## C06 -/

/-- Part of C06: no result is returned. -/
theorem C06_aux (srt : List Hunk → List Hunk) (parents : List Blame) (diffs : List Diff) (commit : Str) :
    (parents = [] ∨ (∃ p ∈ parents, p.isBinary = true) ∨ (∃ d ∈ diffs, d.isBinary = true) ∨
      diffs.length < parents.length ∨
      (∃ (i : Nat) (p : Blame) (d : Diff) (e : Fault), parents[i]? = some p ∧ diffs[i]? = some d ∧ apply srt p d commit = .error e) ∨
      (∃ (i j : Nat) (p : Blame) (d : Diff) (q : Blame) (f : Diff) (b c : Blame), parents[i]? = some p ∧ diffs[i]? = some d ∧ apply srt p d commit = .ok b ∧
        parents[j]? = some q ∧ diffs[j]? = some f ∧ apply srt q f commit = .ok c ∧ b.lines.length ≠ c.lines.length)) →
    ¬ ∃ b, applyMerge srt parents diffs commit = .ok b := by
  rintro h ⟨b, hb⟩
  unfold applyMerge at hb
  split at hb
  · cases hb
  rename_i h1
  split at hb
  · cases hb
  rename_i h2
  cases hc : mergeCands srt commit parents diffs with
  | error e => rw [hc] at hb; cases hb
  | ok cand =>
    rw [hc] at hb
    simp only [bind, Except.bind] at hb
    obtain ⟨hlen, hle, hget⟩ := mergeCands_ok hc
    rcases h with rfl | ⟨p, hp, hpb⟩ | ⟨d, hd, hdb⟩ | h | ⟨i, p, d, e, hp, hd, he⟩ |
        ⟨i, j, p, d, q, f, b', c', hp, hd, hb', hq, hf, hc', hne⟩
    · have : cand = [] := by simpa using hlen
      subst this
      cases hb
    · exact h1 (List.any_eq_true.2 ⟨p, hp, hpb⟩)
    · exact h2 (List.any_eq_true.2 ⟨d, hd, hdb⟩)
    · omega
    · obtain ⟨x, _, hx⟩ := hget i p d hp hd
      rw [he] at hx; cases hx
    · obtain ⟨x, hx1, hx2⟩ := hget i p d hp hd
      obtain ⟨y, hy1, hy2⟩ := hget j q f hq hf
      rw [hb'] at hx2; cases hx2
      rw [hc'] at hy2; cases hy2
      cases cand with
      | nil => cases hb
      | cons c0 r =>
        simp only at hb
        split at hb
        · cases hb
        · rename_i hany
          have hall : ∀ c ∈ c0 :: r, c.lines.length = c0.lines.length := by
            intro c hc
            by_cases hh : c.lines.length = c0.lines.length
            · exact hh
            · exact absurd (List.any_eq_true.2 ⟨c, hc, by simpa using hh⟩) hany
          apply hne
          rw [hall _ (List.mem_of_getElem? hx1), hall _ (List.mem_of_getElem? hy1)]

theorem mergeLines_panic {commit : Str} {cands : List Blame} {own : List Line} {i : Nat} :
    OnlyPanics (mergeLines commit cands i own) := by
  intro e he
  induction own generalizing i e with
  | nil => cases he
  | cons o own ih =>
    simp only [mergeLines] at he
    cases h1 : linesAt cands i with
    | error e' =>
      rw [h1] at he
      cases he
      clear ih
      unfold linesAt at h1
      induction cands generalizing e with
      | nil => cases h1
      | cons c cands ih2 =>
        rw [List.mapM_cons] at h1
        cases hl : c.lines[i]? with
        | none => rw [hl] at h1; cases h1; exact ⟨_, rfl⟩
        | some l =>
          rw [hl] at h1
          simp only [bind, Except.bind] at h1
          split at h1
          · rename_i hh; cases h1; exact ih2 _ hh
          · cases h1
    | ok ls =>
      rw [h1] at he
      simp only [bind, Except.bind] at he
      cases h2 : mergeLines commit cands (i + 1) own with
      | error e' => rw [h2] at he; cases he; exact ih _ h2
      | ok r => rw [h2] at he; cases he

theorem mergeCands_panic {srt : List Hunk → List Hunk} (hsrt : SortsHunks srt) {commit : Str} {ps : List Blame}
    {ds : List Diff} : OnlyPanics (mergeCands srt commit ps ds) := by
  intro e he
  induction ps generalizing ds e with
  | nil => cases he
  | cons p ps ih =>
    cases ds with
    | nil => cases he; exact ⟨_, rfl⟩
    | cons d ds =>
      simp only [mergeCands] at he
      cases ha : apply srt p d commit with
      | error e' => rw [ha] at he; cases he; exact (C04_apply_rejects srt hsrt p d commit).2 _ ha
      | ok c =>
        rw [ha] at he
        simp only [bind, Except.bind] at he
        cases hm : mergeCands srt commit ps ds with
        | error e' => rw [hm] at he; cases he; exact ih _ hm
        | ok cs => rw [hm] at he; cases he

theorem applyMerge_panic {srt : List Hunk → List Hunk} (hsrt : SortsHunks srt) (parents : List Blame)
    (diffs : List Diff) (commit : Str) : OnlyPanics (applyMerge srt parents diffs commit) := by
  intro e he
  unfold applyMerge at he
  split at he
  · cases he; exact ⟨_, rfl⟩
  split at he
  · cases he; exact ⟨_, rfl⟩
  cases hc : mergeCands srt commit parents diffs with
  | error e' => rw [hc] at he; cases he; exact mergeCands_panic hsrt _ hc
  | ok cand =>
    rw [hc] at he
    simp only [bind, Except.bind] at he
    cases cand with
    | nil => cases he; exact ⟨_, rfl⟩
    | cons c0 r =>
      simp only at he
      split at he
      · cases he; exact ⟨_, rfl⟩
      · cases hm : mergeLines commit (c0 :: r) 0 c0.lines with
        | error e' => rw [hm] at he; cases he; exact mergeLines_panic _ hm
        | ok ls => rw [hm] at he; cases he

/-- **C06.** `ApplyMerge` panics when there are no parents, when a parent or diff is binary, when there are fewer diffs
than parents, when one of the diffs cannot be applied, and when the patched parents differ in their number of lines. -/
theorem C06_merge_rejects (srt : List Hunk → List Hunk) (hsrt : SortsHunks srt) (parents : List Blame)
    (diffs : List Diff) (commit : Str)
    (h : parents = [] ∨ (∃ p ∈ parents, p.isBinary = true) ∨ (∃ d ∈ diffs, d.isBinary = true) ∨
      diffs.length < parents.length ∨
      (∃ (i : Nat) (p : Blame) (d : Diff) (e : Fault), parents[i]? = some p ∧ diffs[i]? = some d ∧
        apply srt p d commit = .error e) ∨
      (∃ (i j : Nat) (p : Blame) (d : Diff) (q : Blame) (f : Diff) (b c : Blame),
        parents[i]? = some p ∧ diffs[i]? = some d ∧ apply srt p d commit = .ok b ∧
        parents[j]? = some q ∧ diffs[j]? = some f ∧ apply srt q f commit = .ok c ∧ b.lines.length ≠ c.lines.length)) :
    ∃ m, applyMerge srt parents diffs commit = .error (.panic m) := by
  have hno := C06_aux srt parents diffs commit h
  cases hr : applyMerge srt parents diffs commit with
  | ok b => exact absurd ⟨b, hr⟩ hno
  | error e =>
    obtain ⟨m, rfl⟩ := applyMerge_panic hsrt parents diffs commit e hr
    exact ⟨m, rfl⟩

/-- What is *not* checked: whatever the patched parents contain, if they have the same number of lines they are accepted silently, and the result has the contents of the
first. Here without any hunk, so that the parents differ from the "same" new version and from each other in every way. -/
theorem C06_content_not_compared (srt : List Hunk → List Hunk) (hsrt : SortsHunks srt) (first : Blame) (others : List Blame) (commit : Str)
    (hbin : ∀ p ∈ first :: others, p.isBinary = false) (hlen : ∀ p ∈ others, p.lines.length = first.lines.length)
    (hc : ∀ p ∈ first :: others, ∀ l ∈ p.lines, l.commit ≠ commit) :
    ∃ lines, applyMerge srt (first :: others) ((first :: others).map (fun _ => {})) commit = .ok { commit := commit, lines := lines } ∧
      lines.map (·.line) = first.lines.map (·.line) := by
  have e : ∀ p : Blame, (⟨[], p.lines.map (·.line)⟩ : Cut).script = (p.lines.map (·.line)).map Edit.keep := fun p => by simp [Cut.script, segScript]
  have en : ∀ l : List Str, newLines (l.map Edit.keep) = l := by
    intro l
    induction l with
    | nil => rfl
    | cons a l ih => simp [newLines, ih]
  obtain ⟨lines, h1, h2, _⟩ := applyMerge_script srt hsrt commit first.lines.length ((first :: others).map (fun p => (p, ({} : Diff), (⟨[], p.lines.map (·.line)⟩ : Cut)))) (by simp)
    (by
      intro x hx
      obtain ⟨p, hp, rfl⟩ := List.mem_map.1 hx
      refine ⟨⟨trivial, fun s hs => nomatch hs⟩, hbin p hp, ?_, rfl, List.Perm.refl _, ?_, hc p hp⟩
      · simp only [e, oldLines_keep, List.length_map]
      · simp only [e, en, List.length_map]
        rcases List.mem_cons.1 hp with rfl | hp
        · rfl
        · exact hlen p hp)
  simp only [List.map_map, Function.comp_def, List.map_id'] at h1
  refine ⟨lines, h1, ?_⟩
  rw [h2 _ _ rfl, e, blameEdit_keep _ _ _ (by simp)]

example : ∃ lines, applyMerge (isort hunkLe) [{ commit := b!"p", lines := [⟨b!"a", b!"p"⟩] }, { commit := b!"q", lines := [⟨b!"b", b!"q"⟩] }] [{}, {}] b!"m" =
      .ok { commit := b!"m", lines := lines } ∧ lines.map (·.line) = [b!"a"] :=
  C06_content_not_compared _ isort_sortsHunks { commit := b!"p", lines := [⟨b!"a", b!"p"⟩] } [{ commit := b!"q", lines := [⟨b!"b", b!"q"⟩] }] b!"m" (by decide) (by decide) (by decide)

/-- Each alternative of C06 occurs (here: none, binary, different lengths). -/
example : (∃ m, applyMerge (isort hunkLe) [] [] b!"m" = .error (.panic m)) ∧
    (∃ m, applyMerge (isort hunkLe) [{ commit := [], lines := [], isBinary := true }] [{}] b!"m" = .error (.panic m)) ∧
    (∃ m, applyMerge (isort hunkLe) [{ commit := [], lines := [] }, { commit := [], lines := [⟨[], []⟩] }] [{}, {}]
      b!"m" = .error (.panic m)) :=
  ⟨C06_merge_rejects _ isort_sortsHunks _ _ _ (Or.inl rfl),
   C06_merge_rejects _ isort_sortsHunks _ _ _ (Or.inr (Or.inl ⟨_, List.mem_singleton_self _, rfl⟩)),
   C06_merge_rejects _ isort_sortsHunks _ _ _ (Or.inr (Or.inr (Or.inr (Or.inr (Or.inr
    ⟨0, 1, _, _, _, _, _, _, rfl, rfl, (by rfl), rfl, rfl, (by rfl), by decide⟩)))))⟩

/-! ## C09 -/

/-- One hunk is applied where the first number of its header says. -/
theorem apply_single (srt : List Hunk → List Hunk) (hsrt : SortsHunks srt) (file : Blame) (hbin : file.isBinary = false) (diff : Diff) (hdbin : diff.isBinary = false)
    (loc : HunkLocation) (locs : List HunkLocation) (body : List BodyLine) (hbody : ∀ b ∈ body, NoNL b.text ∧ b.text.length < 100000000)
    (hh : diff.hunks = [{ locations := loc :: locs, data := unlines (body.map BodyLine.text) }]) (pre olds post : List Line) (hfile : file.lines = pre ++ olds ++ post)
    (hstart : hunkStart loc = (pre.length : Int)) (holds : olds.length = (oldLines (edits body)).length) (commit : Str) :
    apply srt file diff commit = .ok { commit := commit, lines := pre ++ blameEdit commit (edits body) olds ++ post } := by
  have hs : srt diff.hunks = diff.hunks := by
    have := (hsrt diff.hunks (by rw [hh]; simp)).1
    rw [hh] at this ⊢
    exact List.perm_singleton.1 this
  have hany : diff.hunks.any (fun h => h.locations.isEmpty) = false := by rw [hh]; rfl
  have h1 := copyRange_ok file.lines [] [] pre (olds ++ post) (by simp [hfile]) (pre.length : Int) (by simp)
  have h2 := applyBody file.lines commit body pre olds post pre hfile holds
  have h3 := copyRange_ok file.lines (pre ++ blameEdit commit (edits body) olds) (pre ++ olds) post [] (by simp [hfile]) (file.lines.length : Int) (by simp [hfile]; omega)
  have hrun : applyHunk file.lines commit { res := [], idx := 0 } { locations := loc :: locs, data := unlines (body.map BodyLine.text) } =
      .ok { res := pre ++ blameEdit commit (edits body) olds, idx := pre.length + olds.length } := by
    simp only [List.length_nil, List.nil_append] at h1
    unfold applyHunk
    simp only [hstart, h1, bind, Except.bind, scan_body body hbody, Int.toNat_natCast, h2, Bool.false_eq_true, if_false]
  unfold apply
  simp only [hbin, hdbin, hany, hs, Bool.false_eq_true, if_false]
  rw [hh]
  simp only [List.foldlM_cons, List.foldlM_nil, hrun, bind, Except.bind, pure, Except.pure]
  rw [List.length_append] at h3
  rw [h3]

/-- **C09, insertions without context.** `git diff -U0` prints an insertion after the line `x`, which is not the first line of the file, as `@@ -n,0 +m @@`, where `n` is the number of
that line. `Apply` accepts every such hunk and puts the new lines before `x`. -/
theorem C09_insertion (srt : List Hunk → List Hunk) (hsrt : SortsHunks srt) (gap : List Str) (news tail : List Str) (hl : LinesOk ⟨[(gap, news.map (fun l => .edit (.add l)))], tail⟩)
    (a : List Line) (x : Line) (c : List Line) (hgap : gap.length = a.length + 1) (file : Blame) (hbin : file.isBinary = false) (hfile : file.lines = a ++ x :: c) (commit : Str) :
    apply srt file { hunks := Cut.hunks ⟨[(gap, news.map (fun l => .edit (.add l)))], tail⟩ } commit =
      .ok { commit := commit, lines := a ++ news.map (fun l => { line := dropCR l, commit := commit }) ++ x :: c } := by
  have he : ∀ ns : List Str, oldLines (edits (ns.map (fun l => BodyLine.edit (.add l)))) = [] ∧
      blameEdit commit (edits (ns.map (fun l => BodyLine.edit (.add l)))) [] = ns.map (fun l => { line := dropCR l, commit := commit }) := by
    intro ns
    induction ns with
    | nil => exact ⟨rfl, rfl⟩
    | cons n ns ih => exact ⟨by simpa [edits, oldLines] using ih.1, by simp only [List.map_cons, edits, blameEdit, ih.2]⟩
  have h := apply_single srt hsrt file hbin { hunks := Cut.hunks ⟨[(gap, news.map (fun l => .edit (.add l)))], tail⟩ } rfl (readLocation 45 (0 + gap.length) 0)
    [readLocation 43 (0 + gap.length) (newLines (edits (news.map (fun l => BodyLine.edit (.add l))))).length] (news.map (fun l => .edit (.add l)))
    (fun b hb => hl _ List.mem_cons_self b hb) (by simp [Cut.hunks, segHunks, (he news).1]) a [] (x :: c) (by simp [hfile])
    (by simp [readLocation, hunkStart, hgap]) (by simp [(he news).1]) commit
  rw [h, (he news).2]

/-- **C09, omitted counts.** A hunk that shows exactly one line of the old file has no old line count in its header, `@@ -n +m,k @@`. Wherever that line is, `Apply` accepts the hunk and
applies it to the first line of the file. -/
theorem C09_omitted_count (srt : List Hunk → List Hunk) (hsrt : SortsHunks srt) (gap : List Str) (body : List BodyLine) (tail : List Str) (hl : LinesOk ⟨[(gap, body)], tail⟩)
    (hone : (oldLines (edits body)).length = 1) (first : Line) (rest : List Line) (file : Blame) (hbin : file.isBinary = false) (hfile : file.lines = first :: rest) (commit : Str) :
    apply srt file { hunks := Cut.hunks ⟨[(gap, body)], tail⟩ } commit = .ok { commit := commit, lines := blameEdit commit (edits body) [first] ++ rest } := by
  have h := apply_single srt hsrt file hbin { hunks := Cut.hunks ⟨[(gap, body)], tail⟩ } rfl (readLocation 45 (0 + gap.length) 1)
    [readLocation 43 (0 + gap.length) (newLines (edits body)).length] body (fun b hb => hl _ List.mem_cons_self b hb) (by simp [Cut.hunks, segHunks, hone]) [] [first] rest (by simp [hfile])
    (by simp [readLocation, hunkStart]) (by simp [hone]) commit
  rw [h, List.nil_append]

/-- **C09, at every place.** After any number of lines there is an insertion, and a replacement, that `Apply` accepts and puts in the wrong place. -/
theorem C09_everywhere (srt : List Hunk → List Hunk) (hsrt : SortsHunks srt) (n : Nat) (hn : 1 ≤ n) (body : List BodyLine)
    (hbody : body = [.edit (.add b!"b")] ∨ body = [.edit (.del b!"a"), .edit (.add b!"b")]) :
    ∃ (cut : Cut) (file b : Blame), LinesOk cut ∧ cut.segs = [(List.replicate n b!"a", body)] ∧ file.lines.map (·.line) = oldLines cut.script ∧
      apply srt file { hunks := cut.hunks } b!"c" = .ok b ∧ b.lines.map (·.line) ≠ newStored cut.script := by
  obtain ⟨k, rfl⟩ : ∃ k, n = k + 1 := ⟨n - 1, by omega⟩
  have hl : LinesOk ⟨[(List.replicate (k + 1) b!"a", body)], []⟩ := by
    intro s hs b hb
    rw [List.mem_singleton.1 hs] at hb
    rcases hbody with rfl | rfl <;> simp only [List.mem_cons, List.not_mem_nil, or_false] at hb
    · subst hb
      exact ⟨by decide, by decide⟩
    · rcases hb with rfl | rfl <;> exact ⟨by decide, by decide⟩
  rcases hbody with rfl | rfl
  · have h := C09_insertion srt hsrt (List.replicate (k + 1) b!"a") [b!"b"] [] hl (List.replicate k ⟨b!"a", []⟩) ⟨b!"a", []⟩ [] (by simp)
      { commit := [], lines := List.replicate k ⟨b!"a", []⟩ ++ [⟨b!"a", []⟩] } rfl rfl b!"c"
    refine ⟨_, _, _, hl, rfl, ?_, h, ?_⟩
    · simp only [Cut.script, segScript, edits, oldLines_append, oldLines_keep, List.map_append, List.map_nil, List.append_nil, oldLines, List.map_cons]
      rw [List.map_replicate, ← List.replicate_succ']
    · intro he
      have := congrArg List.getLast? he
      simp [Cut.script, segScript, edits, newStored_append, newStored, dropCR] at this
  · have h := C09_omitted_count srt hsrt (List.replicate (k + 1) b!"a") [.edit (.del b!"a"), .edit (.add b!"b")] [] hl rfl ⟨b!"a", []⟩ (List.replicate (k + 1) ⟨b!"a", []⟩)
      { commit := [], lines := ⟨b!"a", []⟩ :: List.replicate (k + 1) ⟨b!"a", []⟩ } rfl rfl b!"c"
    refine ⟨_, _, _, hl, rfl, ?_, h, ?_⟩
    · simp only [Cut.script, segScript, edits, oldLines_append, oldLines_keep, List.map_nil, List.append_nil, oldLines, List.map_cons]
      rw [List.map_replicate, ← List.replicate_succ', ← List.replicate_succ]
    · intro he
      have := congrArg List.head? he
      simp [Cut.script, segScript, edits, newStored_append, newStored, dropCR, blameEdit, List.replicate_succ] at this

/-- **C09.** Without two lines of context C01 fails: the edit inserts `x` after the third line of a five-line file
(`git diff -U0` prints `@@ -3,0 +4 @@`); `Apply` accepts the hunk and puts the line before the third line. -/
theorem C09_zero_context_misapplied :
    ∃ (cut : Cut) (file : Blame) (b : Blame), LinesOk cut ∧ file.lines.map (·.line) = oldLines cut.script ∧
      apply (isort hunkLe) file { hunks := cut.hunks } b!"c" = .ok b ∧ b.lines.map (·.line) ≠ newStored cut.script :=
  ⟨⟨[([b!"1", b!"2", b!"3"], [.edit (.add b!"x")])], [b!"4", b!"5"]⟩,
   { commit := [], lines := ([b!"1", b!"2", b!"3", b!"4", b!"5"]).map (fun l => ⟨l, []⟩) }, _, by
    intro s hs b hb
    simp only [List.mem_cons, List.not_mem_nil, or_false] at hs
    subst hs
    simp only [List.mem_cons, List.not_mem_nil, or_false] at hb
    subst hb
    exact ⟨by decide, by decide⟩, by decide, rfl, by decide⟩

/-- **C09.** Same for a header without a line count, `@@ -3 +3 @@`: the third line is to be replaced, the first one is. -/
theorem C09_omitted_count_misapplied :
    ∃ (cut : Cut) (file : Blame) (b : Blame), LinesOk cut ∧ file.lines.map (·.line) = oldLines cut.script ∧
      apply (isort hunkLe) file { hunks := cut.hunks } b!"c" = .ok b ∧ b.lines.map (·.line) ≠ newStored cut.script :=
  ⟨⟨[([b!"1", b!"2"], [.edit (.del b!"3"), .edit (.add b!"x")])], [b!"4", b!"5"]⟩,
   { commit := [], lines := ([b!"1", b!"2", b!"3", b!"4", b!"5"]).map (fun l => ⟨l, []⟩) }, _, by
    intro s hs b hb
    simp only [List.mem_cons, List.not_mem_nil, or_false] at hs
    subst hs
    simp only [List.mem_cons, List.not_mem_nil, or_false] at hb
    rcases hb with rfl | rfl <;> exact ⟨by decide, by decide⟩, by decide, rfl, by decide⟩

end Ripsrc
