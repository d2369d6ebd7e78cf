import Verif.Lib.RxForms
import Verif.Model.GenIgnore
import Verif.Spec.Ignore
import Verif.Props.FileInfo
/-!
# The exclusion list (C68)
-/
namespace Ripsrc
open Spec

/-- The word occurs somewhere in the path as the form demands. -/
def Form.Hits (f : Form) (path : Str) : Prop := ∃ pre mid post, path = pre ++ mid ++ post ∧ f.Fits pre mid post

theorem Form.hits_infix {f : Form} {path : Str} (h : f.Hits path) : f.w <:+: path := by
  obtain ⟨pre, mid, post, rfl, rfl, -, -⟩ := h
  exact ⟨pre, post, rfl⟩

theorem Form.hits_suffix {f : Form} {path : Str} (h : f.Hits path) (he : f.e = true) : f.w <:+ path := by
  obtain ⟨pre, mid, post, rfl, rfl, -, h⟩ := h
  rw [h he, List.append_nil]
  exact ⟨pre, rfl⟩

theorem Form.hits_prefix {f : Form} {path : Str} (h : f.Hits path) (hb : f.b = true) : f.w <+: path := by
  obtain ⟨pre, mid, post, rfl, rfl, h, -⟩ := h
  rw [h hb, List.nil_append]
  exact ⟨post, rfl⟩

theorem Form.hits_eq {f : Form} {path : Str} (h : f.Hits path) (hb : f.b = true) (he : f.e = true) : path = f.w := by
  obtain ⟨pre, mid, post, rfl, rfl, h, h'⟩ := h
  rw [h hb, h' he, List.nil_append, List.append_nil]

theorem occurs_forms {r : Rx} {l : List Form} (h : r.forms = some l) (path : Str) : Occurs r path ↔ ∃ f ∈ l, f.Hits path := by
  constructor
  · rintro ⟨pre, mid, post, rfl, hm⟩
    obtain ⟨f, hf, hm⟩ := (forms_iff r h _ _ _).1 hm
    exact ⟨f, hf, pre, mid, post, rfl, hm⟩
  · rintro ⟨f, hf, pre, mid, post, rfl, hm⟩
    exact ⟨pre, mid, post, rfl, (forms_iff r h _ _ _).2 ⟨f, hf, hm⟩⟩

/-- The form asks for something that the specification excludes. -/
def Form.covered (f : Form) : Bool :=
  decide ((∃ w ∈ anywhere, w <:+: f.w) ∨ (f.e = true ∧ ∃ w ∈ endings, w <:+ f.w) ∨ (f.b = true ∧ ∃ w ∈ beginnings, w <+: f.w) ∨
    (f.b = true ∧ f.e = true ∧ f.w ∈ wholePaths))

theorem Form.covered_hits {f : Form} {path : Str} (hc : f.covered = true) (h : f.Hits path) : Excluded path := by
  rcases of_decide_eq_true hc with ⟨w, hw, hi⟩ | ⟨he, w, hw, hi⟩ | ⟨hb, w, hw, hi⟩ | ⟨hb, he, hw⟩
  · exact .inl ⟨w, hw, hi.trans (Form.hits_infix h)⟩
  · exact .inr (.inl ⟨w, hw, hi.trans (Form.hits_suffix h he)⟩)
  · exact .inr (.inr (.inl ⟨w, hw, hi.trans (Form.hits_prefix h hb)⟩))
  · exact .inr (.inr (.inr (by rw [Form.hits_eq h hb he]; exact hw)))

/-- The forms say what the specification says. -/
def formsOk (l : List Form) : Bool :=
  l.all Form.covered && anywhere.all (fun w => l.contains ⟨false, w, false⟩) && endings.all (fun w => l.contains ⟨false, w, true⟩) &&
    beginnings.all (fun w => l.contains ⟨true, w, false⟩) && wholePaths.all (fun w => l.contains ⟨true, w, true⟩)

theorem formsOk_iff {l : List Form} (h : formsOk l = true) (path : Str) : (∃ f ∈ l, f.Hits path) ↔ Excluded path := by
  unfold formsOk at h
  simp only [Bool.and_eq_true, List.all_eq_true, List.contains_iff_mem] at h
  obtain ⟨⟨⟨⟨h1, h2⟩, h3⟩, h4⟩, h5⟩ := h
  constructor
  · rintro ⟨f, hf, hh⟩
    exact Form.covered_hits (h1 f hf) hh
  · rintro (⟨w, hw, x, y, rfl⟩ | ⟨w, hw, x, rfl⟩ | ⟨w, hw, y, rfl⟩ | hw)
    · exact ⟨_, h2 w hw, x, w, y, rfl, rfl, by simp, by simp⟩
    · exact ⟨_, h3 w hw, x, w, [], by simp, rfl, by simp, by simp⟩
    · exact ⟨_, h4 w hw, [], w, y, rfl, rfl, by simp, by simp⟩
    · exact ⟨_, h5 path hw, [], path, [], by simp, rfl, by simp, by simp⟩

set_option maxRecDepth 100000 in
theorem ignore_forms : ((rxParse ignorePatterns).bind Rx.forms).any formsOk = true := by decide +kernel

/-- **C68** The exclusion list excludes a path exactly if the path contains one of the words of `anywhere`, ends with one of `endings`, begins with one of `beginnings`
or is one of `wholePaths`. The expression compiles. -/
theorem C68_ignored (path : Str) : (∃ r, rxParse ignorePatterns = some r) ∧ (onExclusionList path = true ↔ Excluded path) := by
  have h := ignore_forms
  cases hp : rxParse ignorePatterns with
  | none => rw [hp] at h; simp at h
  | some r =>
    refine ⟨⟨r, rfl⟩, ?_⟩
    rw [hp] at h
    cases hf : r.forms with
    | none => simp [hf] at h
    | some l =>
      have hl : formsOk l = true := by simpa [hf] using h
      rw [← formsOk_iff hl path, ← occurs_forms hf path, ← matchString_iff]
      unfold onExclusionList
      rw [hp]
      rfl

/-- A file on the exclusion list is never processed, whatever was asked before. -/
theorem C68_never_processed {cl : Classifier} (hl : Lawful cl) (hi : cl.ignored = onExclusionList) (as : List InfoArgs) {out : List (Info × Str)}
    (h : getInfos cl [] as = .ok out) {n : Nat} {a : InfoArgs} {i : Info} {r : Str} (ha : as[n]? = some a) (ho : out[n]? = some (i, r)) (hx : Excluded a.path) :
    r ≠ [] ∧ i.language = [] := by
  obtain ⟨h1, -, h3⟩ := C45_processed_iff hl as h ha ho
  have hr : r ≠ [] := by
    intro hr
    have := (h1.1 hr).notIgnored
    rw [hi, ((C68_ignored a.path).2).2 hx] at this
    cases this
  exact ⟨hr, h3 hr⟩

theorem FirstReason.some_check {ps : List (Str → Prop)} {r : Str} (hr : r ≠ []) (h : FirstReason ps r) : ∃ p ∈ ps, p r := by
  induction ps with
  | nil => exact absurd h hr
  | cons p ps ih =>
    rcases h with h | ⟨-, h⟩
    · exact ⟨p, by simp, h⟩
    · obtain ⟨q, hq, h⟩ := ih h
      exact ⟨q, List.mem_cons_of_mem _ hq, h⟩

/-- The reason "File was on an exclusion list" is given only for paths of the specification. -/
theorem C68_reason {cl : Classifier} (hl : Lawful cl) (hi : cl.ignored = onExclusionList) (as : List InfoArgs) {out : List (Info × Str)}
    (h : getInfos cl [] as = .ok out) {n : Nat} {a : InfoArgs} {i : Info} (ha : as[n]? = some a) (ho : out[n]? = some (i, b!"File was on an exclusion list")) :
    Excluded a.path := by
  have hr := (C45_first_failing_check hl as h ha ho _).2 rfl
  rw [← (C68_ignored a.path).2, ← hi]
  cases hc : cl.ignored a.path with
  | true => rfl
  | false =>
    exfalso
    obtain ⟨p, hp, hpr⟩ := FirstReason.some_check (r := b!"File was on an exclusion list") (by decide) hr
    simp only [checks, List.mem_cons, List.not_mem_nil, or_false] at hp
    rcases hp with rfl | rfl | rfl | rfl | rfl | rfl | rfl | rfl | rfl
    · exact absurd (congrArg (·.take 6) hpr.2) (by simp)
    · exact absurd hpr.2 (by decide)
    · exact absurd hpr.2 (by decide)
    · exact absurd hpr.2 (by decide)
    · rw [hc] at hpr; exact absurd hpr.1 (by decide)
    · exact absurd hpr.2 (by decide)
    · exact absurd hpr.2 (by decide)
    · obtain ⟨_, l, _, _, _, _, h⟩ := hpr
      exact absurd (congrArg (·.take 6) h) (by simp)
    · exact absurd hpr.2 (by decide)

set_option maxRecDepth 100000 in
/-- The committed list is the one that the generator writes for the committed patterns. -/
theorem C68_generated : genIgnore (fun t => (rxParse t).isSome) customPatterns = .ok gitignoreGo := by decide +kernel

/-- **Finding.** PDF files are not excluded because of their names (the pattern is `.[P]pdf$`), and neither are Parquet files (the last line of the patterns has no newline): such a path is excluded only
if it contains one of the words or begins with `dexguard/`. -/
theorem C68_gaps (pre e : Str) (he : e ∈ [b!".pdf", b!".PDF", b!".parquet"]) (hw : ∀ w ∈ anywhere, ¬ w <:+: pre ++ e) (hb : ¬ b!"dexguard/" <+: pre ++ e) :
    onExclusionList (pre ++ e) = false := by
  cases hc : onExclusionList (pre ++ e) with
  | false => rfl
  | true =>
    rcases (C68_ignored _).2.1 hc with ⟨w, h1, h2⟩ | ⟨w, h1, h2⟩ | ⟨w, h1, h2⟩ | h
    · exact absurd h2 (hw w h1)
    · have hno : ∀ e ∈ [b!".pdf", b!".PDF", b!".parquet"], ∀ w ∈ endings, ¬ e <:+ w ∧ ¬ w <:+ e := by decide +kernel
      rcases List.suffix_or_suffix_of_suffix h2 (List.suffix_append pre e) with h | h
      · exact absurd h (hno e he w h1).2
      · exact absurd h (hno e he w h1).1
    · simp only [beginnings, List.mem_singleton] at h1
      subst h1
      exact absurd h2 hb
    · have hno : ∀ e ∈ [b!".pdf", b!".PDF", b!".parquet"], ∀ w ∈ wholePaths, ¬ e <:+ w := by decide +kernel
      exact absurd (List.suffix_append pre e) (hno e he _ h)

example : onExclusionList b!"doc/manual.pdf" = false := C68_gaps b!"doc/manual" b!".pdf" (by decide) (by decide +kernel) (by decide)

/-- **Finding.** Most names are not tied to anything: every path that contains `README`, `DCO`, `VERSION`, `NOTICE` or `vendor/` is excluded, source files too. -/
theorem C68_not_anchored (pre post w : Str) (hw : w ∈ [b!"README", b!"DCO", b!"VERSION", b!"NOTICE", b!"vendor/"]) : onExclusionList (pre ++ (w ++ post)) = true := by
  refine (C68_ignored _).2.2 (.inl ⟨w, ?_, pre, post, by simp⟩)
  revert w
  decide

/-- `src/ADCOption.java` is excluded because of `DCO`. -/
example : onExclusionList b!"src/ADCOption.java" = true := C68_not_anchored b!"src/A" b!"ption.java" b!"DCO" (by decide)
example : Excluded b!"lib/jquery-min.js" ∧ ¬ Excluded b!"src/main.go" ∧ Excluded b!"go.mod" ∧ ¬ Excluded b!"cargo.mod" := by decide +kernel

theorem completeLines_terminated (rest : Str) (hrest : NoNL rest) : ∀ (ls : List Str), (∀ l ∈ ls, NoNL l) → completeLines (unlines ls ++ rest) = ls := by
  intro ls h
  have key : ∀ ls : List Str, (∀ l ∈ ls, NoNL l) → splitByte 10 (unlines ls ++ rest) = ls ++ [rest] := by
    intro ls
    induction ls with
    | nil => intro _; exact splitByte_last 10 rest hrest
    | cons l ls ih =>
      intro h
      rw [unlines_cons]
      have := splitByte_append 10 l (unlines ls ++ rest) (h l (by simp))
      rw [ih (fun x hx => h x (by simp [hx]))] at this
      simpa using this
  unfold completeLines
  rw [key ls h]
  simp

/-- **Finding.** Whatever patterns are written: a last line that does not end with a newline never counts, the generator writes what it would write without it. -/
theorem C68_last_line (compiles : Str → Bool) (ls : List Str) (h : ∀ l ∈ ls, NoNL l) (rest : Str) (hrest : NoNL rest) :
    genIgnore compiles (unlines ls ++ rest) = genIgnore compiles (unlines ls) := by
  have h1 := completeLines_terminated rest hrest ls h
  have h2 := completeLines_terminated [] (by simp [NoNL]) ls h
  rw [List.append_nil] at h2
  simp only [genIgnore, ignoreRegstr, ignoreParseFile, h1, h2]

/-- Every other line that is not blank and not a comment counts: it is one of the alternatives of the list. -/
theorem C68_complete_lines (ls : List Str) (h : ∀ l ∈ ls, NoNL l) (rest : Str) (hrest : NoNL rest) :
    ignoreRegstr (unlines ls ++ rest) = b!"(" ++ joinWith b!"|" (ls.filterMap ignoreLine) ++ b!")" := by
  simp only [ignoreRegstr, ignoreParseFile, completeLines_terminated rest hrest ls h]

example : genIgnore (fun _ => true) b!".orc$\n.parquet$" = genIgnore (fun _ => true) b!".orc$\n" := C68_last_line _ [b!".orc$"] (by decide) b!".parquet$" (by decide)

end Ripsrc
