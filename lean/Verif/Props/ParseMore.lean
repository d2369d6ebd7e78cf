import Verif.Lib.ParseMore
import Verif.Model.GitLog
/-!
# C07, C11: over-long lines and combined diffs
-/
namespace Ripsrc
open Spec

/-- **C07, over-long lines.** A diff that contains 100,000,000 bytes without a line end, anywhere, is never parsed to a (partial) result: the parser panics. -/
theorem C07_too_long (a l b : Str) (hl : NoNL l) (hlen : 100000000 ≤ l.length) : ∃ w, parseDiff (a ++ l ++ b) = .error (.panic w) := by
  have hne : (a ++ l ++ b).length ≠ 0 := by simp only [List.length_append]; omega
  have h2 := scan_long incMaxLine (by decide) a l b hl hlen
  unfold parseDiff
  rw [if_neg hne]
  generalize scan incMaxLine (a ++ l ++ b) = r at h2
  obtain ⟨ls, t⟩ := r
  subst h2
  simp only
  cases hf : ls.foldlM Parser.line {} with
  | error w =>
    obtain ⟨m, rfl⟩ := parser_foldlM_panic ls _ hf
    exact ⟨m, rfl⟩
  | ok p => exact ⟨_, rfl⟩

/-- Lines of any length exist. -/
theorem long_line (n : Nat) : ∃ l : Str, NoNL l ∧ n ≤ l.length := by
  refine ⟨List.replicate n 97, ?_, by rw [List.length_replicate]; exact Nat.le_refl _⟩
  intro h
  exact absurd (List.eq_of_mem_replicate h) (by decide)

example : ∃ l : Str, NoNL l ∧ 100000000 ≤ l.length := long_line _

/-- **C07, combined diffs.** For the combined diff of a merge the parser returns all hunks, each with the ranges of all parents and of the result, but no path at all: the name in the
declaration is not used (and those in the `---` and `+++` lines are not read). -/
theorem C07_combined (p : Str) (headers : List Str) (hs : List CHunk) (hhd : ∀ l ∈ headers, OtherHeader l)
    (hok : ∀ h ∈ hs, h.Ok ∧ 2 ≤ h.ranges.length) (hl : ∀ l ∈ combinedLines p headers hs, NoNL l ∧ l.length < 100000000) :
    parseDiff (unlines (combinedLines p headers hs)) = .ok { pathPrev := [], path := [], hunks := hs.map CHunk.kept } :=
  parse_combined p headers hs hhd hok hl

/-- A combined diff with two parents. -/
def exCombined : CHunk := ⟨[⟨45, 1, some 2⟩, ⟨45, 1, some 2⟩, ⟨43, 1, some 3⟩], b!" f()", [b!"  x", b!"++y", b!" +z", b!"+ w"]⟩

example : unlines (combinedLines b!"a.go" [b!"index 1,2..3"] [exCombined]) =
    b!"diff --combined a.go\nindex 1,2..3\n--- a/a.go\n+++ b/a.go\n@@@ -1,2 -1,2 +1,3 @@@ f()\n  x\n++y\n +z\n+ w\n" := by decide

example : (∀ l ∈ [b!"index 1,2..3"], OtherHeader l) ∧ (∀ h ∈ [exCombined], h.Ok ∧ 2 ≤ h.ranges.length) ∧
    ∀ l ∈ combinedLines b!"a.go" [b!"index 1,2..3"] [exCombined], NoNL l ∧ l.length < 100000000 := by
  refine ⟨?_, ?_, by decide⟩
  · intro l hl
    simp only [List.mem_singleton] at hl
    subst hl
    exact ⟨by decide, .inl ⟨b!"1,2..3", rfl⟩⟩
  · intro h hh
    simp only [List.mem_singleton] at hh
    subst hh
    refine ⟨⟨by decide, ?_, ?_⟩, by decide⟩
    · intro r hr
      simp only [exCombined, List.mem_cons, List.not_mem_nil, or_false] at hr
      rcases hr with rfl | rfl | rfl
      · exact ⟨by decide, by decide, fun n hn => by cases hn; decide⟩
      · exact ⟨by decide, by decide, fun n hn => by cases hn; decide⟩
      · exact ⟨by decide, by decide, fun n hn => by cases hn; decide⟩
    · intro l hl
      simp only [exCombined, List.mem_cons, List.not_mem_nil, or_false] at hl
      rcases hl with rfl | rfl | rfl | rfl
      · exact ⟨_, _, rfl, by decide⟩
      · exact ⟨_, _, rfl, by decide⟩
      · exact ⟨_, _, rfl, by decide⟩
      · exact ⟨_, _, rfl, by decide⟩

/-- **C11, over-long lines.** A log that contains 100,000,000 bytes without a line end, anywhere, never parses: `Run` fails. -/
theorem C11_too_long (a l b : Str) (hl : NoNL l) (hlen : 100000000 ≤ l.length) : ∃ w, parseLog (a ++ l ++ b) = .error w := by
  have h2 := scan_long logMaxLine (by decide) a l b hl hlen
  unfold parseLog
  generalize scan logMaxLine (a ++ l ++ b) = r at h2
  obtain ⟨ls, t⟩ := r
  subst h2
  simp only
  cases hf : ls.foldlM LogParser.line {} with
  | error w => exact ⟨w, rfl⟩
  | ok p => exact ⟨_, rfl⟩

end Ripsrc
