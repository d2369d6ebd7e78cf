import Verif.Props.CommitMeta
/-!
# C38: lines that git does not print
-/
namespace Ripsrc
open Spec
variable {τ : Type}

/-- The lines of a commit other than the one with its hash. -/
def Spec.headPrefixes : List Str := [b!"!Date: ", b!"!Author: ", b!"!AName: ", b!"!Committer: ", b!"!CName: ", b!"!Message: "]

/-- **C38 (no commit).** A log that begins with a line of a commit whose hash was not printed is a nil-pointer dereference: the program crashes, and nothing is reported. -/
theorem C38_no_commit (parseDate : Str → Option τ) {q : Str} (hq : q ∈ headPrefixes) (value : Str) (rest : List Str) (hv : NoNL (q ++ value)) (hl : (q ++ value).length < 65536) (hcr : (13 : UInt8) ∉ q ++ value)
    (hr : ∀ l ∈ rest, NoNL l) (hr2 : ∀ l ∈ rest, l.length < 65536) : ∃ w, metaRun parseDate (unlines ((q ++ value) :: rest)) = ([], some (.panic w)) := by
  have h1 : ∀ l ∈ (q ++ value) :: rest, NoNL l := by
    intro l hl
    rcases List.mem_cons.1 hl with rfl | hl
    · exact hv
    · exact hr l hl
  have h2 : ∀ l ∈ (q ++ value) :: rest, l.length < 65536 := by
    intro l hl'
    rcases List.mem_cons.1 hl' with rfl | hl'
    · exact hl
    · exact hr2 l hl'
  unfold metaRun metaMaxLine
  rw [scan_unlines _ _ h1 h2]
  simp only [List.map_cons]
  rw [dropCR_of_not_mem hcr]
  have key : ∃ w, metaParse parseDate ({} : MetaParser τ) (q ++ value) = .error (.panic w) := by
    simp only [headPrefixes, List.mem_cons, List.not_mem_nil, or_false] at hq
    rcases hq with rfl | rfl | rfl | rfl | rfl | rfl
    all_goals refine ⟨"nil pointer dereference", ?_⟩
    · simp only [metaParse, metaHeader, startsWith, needCommit, List.cons_append, List.nil_append, bind, Except.bind, List.drop_succ_cons, List.drop_zero]
      simp [List.isPrefixOf]
      cases parseDate (trimSpace value) <;> rfl
    all_goals simp [metaParse, metaHeader, startsWith, needCommit, bind, Except.bind, List.isPrefixOf]
  obtain ⟨w, hw⟩ := key
  exact ⟨w, by simp only [metaLoop, hw]⟩

example (parseDate : Str → Option τ) : ∃ w, metaRun parseDate (unlines [b!"!Author: a@b", b!"!SHA: 12"]) = ([], some (.panic w)) :=
  C38_no_commit parseDate (q := b!"!Author: ") (by simp [headPrefixes]) b!"a@b" [b!"!SHA: 12"] (by decide) (by decide) (by decide) (by decide) (by decide)

/-- **C38 (short raw lines).** A raw line without a second mode, or one of a regular file that ends before the fourth column (the log was cut off), panics, whatever was read before. -/
theorem C38_short_raw_line (parseDate : Str → Option τ) (p : MetaParser τ) (c : MetaCommit τ) (hc : p.commit = some c) (hs : p.state = .files) (t : Str) (h32 : (32 : UInt8) ∉ t) :
    (∃ w, metaParse parseDate p (58 :: t) = .error (.panic w)) ∧
    ∀ m, (m = b!"100644" ∨ m = b!"100755" ∨ m = b!"000000") → ∃ w, metaParse parseDate p (58 :: t ++ b!" " ++ m) = .error (.panic w) := by
  have h58 : (32 : UInt8) ∉ (58 :: t : Str) := by
    simp only [List.mem_cons, not_or]
    exact ⟨by decide, h32⟩
  constructor
  · refine ⟨"index out of range", ?_⟩
    simp only [metaParse, hs, metaFiles, startsWith, needCommit, hc, bind, Except.bind, metaRawLine]
    rw [splitByte_last 32 _ h58]
    rfl
  · intro m hm
    have e : (58 :: t ++ b!" " ++ m : Str) = (58 :: t) ++ 32 :: m := by simp
    have h32m : (32 : UInt8) ∉ m := by rcases hm with rfl | rfl | rfl <;> decide
    refine ⟨"slice bounds out of range", ?_⟩
    rw [e]
    show metaParse parseDate p (58 :: (t ++ 32 :: m)) = _
    have hsp : splitByte 32 (58 :: (t ++ 32 :: m)) = [58 :: t, m] := by
      have := splitByte_append 32 (58 :: t) m h58
      rw [splitByte_last 32 m h32m] at this
      exact this
    simp only [metaParse, hs, metaFiles, startsWith, needCommit, hc, bind, Except.bind, metaRawLine]
    rw [hsp]
    rcases hm with rfl | rfl | rfl <;> rfl

/-- **C38 (combined lines first).** A combined raw line (of a merge) before any numstat line panics; git prints these lines after the numstat lines, and only for files that have such a line. -/
theorem C38_combined_first (parseDate : Str → Option τ) (p : MetaParser τ) (c : MetaCommit τ) (hc : p.commit = some c) (hs : p.state = .files) (i1 i2 i3 name : Str)
    (hid : ∀ i ∈ [i1, i2, i3], Token i) (hn : (32 : UInt8) ∉ name ∧ (9 : UInt8) ∉ name) (hup : ∀ x t, i2 = x :: t → x ≠ 82 ∧ x ≠ 67) :
    ∃ w, metaParse parseDate p (b!"::100644 100644 100644 " ++ i1 ++ b!" " ++ i2 ++ b!" " ++ i3 ++ b!" MM\t" ++ name) = .error (.panic w) := by
  have t1 := token_not_mem (hid i1 (by simp))
  have t2 := token_not_mem (hid i2 (by simp))
  have t3 := token_not_mem (hid i3 (by simp))
  have e : b!"::100644 100644 100644 " ++ i1 ++ b!" " ++ i2 ++ b!" " ++ i3 ++ b!" MM\t" ++ name =
      b!"::100644" ++ 32 :: (b!"100644" ++ 32 :: (b!"100644" ++ 32 :: (i1 ++ 32 :: (i2 ++ 32 :: (i3 ++ 32 :: (b!"MM\t" ++ name)))))) := by simp
  have hl : (32 : UInt8) ∉ (b!"MM\t" ++ name : Str) := by
    simp only [List.cons_append, List.nil_append, List.mem_cons, not_or]
    exact ⟨by decide, by decide, by decide, hn.1⟩
  have hsp : splitByte 32 (b!"::100644 100644 100644 " ++ i1 ++ b!" " ++ i2 ++ b!" " ++ i3 ++ b!" MM\t" ++ name) =
      [b!"::100644", b!"100644", b!"100644", i1, i2, i3, b!"MM\t" ++ name] := by
    rw [e, splitByte_append _ _ _ (by decide), splitByte_append _ _ _ (by decide), splitByte_append _ _ _ (by decide), splitByte_append _ _ _ (t1 32 (by decide)),
      splitByte_append _ _ _ (t2 32 (by decide)), splitByte_append _ _ _ (t3 32 (by decide)), splitByte_last _ _ hl]
  have hj : joinWith b!" " [i2, i3, b!"MM\t" ++ name] = (i2 ++ b!" " ++ i3 ++ b!" MM") ++ 9 :: name := by simp [joinWith]
  have h9 : (9 : UInt8) ∉ i2 ++ b!" " ++ i3 ++ b!" MM" := by
    simp only [List.mem_append, not_or]
    exact ⟨⟨⟨t2 9 (by decide), by decide⟩, t3 9 (by decide)⟩, by decide⟩
  have hs9 : splitByte 9 (joinWith b!" " [i2, i3, b!"MM\t" ++ name]) = [i2 ++ b!" " ++ i3 ++ b!" MM", name] := by
    rw [hj, splitByte_append _ _ _ h9, splitByte_last _ _ hn.2]
  refine ⟨"unknown commit status", ?_⟩
  have hst : ∀ r, metaParse parseDate p (58 :: r) = (do let c ← needCommit p; let c ← metaRawLine c (58 :: r); .ok { p with commit := some c }) := by
    intro r
    simp only [metaParse, hs, metaFiles, startsWith]
    rfl
  have hraw : metaRawLine c (b!"::100644 100644 100644 " ++ i1 ++ b!" " ++ i2 ++ b!" " ++ i3 ++ b!" MM\t" ++ name) = .error (.panic "unknown commit status") := by
    unfold metaRawLine
    rw [hsp]
    simp only [idx, bind, Except.bind, List.getElem?_cons_succ, List.getElem?_cons_zero]
    rw [if_neg (by simp), if_neg (by simp)]
    simp only [List.drop_succ_cons, List.drop_zero]
    rw [hs9]
    simp only [List.headD_cons, List.drop_succ_cons, List.drop_zero, List.getElem?_cons_zero]
    rw [if_neg (by simp only [List.length_append]; simp)]
    have hr : ∀ k : UInt8, (k = 82 ∨ k = 67) → startsWith (i2 ++ b!" " ++ i3 ++ b!" MM") [k] = false := by
      intro k hk
      cases i2 with
      | nil => rcases hk with rfl | rfl <;> rfl
      | cons x t =>
        have := hup x t rfl
        simp only [List.cons_append, startsWith, List.isPrefixOf, Bool.and_true]
        rcases hk with rfl | rfl
        · simpa using this.1
        · simpa using this.2
    rw [hr 82 (Or.inl rfl), hr 67 (Or.inr rfl)]
    simp only [Bool.false_eq_true, if_false]
    have : ∀ k : Str, 4 ≤ k.length → toCommitStatus k = .error (.panic "unknown commit status") := by
      intro k hk
      unfold toCommitStatus
      rw [if_neg (by rintro rfl; revert hk; decide), if_neg (by rintro rfl; revert hk; decide), if_neg (by rintro (rfl | rfl | rfl | rfl | rfl) <;> (revert hk; decide))]
    rw [this _ (by simp only [List.length_append]; simp; omega)]
  have := hst (b!":100644 100644 100644 " ++ i1 ++ b!" " ++ i2 ++ b!" " ++ i3 ++ b!" MM\t" ++ name)
  simp only [needCommit, hc, bind, Except.bind] at this
  rw [show (58 :: (b!":100644 100644 100644 " ++ i1 ++ b!" " ++ i2 ++ b!" " ++ i3 ++ b!" MM\t" ++ name) : Str) = b!"::100644 100644 100644 " ++ i1 ++ b!" " ++ i2 ++ b!" " ++ i3 ++ b!" MM\t" ++ name by simp, hraw] at this
  exact this

/-- The parser after the header of a commit. -/
def exInFiles : MetaParser τ := { commit := some { sha := b!"12", ordinal := 1 }, ordinal := 1, state := .files }

example (parseDate : Str → Option τ) : ∃ w, metaParse parseDate exInFiles b!":100644" = .error (.panic w) := (C38_short_raw_line parseDate exInFiles _ rfl rfl b!"100644" (by decide)).1
example (parseDate : Str → Option τ) : ∃ w, metaParse parseDate exInFiles b!"::100644 100644 100644 1 2 3 MM\tm" = .error (.panic w) :=
  C38_combined_first parseDate exInFiles _ rfl rfl b!"1" b!"2" b!"3" b!"m" (by decide) (by decide) (by intro x t h; cases h; decide)

end Ripsrc
