import Verif.Model.BlameCommit
import Verif.Props.Ripsrc
/-!
# C63: the state of one commit from `git ls-tree`
-/
namespace Ripsrc
open Spec

theorem foldl_same_get (v : Blame) : ∀ (ps : List Str) (m : Files) (q : Str),
    GoMap.get (ps.foldl (fun m p => GoMap.set m p v) m) q = if q ∈ ps then some v else GoMap.get m q := by
  intro ps
  induction ps with
  | nil => intro m q; simp
  | cons p ps ih =>
    intro m q
    rw [List.foldl_cons, ih, GoMap.get_set]
    by_cases h : q ∈ ps
    · simp [h]
    · by_cases h2 : p = q
      · subst h2; simp
      · simp [h, h2, Ne.symm h2]

theorem space_prefix_line {w n r : Str} (hw : w ∈ spaceRunes) (hn : n ≠ []) (h : w <+: n ++ 10 :: r) : w <+: n := by
  by_cases hl : w.length ≤ n.length
  · exact List.prefix_of_prefix_length_le h (List.prefix_append _ _) hl
  · exfalso
    obtain ⟨v, rfl⟩ := List.prefix_of_prefix_length_le (List.prefix_append n (10 :: r)) h (by omega)
    obtain ⟨q, hq⟩ := h
    rw [List.append_assoc] at hq
    have hq := List.append_cancel_left hq
    cases v with
    | nil => simp at hl
    | cons c v =>
      rw [List.cons_append] at hq
      cases hq
      have := congrArg List.length (ascii_long 10 (by decide) _ hw (by simp))
      have := List.length_pos_iff.2 hn
      simp at *
      omega

theorem space_suffix_line {w n r : Str} (hw : w ∈ spaceRunes) (hn : n ≠ []) (h : w <:+ r ++ 10 :: n) : w <:+ n := by
  have hs : n <:+ r ++ 10 :: n := ⟨r ++ [10], by simp⟩
  by_cases hl : w.length ≤ n.length
  · exact List.suffix_of_suffix_length_le h hs hl
  · exfalso
    obtain ⟨v, rfl⟩ := List.suffix_of_suffix_length_le hs h (by omega)
    obtain ⟨q, hq⟩ := h
    rw [← List.append_assoc, show r ++ 10 :: n = (r ++ [10]) ++ n by simp] at hq
    have hq := List.append_cancel_right hq
    rcases List.eq_nil_or_concat v with rfl | ⟨v', c, rfl⟩
    · simp at hl
    · rw [List.concat_eq_append, ← List.append_assoc] at hq
      have hc := (List.append_inj' hq rfl).2
      cases hc
      have := congrArg List.length (ascii_long 10 (by decide) _ hw (by simp))
      have := List.length_pos_iff.2 hn
      simp at *
      omega

/-- **C63.** For a commit with the files `ns` (as printed by git, one per line), where the first name does not begin and the last does not end with white space: every file, and no other, is entered, as a binary
file without lines. -/
theorem C63_files (ns : List Str) (hne : ns ≠ []) (hnl : ∀ n ∈ ns, n ≠ [] ∧ NoNL n) (hf : ∀ n, ns.head? = some n → ∀ w ∈ spaceRunes, ¬ w <+: n)
    (hl : ∀ n, ns.getLast? = some n → ∀ w ∈ spaceRunes, ¬ w <:+ n) :
    ∃ fs, blameCommit (some (unlines ns)) = .ok fs ∧ ∀ p, GoMap.get fs p = if p ∈ ns then some { commit := [], lines := [], isBinary := true } else none := by
  have htrim : trimSpace (unlines ns) = joinWith b!"\n" ns := by
    rw [unlines_joinWith ns hne]
    refine trimSpace_line (fun w hw => ⟨?_, ?_⟩)
    · obtain ⟨n, rest, rfl⟩ := List.exists_cons_of_ne_nil hne
      intro hp
      cases rest with
      | nil => exact hf n rfl w hw (by simpa [joinWith] using hp)
      | cons y ys =>
        have : joinWith b!"\n" (n :: y :: ys) = n ++ 10 :: joinWith b!"\n" (y :: ys) := by simp [joinWith]
        rw [this] at hp
        exact hf n rfl w hw (space_prefix_line hw (hnl n (by simp)).1 hp)
    · have h2 : ∀ (l : List Str) (hl : l ≠ []), l.getLast hl = joinWith b!"\n" l ∨ ∃ u, joinWith b!"\n" l = u ++ 10 :: l.getLast hl := by
        intro l
        induction l with
        | nil => intro hl; exact absurd rfl hl
        | cons x xs ih =>
          intro hl
          cases xs with
          | nil => exact .inl (by simp [joinWith])
          | cons y ys =>
            right
            rcases ih (by simp) with hu | ⟨u, hu⟩
            · exact ⟨x, by simp only [joinWith, ← hu]; simp⟩
            · exact ⟨x ++ b!"\n" ++ u, by simp only [joinWith, hu]; simp⟩
      intro hp
      have hlast : ns.getLast? = some (ns.getLast hne) := List.getLast?_eq_some_getLast _
      rcases h2 ns hne with hu | ⟨u, hu⟩
      · rw [← hu] at hp
        exact hl _ hlast w hw hp
      · rw [hu] at hp
        exact hl _ hlast w hw (space_suffix_line hw (hnl _ (List.mem_of_getLast? hlast)).1 hp)
  have hs : splitByte 10 (joinWith b!"\n" ns) = ns := splitByte_join 10 ns hne (fun l hl => (hnl l hl).2)
  refine ⟨_, by simp only [blameCommit, listOfFiles, htrim, hs]; rfl, fun p => ?_⟩
  rw [foldl_same_get]
  simp

example : ∃ fs, blameCommit (some b!"a\ndir/b c\n") = .ok fs ∧ GoMap.get fs b!"dir/b c" = some { commit := [], lines := [], isBinary := true } ∧ GoMap.get fs b!"c" = none := by
  obtain ⟨fs, h1, h2⟩ := C63_files [b!"a", b!"dir/b c"] (by decide) (by decide) (by intro n h1; cases h1; decide) (by intro n h1; cases h1; decide)
  exact ⟨fs, h1, by rw [h2]; decide, by rw [h2]; decide⟩

/-- **C63 (finding).** For a commit without files, one file with the empty name is entered. -/
theorem C63_empty_tree : blameCommit (some []) = .ok [([], { commit := [], lines := [], isBinary := true })] := rfl

/-- **C63 (finding).** White space at the beginning of the first name is lost: the file is entered under another name, for every such name. -/
theorem C63_leading_space (n : Str) (hn : n ≠ []) (hnl : NoNL n) (hsp : Trimmed n) :
    blameCommit (some (unlines [32 :: n])) = .ok [(n, { commit := [], lines := [], isBinary := true })] := by
  have ht : trimSpace (unlines [32 :: n]) = n := by
    have h1 : unlines [32 :: n] = 32 :: (n ++ [10]) := by simp [unlines]
    rw [h1]
    have h2 : trimSpace (32 :: (n ++ [10])) = trimSpace (n ++ [10]) := trimSpace_left (a := [32]) (by decide) _
    rw [h2]
    exact trimSpace_line hsp
  have hs : splitByte 10 n = [n] := splitByte_last 10 n hnl
  simp only [blameCommit, listOfFiles, ht, hs]
  rfl

example : b!"a" ≠ [] ∧ NoNL b!"a" ∧ Trimmed b!"a" ∧ GoMap.get [(b!"a", 0)] b!" a" = none := by decide

/-- **C63 (failure).** If git fails the program panics; no error is returned. -/
theorem C63_git_fails : ∃ msg, blameCommit none = .error (.panic msg) := ⟨_, rfl⟩

end Ripsrc
