import Verif.Spec.Timing
/-!
# C48: the slowest commits
-/
namespace Ripsrc
open Spec

theorem pairwise_durGe {l : List CommitDur} (h : Sorted durGe l) : l.Pairwise (fun a b => b.dur ≤ a.dur) := by
  refine List.Pairwise.imp ?_ h
  intro a b hab
  simp only [durGe, Bool.not_eq_true', decide_eq_false_iff_not] at hab
  omega

theorem updateSlowest_spec {srt : List CommitDur → List CommitDur} (hs : ∀ l, IsSort durGe l (srt l)) {all l : List CommitDur} (x : CommitDur)
    (h : Slowest maxSlowestCommits all l) : Slowest maxSlowestCommits (all ++ [x]) (updateSlowest srt l x) := by
  obtain ⟨hlen, hsorted, rest, hperm, hle⟩ := h
  obtain ⟨hp, hso⟩ := hs (l ++ [x])
  have hso := pairwise_durGe hso
  have hplen := hp.length_eq
  simp only [List.length_append, List.length_singleton] at hplen
  have hall := hperm.length_eq
  simp only [List.length_append] at hall
  simp only [updateSlowest]
  split
  · rename_i hgt
    refine ⟨?_, ?_, (srt (l ++ [x])).drop maxSlowestCommits ++ rest, ?_, ?_⟩
    · simp only [List.length_take, List.length_append, List.length_singleton]; omega
    · exact List.Pairwise.sublist (List.take_sublist _ _) hso
    · rw [← List.append_assoc, List.take_append_drop]
      have h4 : (l ++ [x] ++ rest).Perm (l ++ rest ++ [x]) := by
        rw [List.append_assoc, List.append_assoc]; exact List.perm_append_comm.append_left l
      exact (hp.append_right rest).trans (h4.trans (hperm.append_right [x]))
    · -- the dropped one is not larger, and every other of the rest is not larger than any of l
      have hfull : l.length = maxSlowestCommits := by omega
      have htd : ∀ a ∈ (srt (l ++ [x])).take maxSlowestCommits, ∀ b ∈ (srt (l ++ [x])).drop maxSlowestCommits, b.dur ≤ a.dur := by
        have h2 := hso
        rw [← List.take_append_drop maxSlowestCommits (srt (l ++ [x]))] at h2
        exact (List.pairwise_append.1 h2).2.2
      intro a ha b hb
      rcases List.mem_append.1 hb with hb | hb
      · exact htd a ha b hb
      · have ha' : a ∈ l ++ [x] := hp.mem_iff.1 (List.mem_of_mem_take ha)
        rcases List.mem_append.1 ha' with ha' | ha'
        · exact hle a ha' b hb
        · have hax : a = x := by simpa using ha'
          -- some element dropped: either it is in l, or it equals x too
          have hdl : ((srt (l ++ [x])).drop maxSlowestCommits).length = 1 := by
            rw [List.length_drop]; omega
          obtain ⟨d, hd⟩ : ∃ d, (srt (l ++ [x])).drop maxSlowestCommits = [d] := List.length_eq_one_iff.1 hdl
          have hda : d.dur ≤ a.dur := htd a ha d (by rw [hd]; simp)
          have hdm : d ∈ l ++ [x] := hp.mem_iff.1 (List.mem_of_mem_drop (i := maxSlowestCommits) (by rw [hd]; simp))
          rcases List.mem_append.1 hdm with hdm | hdm
          · exact Int.le_trans (hle d hdm b hb) hda
          · -- d = x = a: then take is a permutation of l, so a has an equal in l
            have hdx : d = x := by simpa using hdm
            have hpt : ((srt (l ++ [x])).take maxSlowestCommits).Perm l := by
              have h3 : ((srt (l ++ [x])).take maxSlowestCommits ++ [x]).Perm (l ++ [x]) := by
                have h5 := hp
                rw [← List.take_append_drop maxSlowestCommits (srt (l ++ [x])), hd, hdx] at h5
                exact h5
              exact (List.perm_append_right_iff [x]).1 h3
            exact hle a (hpt.mem_iff.1 ha) b hb
  · rename_i hgt
    have hrest : rest = [] := by
      cases rest with
      | nil => rfl
      | cons r rest => simp only [List.length_cons, maxSlowestCommits] at hall hlen hgt; omega
    subst hrest
    rw [List.append_nil] at hperm
    refine ⟨?_, hso, [], ?_, by simp⟩
    · simp only [List.length_append, List.length_singleton, List.length_nil] at *; omega
    · rw [List.append_nil]; exact hp.trans (hperm.append_right [x])

theorem slowest_fold (srts : Nat → List CommitDur → List CommitDur) (hs : ∀ n l, IsSort durGe l (srts n l)) (xs : List CommitDur) :
    ∀ (n : Nat) (all l : List CommitDur), Slowest maxSlowestCommits all l →
      Slowest maxSlowestCommits (all ++ xs)
        (xs.foldl (fun (p : Nat × List CommitDur) x => (p.1 + 1, updateSlowest (srts p.1) p.2 x)) (n, l)).2 := by
  induction xs with
  | nil => intro n all l h; simpa using h
  | cons x xs ih =>
    intro n all l h
    have := ih (n + 1) (all ++ [x]) (updateSlowest (srts n) l x) (updateSlowest_spec (hs n) x h)
    simpa using this

/-- **C48.** Whatever the sorting function does with equal durations, after any sequence of commits the list holds the ten with the largest durations
(all if there are fewer), longest first. -/
theorem C48_slowest_commits (srts : Nat → List CommitDur → List CommitDur) (hs : ∀ n l, IsSort durGe l (srts n l)) (xs : List CommitDur) :
    Slowest 10 xs (slowestAfter srts xs) := by
  have := slowest_fold srts hs xs 0 [] [] ⟨by simp, by simp, [], by simp, by simp⟩
  rw [List.nil_append] at this
  exact this

theorem slowestDur_eq (l : List CommitDur) (n : Int) : l.foldl (fun res c => res + c.dur) n = n + (l.map (·.dur)).sum := by
  induction l generalizing n with
  | nil => simp
  | cons a l ih => simp only [List.foldl_cons, List.map_cons, List.sum_cons]; rw [ih]; omega

theorem int_sum_perm {l m : List Int} (h : l.Perm m) : l.sum = m.sum := by
  induction h with
  | nil => rfl
  | cons _ _ ih => simp only [List.sum_cons, ih]
  | swap _ _ _ => simp only [List.sum_cons]; omega
  | trans _ _ h1 h2 => exact h1.trans h2

/-- **C48.** The total reported is the sum of the listed durations; with at most ten commits it is the time of all commits. -/
theorem C48_total (srts : Nat → List CommitDur → List CommitDur) (hs : ∀ n l, IsSort durGe l (srts n l)) (xs : List CommitDur) (h10 : xs.length ≤ 10) :
    slowestDur (slowestAfter srts xs) = (xs.map (·.dur)).sum := by
  obtain ⟨hlen, _, rest, hperm, _⟩ := C48_slowest_commits srts hs xs
  have hl := hperm.length_eq
  simp only [List.length_append] at hl
  have hrest : rest = [] := by
    cases rest with
    | nil => rfl
    | cons r rest => simp only [List.length_cons] at hl; omega
  subst hrest
  rw [List.append_nil] at hperm
  rw [slowestDur, slowestDur_eq, Int.zero_add]
  exact int_sum_perm (hperm.map (·.dur))

/-- A sorting function exists, so the hypothesis can be met. -/
theorem isort_durGe (l : List CommitDur) : IsSort durGe l (isort durGe l) :=
  ⟨isort_perm _ _, isort_sorted (by intro a b; simp only [durGe, Bool.not_eq_true', decide_eq_false_iff_not]; omega)
    (by intro a b c; simp only [durGe, Bool.not_eq_true', decide_eq_false_iff_not]; omega) l⟩

/-- Eleven commits: the one with duration 1 is dropped, the equal ones with duration 5 are both kept. -/
example : (slowestAfter (fun _ => isort durGe) ([3, 1, 5, 9, 8, 5, 2, 11, 12, 13, 14].map (fun d => ⟨[], d⟩))).map (·.dur)
    = [14, 13, 12, 11, 9, 8, 5, 5, 3, 2] := by decide

end Ripsrc
