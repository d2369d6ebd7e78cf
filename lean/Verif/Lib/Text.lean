import Verif.Spec.GitText
/-! # Lemmas about joined lines -/
namespace Ripsrc

theorem joinWith_nl_eq (ls : List Str) (hne : ls ≠ []) :
    joinWith [10] ls = unlines ls.dropLast ++ ls.getLast hne := by
  induction ls with
  | nil => exact absurd rfl hne
  | cons x ls ih =>
    cases ls with
    | nil => simp [joinWith]
    | cons y ls => simp [joinWith, ih (by simp)]

theorem rawLines_unlines_append (ls : List Str) (r : Str) (h : ∀ l ∈ ls, NoNL l) :
    rawLines (unlines ls ++ r) = ls ++ rawLines r := by
  induction ls with
  | nil => simp
  | cons l ls ih =>
    rw [unlines_cons, List.append_assoc, List.cons_append, rawLines_line _ _ (h l (by simp)),
      ih (fun x hx => h x (by simp [hx]))]
    simp

/-- Lines separated (not terminated) by newlines, the last one non-empty. -/
theorem rawLines_join (ls : List Str) (h : ∀ l ∈ ls, NoNL l) (hl : ∀ l ∈ ls, l ≠ []) :
    rawLines (joinWith [10] ls) = ls := by
  by_cases hne : ls = []
  · subst hne; rfl
  · rw [joinWith_nl_eq ls hne, rawLines_unlines_append _ _ (fun l hl => h l (List.dropLast_subset _ hl)),
      rawLines_last _ (h _ (List.getLast_mem hne)) (hl _ (List.getLast_mem hne))]
    exact List.dropLast_concat_getLast hne

theorem not_mem_joinWith {c : UInt8} {sep : Str} {ls : List Str} (hs : c ∉ sep) (h : ∀ l ∈ ls, c ∉ l) :
    c ∉ joinWith sep ls := by
  induction ls with
  | nil => simp [joinWith]
  | cons x ls ih =>
    cases ls with
    | nil => simpa [joinWith] using h
    | cons y ls =>
      simp only [joinWith, List.mem_append, not_or]
      exact ⟨⟨h x (by simp), hs⟩, ih (fun l hl => h l (by simp [hl]))⟩

theorem dropCR_of_not_mem {l : Str} (h : (13 : UInt8) ∉ l) : dropCR l = l := by
  apply dropCR_of_ne
  intro hc
  exact h (List.mem_of_getLast? hc)

theorem joinWith_ne_nil {sep : Str} {ls : List Str} (hne : ls ≠ []) (h : ∀ l ∈ ls, l ≠ []) : joinWith sep ls ≠ [] := by
  cases ls with
  | nil => exact absurd rfl hne
  | cons x ls =>
    cases ls with
    | nil => simpa [joinWith] using h
    | cons y ls => simp [joinWith, h x (by simp)]

end Ripsrc
