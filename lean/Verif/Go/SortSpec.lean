import Verif.Go.Sort
/-! # The order of strings: at the first byte where two strings differ, the smaller byte comes first; a prefix comes before its extensions

`sort.Strings` is not part of the repository. This characterisation says what is assumed of the order. -/
namespace Ripsrc

theorem strLe_iff (a b : Str) : strLe a b = true ↔ a <+: b ∨ ∃ p x y s t, a = p ++ x :: s ∧ b = p ++ y :: t ∧ x < y := by
  induction a generalizing b with
  | nil => simp [strLe]
  | cons x s ih =>
    cases b with
    | nil => simp [strLe]
    | cons y t =>
      simp only [strLe]
      by_cases h1 : x < y
      · simp only [if_pos h1, true_iff]
        exact Or.inr ⟨[], x, y, s, t, rfl, rfl, h1⟩
      · by_cases h2 : y < x
        · simp only [if_neg h1, if_pos h2, Bool.false_eq_true, false_iff, not_or]
          constructor
          · intro h
            have := (List.cons_prefix_cons.1 h).1
            subst this
            exact h1 h2
          · rintro ⟨p, x', y', s', t', ha, hb, hlt⟩
            cases p with
            | nil => cases ha; cases hb; exact h1 hlt
            | cons c p => cases ha; cases hb; exact h1 h2
        · have he : x = y := UInt8.le_antisymm (UInt8.not_lt.1 h2) (UInt8.not_lt.1 h1)
          subst he
          simp only [if_neg h1, ih, List.cons_prefix_cons, true_and]
          constructor
          · rintro (h | ⟨p, x', y', s', t', ha, hb, hlt⟩)
            · exact Or.inl h
            · exact Or.inr ⟨x :: p, x', y', s', t', by rw [ha]; rfl, by rw [hb]; rfl, hlt⟩
          · rintro (h | ⟨p, x', y', s', t', ha, hb, hlt⟩)
            · exact Or.inl h
            · cases p with
              | nil => cases ha; cases hb; exact absurd hlt h1
              | cons c p =>
                cases ha
                exact Or.inr ⟨p, x', y', s', t', rfl, (List.cons.inj hb).2, hlt⟩

/-- Non-trivial cases: a prefix, a difference in the middle, the reverse fails. -/
example : strLe b!"ab" b!"abc" = true ∧ strLe b!"aBz" b!"aba" = true ∧ strLe b!"aba" b!"aBz" = false := by decide +kernel

end Ripsrc
