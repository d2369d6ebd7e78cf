import Verif.Lib.MsgSkip2
/-!
# Skipping an object that is cut off
-/
namespace Ripsrc
open Spec

/-- What a shorter input gives compared with a longer one: the end of the input, or the same value. -/
def CutRel {α : Type} (d d' : Dec α) : Prop := d = .eof ∨ (∃ v x x', d = .ok v x ∧ d' = .ok v x') ∨ ∀ v x, d' ≠ .ok v x

theorem CutRel.ite {α : Type} {c : Prop} [Decidable c] {a b a' b' : Dec α} (h1 : CutRel a a') (h2 : CutRel b b') : CutRel (if c then a else b) (if c then a' else b') := by
  split
  · exact h1
  · exact h2

theorem nextNum_cut (k : Nat) (bs r : Str) : nextNum k bs = .eof ∨ ∃ v x x', nextNum k bs = .ok v x ∧ nextNum k (bs ++ r) = .ok v x' := by
  unfold nextNum next
  by_cases h : bs.length < k + 1
  · left; rw [if_pos h]; rfl
  · right
    rw [if_neg h, if_neg (by simp; omega)]
    refine ⟨_, _, (bs ++ r).drop (k + 1), rfl, ?_⟩
    simp only [Dec.bind]
    rw [List.take_append_of_le_length (by omega)]

theorem objSize_cut (bs r : Str) : CutRel (objSize bs) (objSize (bs ++ r)) := by
  cases bs with
  | nil => left; rfl
  | cons lead t =>
    have num : ∀ (k : Nat) (f : Nat → Nat × Nat), CutRel ((nextNum k (lead :: t)).bind (fun n r => .ok (f n) r)) ((nextNum k (lead :: (t ++ r))).bind (fun n r => .ok (f n) r)) := by
      intro k f
      rcases nextNum_cut k (lead :: t) r with h | ⟨v, x, x', h, h'⟩
      · left; rw [h]; rfl
      · right; left
        rw [List.cons_append] at h'
        rw [h, h']
        exact ⟨_, _, _, rfl, rfl⟩
    have const : ∀ v : Nat × Nat, CutRel (.ok v (lead :: t)) (.ok v (lead :: (t ++ r))) := fun v => .inr (.inl ⟨v, _, _, rfl, rfl⟩)
    have bad : CutRel (.bad : Dec (Nat × Nat)) .bad := .inr (.inr (fun _ _ h => nomatch h))
    rw [List.cons_append]
    unfold objSize
    dsimp only
    repeat' (first | exact bad | exact const _ | exact num _ _ | refine CutRel.ite ?_ ?_)

/-- An object, or a sequence of objects, of which only a beginning is there: `unexpected EOF`, wherever it is cut. -/
theorem skipObjs_cut (count : Nat) {b bs r : Str} (h : IsMsgs count b) (hb : b = bs ++ r) (hr : r ≠ []) : skipObjs count bs = .eof := by
  generalize hn : bs.length = n
  induction n using Nat.strongRecOn generalizing bs count b with
  | ind n ih =>
    cases h with
    | nil =>
      have := List.append_eq_nil_iff.1 hb.symm
      exact absurd this.2 hr
    | @cons c x s hx hs =>
      obtain ⟨own, s1, inner, hown, hs1, rfl⟩ := isMsg_own.1 hx
      obtain ⟨y, ho⟩ := own_objSize hown (s1 ++ s)
      rw [show own ++ (s1 ++ s) = bs ++ r by rw [← hb]; simp] at ho
      rw [skipObjs]
      rcases objSize_cut bs r with h | ⟨v, x, x', h, h'⟩ | h
      · rw [h]
      · rw [ho] at h'
        cases h'
        rw [h]
        dsimp only
        by_cases hl : bs.length < own.length
        · rw [if_pos hl]
        · rw [if_neg hl]
          have hp := hown.pos
          rw [if_pos ⟨hp, by omega⟩]
          have hb' : own ++ (s1 ++ s) = bs ++ r := by rw [← hb]; simp
          obtain ⟨t, ht⟩ : ∃ t, bs = own ++ t := by
            obtain ⟨t, ht⟩ := List.prefix_of_prefix_length_le (⟨s1 ++ s, hb'⟩ : own <+: bs ++ r) (List.prefix_append bs r) (by omega)
            exact ⟨t, ht.symm⟩
          subst ht
          rw [List.drop_left]
          rw [List.append_assoc] at hb'
          exact ih t.length (by simp at hn; omega) (inner + c) (isMsgs_append hs1 hs) (List.append_cancel_left hb') rfl
      · exact absurd ho (h _ _)

/-- `Skip` of an object of which only a beginning is there. -/
theorem skip_cut {b bs r : Str} (h : IsMsg b) (hb : b = bs ++ r) (hr : r ≠ []) : skip bs = .eof :=
  skipObjs_cut 1 (b := b ++ []) (.cons h .nil) (by simpa using hb) hr

end Ripsrc
