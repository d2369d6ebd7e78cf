import Verif.Lib.Regexp
/-!
# Expressions without repetition: a finite list of words, each perhaps tied to the beginning or the end of the text
-/
namespace Ripsrc
open Spec

/-- A word, tied to the beginning, tied to the end. -/
structure Form where
  b : Bool := false
  w : Str := []
  e : Bool := false
deriving DecidableEq

/-- The word occurs as `mid`. -/
def Form.Fits (f : Form) (pre mid post : Str) : Prop := mid = f.w ∧ (f.b = true → pre = []) ∧ (f.e = true → post = [])

/-- One after the other, if that is possible. -/
def Form.cat (f g : Form) : List Form :=
  if (g.b = true ∧ f.w ≠ []) ∨ (f.e = true ∧ g.w ≠ []) then [] else [⟨f.b || g.b, f.w ++ g.w, f.e || g.e⟩]

/-- The bytes of a class given by single bytes. -/
def Cls.bytes (c : Cls) : Option Str := if c.neg = false ∧ c.ranges.all (fun r => r.1 == r.2) = true then some (c.ranges.map (·.1)) else none

/-- The words. -/
def Rx.forms : Rx → Option (List Form)
  | .eps => some [{}]
  | .one c => c.bytes.map (fun l => l.map (fun b => { w := [b] }))
  | .bol => some [{ b := true }]
  | .eol => some [{ e := true }]
  | .seq a b => match a.forms, b.forms with
    | some l, some m => some (l.flatMap (fun f => m.flatMap f.cat))
    | _, _ => none
  | .alt a b => match a.forms, b.forms with
    | some l, some m => some (l ++ m)
    | _, _ => none
  | .opt a => a.forms.map (fun l => l ++ [{}])
  | .star _ _ => none
  | .group _ a => a.forms

theorem bytes_iff {c : Cls} {l : Str} (h : c.bytes = some l) (b : UInt8) : InCls c b ↔ b ∈ l := by
  unfold Cls.bytes at h
  by_cases hc : c.neg = false ∧ c.ranges.all (fun r => r.1 == r.2) = true
  · rw [if_pos hc] at h
    cases h
    unfold InCls
    simp only [hc.1, Bool.false_eq_true, if_false, List.mem_map]
    have hall := List.all_eq_true.1 hc.2
    constructor
    · rintro ⟨r, hr, h1, h2⟩
      refine ⟨r, hr, ?_⟩
      have := eq_of_beq (hall r hr)
      rw [← this] at h2
      exact UInt8.le_antisymm h1 h2
    · rintro ⟨r, hr, rfl⟩
      have := eq_of_beq (hall r hr)
      exact ⟨r, hr, UInt8.le_refl _, by rw [this]; exact UInt8.le_refl _⟩
  · rw [if_neg hc] at h; cases h

theorem cat_iff (f g : Form) (pre mid post : Str) : (∃ x y, mid = x ++ y ∧ f.Fits pre x (y ++ post) ∧ g.Fits (pre ++ x) y post) ↔ ∃ k ∈ f.cat g, k.Fits pre mid post := by
  unfold Form.cat Form.Fits
  constructor
  · rintro ⟨x, y, rfl, ⟨rfl, h1, h2⟩, ⟨rfl, h3, h4⟩⟩
    rw [if_neg]
    · refine ⟨_, List.mem_singleton.2 rfl, rfl, ?_, ?_⟩
      · intro h
        rcases Bool.or_eq_true_iff.1 h with h | h
        · exact h1 h
        · exact (List.append_eq_nil_iff.1 (h3 h)).1
      · intro h
        rcases Bool.or_eq_true_iff.1 h with h | h
        · exact (List.append_eq_nil_iff.1 (h2 h)).2
        · exact h4 h
    · rintro (⟨a, b⟩ | ⟨a, b⟩)
      · exact b (List.append_eq_nil_iff.1 (h3 a)).2
      · exact b (List.append_eq_nil_iff.1 (h2 a)).1
  · rintro ⟨k, hk, h1, h2, h3⟩
    by_cases hc : (g.b = true ∧ f.w ≠ []) ∨ (f.e = true ∧ g.w ≠ [])
    · rw [if_pos hc] at hk; cases hk
    · rw [if_neg hc] at hk
      rw [List.mem_singleton.1 hk] at h1 h2 h3
      refine ⟨f.w, g.w, h1, ⟨rfl, fun h => h2 (by simp [h]), fun h => ?_⟩, ⟨rfl, fun h => ?_, fun h => h3 (by simp [h])⟩⟩
      · rw [h3 (by simp [h])]
        by_cases hw : g.w = []
        · rw [hw]; rfl
        · exact absurd (.inr ⟨h, hw⟩) hc
      · rw [h2 (by simp [h])]
        by_cases hw : f.w = []
        · rw [hw]; rfl
        · exact absurd (.inl ⟨h, hw⟩) hc

theorem forms_iff (r : Rx) {l : List Form} (h : r.forms = some l) (pre mid post : Str) : Matches r pre mid post ↔ ∃ f ∈ l, f.Fits pre mid post := by
  induction r generalizing l pre mid post with
  | eps =>
    cases h
    simp only [List.mem_singleton, exists_eq_left, Form.Fits, Bool.false_eq_true, false_implies, and_true]
    constructor
    · intro h; cases h; rfl
    · rintro rfl; exact .eps
  | one c =>
    simp only [Rx.forms] at h
    cases hb : c.bytes with
    | none => rw [hb] at h; cases h
    | some bs =>
      rw [hb] at h
      cases h
      simp only [List.mem_map]
      constructor
      · intro h
        cases h with
        | one hc => exact ⟨_, ⟨_, (bytes_iff hb _).1 hc, rfl⟩, rfl, by simp, by simp⟩
      · rintro ⟨f, ⟨b, hm, rfl⟩, h1, _, _⟩
        simp only at h1
        rw [h1]
        exact .one ((bytes_iff hb b).2 hm)
  | bol =>
    cases h
    simp only [List.mem_singleton, exists_eq_left, Form.Fits]
    constructor
    · intro h; cases h; simp
    · rintro ⟨rfl, h, _⟩; rw [h trivial]; exact .bol
  | eol =>
    cases h
    simp only [List.mem_singleton, exists_eq_left, Form.Fits]
    constructor
    · intro h; cases h; simp
    · rintro ⟨rfl, _, h⟩; rw [h trivial]; exact .eol
  | seq a b iha ihb =>
    simp only [Rx.forms] at h
    cases ha : a.forms with
    | none => rw [ha] at h; simp at h
    | some la =>
      cases hb : b.forms with
      | none => rw [ha, hb] at h; simp at h
      | some lb =>
        rw [ha, hb] at h
        simp only [Option.some.injEq] at h
        subst h
        constructor
        · intro h
          cases h with
          | seq h1 h2 =>
            obtain ⟨f, hf, h1⟩ := (iha ha _ _ _).1 h1
            obtain ⟨g, hg, h2⟩ := (ihb hb _ _ _).1 h2
            obtain ⟨k, hk, h3⟩ := (cat_iff f g _ _ _).1 ⟨_, _, rfl, h1, h2⟩
            exact ⟨k, List.mem_flatMap.2 ⟨f, hf, List.mem_flatMap.2 ⟨g, hg, hk⟩⟩, h3⟩
        · rintro ⟨k, hk, h3⟩
          obtain ⟨f, hf, hk⟩ := List.mem_flatMap.1 hk
          obtain ⟨g, hg, hk⟩ := List.mem_flatMap.1 hk
          obtain ⟨x, y, rfl, h1, h2⟩ := (cat_iff f g pre mid post).2 ⟨k, hk, h3⟩
          exact .seq ((iha ha _ _ _).2 ⟨f, hf, h1⟩) ((ihb hb _ _ _).2 ⟨g, hg, h2⟩)
  | alt a b iha ihb =>
    simp only [Rx.forms] at h
    cases ha : a.forms with
    | none => rw [ha] at h; simp at h
    | some la =>
      cases hb : b.forms with
      | none => rw [ha, hb] at h; simp at h
      | some lb =>
        rw [ha, hb] at h
        simp only [Option.some.injEq] at h
        subst h
        constructor
        · intro h
          cases h with
          | altL h => obtain ⟨f, hf, h⟩ := (iha ha _ _ _).1 h; exact ⟨f, List.mem_append.2 (.inl hf), h⟩
          | altR h => obtain ⟨f, hf, h⟩ := (ihb hb _ _ _).1 h; exact ⟨f, List.mem_append.2 (.inr hf), h⟩
        · rintro ⟨f, hf, h⟩
          rcases List.mem_append.1 hf with hf | hf
          · exact .altL ((iha ha _ _ _).2 ⟨f, hf, h⟩)
          · exact .altR ((ihb hb _ _ _).2 ⟨f, hf, h⟩)
  | opt a iha =>
    simp only [Rx.forms] at h
    cases ha : a.forms with
    | none => rw [ha] at h; simp at h
    | some la =>
      rw [ha] at h
      simp only [Option.map_some, Option.some.injEq] at h
      subst h
      constructor
      · intro h
        cases h with
        | optSome h => obtain ⟨f, hf, h⟩ := (iha ha _ _ _).1 h; exact ⟨f, List.mem_append.2 (.inl hf), h⟩
        | optNone => exact ⟨{}, by simp, rfl, by simp, by simp⟩
      · rintro ⟨f, hf, h⟩
        rcases List.mem_append.1 hf with hf | hf
        · exact .optSome ((iha ha _ _ _).2 ⟨f, hf, h⟩)
        · rw [List.mem_singleton.1 hf] at h
          rw [h.1]; exact .optNone
  | star c g => cases h
  | group n a iha =>
    have := iha (l := l) h pre mid post
    rw [← this]
    constructor
    · intro h; cases h with | group h => exact h
    · exact .group

end Ripsrc
