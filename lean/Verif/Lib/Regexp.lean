import Verif.Spec.Regexp
/-!
# The matcher finds a match exactly if there is one
-/
namespace Ripsrc
open Spec

theorem has_iff (c : Cls) (b : UInt8) : c.has b = true ↔ InCls c b := by
  unfold Cls.has InCls
  have e : (c.ranges.any (fun r => decide (r.1 ≤ b) && decide (b ≤ r.2)) = true) ↔ ∃ r ∈ c.ranges, r.1 ≤ b ∧ b ≤ r.2 := by
    simp [List.any_eq_true]
  cases hn : c.neg with
  | false => simp only [Bool.false_bne, Bool.false_eq_true, if_false]; exact e
  | true =>
    simp only [Bool.true_bne, Bool.not_eq_true', if_true]
    constructor
    · intro h r hr
      by_cases h1 : r.1 ≤ b
      · by_cases h2 : b ≤ r.2
        · have := e.2 ⟨r, hr, h1, h2⟩
          rw [h] at this; cases this
        · right; exact UInt8.not_le.1 h2
      · left; exact UInt8.not_le.1 h1
    · intro h
      cases ha : c.ranges.any (fun r => decide (r.1 ≤ b) && decide (b ≤ r.2)) with
      | false => rfl
      | true =>
        obtain ⟨r, hr, h1, h2⟩ := e.1 ha
        rcases h r hr with h3 | h3
        · exact absurd h1 (UInt8.not_le.2 h3)
        · exact absurd h2 (UInt8.not_le.2 h3)

theorem starRuns_iff (c : Cls) (g : Bool) (caps : List (Nat × Str)) (start : Bool) (text : Str) (t : RxState) :
    t ∈ starRuns c g caps start text ↔ ∃ x, text = x ++ t.rest ∧ (∀ b ∈ x, InCls c b) ∧ t.start = (start && x.isEmpty) ∧ t.caps = caps := by
  induction text generalizing start with
  | nil =>
    simp only [starRuns, List.mem_singleton]
    constructor
    · rintro rfl; exact ⟨[], rfl, by simp, by simp, rfl⟩
    · rintro ⟨x, h1, _, h3, h4⟩
      obtain ⟨rfl, h⟩ := List.append_eq_nil_iff.1 h1.symm
      obtain ⟨a, b, c'⟩ := t
      simp only at h h3 h4
      subst h; subst h4
      rw [h3]; simp
  | cons b s ih =>
    have stop : t = ⟨start, b :: s, caps⟩ ↔ (b :: s = [] ++ t.rest ∧ t.start = start ∧ t.caps = caps) := by
      cases t; simp only [RxState.mk.injEq, List.nil_append]
      constructor
      · rintro ⟨rfl, rfl, rfl⟩; exact ⟨rfl, rfl, rfl⟩
      · rintro ⟨rfl, rfl, rfl⟩; exact ⟨rfl, rfl, rfl⟩
    have split : (∃ x, b :: s = x ++ t.rest ∧ (∀ b ∈ x, InCls c b) ∧ t.start = (start && x.isEmpty) ∧ t.caps = caps) ↔
        (b :: s = [] ++ t.rest ∧ t.start = start ∧ t.caps = caps) ∨
        (InCls c b ∧ ∃ x, s = x ++ t.rest ∧ (∀ b ∈ x, InCls c b) ∧ t.start = (false && x.isEmpty) ∧ t.caps = caps) := by
      constructor
      · rintro ⟨x, h1, h2, h3, h4⟩
        cases x with
        | nil => exact .inl ⟨h1, by simpa using h3, h4⟩
        | cons b' x =>
          simp only [List.cons_append, List.cons.injEq] at h1
          obtain ⟨rfl, h1⟩ := h1
          exact .inr ⟨h2 b (by simp), x, h1, fun y hy => h2 y (by simp [hy]), by simpa using h3, h4⟩
      · rintro (⟨h1, h3, h4⟩ | ⟨h0, x, h1, h2, h3, h4⟩)
        · exact ⟨[], h1, by simp, by simpa using h3, h4⟩
        · refine ⟨b :: x, by rw [h1]; rfl, ?_, by simpa using h3, h4⟩
          intro y hy
          rcases List.mem_cons.1 hy with rfl | hy
          · exact h0
          · exact h2 y hy
    rw [split, ← ih false]
    simp only [starRuns]
    by_cases hb : c.has b = true
    · have hc := (has_iff c b).1 hb
      simp only [hb, if_true, hc, true_and]
      cases g with
      | true => simp only [if_true, List.mem_append, List.mem_singleton, stop]; exact Or.comm
      | false => simp only [Bool.false_eq_true, if_false, List.mem_cons, stop]
    · have hc : ¬ InCls c b := fun h => hb ((has_iff c b).2 h)
      simp only [hb, if_false, Bool.false_eq_true, hc, false_and, or_false, List.mem_singleton, stop]

theorem runs_sound (r : Rx) (pre : Str) (s t : RxState) (hs : s.start = pre.isEmpty) (h : t ∈ r.runs s) :
    ∃ x, s.rest = x ++ t.rest ∧ Matches r pre x t.rest ∧ t.start = (pre ++ x).isEmpty := by
  induction r generalizing pre s t with
  | eps => simp only [Rx.runs, List.mem_singleton] at h; subst h; exact ⟨[], rfl, .eps, by simpa using hs⟩
  | one c =>
    simp only [Rx.runs] at h
    cases hr : s.rest with
    | nil => rw [hr] at h; cases h
    | cons b l =>
      rw [hr] at h
      by_cases hb : c.has b = true
      · simp only [hb, if_true, List.mem_singleton] at h
        subst h
        exact ⟨[b], rfl, .one ((has_iff c b).1 hb), by simp⟩
      · simp [hb] at h
  | bol =>
    simp only [Rx.runs] at h
    by_cases hp : s.start = true
    · simp only [hp, if_true, List.mem_singleton] at h
      subst h
      rw [hs] at hp
      have : pre = [] := by simpa using hp
      subst this
      exact ⟨[], rfl, .bol, by simpa using hs⟩
    · simp [hp] at h
  | eol =>
    simp only [Rx.runs] at h
    by_cases hp : s.rest = []
    · simp only [hp, if_true, List.mem_singleton] at h
      subst h
      refine ⟨[], rfl, ?_, by simpa using hs⟩
      rw [hp]
      exact .eol
    · simp [hp] at h
  | seq a b iha ihb =>
    simp only [Rx.runs, List.mem_flatMap] at h
    obtain ⟨u, hu, ht⟩ := h
    obtain ⟨x, h1, h2, h3⟩ := iha pre s u hs hu
    obtain ⟨y, k1, k2, k3⟩ := ihb (pre ++ x) u t h3 ht
    rw [k1] at h1 h2
    exact ⟨x ++ y, by rw [h1, List.append_assoc], .seq h2 k2, by rw [k3, List.append_assoc]⟩
  | alt a b iha ihb =>
    simp only [Rx.runs, List.mem_append] at h
    rcases h with h | h
    · obtain ⟨x, h1, h2, h3⟩ := iha pre s t hs h; exact ⟨x, h1, .altL h2, h3⟩
    · obtain ⟨x, h1, h2, h3⟩ := ihb pre s t hs h; exact ⟨x, h1, .altR h2, h3⟩
  | opt a iha =>
    simp only [Rx.runs, List.mem_append, List.mem_singleton] at h
    rcases h with h | rfl
    · obtain ⟨x, h1, h2, h3⟩ := iha pre s t hs h; exact ⟨x, h1, .optSome h2, h3⟩
    · exact ⟨[], rfl, .optNone, by simpa using hs⟩
  | star c g =>
    obtain ⟨x, h1, h2, h3, h4⟩ := (starRuns_iff c g s.caps s.start s.rest t).1 h
    refine ⟨x, h1, .star h2, ?_⟩
    rw [h3, hs]
    cases pre <;> cases x <;> rfl
  | group n a iha =>
    simp only [Rx.runs, List.mem_map] at h
    obtain ⟨u, hu, rfl⟩ := h
    obtain ⟨x, h1, h2, h3⟩ := iha pre s u hs hu
    exact ⟨x, h1, .group h2, h3⟩

theorem runs_complete {r : Rx} {pre x post : Str} (h : Matches r pre x post) (caps : List (Nat × Str)) :
    ∃ t ∈ r.runs ⟨pre.isEmpty, x ++ post, caps⟩, t.rest = post ∧ t.start = (pre ++ x).isEmpty := by
  induction h generalizing caps with
  | eps => exact ⟨_, List.mem_singleton.2 rfl, rfl, by simp⟩
  | @one c b pre post hc =>
    refine ⟨⟨false, post, caps⟩, ?_, rfl, by simp⟩
    simp [Rx.runs, (has_iff c b).2 hc]
  | bol => exact ⟨_, by simp only [Rx.runs]; exact List.mem_singleton.2 rfl, rfl, rfl⟩
  | eol => exact ⟨_, by simp only [Rx.runs]; exact List.mem_singleton.2 rfl, rfl, by simp⟩
  | @seq a b pre x y post _ _ iha ihb =>
    obtain ⟨u, hu, h1, h2⟩ := iha caps
    obtain ⟨t, ht, k1, k2⟩ := ihb u.caps
    refine ⟨t, ?_, k1, by rw [k2, List.append_assoc]⟩
    simp only [Rx.runs, List.mem_flatMap]
    refine ⟨u, by rw [List.append_assoc]; exact hu, ?_⟩
    have : u = ⟨(pre ++ x).isEmpty, y ++ post, u.caps⟩ := by cases u; simp only at h1 h2; rw [h1, h2]
    rw [this]; exact ht
  | altL _ ih => obtain ⟨t, ht, h⟩ := ih caps; exact ⟨t, by simp only [Rx.runs, List.mem_append]; exact .inl ht, h⟩
  | altR _ ih => obtain ⟨t, ht, h⟩ := ih caps; exact ⟨t, by simp only [Rx.runs, List.mem_append]; exact .inr ht, h⟩
  | optSome _ ih => obtain ⟨t, ht, h⟩ := ih caps; exact ⟨t, by simp only [Rx.runs, List.mem_append]; exact .inl ht, h⟩
  | @optNone a pre post => exact ⟨⟨pre.isEmpty, [] ++ post, caps⟩, by simp [Rx.runs], rfl, by simp⟩
  | @star c g pre x post hx =>
    refine ⟨⟨(pre ++ x).isEmpty, post, caps⟩, ?_, rfl, rfl⟩
    refine (starRuns_iff c g caps pre.isEmpty (x ++ post) _).2 ⟨x, rfl, hx, ?_, rfl⟩
    cases pre <;> cases x <;> rfl
  | @group n a pre x post _ ih =>
    obtain ⟨t, ht, h⟩ := ih caps
    exact ⟨_, List.mem_map.2 ⟨t, ht, rfl⟩, h⟩

theorem findFrom_some (r : Rx) (pre text : Str) : (r.findFrom pre.isEmpty text).isSome = true ↔
    ∃ p mid post, text = p ++ mid ++ post ∧ Matches r (pre ++ p) mid post := by
  induction text generalizing pre with
  | nil =>
    simp only [Rx.findFrom]
    constructor
    · intro h
      cases hr : r.runs ⟨pre.isEmpty, [], []⟩ with
      | nil => rw [hr] at h; cases h
      | cons t l =>
        obtain ⟨x, h1, h2, h3⟩ := runs_sound r pre ⟨pre.isEmpty, [], []⟩ t rfl (by rw [hr]; simp)
        exact ⟨[], x, t.rest, by simpa using h1, by simpa using h2⟩
    · rintro ⟨p, mid, post, h1, h2⟩
      have h3 := h1.symm
      simp only [List.append_eq_nil_iff] at h3
      obtain ⟨⟨rfl, rfl⟩, rfl⟩ := h3
      obtain ⟨t, ht, _⟩ := runs_complete h2 []
      simp only [List.append_nil] at ht
      cases hr : r.runs ⟨pre.isEmpty, [], []⟩ with
      | nil => rw [hr] at ht; cases ht
      | cons t l => rfl
  | cons b s ih =>
    simp only [Rx.findFrom]
    cases hr : r.runs ⟨pre.isEmpty, b :: s, []⟩ with
    | cons t l =>
      simp only [Option.isSome_some, true_iff]
      obtain ⟨x, h1, h2, h3⟩ := runs_sound r pre ⟨pre.isEmpty, b :: s, []⟩ t rfl (by rw [hr]; simp)
      exact ⟨[], x, t.rest, by simpa using h1, by simpa using h2⟩
    | nil =>
      have e : (pre ++ [b]).isEmpty = false := by simp
      rw [← e, ih (pre ++ [b])]
      constructor
      · rintro ⟨p, mid, post, h1, h2⟩
        exact ⟨b :: p, mid, post, by rw [h1]; rfl, by simpa using h2⟩
      · rintro ⟨p, mid, post, h1, h2⟩
        cases p with
        | nil =>
          exfalso
          obtain ⟨t, ht, _⟩ := runs_complete h2 []
          simp only [List.append_nil, List.nil_append] at ht h1
          rw [← h1, hr] at ht
          cases ht
        | cons b' p =>
          simp only [List.cons_append, List.cons.injEq] at h1
          obtain ⟨rfl, h1⟩ := h1
          exact ⟨p, mid, post, h1, by simpa using h2⟩

/-- `MatchString` is the meaning of the expression. -/
theorem matchString_iff (r : Rx) (text : Str) : r.matchString text = true ↔ Occurs r text := by
  have := findFrom_some r [] text
  simpa [Rx.matchString, Rx.find, Occurs] using this

end Ripsrc
