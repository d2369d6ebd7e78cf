import Verif.Go.Num
/-! # What `atoi` accepts: the numbers of a 64-bit integer, and nothing else

`atoi` models `strconv.Atoi`, which is not part of the repository. This characterisation says what is assumed of it. -/
namespace Ripsrc

/-- The value of a text of decimal digits. -/
def decimal (ds : Str) : Nat := ds.foldl (fun a b => 10 * a + (b.toNat - 48)) 0

/-- A non-empty text of decimal digits. -/
def Digits (ds : Str) : Prop := ds ≠ [] ∧ ∀ b ∈ ds, 48 ≤ b ∧ b ≤ 57

theorem parseDigits_iff (ds : Str) : ∀ (acc n : Nat), parseDigits acc ds = some n ↔
    (∀ b ∈ ds, 48 ≤ b ∧ b ≤ 57) ∧ n = ds.foldl (fun a b => 10 * a + (b.toNat - 48)) acc := by
  induction ds with
  | nil => intro acc n; simp [parseDigits, eq_comm]
  | cons b r ih =>
    intro acc n
    by_cases hb : 48 ≤ b ∧ b ≤ 57
    · have hd : digitVal b = some (b.toNat - 48) := if_pos hb
      simp only [parseDigits, hd, ih, List.foldl_cons, List.mem_cons, forall_eq_or_imp, Nat.mul_comm acc 10]
      exact ⟨fun h => ⟨⟨hb, h.1⟩, h.2⟩, fun h => ⟨h.1.2, h.2⟩⟩
    · have hd : digitVal b = none := if_neg hb
      simp only [parseDigits, hd, reduceCtorEq, false_iff]
      exact fun h => hb (h.1 b (by simp))

theorem parseNat_iff (s : Str) (n : Nat) : parseNat s = some n ↔ Digits s ∧ n = decimal s := by
  unfold parseNat Digits decimal
  by_cases h : s = []
  · simp [h]
  · rw [if_neg h, parseDigits_iff]
    exact ⟨fun x => ⟨⟨h, x.1⟩, x.2⟩, fun x => ⟨x.1.2, x.2⟩⟩

/-- `strconv.Atoi` accepts exactly an optional sign and digits whose number is a 64-bit integer. -/
theorem atoi_iff (s : Str) (i : Int) : atoi s = some i ↔ (- 2 ^ 63 ≤ i ∧ i < 2 ^ 63) ∧
    ((Digits s ∧ i = decimal s) ∨ (∃ ds, s = 43 :: ds ∧ Digits ds ∧ i = decimal ds) ∨ (∃ ds, s = 45 :: ds ∧ Digits ds ∧ i = -(decimal ds : Int))) := by
  have nd : ∀ (c : UInt8) (r : Str), c < 48 → ¬ Digits (c :: r) := by
    intro c r hc h
    have := (h.2 c (by simp)).1
    exact absurd (UInt8.lt_of_lt_of_le hc this) (by simp)
  have key : ∀ (t : Str), (match parseNat t with | some n => if n < 2 ^ 63 then some (n : Int) else none | none => none) = some i ↔
      (- 2 ^ 63 ≤ i ∧ i < 2 ^ 63) ∧ Digits t ∧ i = decimal t := by
    intro t
    cases hp : parseNat t with
    | none =>
      simp only [reduceCtorEq, false_iff, not_and]
      intro _ hd _
      have := (parseNat_iff t (decimal t)).2 ⟨hd, rfl⟩
      rw [hp] at this; cases this
    | some n =>
      obtain ⟨hd, hn⟩ := (parseNat_iff t n).1 hp
      simp only [hd, true_and, ← hn]
      split
      · simp only [Option.some.injEq]; omega
      · simp only [reduceCtorEq, false_iff]; omega
  unfold atoi
  split
  · rename_i r
    have h1 : ¬ Digits (45 :: r) := nd 45 r (by decide)
    have h2 : ¬ ∃ ds, (45 : UInt8) :: r = 43 :: ds ∧ Digits ds ∧ i = decimal ds := by
      rintro ⟨ds, h, _⟩; cases h
    have h3 : (∃ ds, (45 : UInt8) :: r = 45 :: ds ∧ Digits ds ∧ i = -(decimal ds : Int)) ↔ Digits r ∧ i = -(decimal r : Int) := by
      constructor
      · rintro ⟨ds, h, h'⟩; cases h; exact h'
      · intro h; exact ⟨r, rfl, h⟩
    simp only [h1, h2, h3, false_and, false_or]
    cases hp : parseNat r with
    | none =>
      simp only [reduceCtorEq, false_iff, not_and]
      intro _ hd _
      have := (parseNat_iff r (decimal r)).2 ⟨hd, rfl⟩
      rw [hp] at this; cases this
    | some n =>
      obtain ⟨hd, hn⟩ := (parseNat_iff r n).1 hp
      simp only [hd, true_and, ← hn]
      split
      · simp only [Option.some.injEq]; omega
      · simp only [reduceCtorEq, false_iff]; omega
  · rename_i r
    have h1 : ¬ Digits (43 :: r) := nd 43 r (by decide)
    have h2 : ¬ ∃ ds, (43 : UInt8) :: r = 45 :: ds ∧ Digits ds ∧ i = -(decimal ds : Int) := by
      rintro ⟨ds, h, _⟩; cases h
    have h3 : (∃ ds, (43 : UInt8) :: r = 43 :: ds ∧ Digits ds ∧ i = decimal ds) ↔ Digits r ∧ i = decimal r := by
      constructor
      · rintro ⟨ds, h, h'⟩; cases h; exact h'
      · intro h; exact ⟨r, rfl, h⟩
    simp only [h1, h2, h3, false_and, false_or, or_false]
    exact key r
  · rename_i h45 h43
    have h2 : ¬ ∃ ds, s = 43 :: ds ∧ Digits ds ∧ i = decimal ds := by
      rintro ⟨ds, h, _⟩; exact h43 ds h
    have h3 : ¬ ∃ ds, s = 45 :: ds ∧ Digits ds ∧ i = -(decimal ds : Int) := by
      rintro ⟨ds, h, _⟩; exact h45 ds h
    simp only [h2, h3, or_false]
    exact key s

/-- The limits. -/
example : atoi b!"-9223372036854775808" = some (- 2 ^ 63) ∧ atoi b!"9223372036854775808" = none := by decide +kernel

end Ripsrc
