import Verif.Model.Time
import Verif.Spec.Time
/-! # The calendar -/
namespace Ripsrc
open Spec

theorem isLeap_iff (y : Nat) : isLeap y = true ↔ LeapYear y := by
  unfold isLeap LeapYear
  rw [decide_eq_true_iff]
  omega

/-- A date that exists. -/
def Spec.Civil.Valid (c : Civil) : Prop := (1 ≤ c.month ∧ c.month ≤ 12) ∧ 1 ≤ c.day ∧ c.day ≤ monthDays c.year c.month

theorem month_cases {m : Nat} (h : 1 ≤ m ∧ m ≤ 12) : m = 1 ∨ m = 2 ∨ m = 3 ∨ m = 4 ∨ m = 5 ∨ m = 6 ∨ m = 7 ∨ m = 8 ∨ m = 9 ∨ m = 10 ∨ m = 11 ∨ m = 12 := by omega

theorem daysIn_eq {y m : Nat} (h : 1 ≤ m ∧ m ≤ 12) : daysIn m y = monthDays y m := by
  unfold daysIn monthDays
  by_cases hl : LeapYear y
  · have hi := (isLeap_iff y).2 hl
    rcases month_cases h with rfl | rfl | rfl | rfl | rfl | rfl | rfl | rfl | rfl | rfl | rfl | rfl <;> simp [daysBefore, hi, hl]
  · have hi : isLeap y = false := by
      cases hb : isLeap y with
      | false => rfl
      | true => exact absurd ((isLeap_iff y).1 hb) hl
    rcases month_cases h with rfl | rfl | rfl | rfl | rfl | rfl | rfl | rfl | rfl | rfl | rfl | rfl <;> simp [daysBefore, hi, hl]

theorem monthDays_pos (y m : Nat) : 28 ≤ monthDays y m ∧ monthDays y m ≤ 31 := by
  unfold monthDays
  repeat' split
  all_goals omega

theorem next_valid {c : Civil} (h : c.Valid) : c.next.Valid := by
  obtain ⟨h1, h2, h3⟩ := h
  unfold Civil.next
  have := monthDays_pos
  split
  · exact ⟨h1, by simp, by simp only; omega⟩
  · split
    · exact ⟨by simp only; omega, Nat.le_refl _, by have := this c.year (c.month + 1); simp only; omega⟩
    · exact ⟨by simp, Nat.le_refl _, by have := this (c.year + 1) 1; simp only; omega⟩

theorem civil_valid (n : Nat) : (civil n).Valid := by
  induction n with
  | zero => exact ⟨by decide, by decide, by decide⟩
  | succ n ih => exact next_valid ih

/-- The days before a year. -/
def absYear (year : Nat) : Nat :=
  let y := year + 292277022399
  146097 * (y / 400) + 36524 * (y % 400 / 100) + 1461 * (y % 400 % 100 / 4) + 365 * (y % 400 % 100 % 4)

/-- The days of the year before a month. -/
def monthStart (leap : Bool) (month : Nat) : Nat := daysBefore (month - 1) + (if leap = true ∧ 3 ≤ month then 1 else 0)

theorem absDays_eq (y m d : Nat) : absDays y m d = absYear y + monthStart (isLeap y) m + (d - 1) := by
  unfold absDays absYear monthStart
  simp only
  omega

theorem absYear_succ (y : Nat) : absYear (y + 1) = absYear y + (if isLeap y = true then 366 else 365) := by
  have hl : isLeap y = true ↔ LeapYear y := isLeap_iff y
  obtain ⟨q, r, hr, hy⟩ : ∃ q r, r < 400 ∧ y + 292277022399 = 400 * q + r := ⟨(y + 292277022399) / 400, (y + 292277022399) % 400, by omega, by omega⟩
  obtain ⟨c, e, he, hc⟩ : ∃ c e, e < 100 ∧ r = 100 * c + e := ⟨r / 100, r % 100, by omega, by omega⟩
  obtain ⟨k, j, hj, hk⟩ : ∃ k j, j < 4 ∧ e = 4 * k + j := ⟨e / 4, e % 4, by omega, by omega⟩
  have hleap : isLeap y = true ↔ (j = 3 ∧ e ≠ 99) ∨ r = 399 := by
    rw [hl]; unfold LeapYear
    have h4 : 4 ∣ y ↔ j = 3 := by omega
    have h100 : 100 ∣ y ↔ e = 99 := by omega
    have h400 : 400 ∣ y ↔ r = 399 := by omega
    rw [h4, h100, h400]
  have e1 : ∀ q c k j : Nat, c < 4 → k < 25 → j < 4 → ∀ z, z + 292277022399 = 400 * q + (100 * c + (4 * k + j)) → absYear z = 146097 * q + 36524 * c + 1461 * k + 365 * j := by
    intro q c k j hc hk hj z hz
    unfold absYear
    simp only [hz]
    have a1 : (400 * q + (100 * c + (4 * k + j))) / 400 = q := by omega
    have a2 : (400 * q + (100 * c + (4 * k + j))) % 400 = 100 * c + (4 * k + j) := by omega
    have a3 : (100 * c + (4 * k + j)) / 100 = c := by omega
    have a4 : (100 * c + (4 * k + j)) % 100 = 4 * k + j := by omega
    have a5 : (4 * k + j) / 4 = k := by omega
    have a6 : (4 * k + j) % 4 = j := by omega
    rw [a1, a2, a3, a4, a5, a6]
  have e0 := e1 q c k j (by omega) (by omega) hj y (by omega)
  by_cases h3 : j = 3
  · by_cases h99 : e = 99
    · by_cases h399 : r = 399
      · have h5 := e1 (q + 1) 0 0 0 (by omega) (by omega) (by omega) (y + 1) (by omega); have h6 : (if isLeap y = true then 366 else 365) = (366 : Nat) := if_pos (hleap.2 (.inr h399)); omega
      · have h5 := e1 q (c + 1) 0 0 (by omega) (by omega) (by omega) (y + 1) (by omega); have h6 : (if isLeap y = true then 366 else 365) = (365 : Nat) := if_neg (by rw [hleap]; omega); omega
    · have h5 := e1 q c (k + 1) 0 (by omega) (by omega) (by omega) (y + 1) (by omega); have h6 : (if isLeap y = true then 366 else 365) = (366 : Nat) := if_pos (hleap.2 (.inl ⟨h3, h99⟩)); omega
  · have h5 := e1 q c k (j + 1) (by omega) (by omega) (by omega) (y + 1) (by omega); have h6 : (if isLeap y = true then 366 else 365) = (365 : Nat) := if_neg (by rw [hleap]; omega); omega

theorem monthStart_succ (y : Nat) {m : Nat} (h : 1 ≤ m ∧ m < 12) : monthStart (isLeap y) (m + 1) = monthStart (isLeap y) m + monthDays y m := by
  have hm : m = 1 ∨ m = 2 ∨ m = 3 ∨ m = 4 ∨ m = 5 ∨ m = 6 ∨ m = 7 ∨ m = 8 ∨ m = 9 ∨ m = 10 ∨ m = 11 := by omega
  have hl := isLeap_iff y
  unfold monthStart monthDays
  by_cases hb : isLeap y = true
  · have := hl.1 hb
    rcases hm with rfl | rfl | rfl | rfl | rfl | rfl | rfl | rfl | rfl | rfl | rfl <;> simp [daysBefore, hb, this]
  · have : ¬ LeapYear y := fun x => hb (hl.2 x)
    rcases hm with rfl | rfl | rfl | rfl | rfl | rfl | rfl | rfl | rfl | rfl | rfl <;> simp [daysBefore, hb, this]

theorem absDays_next {c : Civil} (h : c.Valid) : absDays c.next.year c.next.month c.next.day = absDays c.year c.month c.day + 1 := by
  obtain ⟨h1, h2, h3⟩ := h
  simp only [absDays_eq]
  unfold Civil.next
  split
  · simp only; omega
  · rename_i hd
    have hd : c.day = monthDays c.year c.month := by omega
    split
    · rename_i hm
      simp only
      rw [monthStart_succ _ ⟨h1.1, hm⟩]
      omega
    · rename_i hm
      have hm : c.month = 12 := by omega
      rw [hm] at hd
      have h31 : monthDays c.year 12 = 31 := rfl
      simp only
      rw [absYear_succ, hm, hd, h31]
      have hs : ∀ b, monthStart b 1 = 0 := by intro b; simp [monthStart, daysBefore]
      have he : monthStart (isLeap c.year) 12 = 334 + (if isLeap c.year = true then 1 else 0) := by simp [monthStart, daysBefore]
      rw [hs, he]
      split <;> omega

theorem absDays_civil (n : Nat) : absDays (civil n).year (civil n).month (civil n).day = 146097 * 730692556 + 719162 + n := by
  induction n with
  | zero => decide
  | succ n ih =>
    show absDays (civil n).next.year (civil n).next.month (civil n).next.day = _
    rw [absDays_next (civil_valid n), ih]
    omega

/-- `Date` counts the days as the calendar does. -/
theorem dateUnix_civil (n h m s : Nat) : dateUnix (civil n).year (civil n).month (civil n).day h m s = ((n * 86400 + (h * 3600 + m * 60 + s) : Nat) : Int) := by
  unfold dateUnix
  rw [absDays_civil]
  have : absToUnix = -((146097 * 730692556 + 719162) * 86400 : Int) := by decide
  rw [this]
  omega

theorem civil_year_ge (n : Nat) : 1970 ≤ (civil n).year := by
  induction n with
  | zero => decide
  | succ n ih =>
    show 1970 ≤ (civil n).next.year
    unfold Civil.next
    split
    · exact ih
    · split
      · exact ih
      · simp only; omega

/-! ## Digits -/

/-- The day before, except for the first of January 1970. -/
theorem pred_exists {c : Civil} (h : c.Valid) (hy : 1970 ≤ c.year) (hne : c ≠ civil 0) : ∃ p : Civil, p.Valid ∧ 1970 ≤ p.year ∧ p.next = c := by
  obtain ⟨y, m, d⟩ := c
  obtain ⟨h1, h2, h3⟩ := h
  simp only at h1 h2 h3 hy
  by_cases hd : 1 < d
  · refine ⟨⟨y, m, d - 1⟩, ⟨h1, by simp only; omega, by simp only; omega⟩, hy, ?_⟩
    unfold Civil.next
    simp only
    rw [if_pos (by omega), Nat.sub_add_cancel h2]
  · have hd1 : d = 1 := by omega
    subst hd1
    by_cases hm : 1 < m
    · have := monthDays_pos y (m - 1)
      refine ⟨⟨y, m - 1, monthDays y (m - 1)⟩, ⟨by simp only; omega, by simp only; omega, Nat.le_refl _⟩, hy, ?_⟩
      unfold Civil.next
      simp only
      rw [if_neg (by omega), if_pos (by omega), Nat.sub_add_cancel h1.1]
    · have hm1 : m = 1 := by omega
      subst hm1
      have hy1 : 1970 < y := by
        rcases Nat.lt_or_eq_of_le hy with h | h
        · exact h
        · exact absurd (by rw [← h]; rfl) hne
      refine ⟨⟨y - 1, 12, 31⟩, ⟨by simp, by simp, by simp [monthDays]⟩, by simp only; omega, ?_⟩
      unfold Civil.next
      simp only
      rw [if_neg (by simp [monthDays]), if_neg (by omega), Nat.sub_add_cancel (by omega)]

/-- Every date from 1970 on is reached by counting. -/
theorem civil_surj (k : Nat) : ∀ c : Civil, c.Valid → 1970 ≤ c.year → absDays c.year c.month c.day = k → ∃ n, civil n = c := by
  induction k using Nat.strongRecOn with
  | _ k ih =>
    intro c h hy hk
    by_cases hne : c = civil 0
    · exact ⟨0, hne.symm⟩
    · obtain ⟨p, hp, hpy, rfl⟩ := pred_exists h hy hne
      have := absDays_next hp
      obtain ⟨n, rfl⟩ := ih _ (by omega) p hp hpy rfl
      exact ⟨n + 1, rfl⟩

theorem civil_of {n : Nat} (c : Civil) (h : c.Valid) (hy : 1970 ≤ c.year) (hk : absDays c.year c.month c.day = 146097 * 730692556 + 719162 + n) : civil n = c := by
  obtain ⟨m, rfl⟩ := civil_surj _ c h hy rfl
  have := absDays_civil m
  have e : m = n := by omega
  rw [e]

theorem itoaF_fuel (f g n : Nat) (hf : n < f) (hg : n < g) : itoaF f n = itoaF g n := by
  induction f generalizing g n with
  | zero => omega
  | succ f ih =>
    cases g with
    | zero => omega
    | succ g =>
      simp only [itoaF]
      split
      · rfl
      · rw [ih g (n / 10) (by omega) (by omega)]

theorem itoa_step {n : Nat} (h : 10 ≤ n) : itoa n = itoa (n / 10) ++ [digitChar (n % 10)] := by
  unfold itoa
  rw [itoaF, if_neg (by omega), itoaF_fuel n (n / 10 + 1) (n / 10) (by omega) (by omega)]

theorem itoa_digit {n : Nat} (h : n < 10) : itoa n = [digitChar n] := by
  unfold itoa
  rw [itoaF, if_pos h]

theorem two_eq {n : Nat} (h : n < 100) : two n = [digitChar (n / 10), digitChar (n % 10)] := by
  unfold two
  split
  · rename_i h
    rw [itoa_digit h, show n / 10 = 0 by omega, show n % 10 = n by omega]
    rfl
  · rw [itoa_step (by omega), itoa_digit (by omega)]
    rfl

theorem getnum_digits {a b : Nat} (ha : a < 10) (hb : b < 10) (fixed : Bool) (r : Str) : getnum (digitChar a :: digitChar b :: r) fixed = some (a * 10 + b, r) := by
  simp only [getnum, digitVal_digitChar ha, digitVal_digitChar hb]

theorem getnum_two {n : Nat} (h : n < 100) (fixed : Bool) (r : Str) : getnum (two n ++ r) fixed = some (n, r) := by
  rw [two_eq h]
  show getnum (digitChar (n / 10) :: digitChar (n % 10) :: r) fixed = _
  rw [getnum_digits (by omega) (by omega)]
  congr 2
  omega

/-- One or two digits before a byte that is not a digit. -/
theorem getnum_itoa {n : Nat} (h : n < 100) {c : UInt8} (hc : digitVal c = none) (r : Str) : getnum (itoa n ++ c :: r) false = some (n, c :: r) := by
  by_cases h10 : n < 10
  · rw [itoa_digit h10]
    show getnum (digitChar n :: c :: r) false = _
    simp only [getnum, digitVal_digitChar h10, hc, Bool.false_eq_true, if_false]
  · have : itoa n = two n := by unfold two; rw [if_neg h10]
    rw [this, getnum_two h]

theorem itoa_four {y : Nat} (h1 : 1000 ≤ y) (h2 : y < 10000) : itoa y = [digitChar (y / 1000), digitChar (y / 100 % 10), digitChar (y / 10 % 10), digitChar (y % 10)] := by
  rw [itoa_step (by omega), itoa_step (n := y / 10) (by omega), itoa_step (n := y / 10 / 10) (by omega), itoa_digit (by omega)]
  have e1 : y / 10 / 10 / 10 = y / 1000 := by omega
  have e2 : y / 10 / 10 % 10 = y / 100 % 10 := by omega
  rw [e1, e2]
  rfl

theorem getYear_itoa {y : Nat} (h1 : 1000 ≤ y) (h2 : y < 10000) (r : Str) : getYear (itoa y ++ r) = some (y, r) := by
  rw [itoa_four h1 h2]
  have hd : isDigitAt ([digitChar (y / 1000), digitChar (y / 100 % 10), digitChar (y / 10 % 10), digitChar (y % 10)] ++ r) 0 = true := by
    show (match some (digitChar (y / 1000)) with | some b => (digitVal b).isSome | none => false) = true
    simp only [digitVal_digitChar (show y / 1000 < 10 by omega)]
    rfl
  unfold getYear
  rw [if_neg (by
    rintro (h | h)
    · simp only [List.length_append, List.length_cons] at h; omega
    · rw [hd] at h; cases h)]
  have ht : ([digitChar (y / 1000), digitChar (y / 100 % 10), digitChar (y / 10 % 10), digitChar (y % 10)] ++ r).take 4 =
      [digitChar (y / 1000), digitChar (y / 100 % 10), digitChar (y / 10 % 10), digitChar (y % 10)] := rfl
  have hr : ([digitChar (y / 1000), digitChar (y / 100 % 10), digitChar (y / 10 % 10), digitChar (y % 10)] ++ r).drop 4 = r := rfl
  rw [ht, hr]
  simp only [parseDigits, digitVal_digitChar (show y / 1000 < 10 by omega), digitVal_digitChar (show y / 100 % 10 < 10 by omega), digitVal_digitChar (show y / 10 % 10 < 10 by omega),
    digitVal_digitChar (show y % 10 < 10 by omega)]
  congr 2
  omega

theorem itoa_length_five {y : Nat} (h : 10000 ≤ y) : 5 ≤ (itoa y).length := by
  rw [itoa_step (by omega), itoa_step (n := y / 10) (by omega), itoa_step (n := y / 10 / 10) (by omega), itoa_step (n := y / 10 / 10 / 10) (by omega)]
  have := List.length_pos_iff.2 (itoa_ne_nil (y / 10 / 10 / 10 / 10))
  simp only [List.length_append, List.length_cons, List.length_nil]
  omega

/-- After the four digits that are read of a longer year comes a digit. -/
theorem getYear_long {y : Nat} (h : 10000 ≤ y) (r : Str) {n : Nat} {s : Str} (hg : getYear (itoa y ++ r) = some (n, s)) : ∃ c t, s = c :: t ∧ 48 ≤ c ∧ c ≤ 57 := by
  unfold getYear at hg
  split at hg
  · cases hg
  · split at hg
    · cases hg
    · cases hg
      have h5 := itoa_length_five h
      rw [List.drop_append_of_le_length (by omega)]
      cases hd : (itoa y).drop 4 with
      | nil =>
        have := List.drop_eq_nil_iff.1 hd
        omega
      | cons c t =>
        have hm : c ∈ itoa y := List.mem_of_mem_drop (i := 4) (by rw [hd]; exact List.mem_cons_self)
        exact ⟨c, t ++ r, rfl, itoa_digits y c hm⟩

/-! ## The clock and the zone -/

theorem clock_eq (s : Nat) (r : Str) : clock s ++ r = two (s / 3600) ++ (58 :: (two (s / 60 % 60) ++ (58 :: (two (s % 60) ++ r)))) := by
  simp [clock]

theorem ranged_some {lo hi n : Nat} {s : Str} (h : lo ≤ n ∧ n ≤ hi) : ranged lo hi (some (n, s)) = some (n, s) := by
  simp only [ranged]
  rw [if_pos h]

/-- Seconds that are followed by something that starts no fraction. -/
theorem getSeconds_two (pkg : TimePkg) {n : Nat} (h : n < 60) {c : UInt8} (hc : c ≠ 46 ∧ c ≠ 44) (r : Str) : getSeconds pkg (two n ++ c :: r) = some (n, 0, c :: r) := by
  unfold getSeconds
  rw [getnum_two (by omega), ranged_some (by omega)]
  simp only
  rw [if_neg]
  rintro ⟨h | ⟨_, h⟩, _⟩
  · exact hc.1 h
  · exact hc.2 h

/-- A zone that the version of package `time` accepts. -/
def ZoneFits (pkg : TimePkg) (z : Zone) : Prop := (z.hours < 100 ∧ z.minutes < 100) ∧ (pkg.strictZone = true → z.hours ≤ 24 ∧ z.minutes ≤ 60)

theorem zoneNum_two (pkg : TimePkg) {n max : Nat} (h : n < 100) (hm : pkg.strictZone = true → n ≤ max) : zoneNum pkg max (two n) = some (n : Int) := by
  have hp : parseDigits 0 (two n) = some n := by
    rw [two_eq h]
    simp only [parseDigits, digitVal_digitChar (show n / 10 < 10 by omega), digitVal_digitChar (show n % 10 < 10 by omega)]
    congr 1
    omega
  unfold zoneNum
  split
  · rename_i hs
    rw [hp]
    simp only
    rw [if_pos (hm hs)]
  · have key : ∀ n : Fin 100, atoi (two n.val) = some (n.val : Int) := by decide
    exact key ⟨n, h⟩

theorem zoneOffset_zone (pkg : TimePkg) {z : Zone} (h : ZoneFits pkg z) : zoneOffset pkg (if z.neg then 45 else 43) (two z.hours) (two z.minutes) = some z.offset := by
  unfold zoneOffset
  rw [zoneNum_two pkg h.1.1 (fun hs => (h.2 hs).1), zoneNum_two pkg h.1.2 (fun hs => (h.2 hs).2)]
  unfold Zone.offset
  cases z.neg
  · simp
  · simp

theorem getNumZone_zone (pkg : TimePkg) {z : Zone} (h : ZoneFits pkg z) : getNumZone pkg (z.text []) = some (z.offset, []) := by
  have hz := zoneOffset_zone pkg h
  unfold Zone.text
  rw [two_eq h.1.1, two_eq h.1.2] at hz ⊢
  cases hn : z.neg <;> rw [hn] at hz <;> simp only [Bool.false_eq_true, if_false, if_true] at hz ⊢ <;> simp [getNumZone, hz]

theorem getColonZone_zone (pkg : TimePkg) {z : Zone} (h : ZoneFits pkg z) : getColonZone pkg (z.text b!":") = some (z.offset, []) := by
  have hz := zoneOffset_zone pkg h
  unfold Zone.text
  rw [two_eq h.1.1, two_eq h.1.2] at hz ⊢
  cases hn : z.neg <;> rw [hn] at hz <;> simp only [Bool.false_eq_true, if_false, if_true] at hz ⊢ <;> simp [getColonZone, hz]

/-! ## Names -/

theorem lookup_day {i : Nat} (h : i < 7) (r : Str) : lookupName 0 shortDayNames (weekdayNames.getD i [] ++ r) = some (i, r) := by
  have : i = 0 ∨ i = 1 ∨ i = 2 ∨ i = 3 ∨ i = 4 ∨ i = 5 ∨ i = 6 := by omega
  rcases this with rfl | rfl | rfl | rfl | rfl | rfl | rfl <;> simp [weekdayNames, shortDayNames, lookupName, lowerByte]

theorem lookup_month {m : Nat} (h : 1 ≤ m ∧ m ≤ 12) (r : Str) : lookupName 1 shortMonthNames (monthNames.getD (m - 1) [] ++ r) = some (m, r) := by
  rcases month_cases h with rfl | rfl | rfl | rfl | rfl | rfl | rfl | rfl | rfl | rfl | rfl | rfl <;> simp [monthNames, shortMonthNames, lookupName, lowerByte]

theorem skipSpace_one {c : UInt8} (hc : c ≠ 32) (r : Str) : skipSpace (32 :: c :: r) = some (c :: r) := by
  simp [skipSpace, hc]

end Ripsrc
