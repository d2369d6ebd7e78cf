import Verif.Lib.Time
import Verif.Props.CommitMeta
import Verif.Props.BranchMeta
/-!
# C77: dates
-/
namespace Ripsrc
open Spec

theorem two_cons {n : Nat} (h : n < 100) : ∃ c t, two n = c :: t ∧ 48 ≤ c ∧ c ≤ 57 := by
  rw [two_eq h]
  refine ⟨_, _, rfl, ?_⟩
  have : ∀ d : Fin 10, 48 ≤ digitChar d.val ∧ digitChar d.val ≤ 57 := by decide
  exact this ⟨n / 10, by omega⟩

theorem month_day_lt (n : Nat) : (1 ≤ (civil n).month ∧ (civil n).month ≤ 12) ∧ 1 ≤ (civil n).day ∧ (civil n).day ≤ 31 ∧ (civil n).day ≤ daysIn (civil n).month (civil n).year := by
  obtain ⟨h1, h2, h3⟩ := civil_valid n
  have := monthDays_pos (civil n).year (civil n).month
  rw [daysIn_eq h1]
  omega

theorem finishTime_civil (w : Nat) (off : Int) :
    finishTime (civil (w / 86400)).year (civil (w / 86400)).month (civil (w / 86400)).day (w % 86400 / 3600) (w % 86400 / 60 % 60) (w % 86400 % 60) 0 off [] =
      some { unix := (w : Int) - off, offset := off } := by
  obtain ⟨_, h1, _, h2⟩ := month_day_lt (w / 86400)
  unfold finishTime
  rw [if_neg (by simp), if_neg (by omega), dateUnix_civil]
  have : w / 86400 * 86400 + (w % 86400 / 3600 * 3600 + w % 86400 / 60 % 60 * 60 + w % 86400 % 60) = w := by omega
  rw [this]

/-- The text of an ISO date up to the zone. -/
theorem parse_iso (pkg : TimePkg) (w : Nat) (hy : (civil (w / 86400)).year < 10000) {c : UInt8} (hc : c ≠ 46 ∧ c ≠ 44) (t : Str) :
    parseRFC3339 pkg (isoDate w (c :: t)) = (getColonZone pkg (c :: t)).bind (fun x =>
      finishTime (civil (w / 86400)).year (civil (w / 86400)).month (civil (w / 86400)).day (w % 86400 / 3600) (w % 86400 / 60 % 60) (w % 86400 % 60) 0 x.1 x.2) := by
  obtain ⟨hm, _, hd, _⟩ := month_day_lt (w / 86400)
  have hy1 := civil_year_ge (w / 86400)
  have e : isoDate w (c :: t) = itoa (civil (w / 86400)).year ++ (45 :: (two (civil (w / 86400)).month ++ (45 :: (two (civil (w / 86400)).day ++ (84 :: (clock (w % 86400) ++ c :: t)))))) := by
    simp [isoDate]
  rw [e, clock_eq]
  unfold parseRFC3339
  rw [getYear_itoa (by omega) hy]
  simp only [bind, Option.bind, skipByte, if_true]
  rw [getnum_two (by omega), ranged_some hm]
  simp only [if_true]
  rw [getnum_two (by omega)]
  simp only [if_true]
  rw [getnum_two (by omega), ranged_some (by omega)]
  simp only [if_true]
  rw [getnum_two (by omega), ranged_some (by omega)]
  simp only [if_true]
  rw [getSeconds_two pkg (by omega) hc]

/-- **C77 (calendar).** Every date of the Gregorian calendar from 1970 on is the date of exactly one number of days, and `Date` computes exactly that number: two dates never fall on
one day, and no date is left out. -/
theorem C77_calendar (c : Civil) (hm : 1 ≤ c.month ∧ c.month ≤ 12) (hd : 1 ≤ c.day ∧ c.day ≤ monthDays c.year c.month) (hy : 1970 ≤ c.year) :
    ∃ n, (∀ k, civil k = c ↔ k = n) ∧ ∀ h m s, dateUnix c.year c.month c.day h m s = ((n * 86400 + (h * 3600 + m * 60 + s) : Nat) : Int) := by
  obtain ⟨n, rfl⟩ := civil_surj _ c ⟨hm, hd⟩ hy rfl
  refine ⟨n, fun k => ⟨fun h => ?_, fun h => by rw [h]⟩, fun h m s => dateUnix_civil n h m s⟩
  have h1 := absDays_civil k
  have h2 := absDays_civil n
  rw [h] at h1
  omega

example : civil 11016 = ⟨2000, 2, 29⟩ := civil_of _ (by unfold Civil.Valid; decide) (by decide) (by decide +kernel)
theorem civil_2018 : civil 17862 = ⟨2018, 11, 27⟩ := civil_of _ (by unfold Civil.Valid; decide) (by decide) (by decide +kernel)
theorem civil_10000 : civil 2932897 = ⟨10000, 1, 1⟩ := civil_of _ (by unfold Civil.Valid; decide) (by decide) (by decide +kernel)

/-- One hour east. -/
def exZone : Zone := { neg := false, hours := 1, minutes := 0 }
theorem exZone_fits (pkg : TimePkg) : ZoneFits pkg exZone := ⟨by decide, fun _ => by decide⟩
/-- An offset that fits no clock, as some tools have written it. -/
def exBadZone : Zone := { neg := false, hours := 518, minutes := 0 }

theorem exIso : isoDate 1543355736 (exZone.text b!":") = b!"2018-11-27T21:55:36+01:00" := by
  unfold isoDate
  rw [show 1543355736 / 86400 = 17862 from rfl, civil_2018]
  decide

theorem exGit : gitDate 1543355736 exZone = b!"Tue Nov 27 21:55:36 2018 +0100" := by
  unfold gitDate
  rw [show 1543355736 / 86400 = 17862 from rfl, civil_2018]
  decide

theorem exLate : isoDate 253402300800 b!"Z" = b!"10000-01-01T00:00:00Z" := by
  unfold isoDate
  rw [show 253402300800 / 86400 = 2932897 from rfl, civil_10000]
  decide

/-- **C77 (author dates).** Every time `t` up to the end of the year 9999, in every zone that the version of Go accepts - at least those up to a day -, is read exactly from what git
prints for `%aI`: the second, no fraction, the offset of the author. `w` is the clock of the author. -/
theorem C77_author_date (pkg : TimePkg) (t : Int) (z : Zone) (hz : ZoneFits pkg z) (w : Nat) (hw : (w : Int) = t + z.offset) (hy : (civil (w / 86400)).year ≤ 9999) {zone : Str}
    (hzone : IsoZone z zone) : parseRFC3339 pkg (isoDate w zone) = some { unix := t, nsec := 0, offset := z.offset } := by
  have key : ∀ (c : UInt8) (r : Str), (c ≠ 46 ∧ c ≠ 44) → getColonZone pkg (c :: r) = some (z.offset, []) → parseRFC3339 pkg (isoDate w (c :: r)) = some { unix := t, nsec := 0, offset := z.offset } := by
    intro c r hc hg
    rw [parse_iso pkg w (by omega) hc, hg]
    simp only [Option.bind_some]
    rw [finishTime_civil, show (w : Int) - z.offset = t by omega]
  cases hzone with
  | num =>
    have hg := getColonZone_zone pkg hz
    obtain ⟨c, r, e, hc⟩ : ∃ c r, z.text b!":" = c :: r ∧ (c ≠ 46 ∧ c ≠ 44) := by
      unfold Zone.text
      cases z.neg
      · exact ⟨43, _, rfl, by decide⟩
      · exact ⟨45, _, rfl, by decide⟩
    rw [e] at hg ⊢
    exact key c r hc hg
  | utc h1 h2 =>
    have ho : z.offset = 0 := by unfold Zone.offset; rw [h1, h2]; simp
    refine key 90 [] (by decide) ?_
    rw [ho]
    rfl

example (pkg : TimePkg) : parseRFC3339 pkg b!"2018-11-27T21:55:36+01:00" = some { unix := 1543352136, nsec := 0, offset := 3600 } :=
  exIso ▸ C77_author_date pkg 1543352136 exZone (exZone_fits pkg) 1543355736 (by decide) (by rw [show 1543355736 / 86400 = 17862 from rfl, civil_2018]; decide) (.num _)

theorem parse_git (pkg : TimePkg) (w : Nat) (z : Zone) : parseGitTime pkg (gitDate w z) =
    (getYear (itoa (civil (w / 86400)).year ++ (32 :: z.text []))).bind (fun x => (skipSpace x.2).bind (fun s => (getNumZone pkg s).bind (fun y =>
      finishTime x.1 (civil (w / 86400)).month (civil (w / 86400)).day (w % 86400 / 3600) (w % 86400 / 60 % 60) (w % 86400 % 60) 0 y.1 y.2))) := by
  obtain ⟨hm, h1, hd, _⟩ := month_day_lt (w / 86400)
  have e : gitDate w z = weekdayNames.getD ((w / 86400 + 4) % 7) [] ++ (32 :: (monthNames.getD ((civil (w / 86400)).month - 1) [] ++ (32 :: (itoa (civil (w / 86400)).day ++
      (32 :: (clock (w % 86400) ++ (32 :: (itoa (civil (w / 86400)).year ++ (32 :: z.text []))))))))) := by
    simp [gitDate]
  have hfirst : ∀ n r, ∃ c t, itoa n ++ r = c :: t ∧ c ≠ 32 := by
    intro n r
    cases hi : itoa n with
    | nil => exact absurd hi (itoa_ne_nil n)
    | cons c t =>
      refine ⟨c, t ++ r, rfl, ?_⟩
      rintro rfl
      have := itoa_digits n 32 (by rw [hi]; exact List.mem_cons_self)
      exact absurd this (by decide)
  have hmonth : ∀ r, ∃ c t, monthNames.getD ((civil (w / 86400)).month - 1) [] ++ r = c :: t ∧ c ≠ 32 := by
    intro r
    rcases month_cases hm with h | h | h | h | h | h | h | h | h | h | h | h <;> rw [h] <;> exact ⟨_, _, rfl, by decide⟩
  have skip : ∀ s : Str, (∃ c t, s = c :: t ∧ c ≠ 32) → skipSpace (32 :: s) = some s := by
    rintro s ⟨c, t, rfl, hc⟩
    exact skipSpace_one hc t
  have hclock : ∀ r, ∃ c t, clock (w % 86400) ++ r = c :: t ∧ c ≠ 32 := by
    intro r
    obtain ⟨c, t, h, h2⟩ := two_cons (n := w % 86400 / 3600) (by omega)
    rw [clock_eq, h]
    refine ⟨c, _, rfl, ?_⟩
    rintro rfl
    exact absurd h2 (by decide)
  rw [e]
  unfold parseGitTime
  rw [lookup_day (by omega)]
  simp only [bind, Option.bind]
  rw [skip _ (hmonth _)]
  simp only
  rw [lookup_month hm]
  simp only
  rw [skip _ (hfirst _ _)]
  simp only
  rw [getnum_itoa (by omega) (by decide)]
  simp only
  rw [skip _ (hclock _), clock_eq]
  simp only
  rw [getnum_two (by omega), ranged_some (by omega)]
  simp only [skipByte, if_true]
  rw [getnum_two (by omega), ranged_some (by omega)]
  simp only [if_true]
  rw [getSeconds_two pkg (by omega) (by decide)]
  simp only
  rw [skip _ (hfirst _ _)]

/-- **C77 (branch dates).** The same for the date that git prints for the last commit of a branch. -/
theorem C77_branch_date (pkg : TimePkg) (t : Int) (z : Zone) (hz : ZoneFits pkg z) (w : Nat) (hw : (w : Int) = t + z.offset) (hy : (civil (w / 86400)).year ≤ 9999) :
    parseGitTime pkg (gitDate w z) = some { unix := t, nsec := 0, offset := z.offset } := by
  have hy1 := civil_year_ge (w / 86400)
  rw [parse_git, getYear_itoa (by omega) (by omega)]
  simp only [Option.bind_some]
  have hs : skipSpace (32 :: z.text []) = some (z.text []) := by
    unfold Zone.text
    cases z.neg <;> exact skipSpace_one (by decide) _
  rw [hs]
  simp only [Option.bind_some]
  rw [getNumZone_zone pkg hz]
  simp only [Option.bind_some]
  rw [finishTime_civil, show (w : Int) - z.offset = t by omega]

example (pkg : TimePkg) : parseGitTime pkg b!"Tue Nov 27 21:55:36 2018 +0100" = some { unix := 1543352136, nsec := 0, offset := 3600 } :=
  exGit ▸ C77_branch_date pkg 1543352136 exZone (exZone_fits pkg) 1543355736 (by decide) (by rw [show 1543355736 / 86400 = 17862 from rfl, civil_2018]; decide)

/-- **C77 (late years).** A date from the year 10000 on is not read, whatever the zone. -/
theorem C77_late_year (pkg : TimePkg) (w : Nat) (hy : 10000 ≤ (civil (w / 86400)).year) (zone : Str) (z : Zone) :
    parseRFC3339 pkg (isoDate w zone) = none ∧ parseGitTime pkg (gitDate w z) = none := by
  constructor
  · have e : isoDate w zone = itoa (civil (w / 86400)).year ++ (b!"-" ++ two (civil (w / 86400)).month ++ b!"-" ++ two (civil (w / 86400)).day ++ b!"T" ++ clock (w % 86400) ++ zone) := by
      simp [isoDate]
    rw [e]
    unfold parseRFC3339
    simp only [bind, Option.bind]
    cases hg : getYear _ with
    | none => rfl
    | some x =>
      obtain ⟨n, s⟩ := x
      obtain ⟨c, t, rfl, h1, h2⟩ := getYear_long hy _ hg
      have hc : c ≠ 45 := by rintro rfl; exact absurd h1 (by decide)
      simp only [skipByte, if_neg hc]
  · rw [parse_git]
    cases hg : getYear _ with
    | none => rfl
    | some x =>
      obtain ⟨n, s⟩ := x
      obtain ⟨c, t, rfl, h1, h2⟩ := getYear_long hy _ hg
      have hc : c ≠ 32 := by rintro rfl; exact absurd h1 (by decide)
      simp only [Option.bind_some, skipSpace, if_neg hc, Option.bind_none]

example (pkg : TimePkg) : parseRFC3339 pkg b!"10000-01-01T00:00:00Z" = none :=
  exLate ▸ (C77_late_year pkg 253402300800 (by rw [show 253402300800 / 86400 = 2932897 from rfl, civil_10000]; decide) b!"Z" exZone).1

/-! ## Zones that are not accepted -/

theorem itoa_length_three {n : Nat} (h : 100 ≤ n) : 3 ≤ (itoa n).length := by
  rw [itoa_step (by omega), itoa_step (n := n / 10) (by omega)]
  have := List.length_pos_iff.2 (itoa_ne_nil (n / 10 / 10))
  simp only [List.length_append, List.length_cons, List.length_nil]
  omega

theorem two_long {n : Nat} (h : 100 ≤ n) : ∃ a b c t, two n = a :: b :: c :: t ∧ 48 ≤ c ∧ c ≤ 57 := by
  have h3 := itoa_length_three h
  have hd := itoa_digits n
  unfold two
  rw [if_neg (by omega)]
  match itoa n, h3, hd with
  | a :: b :: c :: t, _, hd => exact ⟨a, b, c, t, rfl, hd c (by simp)⟩

theorem two_any (n : Nat) : ∃ a b t, two n = a :: b :: t ∧ (100 ≤ n → t ≠ []) ∧ (n < 100 → t = []) := by
  by_cases h : n < 100
  · exact ⟨_, _, [], two_eq h, fun h' => by omega, fun _ => rfl⟩
  · obtain ⟨a, b, c, t, e, _⟩ := two_long (n := n) (by omega)
    exact ⟨a, b, c :: t, e, by simp, fun h' => by omega⟩

theorem zoneNum_out (pkg : TimePkg) {n max : Nat} (h : n < 100) (hs : pkg.strictZone = true) (hm : max < n) : zoneNum pkg max (two n) = none := by
  have hp : parseDigits 0 (two n) = some n := by
    rw [two_eq h]
    simp only [parseDigits, digitVal_digitChar (show n / 10 < 10 by omega), digitVal_digitChar (show n % 10 < 10 by omega)]
    congr 1
    omega
  unfold zoneNum
  rw [if_pos hs, hp]
  simp only
  rw [if_neg (by omega)]

theorem zoneOffset_out (pkg : TimePkg) {z : Zone} (h : z.hours < 100 ∧ z.minutes < 100) (hz : ¬ ZoneFits pkg z) (sign : UInt8) :
    zoneOffset pkg sign (two z.hours) (two z.minutes) = none := by
  have hs : pkg.strictZone = true ∧ (24 < z.hours ∨ 60 < z.minutes) := by
    cases hp : pkg.strictZone with
    | false => exact absurd ⟨h, by simp [hp]⟩ hz
    | true =>
      refine ⟨rfl, ?_⟩
      by_cases h1 : z.hours ≤ 24
      · by_cases h2 : z.minutes ≤ 60
        · exact absurd ⟨h, fun _ => ⟨h1, h2⟩⟩ hz
        · right; omega
      · left; omega
  unfold zoneOffset
  rcases hs.2 with h1 | h1
  · rw [zoneNum_out pkg h.1 hs.1 h1]
  · rw [zoneNum_out pkg h.2 hs.1 h1]
    cases zoneNum pkg 24 (two z.hours) <;> rfl

/-- The zone is not read, or something is left of it. -/
theorem getNumZone_out (pkg : TimePkg) {z : Zone} (hz : ¬ ZoneFits pkg z) : ∀ x, getNumZone pkg (z.text []) = some x → x.2 ≠ [] := by
  intro x hx
  by_cases h : z.hours < 100 ∧ z.minutes < 100
  · have ho := zoneOffset_out pkg h hz
    unfold Zone.text at hx
    rw [two_eq h.1, two_eq h.2] at hx ho
    cases hn : z.neg <;> rw [hn] at hx <;> simp [getNumZone, ho] at hx
  · obtain ⟨a, b, t, e1, e2, e3⟩ := two_any z.hours
    obtain ⟨c, d, u, f1, f2, f3⟩ := two_any z.minutes
    unfold Zone.text at hx
    rw [e1, f1] at hx
    have key : ∀ s : UInt8, getNumZone pkg (s :: a :: b :: (t ++ c :: d :: u)) = some x → x.2 ≠ [] := by
      intro s hx
      match t, hx, e2, e3 with
      | [], hx, e2, e3 =>
        have hu : u ≠ [] := f2 (by
          have : z.hours < 100 := by
            by_cases h' : 100 ≤ z.hours
            · exact absurd rfl (e2 h')
            · omega
          omega)
        simp only [List.nil_append, getNumZone, Option.map_eq_some_iff] at hx
        obtain ⟨o, _, rfl⟩ := hx
        exact hu
      | [t1], hx, _, _ =>
        simp only [List.cons_append, List.nil_append, getNumZone, Option.map_eq_some_iff] at hx
        obtain ⟨o, _, rfl⟩ := hx
        simp
      | t1 :: t2 :: t, hx, _, _ =>
        simp only [List.cons_append, getNumZone, Option.map_eq_some_iff] at hx
        obtain ⟨o, _, rfl⟩ := hx
        simp
    cases hn : z.neg <;> rw [hn] at hx <;> simp only [Bool.false_eq_true, if_false, if_true, List.append_nil] at hx
    · exact key 43 (by simpa using hx)
    · exact key 45 (by simpa using hx)

theorem getColonZone_out (pkg : TimePkg) {z : Zone} (hz : ¬ ZoneFits pkg z) : ∀ x, getColonZone pkg (z.text b!":") = some x → x.2 ≠ [] := by
  intro x hx
  by_cases h : z.hours < 100 ∧ z.minutes < 100
  · have ho := zoneOffset_out pkg h hz
    unfold Zone.text at hx
    rw [two_eq h.1, two_eq h.2] at hx ho
    cases hn : z.neg <;> rw [hn] at hx <;> simp [getColonZone, ho] at hx
  · unfold Zone.text at hx
    by_cases h1 : z.hours < 100
    · obtain ⟨c, d, u, f1, f2, f3⟩ := two_any z.minutes
      rw [two_eq h1, f1] at hx
      have hu : u ≠ [] := f2 (by omega)
      cases hn : z.neg <;> rw [hn] at hx <;> simp [getColonZone] at hx <;> obtain ⟨o, _, rfl⟩ := hx <;> exact hu
    · obtain ⟨a, b, c, t, e, hc1, hc2⟩ := two_long (n := z.hours) (by omega)
      obtain ⟨p, q, u, f1, _⟩ := two_any z.minutes
      rw [e, f1] at hx
      have hc : c ≠ 58 := by rintro rfl; exact absurd hc2 (by decide)
      cases hn : z.neg <;> rw [hn] at hx <;> simp [getColonZone] at hx
      · revert hx
        split
        · rename_i h; cases h
        · rename_i h; injection h with h h'; injection h' with h' h''; injection h'' with h'' h3; injection h3 with h3 _; subst h3; simp [hc]
        · intro hx; cases hx
      · revert hx
        split
        · rename_i h; cases h
        · rename_i h; injection h with h h'; injection h' with h' h''; injection h'' with h'' h3; injection h3 with h3 _; subst h3; simp [hc]
        · intro hx; cases hx

theorem finishTime_rest {y m d h mi s n : Nat} {o : Int} {r : Str} (hr : r ≠ []) : finishTime y m d h mi s n o r = none := by
  unfold finishTime
  rw [if_pos hr]

/-- **C77 (zones).** A date with another zone - 100 hours or more, in new versions of Go also more than 24 hours or more than 60 minutes - is not read. -/
theorem C77_zone_rejected (pkg : TimePkg) (z : Zone) (hz : ¬ ZoneFits pkg z) (w : Nat) :
    parseRFC3339 pkg (isoDate w (z.text b!":")) = none ∧ parseGitTime pkg (gitDate w z) = none := by
  by_cases hy : 10000 ≤ (civil (w / 86400)).year
  · exact C77_late_year pkg w hy _ z
  have hy1 := civil_year_ge (w / 86400)
  constructor
  · obtain ⟨c, r, e, hc⟩ : ∃ c r, z.text b!":" = c :: r ∧ (c ≠ 46 ∧ c ≠ 44) := by
      unfold Zone.text
      cases z.neg
      · exact ⟨43, _, rfl, by decide⟩
      · exact ⟨45, _, rfl, by decide⟩
    have ho := getColonZone_out pkg hz
    rw [e] at ho ⊢
    rw [parse_iso pkg w (by omega) hc]
    cases hg : getColonZone pkg (c :: r) with
    | none => rfl
    | some x => exact finishTime_rest (ho x hg)
  · rw [parse_git, getYear_itoa (by omega) (by omega)]
    simp only [Option.bind_some]
    have hs : skipSpace (32 :: z.text []) = some (z.text []) := by
      unfold Zone.text
      cases z.neg <;> exact skipSpace_one (by decide) _
    rw [hs]
    simp only [Option.bind_some]
    cases hg : getNumZone pkg (z.text []) with
    | none => rfl
    | some x => exact finishTime_rest (getNumZone_out pkg hz x hg)

theorem exBadIso : isoDate 1543355736 (exBadZone.text b!":") = b!"2018-11-27T21:55:36+518:00" := by
  unfold isoDate
  rw [show 1543355736 / 86400 = 17862 from rfl, civil_2018]
  decide

theorem exBadGit : gitDate 1543355736 exBadZone = b!"Tue Nov 27 21:55:36 2018 +51800" := by
  unfold gitDate
  rw [show 1543355736 / 86400 = 17862 from rfl, civil_2018]
  decide

theorem exBad_fits (pkg : TimePkg) : ¬ ZoneFits pkg exBadZone := by
  unfold ZoneFits
  intro h
  exact absurd h.1.1 (by decide)

example (pkg : TimePkg) : parseRFC3339 pkg b!"2018-11-27T21:55:36+518:00" = none := exBadIso ▸ (C77_zone_rejected pkg exBadZone (exBad_fits pkg) 1543355736).1
example (pkg : TimePkg) : parseGitTime pkg b!"Tue Nov 27 21:55:36 2018 +51800" = none := exBadGit ▸ (C77_zone_rejected pkg exBadZone (exBad_fits pkg) 1543355736).2

/-! ## Commits and branches -/

/-- All digits. -/
theorem two_digits (n : Nat) : ∀ b ∈ two n, 48 ≤ b ∧ b ≤ 57 := by
  intro b hb
  unfold two at hb
  split at hb
  · rcases List.mem_cons.1 hb with rfl | hb
    · decide
    · exact itoa_digits n b hb
  · exact itoa_digits n b hb

theorem digit_graphic {b : UInt8} (h : 48 ≤ b ∧ b ≤ 57) : 32 < b ∧ b < 127 :=
  ⟨UInt8.lt_of_lt_of_le (by decide) h.1, UInt8.lt_of_le_of_lt h.2 (by decide)⟩

theorem graphic_append {a b : Str} (ha : Graphic a) (hb : Graphic b) : Graphic (a ++ b) := by
  intro x hx
  rcases List.mem_append.1 hx with hx | hx
  · exact ha x hx
  · exact hb x hx

theorem graphic_two (n : Nat) : Graphic (two n) := fun b hb => digit_graphic (two_digits n b hb)
theorem graphic_itoa (n : Nat) : Graphic (itoa n) := fun b hb => digit_graphic (itoa_digits n b hb)

theorem graphic_clock (s : Nat) : Graphic (clock s) := by
  have hc : Graphic b!":" := by unfold Graphic; decide
  unfold clock
  exact graphic_append (graphic_append (graphic_append (graphic_append (graphic_two _) hc) (graphic_two _)) hc) (graphic_two _)

theorem graphic_zone (z : Zone) {sep : Str} (h : Graphic sep) : Graphic (z.text sep) := by
  unfold Zone.text
  refine graphic_append (graphic_append (graphic_append ?_ (graphic_two _)) h) (graphic_two _)
  cases z.neg <;> (unfold Graphic; decide)

/-- An ISO date is a word. -/
theorem isoDate_graphic (w : Nat) {zone : Str} (h : Graphic zone) : isoDate w zone ≠ [] ∧ Graphic (isoDate w zone) := by
  constructor
  · simp [isoDate]
  · unfold isoDate
    have h1 : Graphic b!"-" := by unfold Graphic; decide
    have h2 : Graphic b!"T" := by unfold Graphic; decide
    exact graphic_append (graphic_append (graphic_append (graphic_append (graphic_append (graphic_append (graphic_append (graphic_itoa _) h1) (graphic_two _)) h1) (graphic_two _)) h2)
      (graphic_clock _)) h

theorem isoZone_graphic {z : Zone} {zone : Str} (h : IsoZone z zone) : Graphic zone := by
  cases h with
  | num => exact graphic_zone z (by unfold Graphic; decide)
  | utc _ _ => unfold Graphic; decide

/-- The commit was made at the time `t` in the zone `z`, and git prints that date. -/
structure Spec.AuthoredAt (c : CommitRec GoTime) (t : Int) (z : Zone) : Prop where
  date : c.date = { unix := t, nsec := 0, offset := z.offset }
  text : ∃ (w : Nat) (zone : Str), (w : Int) = t + z.offset ∧ IsoZone z zone ∧ c.dateText = isoDate w zone ∧ (civil (w / 86400)).year ≤ 9999

/-- **C77 (commits).** For every log in which all commits were made before the year 10000 and in accepted zones, all commits are reported, each with the second at which it was made and
the offset of the author. -/
theorem C77_commits (pkg : TimePkg) (cs : List (CommitRec GoTime)) (h : ∀ c ∈ cs, c.Ok (fun _ => some c.date)) (hd : ∀ c ∈ cs, ∃ t z, ZoneFits pkg z ∧ AuthoredAt c t z)
    (hlen : ∀ c ∈ cs, ∀ l ∈ c.lines, l.length < 65536) :
    ∃ ms, metaRun (parseRFC3339 pkg) (metaLogText cs) = (ms, none) ∧ ms.length = cs.length ∧
      ∀ (i : Nat) (c : CommitRec GoTime) (m : MetaCommit GoTime), cs[i]? = some c → ms[i]? = some m → Reported c (i + 1) m ∧
        ∀ t z, AuthoredAt c t z → m.date = some { unix := t, nsec := 0, offset := z.offset } := by
  obtain ⟨ms, h1, h2, h3⟩ := C38_commit_parser (parseDate := parseRFC3339 pkg) cs (by
    intro c hc
    obtain ⟨t, z, hz, hdate, w, zone, hw, hzone, htext, hy⟩ := hd c hc
    have ho := h c hc
    refine ⟨ho.sha, ho.parents, ho.text, ⟨?_, ho.date.2⟩, ho.raws, ho.stats, ho.combined, ho.combinedStats, ho.distinct⟩
    rw [htext, hdate]
    exact C77_author_date pkg t z hz w hw hy hzone) hlen
  refine ⟨ms, h1, h2, fun i c m hc hm => ⟨h3 i c m hc hm, fun t z ha => ?_⟩⟩
  rw [(h3 i c m hc hm).date, ha.date]

/-- **C77 (bad commit dates).** One commit with a date from the year 10000 on, or in another zone, and the call fails; the commits before it are reported, no later one is. -/
theorem C77_commit_fails (pkg : TimePkg) (cs rest : List (CommitRec GoTime)) (c : CommitRec GoTime) (h : ∀ x ∈ cs ++ c :: rest, x.Ok (fun _ => some x.date))
    (hd : ∀ x ∈ cs, ∃ t z, ZoneFits pkg z ∧ AuthoredAt x t z) (w : Nat) (z : Zone)
    (hbad : (c.dateText = isoDate w (z.text b!":") ∧ ¬ ZoneFits pkg z) ∨ ∃ zone, c.dateText = isoDate w zone ∧ 10000 ≤ (civil (w / 86400)).year)
    (hlen : ∀ x ∈ cs ++ c :: rest, ∀ l ∈ x.lines, l.length < 65536) :
    ∃ ms, metaRun (parseRFC3339 pkg) (metaLogText (cs ++ c :: rest)) = (ms, some (.error "error parsing commit")) ∧ ms.length = cs.length := by
  obtain ⟨ms, h1, h2, _⟩ := C38_bad_date (parseDate := parseRFC3339 pkg) cs rest c (by
    intro x hx
    obtain ⟨t, z, hz, hdate, w, zone, hw, hzone, htext, hy⟩ := hd x hx
    have ho := h x (List.mem_append_left _ hx)
    refine ⟨ho.sha, ho.parents, ho.text, ⟨?_, ho.date.2⟩, ho.raws, ho.stats, ho.combined, ho.combinedStats, ho.distinct⟩
    rw [htext, hdate]
    exact C77_author_date pkg t z hz w hw hy hzone) (h c (by simp))
    (by
      rcases hbad with ⟨e, hz⟩ | ⟨zone, e, hy⟩
      · rw [e]; exact (C77_zone_rejected pkg z hz w).1
      · rw [e]; exact (C77_late_year pkg w hy zone z).1)
    (fun x hx => h x (by simp [hx])) hlen
  exact ⟨ms, h1, h2⟩

/-- A commit with a date as git prints it. -/
def exDated (sha dateText : Str) : CommitRec GoTime :=
  { sha := sha, parents := [], committerEmail := b!"e@x", committerName := b!"C N", authorEmail := b!"a@x", authorName := b!"A N", dateText := dateText,
    date := { unix := 1543352136, nsec := 0, offset := 3600 }, message := b!"m",
    raws := [⟨b!"000000", b!"100644", b!"0", b!"1", .added, b!"a"⟩], stats := [{ path := b!"a", name := b!"a", counts := some (1, 0) }] }

theorem exDated_ok {sha dateText : Str} (h1 : sha ≠ [] ∧ Token sha) (h2 : dateText ≠ [] ∧ Graphic dateText) :
    (exDated sha dateText).Ok (fun _ => some (exDated sha dateText).date) := by
  refine ⟨h1, (fun p hp => nomatch hp), ?_, ⟨rfl, h2⟩, ?_, ?_, (fun l hl => nomatch hl), fun h => absurd rfl h, ?_⟩
  · show NoNL b!"e@x" ∧ NoNL b!"C N" ∧ NoNL b!"a@x" ∧ NoNL b!"A N" ∧ NoNL b!"m"
    decide
  · intro r hr
    simp only [exDated, List.mem_cons, List.not_mem_nil, or_false] at hr
    subst hr
    exact ⟨by decide, by decide, trivial⟩
  · intro s hs
    simp only [exDated, List.mem_cons, List.not_mem_nil, or_false] at hs
    subst hs
    exact ⟨.same _ (not_infix_of_not_mem (c := 61) (by decide) (by decide)), by decide, fun a d h => by cases h; decide⟩
  · show ((exDated [] []).entries.map Prod.fst).Nodup ∧ ((exDated [] []).stats.map StatRec.path).Nodup
    decide

theorem exDated_at : AuthoredAt (exDated b!"c1" b!"2018-11-27T21:55:36+01:00") 1543352136 exZone :=
  ⟨rfl, 1543355736, _, by decide, .num _, exIso.symm, by rw [show 1543355736 / 86400 = 17862 from rfl, civil_2018]; decide⟩

/-- A log of two commits; and one with a commit of a bad zone between. -/
example (pkg : TimePkg) : ∃ ms, metaRun (parseRFC3339 pkg) (metaLogText [exDated b!"c1" b!"2018-11-27T21:55:36+01:00"]) = (ms, none) ∧ ms.length = 1 := by
  obtain ⟨ms, h1, h2, _⟩ := C77_commits pkg [exDated b!"c1" b!"2018-11-27T21:55:36+01:00"]
    (by intro c hc; rw [List.mem_singleton.1 hc]; exact exDated_ok (by decide) (by decide))
    (by intro c hc; rw [List.mem_singleton.1 hc]; exact ⟨_, _, exZone_fits pkg, exDated_at⟩) (by decide)
  exact ⟨ms, h1, h2⟩

example (pkg : TimePkg) : ∃ ms, metaRun (parseRFC3339 pkg) (metaLogText ([exDated b!"c1" b!"2018-11-27T21:55:36+01:00"] ++ exDated b!"c2" b!"2018-11-27T21:55:36+518:00" ::
    [exDated b!"c3" b!"2018-11-27T21:55:36+01:00"])) = (ms, some (.error "error parsing commit")) ∧ ms.length = 1 := by
  obtain ⟨ms, h1, h2⟩ := C77_commit_fails pkg [exDated b!"c1" b!"2018-11-27T21:55:36+01:00"] [exDated b!"c3" b!"2018-11-27T21:55:36+01:00"] (exDated b!"c2" b!"2018-11-27T21:55:36+518:00")
    (by
      intro c hc
      simp only [List.cons_append, List.nil_append, List.mem_cons, List.not_mem_nil, or_false] at hc
      rcases hc with rfl | rfl | rfl <;> exact exDated_ok (by decide) (by decide))
    (by intro c hc; rw [List.mem_singleton.1 hc]; exact ⟨_, _, exZone_fits pkg, exDated_at⟩) 1543355736 exBadZone (Or.inl ⟨exBadIso.symm, exBad_fits pkg⟩) (by decide)
  exact ⟨ms, h1, h2⟩

theorem noNL_of_graphic {s : Str} (h : Graphic s) : NoNL s := fun hm => absurd (h 10 hm).1 (by decide)

theorem gitDate_ok (w : Nat) (z : Zone) : NoNL (gitDate w z) ∧ ∃ d c, gitDate w z = d ++ [c] ∧ 48 ≤ c ∧ c ≤ 57 := by
  constructor
  · have hm : ∀ i, NoNL (monthNames.getD i []) := by
      intro i
      have hall : ∀ n ∈ monthNames, NoNL n := by decide
      rw [List.getD_eq_getElem?_getD]
      cases hg : monthNames[i]? with
      | none => simp [NoNL]
      | some n => exact hall n (List.mem_of_getElem? hg)
    have hw : ∀ i, NoNL (weekdayNames.getD i []) := by
      intro i
      have hall : ∀ n ∈ weekdayNames, NoNL n := by decide
      rw [List.getD_eq_getElem?_getD]
      cases hg : weekdayNames[i]? with
      | none => simp [NoNL]
      | some n => exact hall n (List.mem_of_getElem? hg)
    have h1 := hw ((w / 86400 + 4) % 7)
    have h2 := hm ((civil (w / 86400)).month - 1)
    have h3 := noNL_of_graphic (graphic_itoa (civil (w / 86400)).day)
    have h4 := noNL_of_graphic (graphic_itoa (civil (w / 86400)).year)
    have h5 := noNL_of_graphic (graphic_clock (w % 86400))
    have h6 := noNL_of_graphic (graphic_zone z (sep := []) (by intro b hb; cases hb))
    have hs : NoNL b!" " := by decide
    unfold NoNL at h1 h2 h3 h4 h5 h6 hs ⊢
    simp only [gitDate, List.mem_append, not_or]
    exact ⟨⟨⟨⟨⟨⟨⟨⟨⟨⟨h1, hs⟩, h2⟩, hs⟩, h3⟩, hs⟩, h5⟩, hs⟩, h4⟩, hs⟩, h6⟩
  · have hd := two_digits z.minutes
    obtain ⟨a, b, t, e, _⟩ := two_any z.minutes
    have hne : two z.minutes ≠ [] := by rw [e]; simp
    have hl := List.dropLast_concat_getLast hne
    have hlast := hd _ (List.getLast_mem hne)
    generalize (two z.minutes).getLast hne = c at hl hlast
    refine ⟨?_, c, ?_, hlast⟩
    · exact weekdayNames.getD ((w / 86400 + 4) % 7) [] ++ b!" " ++ monthNames.getD ((civil (w / 86400)).month - 1) [] ++ b!" " ++ itoa (civil (w / 86400)).day ++ b!" " ++
        clock (w % 86400) ++ b!" " ++ itoa (civil (w / 86400)).year ++ b!" " ++ ((if z.neg then b!"-" else b!"+") ++ two z.hours ++ (two z.minutes).dropLast)
    · simp only [gitDate, Zone.text]
      conv => lhs; rw [← hl]
      simp

/-- The ref points to a commit committed at the time `t` in the zone `z`, and git prints that date. -/
structure Spec.CommittedAt (r : RefEntry) (t : Int) (z : Zone) : Prop where
  text : ∃ w : Nat, (w : Int) = t + z.offset ∧ r.date = gitDate w z ∧ (civil (w / 86400)).year ≤ 9999

/-- **C77 (branches).** For every listing of refs to commits committed before the year 10000 and in accepted zones, the branches are listed, each with the second at which its last commit
was committed and the offset of the committer. -/
theorem C77_branches (pkg : TimePkg) (opts : BranchOpts) (d : Str) (rs : List (RefEntry × (Int × Zone))) (hd : d ≠ [] ∧ Trimmed d)
    (h : ∀ r ∈ rs, r.1.Ok ∧ ZoneFits pkg r.2.2 ∧ CommittedAt r.1 r.2.1 r.2.2 ∧ (opts.useOrigin = true → ∃ n, r.1.name = b!"origin/" ++ n))
    (hnd : (rs.map (fun r => r.1.name)).Nodup) :
    ∃ m, (∀ res, BranchGet (parseGitTime pkg) opts (d ++ [10]) (refText (rs.map Prod.fst)) res ↔ res = .ok m) ∧
      ∀ b, b ∈ m ↔ ∃ r ∈ rs, r.1.Wanted opts.useOrigin opts.includeDefault d ∧
        b = { name := r.1.shown opts.useOrigin, commit := r.1.commit, time := { unix := r.2.1, nsec := 0, offset := r.2.2.offset } } := by
  obtain ⟨m, h1, h2, h3, _, _⟩ := C47_branch_listing (parseGitTime pkg) opts d (rs.map (fun r => (r.1, ({ unix := r.2.1, nsec := 0, offset := r.2.2.offset } : GoTime)))) hd
    (by
      intro x hx
      obtain ⟨r, hr, rfl⟩ := List.mem_map.1 hx
      obtain ⟨a, b, ⟨w, hw, e, hy⟩, c⟩ := h r hr
      refine ⟨a, ?_, c⟩
      show parseGitTime pkg r.1.date = _
      rw [e]
      exact C77_branch_date pkg _ _ b w hw hy)
    (by rw [List.map_map]; exact hnd)
  have e : (rs.map (fun r => (r.1, ({ unix := r.2.1, nsec := 0, offset := r.2.2.offset } : GoTime)))).map Prod.fst = rs.map Prod.fst := by rw [List.map_map]; rfl
  rw [e] at h1 h2
  refine ⟨m, fun res => ⟨h2 res, fun hr => hr ▸ h1⟩, fun b => ?_⟩
  rw [h3]
  constructor
  · rintro ⟨x, hx, hw, hb⟩
    obtain ⟨r, hr, rfl⟩ := List.mem_map.1 hx
    exact ⟨r, hr, hw, hb⟩
  · rintro ⟨r, hr, hw, hb⟩
    exact ⟨_, List.mem_map.2 ⟨r, hr, rfl⟩, hw, hb⟩

/-- **C77 (bad branch dates).** One ref to a commit with a date from the year 10000 on, or in another zone, and the whole listing panics - also if that branch is the default
branch, which is not listed. -/
theorem C77_branch_panics (pkg : TimePkg) (opts : BranchOpts) (d : Str) (rs : List (RefEntry × (Int × Zone))) (bad : RefEntry) (rest : List RefEntry) (hd : d ≠ [] ∧ Trimmed d)
    (h : ∀ r ∈ rs, r.1.Ok ∧ ZoneFits pkg r.2.2 ∧ CommittedAt r.1 r.2.1 r.2.2 ∧ (opts.useOrigin = true → ∃ n, r.1.name = b!"origin/" ++ n)) (hok : bad.Ok)
    (hrest : ∀ r ∈ rest, NoNL r.line) (w : Nat) (z : Zone) (hbad : bad.date = gitDate w z ∧ (¬ ZoneFits pkg z ∨ 10000 ≤ (civil (w / 86400)).year)) (res : Go (List (BranchTime GoTime))) :
    BranchGet (parseGitTime pkg) opts (d ++ [10]) (refText (rs.map Prod.fst ++ bad :: rest)) res ↔ res = .error (.panic "invalid date format") := by
  have hdate : parseGitTime pkg bad.date = none := by
    rw [hbad.1]
    rcases hbad.2 with hz | hy
    · exact (C77_zone_rejected pkg z hz w).2
    · exact (C77_late_year pkg w hy [] z).2
  have hline : branchLine (parseGitTime pkg) opts d bad.line = .error (.panic "invalid date format") := by
    obtain ⟨c, t', hl, hc, htrim⟩ := ref_line_shape hok
    obtain ⟨h1, h2⟩ := ref_cuts hok
    unfold branchLine
    rw [hl] at h1 htrim ⊢
    rw [htrim]
    simp only [hc, if_false, h1, h2, hdate]
  have hloop : ∀ (rs : List (RefEntry × (Int × Zone))) (tl : List Str), (∀ r ∈ rs, r.1.Ok ∧ ZoneFits pkg r.2.2 ∧ CommittedAt r.1 r.2.1 r.2.2 ∧
      (opts.useOrigin = true → ∃ n, r.1.name = b!"origin/" ++ n)) →
      branchLoop (parseGitTime pkg) opts d (rs.map (fun r => r.1.line) ++ bad.line :: tl) = .error (.panic "invalid date format") := by
    intro rs tl
    induction rs with
    | nil =>
      intro _
      simp only [List.map_nil, List.nil_append, branchLoop, hline]
      rfl
    | cons r rs ih =>
      intro h
      obtain ⟨a, b, ⟨w, hw, e, hy⟩, c⟩ := h r (by simp)
      simp only [List.map_cons, List.cons_append, branchLoop]
      rw [branchLine_ref (parseGitTime pkg) opts d r.1 _ a (by rw [e]; exact C77_branch_date pkg _ _ b w hw hy) c, ih (fun x hx => h x (by simp [hx]))]
      rfl
  have hun : branchGetUnsorted (parseGitTime pkg) opts (d ++ [10]) (refText (rs.map Prod.fst ++ bad :: rest)) = .error (.panic "invalid date format") := by
    unfold branchGetUnsorted getDefaultBranch
    rw [trimSpace_line hd.2]
    simp only [if_neg hd.1, bind, Except.bind]
    unfold refText
    rw [splitByte_unlines _ (by
      intro l hl
      obtain ⟨r, hr, rfl⟩ := List.mem_map.1 hl
      rcases List.mem_append.1 hr with hr | hr
      · obtain ⟨x, hx, rfl⟩ := List.mem_map.1 hr
        exact ref_line_noNL (h x hx).1
      · rcases List.mem_cons.1 hr with rfl | hr
        · exact ref_line_noNL hok
        · exact hrest r hr)]
    rw [List.map_append, List.map_cons, List.map_map, List.append_assoc, List.cons_append]
    exact hloop rs _ h
  unfold BranchGet
  rw [hun]

/-- A branch with a date as git prints it. -/
def exRef (name date : Str) : RefEntry := ⟨b!"aa", name, date⟩

theorem exRef_ok {name date : Str} {z : Zone} (hd : gitDate 1543355736 z = date) (h : NoNL name ∧ FirstAt b!"@@@" name) : (exRef name date).Ok :=
  ⟨by show b!"aa" ≠ [] ∧ ∀ b ∈ b!"aa", 48 ≤ b ∧ b ≤ 57 ∨ 97 ≤ b ∧ b ≤ 102; decide, h, hd ▸ gitDate_ok _ _⟩

theorem exRef_at (name : Str) : CommittedAt (exRef name b!"Tue Nov 27 21:55:36 2018 +0100") 1543352136 exZone :=
  ⟨1543355736, by decide, exGit.symm, by rw [show 1543355736 / 86400 = 17862 from rfl, civil_2018]; decide⟩

example (pkg : TimePkg) : ∃ m, BranchGet (parseGitTime pkg) { useOrigin := false, includeDefault := false } b!"master\n"
      (refText [exRef b!"a" b!"Tue Nov 27 21:55:36 2018 +0100", exRef b!"master" b!"Tue Nov 27 21:55:36 2018 +0100"]) (.ok m) ∧
    ∀ b, b ∈ m ↔ b = { name := b!"a", commit := b!"aa", time := { unix := 1543352136, nsec := 0, offset := 3600 } } := by
  obtain ⟨m, h1, h2⟩ := C77_branches pkg { useOrigin := false, includeDefault := false } b!"master"
    [(exRef b!"a" b!"Tue Nov 27 21:55:36 2018 +0100", (1543352136, exZone)), (exRef b!"master" b!"Tue Nov 27 21:55:36 2018 +0100", (1543352136, exZone))] (by decide)
    (by
      intro r hr
      simp only [List.mem_cons, List.not_mem_nil, or_false] at hr
      rcases hr with rfl | rfl
      · exact ⟨exRef_ok exGit ⟨by decide, by unfold FirstAt; decide⟩, exZone_fits pkg, exRef_at _, by simp⟩
      · exact ⟨exRef_ok exGit ⟨by decide, by unfold FirstAt; decide⟩, exZone_fits pkg, exRef_at _, by simp⟩)
    (by decide)
  refine ⟨m, (h1 _).2 rfl, fun b => ?_⟩
  rw [h2]
  constructor
  · rintro ⟨r, hr, hw, rfl⟩
    simp only [List.mem_cons, List.not_mem_nil, or_false] at hr
    rcases hr with rfl | rfl
    · rfl
    · exact absurd hw (by unfold RefEntry.Wanted; decide)
  · rintro rfl
    exact ⟨_, List.mem_cons_self, by unfold RefEntry.Wanted; decide, rfl⟩

/-- The bad date is that of the default branch. -/
example (pkg : TimePkg) : BranchGet (parseGitTime pkg) { useOrigin := false, includeDefault := false } b!"master\n"
      (refText [exRef b!"a" b!"Tue Nov 27 21:55:36 2018 +0100", exRef b!"master" b!"Tue Nov 27 21:55:36 2018 +51800"]) (.error (.panic "invalid date format")) :=
  (C77_branch_panics pkg { useOrigin := false, includeDefault := false } b!"master" [(exRef b!"a" b!"Tue Nov 27 21:55:36 2018 +0100", (1543352136, exZone))]
    (exRef b!"master" b!"Tue Nov 27 21:55:36 2018 +51800") [] (by decide)
    (by
      intro r hr
      rw [List.mem_singleton.1 hr]
      exact ⟨exRef_ok exGit ⟨by decide, by unfold FirstAt; decide⟩, exZone_fits pkg, exRef_at _, by simp⟩)
    (exRef_ok exBadGit ⟨by decide, by unfold FirstAt; decide⟩) (by simp) 1543355736 exBadZone ⟨exBadGit.symm, Or.inl (exBad_fits pkg)⟩ _).2 rfl

end Ripsrc
