import Verif.Props.Time
import Verif.Props.Parse
import Verif.Model.Debug
/-!
# C77: only dates are read
-/
namespace Ripsrc
open Spec

theorem digitVal_inv (b : UInt8) : ∀ x, digitVal b = some x → x < 10 ∧ b = digitChar x := by
  revert b
  have : ∀ b : UInt8, (digitVal b).all (fun x => decide (x < 10 ∧ b = digitChar x)) = true := byte_cases (by decide +kernel)
  intro b x hx
  have := this b
  rw [hx] at this
  simpa using this

/-- What `getnum` reads with two digits are these two digits. -/
theorem getnum_fixed {s r : Str} {n : Nat} (h : getnum s true = some (n, r)) : n < 100 ∧ s = two n ++ r := by
  unfold getnum at h
  cases s with
  | nil => cases h
  | cons a s =>
    simp only at h
    cases ha : digitVal a with
    | none => rw [ha] at h; cases h
    | some x =>
      rw [ha] at h
      cases s with
      | nil => simp at h
      | cons b s =>
        simp only at h
        cases hb : digitVal b with
        | none => rw [hb] at h; simp at h
        | some y =>
          rw [hb] at h
          simp only [Option.some.injEq, Prod.mk.injEq] at h
          obtain ⟨rfl, rfl⟩ := h
          obtain ⟨hx, rfl⟩ := digitVal_inv _ _ ha
          obtain ⟨hy, rfl⟩ := digitVal_inv _ _ hb
          refine ⟨by omega, ?_⟩
          rw [two_eq (by omega), show (x * 10 + y) / 10 = x by omega, show (x * 10 + y) % 10 = y by omega]
          rfl

theorem skipByte_inv {c : UInt8} {s r : Str} (h : skipByte c s = some r) : s = c :: r := by
  unfold skipByte at h
  cases s with
  | nil => cases h
  | cons b s =>
    simp only at h
    split at h
    · next hb => cases h; rw [hb]
    · cases h

theorem ranged_inv {lo hi n : Nat} {o : Option (Nat × Str)} {r : Str} (h : ranged lo hi o = some (n, r)) : o = some (n, r) ∧ lo ≤ n ∧ n ≤ hi := by
  unfold ranged at h
  cases o with
  | none => cases h
  | some x =>
    obtain ⟨m, s⟩ := x
    simp only at h
    split at h
    · next hb => cases h; exact ⟨rfl, hb⟩
    · cases h

/-- The years are four digits. -/
theorem getYear_inv {s r : Str} {y : Nat} (h : getYear s = some (y, r)) : y < 10000 ∧ s = two (y / 100) ++ two (y % 100) ++ r := by
  unfold getYear at h
  split at h
  · cases h
  · next hl =>
    match s, hl with
    | a :: b :: c :: d :: s, hl =>
      simp only [List.take_succ_cons, List.take_zero, List.drop_succ_cons, List.drop_zero] at h
      cases ha : digitVal a with
      | none => simp [parseDigits, ha] at h
      | some w =>
        cases hb : digitVal b with
        | none => simp [parseDigits, ha, hb] at h
        | some x =>
          cases hc : digitVal c with
          | none => simp [parseDigits, ha, hb, hc] at h
          | some u =>
            cases hd : digitVal d with
            | none => simp [parseDigits, ha, hb, hc, hd] at h
            | some v =>
              simp only [parseDigits, ha, hb, hc, hd, Option.some.injEq, Prod.mk.injEq] at h
              obtain ⟨rfl, rfl⟩ := h
              obtain ⟨h1, rfl⟩ := digitVal_inv _ _ ha
              obtain ⟨h2, rfl⟩ := digitVal_inv _ _ hb
              obtain ⟨h3, rfl⟩ := digitVal_inv _ _ hc
              obtain ⟨h4, rfl⟩ := digitVal_inv _ _ hd
              refine ⟨by omega, ?_⟩
              rw [two_eq (by omega), two_eq (by omega)]
              have e1 : ∀ k, k = (((0 * 10 + w) * 10 + x) * 10 + u) * 10 + v → k / 100 / 10 = w ∧ k / 100 % 10 = x ∧ k % 100 / 10 = u ∧ k % 100 % 10 = v := by
                intro k hk; omega
              obtain ⟨q1, q2, q3, q4⟩ := e1 _ rfl
              rw [q1, q2, q3, q4]
              rfl
    | [], hl => simp at hl
    | [_], hl => simp at hl
    | [_, _], hl => simp at hl
    | [_, _, _], hl => simp at hl

theorem finishTime_inv {y m d h mi s n : Nat} {o : Int} {r : Str} {t : GoTime} (hm : 1 ≤ m ∧ m ≤ 12) (ht : finishTime y m d h mi s n o r = some t) :
    r = [] ∧ (1 ≤ d ∧ d ≤ monthDays y m) ∧ t.unix + t.offset = dateUnix y m d h mi s ∧ t.offset = o ∧ t.nsec = n := by
  unfold finishTime at ht
  split at ht
  · cases ht
  · next hr =>
    split at ht
    · cases ht
    · next hd =>
      cases ht
      rw [daysIn_eq hm] at hd
      refine ⟨Classical.not_not.1 hr, by omega, ?_, rfl, rfl⟩
      simp only
      omega

/-- The second `t` (on the clock with offset `t.offset`) is the time `h:mi:s` of the day `d` of the month `m` of the year `y`: of the calendar, from 1970 on. -/
def Spec.OnClock (t : GoTime) (y m d h mi s : Nat) : Prop :=
  1970 ≤ y → ∃ n, civil n = ⟨y, m, d⟩ ∧ t.unix + t.offset = ((n * 86400 + (h * 3600 + mi * 60 + s) : Nat) : Int)

theorem onClock {t : GoTime} {y m d h mi s : Nat} (hm : 1 ≤ m ∧ m ≤ 12) (hd : 1 ≤ d ∧ d ≤ monthDays y m) (ht : t.unix + t.offset = dateUnix y m d h mi s) : OnClock t y m d h mi s := by
  intro hy
  obtain ⟨n, h1, h2⟩ := C77_calendar ⟨y, m, d⟩ hm hd hy
  exact ⟨n, (h1 n).2 rfl, ht.trans (h2 h mi s)⟩

theorem getSeconds_le {pkg : TimePkg} {s r : Str} {sec ns : Nat} (h : getSeconds pkg s = some (sec, ns, r)) : sec ≤ 59 := by
  unfold getSeconds at h
  cases hg : ranged 0 59 (getnum s true) with
  | none => rw [hg] at h; cases h
  | some x =>
    obtain ⟨n, q⟩ := x
    have := (ranged_inv hg).2.2
    rw [hg] at h
    simp only at h
    split at h
    · split at h
      · split at h
        · cases h
        · cases h; exact this
      · cases h; exact this
    · cases h; exact this

/-- **C77 (only dates).** Whatever is read as the date of an author is a date: four digits of the year, two of a month, two of a day that this month of this year has, and the time is that day's, at
a clock time that exists. No text is read as a date that does not exist, such as the thirtieth of February or the day 0. -/
theorem C77_only_author_dates (pkg : TimePkg) (s : Str) (t : GoTime) (h : parseRFC3339 pkg s = some t) :
    ∃ (y m d hh mi sec : Nat) (rest : Str), s = two (y / 100) ++ two (y % 100) ++ b!"-" ++ two m ++ b!"-" ++ two d ++ b!"T" ++ rest ∧ y < 10000 ∧ (1 ≤ m ∧ m ≤ 12) ∧ (1 ≤ d ∧ d ≤ monthDays y m) ∧
      hh ≤ 23 ∧ mi ≤ 59 ∧ sec ≤ 59 ∧ OnClock t y m d hh mi sec := by
  unfold parseRFC3339 at h
  simp only [bind, Option.bind_eq_some_iff] at h
  obtain ⟨⟨y, s1⟩, h1, s2, h2, ⟨m, s3⟩, h3, s4, h4, ⟨d, s5⟩, h5, s6, h6, ⟨hh, s7⟩, h7, s8, h8, ⟨mi, s9⟩, h9, s10, h10, ⟨sec, ns, s11⟩, h11, ⟨off, s12⟩, h12, h13⟩ := h
  obtain ⟨hy, e1⟩ := getYear_inv h1
  have e2 : s1 = 45 :: s2 := skipByte_inv h2
  obtain ⟨h3, hm⟩ := ranged_inv h3
  obtain ⟨_, e3⟩ := getnum_fixed h3
  have e4 : s3 = 45 :: s4 := skipByte_inv h4
  obtain ⟨_, e5⟩ := getnum_fixed h5
  have e6 : s5 = 84 :: s6 := skipByte_inv h6
  obtain ⟨_, hd, ht, _⟩ := finishTime_inv hm h13
  refine ⟨y, m, d, hh, mi, sec, s6, ?_, hy, hm, hd, (ranged_inv h7).2.2, (ranged_inv h9).2.2, getSeconds_le h11, onClock hm hd ht⟩
  rw [e1, e2, e3, e4, e5, e6]
  simp

/-- A leap day is read, and no other 29th of February. -/
example (pkg : TimePkg) : (parseRFC3339 pkg b!"2000-02-29T00:00:00Z").isSome = true := by obtain ⟨_, c, _⟩ := pkg; cases c <;> rfl
example (pkg : TimePkg) : parseRFC3339 pkg b!"1900-02-29T00:00:00Z" = none := by obtain ⟨_, c, _⟩ := pkg; cases c <;> rfl

theorem lookupName_range {i n : Nat} {ns : List Str} {s r : Str} (h : lookupName i ns s = some (n, r)) : i ≤ n ∧ n < i + ns.length := by
  induction ns generalizing i with
  | nil => cases h
  | cons a ns ih =>
    unfold lookupName at h
    split at h
    · cases h; simp only [List.length_cons]; omega
    · have := ih h
      simp only [List.length_cons]
      omega

/-- **C77 (only dates).** The same for the date of a branch. -/
theorem C77_only_branch_dates (pkg : TimePkg) (s : Str) (t : GoTime) (h : parseGitTime pkg s = some t) :
    ∃ y m d hh mi sec : Nat, y < 10000 ∧ (1 ≤ m ∧ m ≤ 12) ∧ (1 ≤ d ∧ d ≤ monthDays y m) ∧ hh ≤ 23 ∧ mi ≤ 59 ∧ sec ≤ 59 ∧ OnClock t y m d hh mi sec := by
  unfold parseGitTime at h
  simp only [bind, Option.bind_eq_some_iff] at h
  obtain ⟨⟨_, s1⟩, h1, s2, h2, ⟨m, s3⟩, h3, s4, h4, ⟨d, s5⟩, h5, s6, h6, ⟨hh, s7⟩, h7, s8, h8, ⟨mi, s9⟩, h9, s10, h10, ⟨sec, ns, s11⟩, h11, s12, h12, ⟨y, s13⟩, h13, s14, h14, ⟨off, s15⟩, h15, h16⟩ := h
  have hm' := lookupName_range h3
  have hm : 1 ≤ m ∧ m ≤ 12 := by
    have : shortMonthNames.length = 12 := rfl
    omega
  obtain ⟨_, hd, ht, _⟩ := finishTime_inv hm h16
  exact ⟨y, m, d, hh, mi, sec, (getYear_inv h13).1, hm, hd, (ranged_inv h7).2.2, (ranged_inv h9).2.2, getSeconds_le h11, onClock hm hd ht⟩

/-- **C74 (the path in messages).** The path that an error message names for a changed file is its path after the change, for a deleted file the one before. -/
theorem C74_path_or_prev (f : FileChange) (hok : f.Ok) : ∃ d, parseDiff f.text = .ok d ∧ (f.kind.next ≠ [] → d.pathOrPrev = f.kind.next) ∧ (f.kind.next = [] → d.pathOrPrev = f.kind.prev) := by
  refine ⟨f.meaning, C07_parse_inverts_render f hok, fun h => ?_, fun h => ?_⟩
  · exact if_pos h
  · exact if_neg (fun hn => hn h)

example : exChange.kind.next = b!"dir/new name" := rfl

end Ripsrc
