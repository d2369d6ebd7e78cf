import Verif.Go.Bytes
/-! # Decimal numbers: `strconv.Atoi` and its inverse -/
namespace Ripsrc

/-- Value of a decimal digit. -/
def digitVal (b : UInt8) : Option Nat := if 48 ≤ b ∧ b ≤ 57 then some (b.toNat - 48) else none

/-- Digits to number, most significant first. -/
def parseDigits : Nat → Str → Option Nat
  | acc, [] => some acc
  | acc, b :: r => match digitVal b with
    | none => none
    | some d => parseDigits (acc * 10 + d) r

/-- Unsigned decimal number; at least one digit. -/
def parseNat (s : Str) : Option Nat := if s = [] then none else parseDigits 0 s

/-- `strconv.Atoi` on a 64-bit platform: optional sign, digits, range check; `none` is the error. -/
def atoi (s : Str) : Option Int :=
  match s with
  | 45 :: r => match parseNat r with
    | some n => if n ≤ 2 ^ 63 then some (-(n : Int)) else none
    | none => none
  | 43 :: r => match parseNat r with
    | some n => if n < 2 ^ 63 then some (n : Int) else none
    | none => none
  | s => match parseNat s with
    | some n => if n < 2 ^ 63 then some (n : Int) else none
    | none => none

/-- A decimal digit character. -/
def digitChar (d : Nat) : UInt8 := UInt8.ofNat (48 + d)

def itoaF : Nat → Nat → Str
  | 0, _ => []
  | f + 1, n => if n < 10 then [digitChar n] else itoaF f (n / 10) ++ [digitChar (n % 10)]

/-- `strconv.Itoa` of a non-negative number (as git prints numbers). -/
def itoa (n : Nat) : Str := itoaF (n + 1) n

theorem digitVal_digitChar {d : Nat} (h : d < 10) : digitVal (digitChar d) = some d := by
  have : ∀ d : Fin 10, digitVal (digitChar d.val) = some d.val := by decide
  exact this ⟨d, h⟩

theorem parseDigits_append (acc : Nat) (a b : Str) :
    parseDigits acc (a ++ b) = (parseDigits acc a).bind (fun x => parseDigits x b) := by
  induction a generalizing acc with
  | nil => rfl
  | cons c a ih =>
    simp only [List.cons_append, parseDigits]
    cases digitVal c with
    | none => rfl
    | some d => exact ih _

theorem parseDigits_itoaF (f n : Nat) (h : n < f) : parseDigits 0 (itoaF f n) = some n := by
  induction f generalizing n with
  | zero => omega
  | succ f ih =>
    simp only [itoaF]
    split
    · rename_i h10
      simp [parseDigits, digitVal_digitChar h10]
    · rw [parseDigits_append, ih (n / 10) (by omega)]
      simp only [Option.bind_some, parseDigits, digitVal_digitChar (Nat.mod_lt n (by decide : 0 < 10)), Option.some.injEq]
      omega

theorem itoaF_ne_nil (f n : Nat) (h : n < f) : itoaF f n ≠ [] := by
  cases f with
  | zero => omega
  | succ f => simp only [itoaF]; split <;> simp

theorem itoa_ne_nil (n : Nat) : itoa n ≠ [] := itoaF_ne_nil _ _ (Nat.lt_succ_self n)

theorem parseNat_itoa (n : Nat) : parseNat (itoa n) = some n := by
  unfold parseNat
  rw [if_neg (itoa_ne_nil n)]
  exact parseDigits_itoaF _ _ (Nat.lt_succ_self n)

theorem itoaF_digits (f n : Nat) : ∀ b ∈ itoaF f n, 48 ≤ b ∧ b ≤ 57 := by
  have hd : ∀ d : Fin 10, 48 ≤ digitChar d.val ∧ digitChar d.val ≤ 57 := by decide
  induction f generalizing n with
  | zero => simp [itoaF]
  | succ f ih =>
    intro b hb
    simp only [itoaF] at hb
    split at hb
    · rename_i h10
      simp only [List.mem_singleton] at hb
      subst hb; exact hd ⟨n, h10⟩
    · simp only [List.mem_append, List.mem_singleton] at hb
      rcases hb with hb | rfl
      · exact ih _ b hb
      · exact hd ⟨n % 10, Nat.mod_lt n (by decide)⟩

theorem itoa_digits (n : Nat) : ∀ b ∈ itoa n, 48 ≤ b ∧ b ≤ 57 := itoaF_digits _ _

theorem itoa_not_mem (n : Nat) (b : UInt8) (h : ¬ (48 ≤ b ∧ b ≤ 57)) : b ∉ itoa n := fun hc => h (itoa_digits n b hc)

theorem atoi_itoa (n : Nat) (h : n < 2 ^ 63) : atoi (itoa n) = some (n : Int) := by
  unfold atoi
  have hne := itoa_ne_nil n
  have hd := itoa_digits n
  have hp := parseNat_itoa n
  cases hs : itoa n with
  | nil => exact absurd hs hne
  | cons b r =>
    rw [hs] at hd hp
    have hb := hd b (by simp)
    split
    · rename_i r' heq
      cases heq
      exact absurd hb.1 (by decide)
    · rename_i r' heq
      cases heq
      exact absurd hb.1 (by decide)
    · rw [hp]; simp [h]

example : itoa 1203 = b!"1203" := by decide
example : atoi b!"-17" = some (-17) := by decide
example : atoi b!"1a" = none := by decide

end Ripsrc
