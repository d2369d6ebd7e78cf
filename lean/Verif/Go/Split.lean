import Verif.Go.Bytes
/-! # `bytes.Split` / `strings.Split` with a one-byte separator -/
namespace Ripsrc

/-- `strings.Split(s, sep)` for a one-byte separator: never empty. -/
def splitByte (c : UInt8) : Str → List Str
  | [] => [[]]
  | b :: rest =>
    if b = c then [] :: splitByte c rest
    else match splitByte c rest with
      | [] => [[b]]
      | l :: ls => (b :: l) :: ls

/-- `strings.Join(parts, sep)`. -/
def joinWith (sep : Str) : List Str → Str
  | [] => []
  | [x] => x
  | x :: y :: rest => x ++ sep ++ joinWith sep (y :: rest)

theorem splitByte_ne_nil (c : UInt8) (s : Str) : splitByte c s ≠ [] := by
  induction s with
  | nil => simp [splitByte]
  | cons b s ih =>
    simp only [splitByte]
    split
    · simp
    · split <;> simp

theorem splitByte_append (c : UInt8) (l r : Str) (h : c ∉ l) :
    splitByte c (l ++ c :: r) = l :: splitByte c r := by
  induction l with
  | nil => simp [splitByte]
  | cons b l ih =>
    simp only [List.mem_cons, not_or] at h
    simp only [List.cons_append, splitByte]
    rw [if_neg (Ne.symm h.1), ih h.2]

theorem splitByte_last (c : UInt8) (l : Str) (h : c ∉ l) : splitByte c l = [l] := by
  induction l with
  | nil => simp [splitByte]
  | cons b l ih =>
    simp only [List.mem_cons, not_or] at h
    simp only [splitByte]
    rw [if_neg (Ne.symm h.1), ih h.2]

/-- Splitting inverts joining. -/
theorem splitByte_join (c : UInt8) (ls : List Str) (hne : ls ≠ []) (h : ∀ l ∈ ls, c ∉ l) :
    splitByte c (joinWith [c] ls) = ls := by
  induction ls with
  | nil => exact absurd rfl hne
  | cons x ls ih =>
    cases ls with
    | nil => simp [joinWith, splitByte_last c x (h x (by simp))]
    | cons y ls =>
      simp only [joinWith, List.append_assoc, List.singleton_append]
      rw [splitByte_append c _ _ (h x (by simp)), ih (by simp) (fun l hl => h l (by simp [hl]))]

end Ripsrc
