import Lean
/-!
# Byte strings, Go strings and slices

Go `string` and `[]byte` values are modelled as `List UInt8`.
-/
namespace Ripsrc

/-- Go `string` / `[]byte`. -/
abbrev Str := List UInt8

open Lean in
/-- `b!"abc"` is the explicit list of the UTF-8 bytes of the literal (expanded at elaboration time, so the kernel
never has to reduce `String` operations). -/
macro:max "b!" s:str : term => do
  let bytes := s.getString.toUTF8.toList
  let elems : Array (TSyntax `term) := bytes.toArray.map fun b => Syntax.mkNumLit (toString b.toNat)
  `(([$elems,*] : List UInt8))

/-- A run-time failure of the Go program: a panic (explicit, index out of range, nil map, ...) or a returned
`error`. The text is only a label. -/
inductive Fault where
  | panic (why : String)
  | error (why : String)
deriving DecidableEq, Repr

/-- Result of a Go function that may panic or return an error. -/
abbrev Go (α : Type) := Except Fault α

deriving instance DecidableEq for Except

/-- `startsWith` : `/repo/ripsrc/history3/incblame/parse_utils.go:11-16` and
`/repo/ripsrc/history3/process/parser/parser.go:187-192` (identical code), also `bytes.HasPrefix`/`strings.HasPrefix`. -/
def startsWith (b pfx : Str) : Bool :=
  if pfx.length > b.length then false else b.take pfx.length == pfx

theorem startsWith_iff {b pfx : Str} : startsWith b pfx = true ↔ ∃ r, b = pfx ++ r := by
  unfold startsWith
  constructor
  · intro h
    split at h
    · cases h
    · have := eq_of_beq h
      exact ⟨b.drop pfx.length, (List.take_append_drop pfx.length b).symm.trans (by rw [this])⟩
  · rintro ⟨r, rfl⟩
    simp

@[simp] theorem startsWith_append (pfx r : Str) : startsWith (pfx ++ r) pfx = true :=
  startsWith_iff.2 ⟨r, rfl⟩

/-- What `bufio.ScanLines` calls `dropCR`: removes one trailing carriage return. -/
def dropCR (l : Str) : Str := if l.getLast? = some 13 then l.dropLast else l

/-- Splits at newline bytes; an unterminated last line counts only when non-empty (as `bufio.ScanLines`). -/
def rawLines : Str → List Str
  | [] => []
  | b :: rest =>
    if b = 10 then [] :: rawLines rest
    else match rawLines rest with
      | [] => [[b]]
      | l :: ls => (b :: l) :: ls

theorem rawLines_line (l r : Str) (h : (10 : UInt8) ∉ l) : rawLines (l ++ 10 :: r) = l :: rawLines r := by
  induction l with
  | nil => simp [rawLines]
  | cons b l ih =>
    simp only [List.mem_cons, not_or] at h
    simp only [List.cons_append, rawLines]
    rw [if_neg (Ne.symm h.1), ih h.2]

theorem rawLines_last (l : Str) (h : (10 : UInt8) ∉ l) (hne : l ≠ []) : rawLines l = [l] := by
  induction l with
  | nil => exact absurd rfl hne
  | cons b l ih =>
    simp only [List.mem_cons, not_or] at h
    simp only [rawLines]
    rw [if_neg (Ne.symm h.1)]
    by_cases hl : l = []
    · subst hl; simp [rawLines]
    · rw [ih h.2 hl]

/-- A `bufio.Scanner` over the whole input with token limit `max`, run until `Scan` returns false: the lines it
returns (one trailing CR dropped from each) and whether it stopped with `ErrTooLong`. A line whose raw length
(without `\n`) is `≥ max` does not fit the buffer. -/
def scanRaw (max : Nat) : List Str → List Str × Bool
  | [] => ([], false)
  | l :: ls => if l.length ≥ max then ([], true) else
      let r := scanRaw max ls
      (dropCR l :: r.1, r.2)

def scan (max : Nat) (s : Str) : List Str × Bool := scanRaw max (rawLines s)

/-- Text made of newline-terminated lines. -/
def unlines (ls : List Str) : Str := ls.flatMap (fun l => l ++ [10])

@[simp] theorem unlines_nil : unlines [] = [] := rfl
@[simp] theorem unlines_cons (l : Str) (ls : List Str) : unlines (l :: ls) = l ++ 10 :: unlines ls := by
  simp [unlines]
@[simp] theorem unlines_append (a b : List Str) : unlines (a ++ b) = unlines a ++ unlines b := by
  simp [unlines]

/-- A line: no newline inside. -/
def NoNL (l : Str) : Prop := (10 : UInt8) ∉ l

instance (l : Str) : Decidable (NoNL l) := inferInstanceAs (Decidable (¬ _))

theorem rawLines_unlines (ls : List Str) (h : ∀ l ∈ ls, NoNL l) : rawLines (unlines ls) = ls := by
  induction ls with
  | nil => rfl
  | cons l ls ih =>
    rw [unlines_cons, rawLines_line _ _ (h l (by simp)), ih (fun x hx => h x (by simp [hx]))]

theorem scanRaw_ok (max : Nat) (ls : List Str) (h : ∀ l ∈ ls, l.length < max) :
    scanRaw max ls = (ls.map dropCR, false) := by
  induction ls with
  | nil => rfl
  | cons l ls ih =>
    have := h l (by simp)
    simp only [scanRaw]
    rw [if_neg (by omega), ih (fun x hx => h x (by simp [hx]))]
    simp

theorem scan_unlines (max : Nat) (ls : List Str) (h : ∀ l ∈ ls, NoNL l) (h2 : ∀ l ∈ ls, l.length < max) :
    scan max (unlines ls) = (ls.map dropCR, false) := by
  unfold scan
  rw [rawLines_unlines _ h, scanRaw_ok _ _ h2]

theorem scanRaw_tooLong (max : Nat) (ls rest : List Str) (l : Str) (h : ∀ x ∈ ls, x.length < max)
    (hl : max ≤ l.length) : scanRaw max (ls ++ l :: rest) = (ls.map dropCR, true) := by
  induction ls with
  | nil => simp [scanRaw, hl]
  | cons x ls ih =>
    have := h x (by simp)
    simp only [List.cons_append, scanRaw]
    rw [if_neg (by omega), ih (fun y hy => h y (by simp [hy]))]
    simp

theorem dropCR_of_ne (l : Str) (h : l.getLast? ≠ some 13) : dropCR l = l := by simp [dropCR, h]

theorem dropCR_noNL {l : Str} (h : NoNL l) : NoNL (dropCR l) := by
  unfold dropCR
  split
  · intro hc; exact h (List.dropLast_subset _ hc)
  · exact h

theorem dropCR_length (l : Str) : (dropCR l).length ≤ l.length := by
  unfold dropCR; split <;> simp

theorem dropCR_cons_of_ne (c : UInt8) (l : Str) (h : c ≠ 13 ∨ l ≠ []) : dropCR (c :: l) = c :: dropCR l := by
  unfold dropCR
  cases l with
  | nil =>
    have : c ≠ 13 := by simpa using h
    simp [this]
  | cons d l =>
    simp only [List.getLast?_cons_cons]
    split <;> simp

theorem rawLines_noNL (s : Str) : ∀ l ∈ rawLines s, NoNL l := by
  induction s with
  | nil => simp [rawLines]
  | cons b s ih =>
    intro l hl
    simp only [rawLines] at hl
    split at hl
    · simp only [List.mem_cons] at hl
      rcases hl with rfl | hl
      · simp [NoNL]
      · exact ih l hl
    · rename_i hb
      split at hl
      · simp only [List.mem_singleton] at hl
        subst hl
        simp [NoNL, Ne.symm hb]
      · rename_i l' ls heq
        simp only [List.mem_cons] at hl
        rcases hl with rfl | hl
        · have := ih l' (by simp [heq])
          simp only [NoNL, List.mem_cons, not_or] at *
          exact ⟨Ne.symm hb, this⟩
        · exact ih l (by simp [heq, hl])

end Ripsrc
