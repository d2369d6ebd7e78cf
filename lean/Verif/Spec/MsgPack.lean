import Verif.Model.Msgp
/-!
# Specification: MessagePack documents

After the MessagePack format description. A value can often be written in several ways (a length in one, two or four bytes); all of them are included.
Only the record types (`DRow` etc.) are taken from the model.
-/
namespace Ripsrc.Spec

/-- The number that bytes represent, most significant first. -/
def number : Str → Nat
  | [] => 0
  | b :: s => b.toNat * 256 ^ s.length + number s

/-- A header: one of the lead bytes, then the number `n` in as many bytes as belong to the lead byte. -/
inductive Head (leads : List (UInt8 × Nat)) : Str → Nat → Prop where
  | mk {lead : UInt8} {k : Nat} {l : Str} : (lead, k) ∈ leads → l.length = k → Head leads (lead :: l) (number l)

/-- Header of a string of `n` bytes. -/
def StrHead (h : Str) (n : Nat) : Prop := (n < 32 ∧ h = [UInt8.ofNat (0xa0 + n)]) ∨ Head [(0xd9, 1), (0xda, 2), (0xdb, 4)] h n

/-- Header of `n` binary bytes. -/
def BinHead (h : Str) (n : Nat) : Prop := Head [(0xc4, 1), (0xc5, 2), (0xc6, 4)] h n

/-- Header of an array of `n` objects. -/
def ArrayHead (h : Str) (n : Nat) : Prop := (n < 16 ∧ h = [UInt8.ofNat (0x90 + n)]) ∨ Head [(0xdc, 2), (0xdd, 4)] h n

/-- Header of a map of `n` pairs. -/
def MapHead (h : Str) (n : Nat) : Prop := (n < 16 ∧ h = [UInt8.ofNat (0x80 + n)]) ∨ Head [(0xde, 2), (0xdf, 4)] h n

/-- `b` is the string `s`. -/
def IsStr (s b : Str) : Prop := ∃ h, StrHead h s.length ∧ b = h ++ s

/-- `b` is the binary `s`. -/
def IsBytes (s b : Str) : Prop := ∃ h, BinHead h s.length ∧ b = h ++ s

/-- `b` is the truth value `x`. -/
def IsBool (x : Bool) (b : Str) : Prop := b = if x then [0xc3] else [0xc2]

/-- `b` is the number `u`: one byte, unsigned, or signed and not negative. -/
def IsUint (u : UInt64) (b : Str) : Prop :=
  (u.toNat < 128 ∧ b = [UInt8.ofNat u.toNat]) ∨
  Head [(0xcc, 1), (0xcd, 2), (0xce, 4), (0xcf, 8)] b u.toNat ∨
  (Head [(0xd0, 1), (0xd1, 2), (0xd2, 4), (0xd3, 8)] b u.toNat ∧ 2 * u.toNat < 256 ^ (b.length - 1))

/-- Lead bytes of objects of a fixed size (numbers, floats, fixext), with the number of bytes that follow. -/
def fixedSizes : List (UInt8 × Nat) :=
  [(0xcc, 1), (0xcd, 2), (0xce, 4), (0xcf, 8), (0xd0, 1), (0xd1, 2), (0xd2, 4), (0xd3, 8), (0xca, 4), (0xcb, 8),
   (0xd4, 2), (0xd5, 3), (0xd6, 5), (0xd7, 9), (0xd8, 17)]

mutual
/-- One MessagePack object. -/
inductive IsMsg : Str → Prop where
  /-- small numbers, nil, true, false -/
  | one {b : UInt8} : b < 0x80 ∨ 0xe0 ≤ b ∨ b ∈ [0xc0, 0xc2, 0xc3] → IsMsg [b]
  | fixed {lead : UInt8} {n : Nat} {p : Str} : (lead, n) ∈ fixedSizes → p.length = n → IsMsg (lead :: p)
  | str {s b : Str} : IsStr s b → IsMsg b
  | bin {s b : Str} : IsBytes s b → IsMsg b
  | ext {h p : Str} {t : UInt8} : Head [(0xc7, 1), (0xc8, 2), (0xc9, 4)] h p.length → IsMsg (h ++ t :: p)
  | array {h s : Str} {n : Nat} : ArrayHead h n → IsMsgs n s → IsMsg (h ++ s)
  | map {h s : Str} {n : Nat} : MapHead h n → IsMsgs (2 * n) s → IsMsg (h ++ s)
/-- A sequence of `n` objects. -/
inductive IsMsgs : Nat → Str → Prop where
  | nil : IsMsgs 0 []
  | cons {n : Nat} {x s : Str} : IsMsg x → IsMsgs n s → IsMsgs (n + 1) (x ++ s)
end

/-- A key of a map: a string or a binary, not empty. -/
def IsKey (k b : Str) : Prop := k ≠ [] ∧ (IsStr k b ∨ IsBytes k b)

/-- A sequence of `n` values, each in the relation `P` to its bytes. -/
inductive Seq {α : Type} (P : α → Str → Prop) : List α → Str → Prop where
  | nil : Seq P [] []
  | cons {a : α} {l : List α} {x s : Str} : P a x → Seq P l s → Seq P (a :: l) (x ++ s)

/-- An array of values. -/
def IsArray {α : Type} (P : α → Str → Prop) (l : List α) (b : Str) : Prop := ∃ h s, ArrayHead h l.length ∧ Seq P l s ∧ b = h ++ s

/-- A sequence of `n` entries of a map; `E z b z'`: the entry `b` makes `z'` of `z`. -/
inductive MapEntries {σ : Type} (E : σ → Str → σ → Prop) : Nat → σ → Str → σ → Prop where
  | nil {z : σ} : MapEntries E 0 z [] z
  | cons {n : Nat} {z z' z'' : σ} {e s : Str} : E z e z' → MapEntries E n z' s z'' → MapEntries E (n + 1) z (e ++ s) z''

/-- A map that makes `z'` of `z`. -/
def IsMap {σ : Type} (E : σ → Str → σ → Prop) (z : σ) (b : Str) (z' : σ) : Prop := ∃ h s n, MapHead h n ∧ MapEntries E n z s z' ∧ b = h ++ s

/-- An entry with a key that is not in the list, and any value. -/
inductive Foreign (known : List Str) : Str → Prop where
  | mk {k kb v : Str} : IsKey k kb → k ∉ known → IsMsg v → Foreign known (kb ++ v)

/-- The entries of a row. -/
inductive RowField : DRow → Str → DRow → Prop where
  | commit {z : DRow} {kb v s : Str} : IsKey b!"c" kb → IsStr s v → RowField z (kb ++ v) { z with commit := s }
  | path {z : DRow} {kb v s : Str} : IsKey b!"p" kb → IsStr s v → RowField z (kb ++ v) { z with path := s }
  | blame {z : DRow} {kb v : Str} {u : UInt64} : IsKey b!"bp" kb → IsUint u v → RowField z (kb ++ v) { z with blamePointer := u }
  | other {z : DRow} {e : Str} : Foreign [b!"c", b!"p", b!"bp"] e → RowField z e z

/-- The entries of a blame. -/
inductive BlameField : DBlame → Str → DBlame → Prop where
  | pointer {z : DBlame} {kb v : Str} {u : UInt64} : IsKey b!"p" kb → IsUint u v → BlameField z (kb ++ v) { z with pointer := u }
  | commit {z : DBlame} {kb v s : Str} : IsKey b!"c" kb → IsStr s v → BlameField z (kb ++ v) { z with commit := s }
  | lines {z : DBlame} {kb v : Str} {l : List UInt64} : IsKey b!"lp" kb → IsArray IsUint l v → BlameField z (kb ++ v) { z with linePointers := l }
  | binary {z : DBlame} {kb v : Str} {x : Bool} : IsKey b!"ib" kb → IsBool x v → BlameField z (kb ++ v) { z with isBinary := x }
  | other {z : DBlame} {e : Str} : Foreign [b!"p", b!"c", b!"lp", b!"ib"] e → BlameField z e z

/-- The entries of a line. -/
inductive LineField : DLine → Str → DLine → Prop where
  | pointer {z : DLine} {kb v : Str} {u : UInt64} : IsKey b!"p" kb → IsUint u v → LineField z (kb ++ v) { z with pointer := u }
  | commit {z : DLine} {kb v s : Str} : IsKey b!"c" kb → IsStr s v → LineField z (kb ++ v) { z with commit := s }
  | data {z : DLine} {kb v : Str} {u : UInt64} : IsKey b!"ldp" kb → IsUint u v → LineField z (kb ++ v) { z with lineDataPointer := u }
  | other {z : DLine} {e : Str} : Foreign [b!"p", b!"c", b!"ldp"] e → LineField z e z

/-- The entries of line data. -/
inductive LineDataField : DLineData → Str → DLineData → Prop where
  | pointer {z : DLineData} {kb v : Str} {u : UInt64} : IsKey b!"p" kb → IsUint u v → LineDataField z (kb ++ v) { z with pointer := u }
  | data {z : DLineData} {kb v s : Str} : IsKey b!"d" kb → IsBytes s v → LineDataField z (kb ++ v) { z with data := s }
  | other {z : DLineData} {e : Str} : Foreign [b!"p", b!"d"] e → LineDataField z e z

end Ripsrc.Spec
