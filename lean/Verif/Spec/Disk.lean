import Verif.Model.Msgp
/-!
# Specification: layout of checkpoint records

A record is a MessagePack map: a header byte, then for each field a key and a value.
-/
namespace Ripsrc.Spec

/-- Sizes MessagePack can represent. -/
def DRow.Small (z : DRow) : Prop := z.commit.length < 2 ^ 32 ∧ z.path.length < 2 ^ 32
def DBlame.Small (z : DBlame) : Prop := z.commit.length < 2 ^ 32 ∧ z.linePointers.length < 2 ^ 32
def DLine.Small (z : DLine) : Prop := z.commit.length < 2 ^ 32
def DLineData.Small (z : DLineData) : Prop := z.data.length < 2 ^ 32

/-- A part of a record: whether it is (the bytes of) a value, and its number of bytes. -/
abbrev Part := Bool × Nat

/-- One flag per byte: does the byte belong to a value? -/
def flags (ps : List Part) : List Bool := ps.flatMap (fun p => List.replicate p.2 p.1)

/-- Header, then keys (one byte for the length of the key, then the key) and values. -/
def DRow.layout (z : DRow) : List Part :=
  [(false, 1), (false, 2), (true, (encStr z.commit).length), (false, 2), (true, (encStr z.path).length), (false, 3), (true, (encUint z.blamePointer).length)]
def DBlame.layout (z : DBlame) : List Part :=
  [(false, 1), (false, 2), (true, (encUint z.pointer).length), (false, 2), (true, (encStr z.commit).length), (false, 3),
   (true, (encArrayHeader z.linePointers.length ++ z.linePointers.flatMap encUint).length), (false, 3), (true, 1)]
def DLine.layout (z : DLine) : List Part :=
  [(false, 1), (false, 2), (true, (encUint z.pointer).length), (false, 2), (true, (encStr z.commit).length), (false, 4), (true, (encUint z.lineDataPointer).length)]
def DLineData.layout (z : DLineData) : List Part :=
  [(false, 1), (false, 2), (true, (encUint z.pointer).length), (false, 2), (true, (encBin z.data).length)]

/-- What reading the first `n` bytes of the stream `rs` (of records encoded by `enc`, laid out by `lay`) gives: the records that are
complete, then a silent end, unless the first missing byte belongs to a value, which is an error. -/
def CutResult {σ : Type} (enc : σ → Str) (lay : σ → List Part) (rs : List σ) (n : Nat) (out : List σ × Bool) : Prop :=
  ∃ k, k ≤ rs.length ∧ out.1 = rs.take k ∧ ((rs.take k).flatMap enc).length ≤ n ∧
    (k < rs.length → n < ((rs.take (k + 1)).flatMap enc).length) ∧
    (out.2 = true ↔ (rs.flatMap (fun r => flags (lay r)))[n]? ≠ some true)

end Ripsrc.Spec
