import Verif.Model.Msgp
/-!
# Model of the rest of the generated record code

`/repo/ripsrc/history3/process/repo/disk/disk_gen.go`: `MarshalMsg`, `UnmarshalMsg`, `Msgsize` of all types, and the type `Data`. The checkpoint
code of ripsrc does not call these; they are part of the exported API of the package. The readers of `msgp` that work on a byte slice read the same format as those
on a stream and are modelled by the same functions; only `ReadMapKeyZC` differs (an empty key is not an error). The errors are not distinguished.
-/
namespace Ripsrc

/-- `msgp.ReadMapKeyZC`: a string, or else a binary. -/
def readKeyZC (bs : Str) : Dec Str :=
  match readStr bs with
  | .ok k r => .ok k r
  | .eof => .bad
  | .bad => readBin bs

/-- The loop over the fields in every `UnmarshalMsg`, e.g. `/repo/ripsrc/history3/process/repo/disk/disk_gen.go:160-211`. -/
def unmarshalFields {σ : Type} (field : σ → Str → Str → Dec σ) : Nat → σ → Str → Dec σ
  | 0, s, bs => .ok s bs
  | n + 1, s, bs => (readKeyZC bs).bind (fun k r => (field s k r).ctx.bind (fun s' r' => unmarshalFields field n s' r'))

/-- `UnmarshalMsg` into the object `init`. -/
def unmarshalMsg {σ : Type} (init : σ) (field : σ → Str → Str → Dec σ) (bs : Str) : Dec σ :=
  (readMapHeader bs).ctx.bind (fun n r => unmarshalFields field n init r)

/-- `DataRow.UnmarshalMsg` : `/repo/ripsrc/history3/process/repo/disk/disk_gen.go:954-999`. -/
def DRow.unmarshal (z : DRow) : Str → Dec DRow := unmarshalMsg z DRow.field
/-- `Blame.UnmarshalMsg` : `/repo/ripsrc/history3/process/repo/disk/disk_gen.go:151-215`. -/
def DBlame.unmarshal (z : DBlame) : Str → Dec DBlame := unmarshalMsg z DBlame.field
/-- `Line.UnmarshalMsg` : `/repo/ripsrc/history3/process/repo/disk/disk_gen.go:1107-1152`. -/
def DLine.unmarshal (z : DLine) : Str → Dec DLine := unmarshalMsg z DLine.field
/-- `LineData.UnmarshalMsg` : `/repo/ripsrc/history3/process/repo/disk/disk_gen.go:1241-1280`. -/
def DLineData.unmarshal (z : DLineData) : Str → Dec DLineData := unmarshalMsg z DLineData.field

/-- `DataRow.MarshalMsg` : `/repo/ripsrc/history3/process/repo/disk/disk_gen.go:938-951`. `msgp.Require` only reserves memory. -/
def DRow.marshal (z : DRow) (b : Str) : Str :=
  let o := b ++ [0x83, 0xa1, 0x63]
  let o := o ++ encStr z.commit
  let o := o ++ [0xa1, 0x70]
  let o := o ++ encStr z.path
  let o := o ++ [0xa2, 0x62, 0x70]
  o ++ encUint z.blamePointer
/-- `Blame.MarshalMsg` : `/repo/ripsrc/history3/process/repo/disk/disk_gen.go:129-148`. -/
def DBlame.marshal (z : DBlame) (b : Str) : Str :=
  let o := b ++ [0x84, 0xa1, 0x70]
  let o := o ++ encUint z.pointer
  let o := o ++ [0xa1, 0x63]
  let o := o ++ encStr z.commit
  let o := o ++ [0xa2, 0x6c, 0x70]
  let o := o ++ encArrayHeader (len32 z.linePointers.length)
  let o := z.linePointers.foldl (fun o u => o ++ encUint u) o
  let o := o ++ [0xa2, 0x69, 0x62]
  o ++ encBool z.isBinary
/-- `Line.MarshalMsg` : `/repo/ripsrc/history3/process/repo/disk/disk_gen.go:1091-1104`. -/
def DLine.marshal (z : DLine) (b : Str) : Str :=
  let o := b ++ [0x83, 0xa1, 0x70]
  let o := o ++ encUint z.pointer
  let o := o ++ [0xa1, 0x63]
  let o := o ++ encStr z.commit
  let o := o ++ [0xa3, 0x6c, 0x64, 0x70]
  o ++ encUint z.lineDataPointer
/-- `LineData.MarshalMsg` : `/repo/ripsrc/history3/process/repo/disk/disk_gen.go:1228-1238`. -/
def DLineData.marshal (z : DLineData) (b : Str) : Str :=
  let o := b ++ [0x82, 0xa1, 0x70]
  let o := o ++ encUint z.pointer
  let o := o ++ [0xa1, 0x64]
  o ++ encBin z.data

/-- `DataRow.Msgsize` : `/repo/ripsrc/history3/process/repo/disk/disk_gen.go:1002-1005`. The constants of msgp: `StringPrefixSize` 5, `Uint64Size` 9. -/
def DRow.msgsize (z : DRow) : Nat := 1 + 2 + 5 + z.commit.length + 2 + 5 + z.path.length + 3 + 9
/-- `Blame.Msgsize` : `/repo/ripsrc/history3/process/repo/disk/disk_gen.go:218-221`. `ArrayHeaderSize` 5, `BoolSize` 1. -/
def DBlame.msgsize (z : DBlame) : Nat := 1 + 2 + 9 + 2 + 5 + z.commit.length + 3 + 5 + (z.linePointers.length * 9) + 3 + 1
/-- `Line.Msgsize` : `/repo/ripsrc/history3/process/repo/disk/disk_gen.go:1155-1158`. -/
def DLine.msgsize (z : DLine) : Nat := 1 + 2 + 9 + 2 + 5 + z.commit.length + 4 + 9
/-- `LineData.Msgsize` : `/repo/ripsrc/history3/process/repo/disk/disk_gen.go:1283-1286`. `BytesPrefixSize` 5. -/
def DLineData.msgsize (z : DLineData) : Nat := 1 + 2 + 9 + 2 + 5 + z.data.length

/-! ## Data -/

/-- A slice: its elements, and the elements of the array behind it that are not in the slice. -/
structure Buf (α : Type) where
  vis : List α := []
  hid : List α := []
deriving DecidableEq

/-- `if cap(z.X) >= n { z.X = z.X[:n] } else { z.X = make([]T, n) }`, e.g. `/repo/ripsrc/history3/process/repo/disk/disk_gen.go:248-252`. -/
def Buf.resize {α : Type} (zero : α) (b : Buf α) (n : Nat) : Buf α :=
  if n ≤ (b.vis ++ b.hid).length then ⟨(b.vis ++ b.hid).take n, (b.vis ++ b.hid).drop n⟩ else ⟨List.replicate n zero, []⟩

/-- `Data` : `/repo/ripsrc/history3/process/repo/disk/disk.go:5-10`. -/
structure DData where
  data : Buf DRow := {}
  blames : Buf DBlame := {}
  lines : Buf DLine := {}
  lineData : Buf DLineData := {}
deriving DecidableEq

/-- Decoding into each element of a slice, e.g. `/repo/ripsrc/history3/process/repo/disk/disk_gen.go:253-293`. -/
def decodeInto {α : Type} (dec : α → Str → Dec α) : List α → Str → Dec (List α)
  | [], bs => .ok [] bs
  | z :: l, bs => (dec z bs).bind (fun a r => (decodeInto dec l r).bind (fun l' r' => .ok (a :: l') r'))

/-- One of the four fields of `Data`, e.g. `/repo/ripsrc/history3/process/repo/disk/disk_gen.go:241-293`. -/
def decodeSlice {α : Type} (zero : α) (dec : α → Str → Dec α) (b : Buf α) (bs : Str) : Dec (Buf α) :=
  (readArrayHeader bs).bind (fun n r => (decodeInto dec (b.resize zero n).vis r).bind (fun l r' => .ok { b.resize zero n with vis := l } r'))

/-- The switch in `Data.DecodeMsg` : `/repo/ripsrc/history3/process/repo/disk/disk_gen.go:240-422`. -/
def DData.field (z : DData) (k bs : Str) : Dec DData :=
  if k = b!"data" then Dec.ctx ((decodeSlice {} (fun a => decodeMsg a DRow.field) z.data bs).bind (fun x r => .ok { z with data := x } r))
  else if k = b!"bl" then Dec.ctx ((decodeSlice {} (fun a => decodeMsg a DBlame.field) z.blames bs).bind (fun x r => .ok { z with blames := x } r))
  else if k = b!"l" then Dec.ctx ((decodeSlice {} (fun a => decodeMsg a DLine.field) z.lines bs).bind (fun x r => .ok { z with lines := x } r))
  else if k = b!"ld" then Dec.ctx ((decodeSlice {} (fun a => decodeMsg a DLineData.field) z.lineData bs).bind (fun x r => .ok { z with lineData := x } r))
  else unknownField z bs

/-- `Data.DecodeMsg` : `/repo/ripsrc/history3/process/repo/disk/disk_gen.go:224-425`. -/
def DData.decode (z : DData) : Str → Dec DData := decodeMsg z DData.field

/-- The switch in `Data.UnmarshalMsg` : `/repo/ripsrc/history3/process/repo/disk/disk_gen.go:645-827`. -/
def DData.fieldU (z : DData) (k bs : Str) : Dec DData :=
  if k = b!"data" then Dec.ctx ((decodeSlice {} (fun a => a.unmarshal) z.data bs).bind (fun x r => .ok { z with data := x } r))
  else if k = b!"bl" then Dec.ctx ((decodeSlice {} (fun a => a.unmarshal) z.blames bs).bind (fun x r => .ok { z with blames := x } r))
  else if k = b!"l" then Dec.ctx ((decodeSlice {} (fun a => a.unmarshal) z.lines bs).bind (fun x r => .ok { z with lines := x } r))
  else if k = b!"ld" then Dec.ctx ((decodeSlice {} (fun a => a.unmarshal) z.lineData bs).bind (fun x r => .ok { z with lineData := x } r))
  else unknownField z bs

/-- `Data.UnmarshalMsg` : `/repo/ripsrc/history3/process/repo/disk/disk_gen.go:629-831`. -/
def DData.unmarshal (z : DData) : Str → Dec DData := unmarshalMsg z DData.fieldU

/-- `Data.EncodeMsg` : `/repo/ripsrc/history3/process/repo/disk/disk_gen.go:428-567`. -/
def DData.encode (z : DData) : Str :=
  [0x84, 0xa4, 0x64, 0x61, 0x74, 0x61] ++ (encArrayHeader (len32 z.data.vis.length) ++ z.data.vis.flatMap DRow.encode) ++
  [0xa2, 0x62, 0x6c] ++ (encArrayHeader (len32 z.blames.vis.length) ++ z.blames.vis.flatMap DBlame.encode) ++
  [0xa1, 0x6c] ++ (encArrayHeader (len32 z.lines.vis.length) ++ z.lines.vis.flatMap DLine.encode) ++
  [0xa2, 0x6c, 0x64] ++ (encArrayHeader (len32 z.lineData.vis.length) ++ z.lineData.vis.flatMap DLineData.encode)

/-- `Data.MarshalMsg` : `/repo/ripsrc/history3/process/repo/disk/disk_gen.go:570-626`. -/
def DData.marshal (z : DData) (b : Str) : Str :=
  let o := b ++ [0x84, 0xa4, 0x64, 0x61, 0x74, 0x61]
  let o := o ++ encArrayHeader (len32 z.data.vis.length)
  let o := z.data.vis.foldl (fun o a => a.marshal o) o
  let o := o ++ [0xa2, 0x62, 0x6c]
  let o := o ++ encArrayHeader (len32 z.blames.vis.length)
  let o := z.blames.vis.foldl (fun o a => a.marshal o) o
  let o := o ++ [0xa1, 0x6c]
  let o := o ++ encArrayHeader (len32 z.lines.vis.length)
  let o := z.lines.vis.foldl (fun o a => a.marshal o) o
  let o := o ++ [0xa2, 0x6c, 0x64]
  let o := o ++ encArrayHeader (len32 z.lineData.vis.length)
  z.lineData.vis.foldl (fun o a => a.marshal o) o

/-- `Data.Msgsize` : `/repo/ripsrc/history3/process/repo/disk/disk_gen.go:834-852`. -/
def DData.msgsize (z : DData) : Nat :=
  let s := 1 + 5 + 5
  let s := z.data.vis.foldl (fun s a => s + (1 + 2 + 5 + a.commit.length + 2 + 5 + a.path.length + 3 + 9)) s
  let s := s + (3 + 5)
  let s := z.blames.vis.foldl (fun s a => s + a.msgsize) s
  let s := s + (2 + 5)
  let s := z.lines.vis.foldl (fun s a => s + (1 + 2 + 9 + 2 + 5 + a.commit.length + 4 + 9)) s
  let s := s + (3 + 5)
  z.lineData.vis.foldl (fun s a => s + (1 + 2 + 9 + 2 + 5 + a.data.length)) s

end Ripsrc
