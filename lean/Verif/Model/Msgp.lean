import Verif.Go.Bytes
/-!
# Model of the checkpoint record encoding

`/repo/ripsrc/history3/process/repo/disk/disk_gen.go` is generated code on top of `github.com/tinylib/msgp`. The library is not in
`/repo`; its primitives are modelled after the MessagePack format it implements (smallest representation on writing). The
reader's input is the list of bytes that can still be read before the stream ends with `unexpected EOF`, which is how the gzip
streams written by `msgWriter` end (`/repo/ripsrc/history3/process/repo/msgp.go:38-52`: flushed, never closed).
-/
namespace Ripsrc

/-- `k` bytes, most significant first. -/
def beBytes : Nat → Nat → Str
  | 0, _ => []
  | k + 1, n => UInt8.ofNat (n / 256 ^ k) :: beBytes k n

/-- Value of bytes, most significant first. -/
def beVal (s : Str) : Nat := s.foldl (fun a b => a * 256 + b.toNat) 0

/-! ## Writing -/

/-- `msgp.Writer.WriteUint64`. -/
def encUint (u : UInt64) : Str :=
  let n := u.toNat
  if n ≤ 0x7f then [UInt8.ofNat n]
  else if n ≤ 0xff then 0xcc :: beBytes 1 n
  else if n ≤ 0xffff then 0xcd :: beBytes 2 n
  else if n ≤ 0xffffffff then 0xce :: beBytes 4 n
  else 0xcf :: beBytes 8 n

/-- `uint32(len(x))`. -/
def len32 (n : Nat) : Nat := n % 2 ^ 32

/-- `msgp.Writer.WriteString`. -/
def encStr (s : Str) : Str :=
  let n := len32 s.length
  (if n ≤ 31 then [UInt8.ofNat (0xa0 + n)]
   else if n ≤ 0xff then 0xd9 :: beBytes 1 n
   else if n ≤ 0xffff then 0xda :: beBytes 2 n
   else 0xdb :: beBytes 4 n) ++ s

/-- `msgp.Writer.WriteBytes`. -/
def encBin (s : Str) : Str :=
  let n := len32 s.length
  (if n ≤ 0xff then 0xc4 :: beBytes 1 n
   else if n ≤ 0xffff then 0xc5 :: beBytes 2 n
   else 0xc6 :: beBytes 4 n) ++ s

/-- `msgp.Writer.WriteArrayHeader`. -/
def encArrayHeader (n : Nat) : Str :=
  if n ≤ 15 then [UInt8.ofNat (0x90 + n)]
  else if n ≤ 0xffff then 0xdc :: beBytes 2 n
  else 0xdd :: beBytes 4 n

/-- `msgp.Writer.WriteBool`. -/
def encBool (b : Bool) : Str := if b then [0xc3] else [0xc2]

/-! ## Reading -/

/-- Outcome of a read: a value and the bytes left, the error `unexpected EOF`, or another error. -/
inductive Dec (α : Type) where
  | ok (a : α) (rest : Str)
  | eof
  | bad
deriving DecidableEq

/-- Sequencing. -/
def Dec.bind {α β : Type} (d : Dec α) (f : α → Str → Dec β) : Dec β :=
  match d with
  | .ok a r => f a r
  | .eof => .eof
  | .bad => .bad

/-- `fwd.Reader.Next`/`ReadFull`/`Peek` of `k` bytes. -/
def next (k : Nat) (bs : Str) : Dec Str := if bs.length < k then .eof else .ok (bs.take k) (bs.drop k)

/-- A big-endian number of `k` bytes after the lead byte. -/
def nextNum (k : Nat) (bs : Str) : Dec Nat := (next (k + 1) bs).bind (fun p r => .ok (beVal (p.drop 1)) r)

/-- `msgp.Reader.ReadUint64`: signed representations are accepted if not negative. -/
def readUint (bs : Str) : Dec UInt64 :=
  match bs with
  | [] => .eof
  | lead :: rest =>
    let unsigned (k : Nat) : Dec UInt64 := (nextNum k bs).bind (fun n r => .ok (UInt64.ofNat n) r)
    let signed (k : Nat) : Dec UInt64 := (nextNum k bs).bind (fun n r => if n < 256 ^ k / 2 then .ok (UInt64.ofNat n) r else .bad)
    if lead < 0x80 then .ok (UInt64.ofNat lead.toNat) rest
    else if lead = 0xcc then unsigned 1
    else if lead = 0xcd then unsigned 2
    else if lead = 0xce then unsigned 4
    else if lead = 0xcf then unsigned 8
    else if lead = 0xd0 then signed 1
    else if lead = 0xd1 then signed 2
    else if lead = 0xd2 then signed 4
    else if lead = 0xd3 then signed 8
    else .bad

/-- `msgp.Reader.ReadString`. -/
def readStr (bs : Str) : Dec Str :=
  match bs with
  | [] => .eof
  | lead :: rest =>
    if 0xa0 ≤ lead ∧ lead ≤ 0xbf then next (lead.toNat - 0xa0) rest
    else if lead = 0xd9 then (nextNum 1 bs).bind next
    else if lead = 0xda then (nextNum 2 bs).bind next
    else if lead = 0xdb then (nextNum 4 bs).bind next
    else .bad

/-- `msgp.Reader.ReadBytes`, which begins with `Peek(2)`. -/
def readBin (bs : Str) : Dec Str :=
  (next 2 bs).bind (fun p _ =>
    if p.head? = some 0xc4 then (nextNum 1 bs).bind next
    else if p.head? = some 0xc5 then (nextNum 2 bs).bind next
    else if p.head? = some 0xc6 then (nextNum 4 bs).bind next
    else .bad)

/-- `msgp.Reader.ReadArrayHeader`. -/
def readArrayHeader (bs : Str) : Dec Nat :=
  match bs with
  | [] => .eof
  | lead :: rest =>
    if 0x90 ≤ lead ∧ lead ≤ 0x9f then .ok (lead.toNat - 0x90) rest
    else if lead = 0xdc then nextNum 2 bs
    else if lead = 0xdd then nextNum 4 bs
    else .bad

/-- `msgp.Reader.ReadMapHeader`. -/
def readMapHeader (bs : Str) : Dec Nat :=
  match bs with
  | [] => .eof
  | lead :: rest =>
    if 0x80 ≤ lead ∧ lead ≤ 0x8f then .ok (lead.toNat - 0x80) rest
    else if lead = 0xde then nextNum 2 bs
    else if lead = 0xdf then nextNum 4 bs
    else .bad

/-- `msgp.Reader.ReadBool`. -/
def readBool (bs : Str) : Dec Bool :=
  match bs with
  | [] => .eof
  | lead :: rest => if lead = 0xc3 then .ok true rest else if lead = 0xc2 then .ok false rest else .bad

/-- The end of `msgp.Reader.ReadMapKeyPtr`: an empty key is `ErrShortBytes`. -/
def nextKey (n : Nat) (bs : Str) : Dec Str := if n = 0 then .bad else next n bs

/-- `msgp.Reader.ReadMapKeyPtr`: strings and binaries. -/
def readKey (bs : Str) : Dec Str :=
  match bs with
  | [] => .eof
  | lead :: rest =>
    if 0xa0 ≤ lead ∧ lead ≤ 0xbf then nextKey (lead.toNat - 0xa0) rest
    else if lead = 0xd9 ∨ lead = 0xc4 then (nextNum 1 bs).bind nextKey
    else if lead = 0xda ∨ lead = 0xc5 then (nextNum 2 bs).bind nextKey
    else if lead = 0xdb ∨ lead = 0xc6 then (nextNum 4 bs).bind nextKey
    else .bad

/-- A loop of `n` reads. -/
def readMany {α : Type} (rd : Str → Dec α) : Nat → Str → Dec (List α)
  | 0, bs => .ok [] bs
  | n + 1, bs => (rd bs).bind (fun a r => (readMany rd n r).bind (fun l r => .ok (a :: l) r))

/-! ## Records: `/repo/ripsrc/history3/process/repo/disk/disk.go:12-34` -/

/-- `DataRow`. -/
structure DRow where
  commit : Str := []
  path : Str := []
  blamePointer : UInt64 := 0
deriving DecidableEq

/-- `Blame`. -/
structure DBlame where
  pointer : UInt64 := 0
  commit : Str := []
  linePointers : List UInt64 := []
  isBinary : Bool := false
deriving DecidableEq

/-- `Line`. -/
structure DLine where
  pointer : UInt64 := 0
  commit : Str := []
  lineDataPointer : UInt64 := 0
deriving DecidableEq

/-- `LineData`. -/
structure DLineData where
  pointer : UInt64 := 0
  data : Str := []
deriving DecidableEq

/-- `DataRow.EncodeMsg` : `/repo/ripsrc/history3/process/repo/disk/disk_gen.go:902-936`. -/
def DRow.encode (z : DRow) : Str :=
  [0x83, 0xa1, 0x63] ++ encStr z.commit ++ [0xa1, 0x70] ++ encStr z.path ++ [0xa2, 0x62, 0x70] ++ encUint z.blamePointer

/-- `Blame.EncodeMsg` : `/repo/ripsrc/history3/process/repo/disk/disk_gen.go:76-125`. -/
def DBlame.encode (z : DBlame) : Str :=
  [0x84, 0xa1, 0x70] ++ encUint z.pointer ++ [0xa1, 0x63] ++ encStr z.commit ++ [0xa2, 0x6c, 0x70] ++
    (encArrayHeader (len32 z.linePointers.length) ++ z.linePointers.flatMap encUint) ++ [0xa2, 0x69, 0x62] ++ encBool z.isBinary

/-- `Line.EncodeMsg` : `/repo/ripsrc/history3/process/repo/disk/disk_gen.go:1055-1089`. -/
def DLine.encode (z : DLine) : Str :=
  [0x83, 0xa1, 0x70] ++ encUint z.pointer ++ [0xa1, 0x63] ++ encStr z.commit ++ [0xa3, 0x6c, 0x64, 0x70] ++ encUint z.lineDataPointer

/-- `LineData.EncodeMsg` : `/repo/ripsrc/history3/process/repo/disk/disk_gen.go:1202-1226`. -/
def DLineData.encode (z : DLineData) : Str :=
  [0x82, 0xa1, 0x70] ++ encUint z.pointer ++ [0xa1, 0x64] ++ encBin z.data

/-- `msgp.WrapError` with a context (the name of the field): the text of the error is no longer `unexpected EOF`, so it counts as `bad`. -/
def Dec.ctx {α : Type} : Dec α → Dec α
  | .ok a r => .ok a r
  | .eof => .bad
  | .bad => .bad

/-- The size of the object at the start of the input, without the objects it contains, and their number: `getSize` of msgp, after the MessagePack format (0xc1 is unused). -/
def objSize (bs : Str) : Dec (Nat × Nat) :=
  match bs with
  | [] => .eof
  | lead :: _ =>
    let sized (k extra : Nat) : Dec (Nat × Nat) := (nextNum k bs).bind (fun n r => .ok (1 + k + extra + n, 0) r)
    let many (k f : Nat) : Dec (Nat × Nat) := (nextNum k bs).bind (fun n r => .ok (1 + k, f * n) r)
    let const (n : Nat) : Dec (Nat × Nat) := .ok (n, 0) bs
    if lead < 0x80 then const 1
    else if lead < 0x90 then .ok (1, 2 * (lead.toNat - 0x80)) bs
    else if lead < 0xa0 then .ok (1, lead.toNat - 0x90) bs
    else if lead < 0xc0 then const (1 + (lead.toNat - 0xa0))
    else if lead = 0xc0 then const 1
    else if lead = 0xc1 then .bad
    else if lead < 0xc4 then const 1
    else if lead = 0xc4 then sized 1 0
    else if lead = 0xc5 then sized 2 0
    else if lead = 0xc6 then sized 4 0
    else if lead = 0xc7 then sized 1 1
    else if lead = 0xc8 then sized 2 1
    else if lead = 0xc9 then sized 4 1
    else if lead = 0xca then const 5
    else if lead = 0xcb then const 9
    else if lead = 0xcc ∨ lead = 0xd0 then const 2
    else if lead = 0xcd ∨ lead = 0xd1 then const 3
    else if lead = 0xce ∨ lead = 0xd2 then const 5
    else if lead = 0xcf ∨ lead = 0xd3 then const 9
    else if lead = 0xd4 then const 3
    else if lead = 0xd5 then const 4
    else if lead = 0xd6 then const 6
    else if lead = 0xd7 then const 10
    else if lead = 0xd8 then const 18
    else if lead = 0xd9 then sized 1 0
    else if lead = 0xda then sized 2 0
    else if lead = 0xdb then sized 4 0
    else if lead = 0xdc then many 2 1
    else if lead = 0xdd then many 4 1
    else if lead = 0xde then many 2 2
    else if lead = 0xdf then many 4 2
    else const 1

/-- `msgp.Reader.Skip`, called once for each of `count` objects; the recursive calls for the objects inside one are counted with them. Every object takes at least one byte, which is what makes it end. -/
def skipObjs (count : Nat) (bs : Str) : Dec Unit :=
  match count with
  | 0 => .ok () bs
  | c + 1 => match objSize bs with
    | .eof => .eof
    | .bad => .bad
    | .ok (size, inner) _ =>
      if bs.length < size then .eof
      else if 0 < size ∧ 0 < bs.length then skipObjs (inner + c) (bs.drop size) else .bad
termination_by bs.length
decreasing_by simp only [List.length_drop]; omega

/-- `msgp.Reader.Skip`. -/
def skip (bs : Str) : Dec Unit := skipObjs 1 bs

/-- The loop over the fields in every `DecodeMsg`, e.g. `/repo/ripsrc/history3/process/repo/disk/disk_gen.go:19-71`. The error of a
key read is wrapped without context and keeps its text `unexpected EOF`. `field` is the switch. -/
def decodeFields {σ : Type} (field : σ → Str → Str → Dec σ) : Nat → σ → Str → Dec σ
  | 0, s, bs => .ok s bs
  | n + 1, s, bs => (readKey bs).bind (fun k r => (field s k r).bind (fun s' r' => decodeFields field n s' r'))

/-- The default case of the switches: the value is skipped; its error is wrapped without context. -/
def unknownField {σ : Type} (z : σ) (bs : Str) : Dec σ := (skip bs).bind (fun _ r => .ok z r)

/-- `DecodeMsg` into the object `init`. -/
def decodeMsg {σ : Type} (init : σ) (field : σ → Str → Str → Dec σ) (bs : Str) : Dec σ :=
  (readMapHeader bs).bind (fun n r => decodeFields field n init r)

/-- The switch in `DataRow.DecodeMsg` : `/repo/ripsrc/history3/process/repo/disk/disk_gen.go:871-894`. The error of
a value gets the field's name as context. -/
def DRow.field (z : DRow) (k bs : Str) : Dec DRow :=
  if k = b!"c" then Dec.ctx ((readStr bs).bind (fun x r => .ok { z with commit := x } r))
  else if k = b!"p" then Dec.ctx ((readStr bs).bind (fun x r => .ok { z with path := x } r))
  else if k = b!"bp" then Dec.ctx ((readUint bs).bind (fun x r => .ok { z with blamePointer := x } r))
  else unknownField z bs

/-- The switch in `Blame.DecodeMsg` : `/repo/ripsrc/history3/process/repo/disk/disk_gen.go:26-69`. -/
def DBlame.field (z : DBlame) (k bs : Str) : Dec DBlame :=
  if k = b!"p" then Dec.ctx ((readUint bs).bind (fun x r => .ok { z with pointer := x } r))
  else if k = b!"c" then Dec.ctx ((readStr bs).bind (fun x r => .ok { z with commit := x } r))
  else if k = b!"lp" then Dec.ctx ((readArrayHeader bs).bind (fun n r => (readMany readUint n r).bind (fun x r => .ok { z with linePointers := x } r)))
  else if k = b!"ib" then Dec.ctx ((readBool bs).bind (fun x r => .ok { z with isBinary := x } r))
  else unknownField z bs

/-- The switch in `Line.DecodeMsg` : `/repo/ripsrc/history3/process/repo/disk/disk_gen.go:1024-1047`. -/
def DLine.field (z : DLine) (k bs : Str) : Dec DLine :=
  if k = b!"p" then Dec.ctx ((readUint bs).bind (fun x r => .ok { z with pointer := x } r))
  else if k = b!"c" then Dec.ctx ((readStr bs).bind (fun x r => .ok { z with commit := x } r))
  else if k = b!"ldp" then Dec.ctx ((readUint bs).bind (fun x r => .ok { z with lineDataPointer := x } r))
  else unknownField z bs

/-- The switch in `LineData.DecodeMsg` : `/repo/ripsrc/history3/process/repo/disk/disk_gen.go:1177-1194`. -/
def DLineData.field (z : DLineData) (k bs : Str) : Dec DLineData :=
  if k = b!"p" then Dec.ctx ((readUint bs).bind (fun x r => .ok { z with pointer := x } r))
  else if k = b!"d" then Dec.ctx ((readBin bs).bind (fun x r => .ok { z with data := x } r))
  else unknownField z bs

/-- `DataRow.DecodeMsg` : `/repo/ripsrc/history3/process/repo/disk/disk_gen.go:855-899`. -/
def DRow.decode : Str → Dec DRow := decodeMsg {} DRow.field
/-- `Blame.DecodeMsg` : `/repo/ripsrc/history3/process/repo/disk/disk_gen.go:10-73`. -/
def DBlame.decode : Str → Dec DBlame := decodeMsg {} DBlame.field
/-- `Line.DecodeMsg` : `/repo/ripsrc/history3/process/repo/disk/disk_gen.go:1008-1052`. -/
def DLine.decode : Str → Dec DLine := decodeMsg {} DLine.field
/-- `LineData.DecodeMsg` : `/repo/ripsrc/history3/process/repo/disk/disk_gen.go:1161-1199`. -/
def DLineData.decode : Str → Dec DLineData := decodeMsg {} DLineData.field

/-- The read loops of `/repo/ripsrc/history3/process/repo/reader.go:75-85` etc.: records until an error; the flag tells whether
that error was `unexpected EOF` (`msgIsEOF`, `/repo/ripsrc/history3/process/repo/reader.go:179-184`). Every record takes at least one
byte, which is what makes the loop end. -/
def readAll {σ : Type} (dec : Str → Dec σ) (bs : Str) : List σ × Bool :=
  match dec bs with
  | .eof => ([], true)
  | .bad => ([], false)
  | .ok a r => if r.length < bs.length then ((a :: (readAll dec r).1), (readAll dec r).2) else ([a], false)
termination_by bs.length

end Ripsrc
