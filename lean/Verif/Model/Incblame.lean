import Verif.Go.Map
import Verif.Go.Num
import Verif.Go.Sort
import Verif.Go.Split
/-!
# Model of package `incblame`

A `*Line` is modelled by its value: lines are never modified after creation (that claim itself is C54, proved on the
heap model in `Model/Heap.lean`).
-/
namespace Ripsrc

/-- `Line` : `/repo/ripsrc/history3/incblame/apply.go:27-30`. -/
structure Line where
  line : Str
  commit : Str
deriving DecidableEq, Repr

/-- `Blame` : `/repo/ripsrc/history3/incblame/apply.go:14-18`. -/
structure Blame where
  commit : Str
  lines : List Line
  isBinary : Bool := false
deriving DecidableEq, Repr

/-- `BlameBinaryFile` : `/repo/ripsrc/history3/incblame/apply.go:22-24`. -/
def blameBinaryFile (commit : Str) : Blame := { commit := commit, lines := [], isBinary := true }

/-- `HunkLocation` : `/repo/ripsrc/history3/incblame/parse.go:35-39`; `op` is the byte `+` or `-`. -/
structure HunkLocation where
  op : UInt8
  offset : Int
  lines : Int
deriving DecidableEq, Repr

/-- `Hunk` : `/repo/ripsrc/history3/incblame/parse.go:25-28`. -/
structure Hunk where
  locations : List HunkLocation
  data : Str
deriving DecidableEq, Repr

/-- `Diff` : `/repo/ripsrc/history3/incblame/parse.go:10-15`. -/
structure Diff where
  pathPrev : Str := []
  path : Str := []
  isBinary : Bool := false
  hunks : List Hunk := []
deriving DecidableEq, Repr

/-- `maxLine` : `/repo/ripsrc/history3/incblame/maxline.go:3-4`. -/
def incMaxLine : Nat := 100 * (1000 * 1000)

/-! ## Apply -/

/-- The marker line. -/
def noNewlineMarker : Str := b!"\\ No newline at end of file"

/-- Variables `res`, `oldFileIndex` of `Apply`. -/
structure ApplySt where
  res : List Line
  idx : Nat
deriving DecidableEq

/-- One patch line: `/repo/ripsrc/history3/incblame/apply.go:133-158`. -/
def applyLine (file : List Line) (commit : Str) (s : ApplySt) (b : Str) : Go ApplySt :=
  match b with
  | [] => .error (.panic "could not process patch line, it was empty")
  | op :: data =>
    if op = 32 ∨ op = 9 then
      match file[s.idx]? with
      | none => .error (.panic "index out of range: file.Lines[i]")
      | some l => .ok { res := s.res ++ [l], idx := s.idx + 1 }
    else if op = 45 then .ok { s with idx := s.idx + 1 }
    else if op = 43 then .ok { s with res := s.res ++ [{ line := data, commit := commit }] }
    else if op = 92 then
      if b = noNewlineMarker then .ok s
      else .error (.panic "invalid patch line, starts with \\")
    else .error (.panic "invalid patch prefix")

/-- `copyRange(from, to)` : `/repo/ripsrc/history3/incblame/apply.go:96-98`. Go's slice expression checks against the
capacity, so a `to` between length and capacity does not panic here but appends stray pointers; the model panics at
once. This is the same outcome: `Apply` then always panics at line 165, because `oldFileIndex` can only grow. -/
def copyRange (file : List Line) (res : List Line) (frm : Nat) (to : Int) : Go (List Line) :=
  if to < (frm : Int) ∨ (file.length : Int) < to then .error (.panic "slice bounds out of range")
  else .ok (res ++ (file.drop frm).take (to.toNat - frm))

/-- Start index of a hunk in the old file: `/repo/ripsrc/history3/incblame/apply.go:125-128`. -/
def hunkStart (l : HunkLocation) : Int :=
  let j := l.offset - 1
  if j = -1 then 0 else j

/-- One hunk: `/repo/ripsrc/history3/incblame/apply.go:117-163`. -/
def applyHunk (file : List Line) (commit : Str) (s : ApplySt) (h : Hunk) : Go ApplySt :=
  match h.locations with
  | [] => .error (.panic "no location in diff hunk")
  | loc :: _ => do
    let j := hunkStart loc
    let res ← copyRange file s.res s.idx j
    let (lines, tooLong) := scan incMaxLine h.data
    let s ← lines.foldlM (applyLine file commit) { res := res, idx := j.toNat }
    if tooLong then .error (.panic "bufio.Scanner: token too long") else .ok s

/-- Order used by `sort.Slice`: offsets of the first locations. -/
def hunkLe (a b : Hunk) : Bool :=
  match a.locations, b.locations with
  | x :: _, y :: _ => decide (x.offset ≤ y.offset)
  | _, _ => true

/-- `Apply` : `/repo/ripsrc/history3/incblame/apply.go:80-168`. `srt` stands for `sort.Slice` (any function returning
a sorted permutation; the Go sort is not stable). A hunk without location panics, either inside the comparison function
or at line 118; the model checks it first. -/
def apply (srt : List Hunk → List Hunk) (file : Blame) (diff : Diff) (commit : Str) : Go Blame :=
  if file.isBinary then .error (.panic "file.IsBinary")
  else if diff.isBinary then .error (.panic "diff.IsBinary")
  else if diff.hunks.any (fun h => h.locations.isEmpty) then .error (.panic "no location in diff hunk")
  else do
    let s ← (srt diff.hunks).foldlM (applyHunk file.lines commit) { res := [], idx := 0 }
    let res ← copyRange file.lines s.res s.idx file.lines.length
    .ok { commit := commit, lines := res }

/-! ## ApplyMerge -/

/-- `for i, p := range parents { cand = append(cand, Apply(p, diffs[i], ...)) }` :
`/repo/ripsrc/history3/incblame/apply_merge2.go:27-31`. -/
def mergeCands (srt : List Hunk → List Hunk) (commit : Str) : List Blame → List Diff → Go (List Blame)
  | [], _ => .ok []
  | _ :: _, [] => .error (.panic "index out of range: diffs[i]")
  | p :: ps, d :: ds => do
    let c ← apply srt p d commit
    let cs ← mergeCands srt commit ps ds
    .ok (c :: cs)

/-- Inner loop over the candidates for one line: `/repo/ripsrc/history3/incblame/apply_merge2.go:46-56`; `lines` are the
candidates' lines at this index. -/
def mergePick (commit : Str) (own : Line) : List Line → Line
  | [] => own
  | l :: ls => if l.commit ≠ commit then { own with commit := l.commit } else mergePick commit own ls

/-- Lines at index `i` of all candidates; `cand[j].Lines[i]` panics when out of range. -/
def linesAt (cands : List Blame) (i : Nat) : Go (List Line) :=
  cands.mapM (fun c => match c.lines[i]? with
    | none => .error (.panic "index out of range: cand[j].Lines[i]")
    | some l => .ok l)

/-- Loop over the lines of the result: `/repo/ripsrc/history3/incblame/apply_merge2.go:45-58`. -/
def mergeLines (commit : Str) (cands : List Blame) : Nat → List Line → Go (List Line)
  | _, [] => .ok []
  | i, own :: rest => do
    let ls ← linesAt cands i
    let rest ← mergeLines commit cands (i + 1) rest
    .ok (mergePick commit own ls :: rest)

/-- `ApplyMerge` : `/repo/ripsrc/history3/incblame/apply_merge2.go:8-60`. -/
def applyMerge (srt : List Hunk → List Hunk) (parents : List Blame) (diffs : List Diff) (commit : Str) : Go Blame :=
  if parents.any (·.isBinary) then .error (.panic "binary parent")
  else if diffs.any (·.isBinary) then .error (.panic "binary diff")
  else do
    let cand ← mergeCands srt commit parents diffs
    match cand with
    | [] => .error (.panic "index out of range: cand[0]")
    | c0 :: _ =>
      if cand.any (fun c => decide (c.lines.length ≠ c0.lines.length)) then
        .error (.panic "not all resulting blames have the same num of lines")
      else do
        let lines ← mergeLines commit cand 0 c0.lines
        .ok { c0 with lines := lines }

/-! ## parseContext -/

/-- Number of leading `@`: `/repo/ripsrc/history3/incblame/parse_utils.go:22-29`. -/
def atCount : Str → Nat
  | 64 :: r => atCount r + 1
  | _ => 0

/-- Index at which the number of `@` seen reaches `target` (checked after each byte, starting with `c` seen at index
`i`), 0 if never: `/repo/ripsrc/history3/incblame/parse_utils.go:30-40`. -/
def findEnd (target : Nat) : Nat → Nat → Str → Nat
  | _, _, [] => 0
  | c, i, b :: r =>
    let c := if b = 64 then c + 1 else c
    if c = target then i else findEnd target c (i + 1) r

/-- `bytes.Trim(b, "@ ")`. -/
def trimAtSpace (b : Str) : Str :=
  let cut := fun (x : UInt8) => x == 64 || x == 32
  ((b.dropWhile cut).reverse.dropWhile cut).reverse

/-- One location: `/repo/ripsrc/history3/incblame/parse_utils.go:47-83`. -/
def parseLocation (p : Str) : Go HunkLocation :=
  let bad : Go HunkLocation := .error (.panic "invalid diff context format")
  if p.length < 2 then bad
  else match p with
    | [] => bad
    | op :: rest =>
      if op = 45 ∨ op = 43 then
        match splitByte 44 rest with
        | [n] => match atoi n with
          | some n => .ok { op := op, offset := 0, lines := n }
          | none => bad
        | [a, n] => match atoi a, atoi n with
          | some a, some n => .ok { op := op, offset := a, lines := n }
          | _, _ => bad
        | _ => bad
      else bad

/-- `parseContext` : `/repo/ripsrc/history3/incblame/parse_utils.go:18-85`. -/
def parseContext (b0 : Str) : Go (List HunkLocation) :=
  let endInd := findEnd (atCount b0 * 2) 0 0 b0
  if endInd = 0 then .error (.panic "invalid diff context format: endInd == 0")
  else (splitByte 32 (trimAtSpace (b0.take endInd))).mapM parseLocation

/-! ## parseDiffDecl -/

/-- The two sentinel errors and the other errors of `parseDiffDecl`:
`/repo/ripsrc/history3/incblame/parse_utils.go:90-92`. -/
inductive DeclErr where
  | renameWithSpaces
  | merge
  | invalid
deriving DecidableEq, Repr

/-- `remPrefix` : `/repo/ripsrc/history3/incblame/parse_utils.go:109-118`. -/
def remPrefix (data pr : Str) : Except DeclErr Str :=
  let d2 := if data.length ≥ 2 ∧ data.head? = some 34 ∧ data.getLast? = some 34 then (data.drop 1).dropLast else data
  if d2.length ≤ pr.length ∨ d2.take pr.length ≠ pr then .error .invalid
  else .ok (d2.drop pr.length)

/-- `parseDiffDecl` : `/repo/ripsrc/history3/incblame/parse_utils.go:94-150`. -/
def parseDiffDecl (diff : Str) : Except DeclErr (Str × Str) :=
  if diff.length = 0 then .error .invalid
  else if startsWith diff b!"diff --git " = false then
    if startsWith diff b!"diff --combined " then .error .merge else .error .invalid
  else
    let data := diff.drop 11
    let spaceCount := data.count 32
    if spaceCount = 0 then .error .invalid
    else if spaceCount = 1 then
      let i := data.idxOf 32
      if i = 0 ∨ i = data.length then .error .invalid
      else
        match remPrefix (data.take i) b!"a/" with
        | .error e => .error e
        | .ok f =>
          match remPrefix (data.drop (i + 1)) b!"b/" with
          | .error e => .error e
          | .ok t => .ok (f, t)
    else
      let mid := data.length / 2
      if data.length < 7 ∨ data.length % 2 ≠ 1 ∨ data.take 2 ≠ b!"a/" ∨ (data.drop (mid + 1)).take 2 ≠ b!"b/" then
        .error .renameWithSpaces
      else
        let f := (data.take mid).drop 2
        let t := data.drop (mid + 3)
        if f ≠ t then .error .renameWithSpaces else .ok (f, t)

/-! ## Parse -/

/-- Parser states: `/repo/ripsrc/history3/incblame/parse.go:59-65`. -/
inductive PState where
  | parseDiff
  | preMeta
  | nextIsCurrName
  | nextIsContext
  | inPatchLines
deriving DecidableEq, Repr

/-- `parser` : `/repo/ripsrc/history3/incblame/parse.go:67-80`. The map `preMeta` has five possible keys, one field
each (missing and empty are not distinguished by the code). -/
structure Parser where
  state : PState := .parseDiff
  pathPrev : Str := []
  path : Str := []
  renameFrom : Str := []
  renameTo : Str := []
  newFile : Str := []
  deletedFile : Str := []
  binaryFiles : Str := []
  contexts : List HunkLocation := []
  lines : Str := []
  res : List Hunk := []
deriving DecidableEq

/-- `finishHunk` : `/repo/ripsrc/history3/incblame/parse.go:200-212`. -/
def Parser.finishHunk (p : Parser) : Parser :=
  { p with
    res := if p.contexts.length ≠ 0 then p.res ++ [{ locations := p.contexts, data := p.lines }] else p.res
    contexts := []
    lines := [] }

/-- method `parseContext` : `/repo/ripsrc/history3/incblame/parse.go:214-217`. -/
def Parser.parseContext (p : Parser) (b : Str) : Go Parser := do
  let c ← Ripsrc.parseContext b
  .ok { p with contexts := c, state := .inPatchLines }

/-- Value of a header line for key `k`: `/repo/ripsrc/history3/incblame/parse.go:160-164`. -/
def metaValue (b k old : Str) : Str := if startsWith b (k ++ b!" ") then b.drop (k.length + 1) else old

/-- Header lines before `---`: `/repo/ripsrc/history3/incblame/parse.go:158-168`, keys from lines 82-86. -/
def Parser.metaLine (p : Parser) (b : Str) : Parser :=
  { p with
    renameFrom := metaValue b b!"rename from" p.renameFrom
    renameTo := metaValue b b!"rename to" p.renameTo
    newFile := metaValue b b!"new file" p.newFile
    deletedFile := metaValue b b!"deleted file" p.deletedFile
    binaryFiles := metaValue b b!"Binary files" p.binaryFiles }

/-- `lineInPatchLines` : `/repo/ripsrc/history3/incblame/parse.go:219-227`. `b[0:2]` on a line shorter than two bytes
reads the bytes that follow in the scanner's buffer (a newline), so the comparison is false then; modelled as
`startsWith "@@"`. -/
def Parser.lineInPatchLines (p : Parser) (b : Str) : Go Parser :=
  if startsWith b b!"@@" then p.finishHunk.parseContext b
  else .ok { p with lines := p.lines ++ b ++ [10] }

/-- `line` : `/repo/ripsrc/history3/incblame/parse.go:141-184`. -/
def Parser.line (p : Parser) (b : Str) : Go Parser :=
  match p.state with
  | .parseDiff =>
    match parseDiffDecl b with
    | .ok (f, t) => .ok { p with state := .preMeta, pathPrev := f, path := t }
    | .error .merge => .ok { p with state := .preMeta, pathPrev := [], path := [] }
    | .error .renameWithSpaces => .ok { p with state := .preMeta, pathPrev := [], path := [] }
    | .error .invalid => .error (.panic "parseDiffDecl")
  | .preMeta => if startsWith b b!"---" = false then .ok (p.metaLine b) else .ok { p with state := .nextIsCurrName }
  | .nextIsCurrName => .ok { p with state := .nextIsContext }
  | .nextIsContext =>
    if b.length ≤ 2 then .ok p
    else if startsWith b b!"@@" then p.parseContext b else .ok p
  | .inPatchLines => p.lineInPatchLines b

/-- End of `Parse`, after the scan: `/repo/ripsrc/history3/incblame/parse.go:111-138`. -/
def Parser.finish (p : Parser) : Go Diff :=
  let p := p.finishHunk
  let d : Diff := { pathPrev := p.pathPrev, path := p.path, hunks := p.res }
  let d := if p.newFile ≠ [] then { d with pathPrev := [] } else d
  let d := if p.deletedFile ≠ [] then { d with path := [], hunks := [] } else d
  let d : Go Diff :=
    if p.renameFrom ≠ [] then
      if p.renameTo = [] then .error (.panic "has rename from, but not rename to")
      else .ok { d with pathPrev := p.renameFrom, path := p.renameTo }
    else .ok d
  d.map (fun d => if p.binaryFiles ≠ [] then { d with isBinary := true } else d)

/-- `Parse` : `/repo/ripsrc/history3/incblame/parse.go:54-57,95-139`. -/
def parseDiff (content : Str) : Go Diff :=
  if content.length = 0 then .ok {}
  else do
    let (lines, tooLong) := scan incMaxLine content
    let p ← lines.foldlM Parser.line {}
    if tooLong then .error (.panic "bufio.Scanner: token too long") else p.finish

end Ripsrc
