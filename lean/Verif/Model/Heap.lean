import Verif.Model.Incblame
/-!
# Pointer-level model of `Apply` and `ApplyMerge`

`Model/Incblame.lean` treats lines as values. Here the same functions are modelled with Go's memory: byte buffers, `Line`
objects, backing arrays of `[]*Line` slices (with capacity, so that `append` may write in place) and the scanner's
reused token buffer. Everything that is allocated is addressed by its index.
-/
namespace Ripsrc

/-- A `Line` object: `/repo/ripsrc/history3/incblame/apply.go:27-30`; the content is a byte slice, i.e. a reference to a
buffer. -/
structure HLine where
  buf : Nat
  commit : Str
deriving DecidableEq

/-- Memory. -/
structure Heap where
  bufs : List Str := []
  lines : List HLine := []
  arrs : List (List Nat) := []
deriving DecidableEq

/-- A `Lines` (`[]*Line`) slice starting at the beginning of its backing array; `arr = none` for nil. -/
structure Slice where
  arr : Option Nat := none
  len : Nat := 0
deriving DecidableEq

/-- `Blame` : `/repo/ripsrc/history3/incblame/apply.go:14-18`. -/
structure HBlame where
  commit : Str
  lines : Slice
  isBinary : Bool := false
deriving DecidableEq

/-- Backing array of a slice. -/
def Heap.back (h : Heap) (s : Slice) : List Nat :=
  match s.arr with
  | none => []
  | some a => h.arrs[a]?.getD []

/-- The pointers in a slice. -/
def Heap.elems (h : Heap) (s : Slice) : List Nat := (h.back s).take s.len

/-- Go's `append(s, xs...)`. It writes into the backing array when the capacity suffices and otherwise moves to a new
array; `grow n` is the spare capacity the runtime chooses. -/
def Heap.append (grow : Nat → Nat) (h : Heap) (s : Slice) (xs : List Nat) : Heap × Slice :=
  let n := s.len + xs.length
  if n ≤ (h.back s).length then
    match s.arr with
    | none => (h, s)
    | some a =>
      ({ h with arrs := h.arrs.set a ((h.back s).take s.len ++ xs ++ (h.back s).drop n) }, { s with len := n })
  else
    ({ h with arrs := h.arrs ++ [h.elems s ++ xs ++ List.replicate (grow n) 0] }, { arr := some h.arrs.length, len := n })

/-- Variables `res`, `oldFileIndex` of `Apply`, plus the memory. -/
structure HApplySt where
  h : Heap
  res : Slice
  idx : Nat

/-- `scanner.Scan()` : the token overwrites the scanner's buffer. -/
def Heap.scanInto (h : Heap) (sbuf : Nat) (tok : Str) : Heap := { h with bufs := h.bufs.set sbuf tok }

/-- `copyLine(i)` : `/repo/ripsrc/history3/incblame/apply.go:101-103`. -/
def hCopyLine (grow : Nat → Nat) (file : Slice) (s : HApplySt) (i : Nat) : Go HApplySt :=
  match (s.h.elems file)[i]? with
  | none => .error (.panic "index out of range: file.Lines[i]")
  | some p =>
    let (h, res) := s.h.append grow s.res [p]
    .ok { s with h := h, res := res }

/-- `addLine(copyBytes(data))` with `data = b[1:]` a part of the scanner's buffer:
`/repo/ripsrc/history3/incblame/apply.go:105-107,147,170-174`. -/
def hAddLine (grow : Nat → Nat) (commit : Str) (sbuf : Nat) (s : HApplySt) : HApplySt :=
  let data := (s.h.bufs[sbuf]?.getD []).drop 1
  let nb := s.h.bufs.length
  let h : Heap := { s.h with bufs := s.h.bufs ++ [data] }
  let np := h.lines.length
  let h : Heap := { h with lines := h.lines ++ [{ buf := nb, commit := commit }] }
  let (h, res) := h.append grow s.res [np]
  { s with h := h, res := res }

/-- One patch line: `/repo/ripsrc/history3/incblame/apply.go:133-158`. -/
def hApplyLine (grow : Nat → Nat) (file : Slice) (commit : Str) (sbuf : Nat) (s : HApplySt) (b : Str) : Go HApplySt :=
  let s := { s with h := s.h.scanInto sbuf b }
  match b with
  | [] => .error (.panic "could not process patch line, it was empty")
  | op :: _ =>
    if op = 32 ∨ op = 9 then do
      let s ← hCopyLine grow file s s.idx
      .ok { s with idx := s.idx + 1 }
    else if op = 45 then .ok { s with idx := s.idx + 1 }
    else if op = 43 then .ok (hAddLine grow commit sbuf s)
    else if op = 92 then
      if b = noNewlineMarker then .ok s
      else .error (.panic "invalid patch line, starts with \\")
    else .error (.panic "invalid patch prefix")

/-- `copyRange(from, to)` : `/repo/ripsrc/history3/incblame/apply.go:96-98` (same simplification as
`Ripsrc.copyRange`). -/
def hCopyRange (grow : Nat → Nat) (file : Slice) (h : Heap) (res : Slice) (frm : Nat) (to : Int) :
    Go (Heap × Slice) :=
  if to < (frm : Int) ∨ ((h.elems file).length : Int) < to then .error (.panic "slice bounds out of range")
  else .ok (h.append grow res (((h.elems file).drop frm).take (to.toNat - frm)))

/-- One hunk: `/repo/ripsrc/history3/incblame/apply.go:117-163`. A new scanner has its own buffer. -/
def hApplyHunk (grow : Nat → Nat) (file : Slice) (commit : Str) (s : HApplySt) (hk : Hunk) : Go HApplySt :=
  match hk.locations with
  | [] => .error (.panic "no location in diff hunk")
  | loc :: _ => do
    let j := hunkStart loc
    let (h, res) ← hCopyRange grow file s.h s.res s.idx j
    let sbuf := h.bufs.length
    let h : Heap := { h with bufs := h.bufs ++ [[]] }
    let (lines, tooLong) := scan incMaxLine hk.data
    let s ← lines.foldlM (hApplyLine grow file commit sbuf) { h := h, res := res, idx := j.toNat }
    if tooLong then .error (.panic "bufio.Scanner: token too long") else .ok s

/-- `Apply` : `/repo/ripsrc/history3/incblame/apply.go:80-168`. -/
def hApply (grow : Nat → Nat) (srt : List Hunk → List Hunk) (h : Heap) (file : HBlame) (diff : Diff) (commit : Str) :
    Go (Heap × HBlame) :=
  if file.isBinary then .error (.panic "file.IsBinary")
  else if diff.isBinary then .error (.panic "diff.IsBinary")
  else if diff.hunks.any (fun h => h.locations.isEmpty) then .error (.panic "no location in diff hunk")
  else do
    let s ← (srt diff.hunks).foldlM (hApplyHunk grow file.lines commit) { h := h, res := {}, idx := 0 }
    let (h, res) ← hCopyRange grow file.lines s.h s.res s.idx (s.h.elems file.lines).length
    .ok (h, { commit := commit, lines := res })

/-- `/repo/ripsrc/history3/incblame/apply_merge2.go:27-31`. -/
def hMergeCands (grow : Nat → Nat) (srt : List Hunk → List Hunk) (commit : Str) :
    Heap → List HBlame → List Diff → Go (Heap × List HBlame)
  | h, [], _ => .ok (h, [])
  | _, _ :: _, [] => .error (.panic "index out of range: diffs[i]")
  | h, p :: ps, d :: ds => do
    let (h, c) ← hApply grow srt h p d commit
    let (h, cs) ← hMergeCands grow srt commit h ps ds
    .ok (h, c :: cs)

/-- `cand[j].Lines[i]` dereferenced. -/
def Heap.lineAt (h : Heap) (s : Slice) (i : Nat) : Go HLine :=
  match (h.elems s)[i]? with
  | none => .error (.panic "index out of range: cand[j].Lines[i]")
  | some p => match h.lines[p]? with
    | none => .error (.panic "invalid pointer")
    | some l => .ok l

/-- Inner loop: `/repo/ripsrc/history3/incblame/apply_merge2.go:46-56`. `lc := *res.Lines[i]; lc.Commit = ...;
res.Lines[i] = &lc` allocates a new `Line` and overwrites the cell of the backing array. -/
def hMergePick (commit : Str) (res : Slice) (i : Nat) : List HBlame → Heap → Go Heap
  | [], h => .ok h
  | c :: cs, h => do
    let line ← h.lineAt c.lines i
    if line.commit ≠ commit then do
      let own ← h.lineAt res i
      let np := h.lines.length
      let h : Heap := { h with lines := h.lines ++ [{ own with commit := line.commit }] }
      match res.arr with
      | none => .ok h
      | some a => .ok { h with arrs := h.arrs.set a ((h.back res).set i np) }
    else hMergePick commit res i cs h

/-- Outer loop: `/repo/ripsrc/history3/incblame/apply_merge2.go:45-58`, `n` iterations from `i`. -/
def hMergeLines (commit : Str) (res : Slice) (cands : List HBlame) : Nat → Nat → Heap → Go Heap
  | _, 0, h => .ok h
  | i, n + 1, h => do
    let h ← hMergePick commit res i cands h
    hMergeLines commit res cands (i + 1) n h

/-- `ApplyMerge` : `/repo/ripsrc/history3/incblame/apply_merge2.go:8-60`. -/
def hApplyMerge (grow : Nat → Nat) (srt : List Hunk → List Hunk) (h : Heap) (parents : List HBlame) (diffs : List Diff)
    (commit : Str) : Go (Heap × HBlame) :=
  if parents.any (·.isBinary) then .error (.panic "binary parent")
  else if diffs.any (·.isBinary) then .error (.panic "binary diff")
  else do
    let (h, cand) ← hMergeCands grow srt commit h parents diffs
    match cand with
    | [] => .error (.panic "index out of range: cand[0]")
    | c0 :: _ =>
      if cand.any (fun c => decide (c.lines.len ≠ c0.lines.len)) then
        .error (.panic "not all resulting blames have the same num of lines")
      else do
        let h ← hMergeLines commit c0.lines cand 0 c0.lines.len h
        .ok (h, c0)

end Ripsrc
