import Verif.Model.Msgp
import Verif.Model.Process
/-!
# Model of the checkpoint writer and reader

`/repo/ripsrc/history3/process/repo/{writer,reader,msgp}.go`. The writer identifies blames and lines by their addresses, so the
repository is modelled with pointers here. `xxhash.Sum64` is an arbitrary function; gzip is an arbitrary pair of functions of
which the theorems assume that reading gives back the data that was flushed, followed by `unexpected EOF` (`msgWriter` never
closes the gzip stream). Log messages are left out.
-/
namespace Ripsrc

/-- What a `*Blame` points to; the lines are pointers. -/
structure PBlame where
  commit : Str
  lines : List Nat
  isBinary : Bool := false

/-- Memory: what the pointers to blames and to lines point to. (Go has no dangling pointers, and nil is never stored.) -/
structure Mem where
  blame : Nat → PBlame
  line : Nat → Line

/-- `Repo` with pointers: `/repo/ripsrc/history3/process/repo/repo.go:12`. -/
abbrev PRepo := GoMap Str (GoMap Str Nat)

/-- The records written to the four files. -/
structure Records where
  rows : List DRow := []
  blames : List DBlame := []
  lines : List DLine := []
  lineData : List DLineData := []
deriving DecidableEq

/-- Variables of `Write` : `/repo/ripsrc/history3/process/repo/writer.go:66-72`. -/
structure WrSt where
  blamePointerC : UInt64 := 0
  blamePointers : GoMap Nat UInt64 := []
  linePointerC : UInt64 := 0
  linePointers : GoMap Nat UInt64 := []
  lineData : GoMap UInt64 Bool := []
  out : Records := {}

/-- One line of a blame: `/repo/ripsrc/history3/process/repo/writer.go:101-135`; returns its pointer. -/
def writeLine (hash : Str → UInt64) (mem : Mem) (s : WrSt) (l : Nat) : WrSt × UInt64 :=
  match GoMap.get s.linePointers l with
  | some lp => (s, lp)
  | none =>
    let c := s.linePointerC + 1
    let s := { s with linePointerC := c, linePointers := GoMap.set s.linePointers l c }
    let dp := hash (mem.line l).line
    let s := if (GoMap.get s.lineData dp).getD false then s
      else { s with
        out := { s.out with lineData := s.out.lineData ++ [{ pointer := dp, data := (mem.line l).line }] }
        lineData := GoMap.set s.lineData dp true }
    ({ s with out := { s.out with lines := s.out.lines ++ [{ pointer := c, commit := (mem.line l).commit, lineDataPointer := dp }] } }, c)

/-- The loop over the lines of a blame: `/repo/ripsrc/history3/process/repo/writer.go:100-135`. -/
def writeLines (hash : Str → UInt64) (mem : Mem) (s : WrSt) : List Nat → WrSt × List UInt64
  | [] => (s, [])
  | l :: ls =>
    let (s, lp) := writeLine hash mem s l
    let (s, lps) := writeLines hash mem s ls
    (s, lp :: lps)

/-- `writeRepoRow` : `/repo/ripsrc/history3/process/repo/writer.go:74-83`. -/
def writeRow (s : WrSt) (c f : Str) (bp : UInt64) : WrSt :=
  { s with out := { s.out with rows := s.out.rows ++ [{ commit := c, path := f, blamePointer := bp }] } }

/-- One file of a commit: `/repo/ripsrc/history3/process/repo/writer.go:87-143`. -/
def writeFile (hash : Str → UInt64) (mem : Mem) (c : Str) (s : WrSt) (f : Str) (file : Nat) : WrSt :=
  match GoMap.get s.blamePointers file with
  | some bp => writeRow s c f bp
  | none =>
    let bp := s.blamePointerC + 1
    let s := { s with blamePointerC := bp, blamePointers := GoMap.set s.blamePointers file bp }
    let (s, lps) := writeLines hash mem s (mem.blame file).lines
    let bl : DBlame := { pointer := bp, commit := (mem.blame file).commit, linePointers := lps, isBinary := (mem.blame file).isBinary }
    let s := { s with out := { s.out with blames := s.out.blames ++ [bl] } }
    writeRow s c f bp

/-- The order in which `Write` visits the maps. -/
structure WrOrder where
  commits : List Str → List Str
  files : Str → List Str → List Str

/-- The two loops: `/repo/ripsrc/history3/process/repo/writer.go:85-144`. -/
def writeRecords (hash : Str → UInt64) (mem : Mem) (ord : WrOrder) (repo : PRepo) : Records :=
  ((ord.commits (GoMap.keys repo)).foldl (fun s c =>
    let fs := (GoMap.get repo c).getD []
    (ord.files c (GoMap.keys fs)).foldl (fun s f => writeFile hash mem c s f ((GoMap.get fs f).getD 0)) s) ({} : WrSt)).out

/-! ## Reading -/

/-- `/repo/ripsrc/history3/process/repo/reader.go:73-86`. -/
def loadLineData (rs : List DLineData) : GoMap UInt64 Str := rs.foldl (fun m r => GoMap.set m r.pointer r.data) []

/-- `/repo/ripsrc/history3/process/repo/reader.go:88-108`. -/
def loadLines (ld : GoMap UInt64 Str) (rs : List DLine) : Go (GoMap UInt64 Line) :=
  rs.foldlM (fun m r => match GoMap.get ld r.lineDataPointer with
    | none => .error (.panic "line data")
    | some v => .ok (GoMap.set m r.pointer { line := v, commit := r.commit })) []

/-- `/repo/ripsrc/history3/process/repo/reader.go:124-130`. -/
def loadBlameLines (lines : GoMap UInt64 Line) : List UInt64 → Go (List Line)
  | [] => .ok []
  | p :: ps => match GoMap.get lines p with
    | none => .error (.panic "line")
    | some l => do
      let ls ← loadBlameLines lines ps
      .ok (l :: ls)

/-- `/repo/ripsrc/history3/process/repo/reader.go:110-133`. -/
def loadBlames (lines : GoMap UInt64 Line) (rs : List DBlame) : Go (GoMap UInt64 Blame) :=
  rs.foldlM (fun m r => do
    let ls ← loadBlameLines lines r.linePointers
    .ok (GoMap.set m r.pointer { commit := r.commit, lines := ls, isBinary := r.isBinary })) []

/-- `/repo/ripsrc/history3/process/repo/reader.go:135-157`. -/
def loadRows (blames : GoMap UInt64 Blame) (rs : List DRow) : Go Repo :=
  rs.foldlM (fun repo r => match GoMap.get blames r.blamePointer with
    | none => .error (.panic "blame")
    | some bl => .ok (GoMap.set repo r.commit (GoMap.set ((GoMap.get repo r.commit).getD []) r.path bl))) []

/-- Failure of a read loop whose error is not `unexpected EOF`. -/
def endOk (eof : Bool) : Go Unit := if eof then .ok () else .error (.error "decoding error")

/-- The four streams, uncompressed. -/
structure Streams where
  rows : Str
  blames : Str
  lines : Str
  lineData : Str

/-- The four loops of `Read` : `/repo/ripsrc/history3/process/repo/reader.go:73-157`. A panic while handling a record comes before
the error of a later record. -/
def readStreams (d : Streams) : Go Repo := do
  let ld := readAll DLineData.decode d.lineData
  endOk ld.2
  let ls := readAll DLine.decode d.lines
  let lines ← loadLines (loadLineData ld.1) ls.1
  endOk ls.2
  let bs := readAll DBlame.decode d.blames
  let blames ← loadBlames lines bs.1
  endOk bs.2
  let rs := readAll DRow.decode d.rows
  let repo ← loadRows blames rs.1
  endOk rs.2
  .ok repo

/-- What the four `msgWriter`s pass to gzip. -/
def Records.streams (r : Records) : Streams where
  rows := r.rows.flatMap DRow.encode
  blames := r.blames.flatMap DBlame.encode
  lines := r.lines.flatMap DLine.encode
  lineData := r.lineData.flatMap DLineData.encode

/-! ## Files -/

/-- Contents of a directory (of files). -/
abbrev Dir := GoMap Str Str

/-- gzip: what flushing data produces, and what can be read from a file before `unexpected EOF` (`none` if `gzip.NewReader`
fails). -/
structure Gzip where
  compress : Str → Str
  openFile : Str → Option Str

/-- `newMsgReader` : `/repo/ripsrc/history3/process/repo/msgp.go:62-76`. -/
def openMsg (gz : Gzip) (d : Dir) (kind : Str) : Go Str :=
  match GoMap.get d kind with
  | none => .error (.error "open: no such file or directory")
  | some content => match gz.openFile content with
    | none => .error (.error "gzip.NewReader")
    | some data => .ok data

/-- `checkpointVersionFile` : `/repo/ripsrc/history3/process/repo/writer.go:18`. -/
def versionFile : Str := b!"checkpoint-version"

/-- The version check: `/repo/ripsrc/history3/process/repo/reader.go:37-47`. -/
def checkVersion (d : Dir) (expectedCommit : Str) : Go Unit :=
  if expectedCommit = [] then .ok ()
  else match GoMap.get d versionFile with
    | none => .error (.error "failed reading checkpoint version file")
    | some v => if v = expectedCommit then .ok () else .error (.error "ErrCheckpointNotExpected")

/-- The rest of `Read` : `/repo/ripsrc/history3/process/repo/reader.go:55-176`. -/
def readFiles (gz : Gzip) (d : Dir) : Go Repo := do
  let rows ← openMsg gz d b!"repo"
  let blames ← openMsg gz d b!"blames"
  let lines ← openMsg gz d b!"lines"
  let lineData ← openMsg gz d b!"line-data"
  readStreams { rows := rows, blames := blames, lines := lines, lineData := lineData }

/-- `CheckpointReader.Read` : `/repo/ripsrc/history3/process/repo/reader.go:34-177`; `dir` is the content of the directory
`checkpoint`, if it exists. -/
def checkpointRead (gz : Gzip) (dir : Option Dir) (expectedCommit : Str) : Go Repo := do
  checkVersion (dir.getD []) expectedCommit
  readFiles gz (dir.getD [])

end Ripsrc
