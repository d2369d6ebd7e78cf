import Verif.Model.FileInfo
import Verif.Model.Process
import Verif.Model.CommitMeta
/-!
# ripsrc/code_info.go: from blame to code records

The line counter `scc` (`processor.CountStats`) is a parameter: an arbitrary program that calls back for lines and ends with totals.
-/
namespace Ripsrc

/-- `processor.LineType`; any other value is `other`. -/
inductive LineType where
  | blank | code | comment | other
deriving DecidableEq, Repr

/-- The totals that `CountStats` leaves in the `FileJob` (`/repo/ripsrc/code_info.go:167-173`); the weighted complexity is given by the bits of the float. -/
structure SccTotals where
  lines : Int := 0
  code : Int := 0
  comment : Int := 0
  blank : Int := 0
  complexity : Int := 0
  weighted : UInt64 := 0
deriving DecidableEq, Repr

/-- A run of `processor.CountStats`: it ends with totals, or calls `ProcessLine` and goes on depending on the answer. -/
inductive SccRun where
  | done (t : SccTotals)
  | call (currentLine : Int) (ty : LineType) (next : Bool → SccRun)

/-- `BlameLine` (`/repo/ripsrc/code.go:38-46`). -/
structure CodeLine (τ : Type) where
  name : Str
  email : Str
  date : Option τ
  sha : Str
  comment : Bool := false
  code : Bool := false
  blank : Bool := false
deriving DecidableEq, Repr

/-- `statsLine` (`/repo/ripsrc/code_info.go:189-192`): the record and the text, `none` (nil) once examined. -/
structure StatsLine (τ : Type) where
  bl : CodeLine τ
  line : Option Str

/-- `statsProcessor` (`/repo/ripsrc/code_info.go:194-197`). -/
structure StatsProc (τ : Type) where
  lines : List (StatsLine τ)
  generated : Bool := false

/-- Does the text contain `w`? -/
def containsStr (w : Str) : Str → Bool
  | [] => w.isEmpty
  | b :: s => startsWith (b :: s) w || containsStr w s

/-- `generatedRegexp` (`/repo/ripsrc/code_info.go:201`). -/
def generatedMarker (s : Str) : Bool :=
  containsStr b!"GENERATED" s || containsStr b!"DO NOT EDIT" s || containsStr b!"DO NOT MODIFY" s || containsStr b!"machine generated" s

/-- The `switch` of `ProcessLine` (`/repo/ripsrc/code_info.go:207-214`). -/
def CodeLine.classify {τ : Type} (l : CodeLine τ) : LineType → CodeLine τ
  | .blank => { l with blank := true }
  | .code => { l with code := true }
  | .comment => { l with comment := true }
  | .other => l

/-- `ProcessLine` (`/repo/ripsrc/code_info.go:203-229`). The conversion of `currentLine` to `int` is the identity. A line whose text is nil from the start (an empty
slice may be nil) is modelled as an empty text; the marker is not found in either. -/
def processLine {τ : Type} (p : StatsProc τ) (currentLine : Int) (ty : LineType) : StatsProc τ × Bool :=
  let index := currentLine - 1
  if 0 ≤ index ∧ index < p.lines.length then
    match p.lines[index.toNat]? with
    | none => (p, false)
    | some l =>
      let l := { l with bl := l.bl.classify ty }
      match l.line, l.bl.comment with
      | some src, true =>
        let l := { l with line := none }
        if generatedMarker src then ({ lines := p.lines.set index.toNat l, generated := true }, false)
        else ({ p with lines := p.lines.set index.toNat l }, true)
      | _, _ => ({ p with lines := p.lines.set index.toNat l }, true)
  else (p, false)

/-- `processor.CountStats(filejob)` with the callback (`/repo/ripsrc/code_info.go:157-164`): the calls that were made, the totals, the processor. -/
def runScc {τ : Type} : SccRun → StatsProc τ → List (Int × LineType) × SccTotals × StatsProc τ
  | .done t, p => ([], t, p)
  | .call n ty next, p =>
    let (p, ans) := processLine p n ty
    let (calls, t, p) := runScc (next ans) p
    ((n, ty) :: calls, t, p)

/-- `BlameResult` (`/repo/ripsrc/code.go:20-35`). -/
structure CodeRecord (τ : Type) where
  commit : MetaCommit τ
  language : Str := []
  filename : Str
  lines : List (CodeLine τ) := []
  size : Nat := 0
  totals : SccTotals := {}
  skipped : Str := []
  license : Option License := none
  status : FileStatus

/-- `blameToFileContent` (`/repo/ripsrc/code_info.go:141-147`). -/
def blameContent (b : Blame) : Str := b.lines.flatMap (fun l => l.line ++ [10])

/-- `blameToByteLines` (`/repo/ripsrc/code_info.go:149-154`). -/
def blameLines (b : Blame) : List Str := b.lines.map (·.line)

/-- The zero value of `Commit`, the answer of a map for a missing key. -/
def zeroCommit (τ : Type) : MetaCommit τ := { sha := [], ordinal := 0 }

/-- `s.commitMeta[c]`. -/
def metaAt {τ : Type} (metas : GoMap Str (MetaCommit τ)) (c : Str) : MetaCommit τ := (GoMap.get metas c).getD (zeroCommit τ)

/-- The loop of `codeInfoFile` (`/repo/ripsrc/code_info.go:121-131`). -/
def codeLine {τ : Type} (metas : GoMap Str (MetaCommit τ)) (l : Line) : StatsLine τ :=
  let m := metaAt metas l.commit
  { bl := { name := m.authorName, email := m.authorEmail, date := m.date, sha := l.commit }, line := some l.line }

/-- `codeInfoFile` and `codeStats` (`/repo/ripsrc/code_info.go:110-139,156-187`). The timing counters are not modelled. -/
def codeInfoFile {τ : Type} (scc : Str → Str → Str → SccRun) (metas : GoMap Str (MetaCommit τ)) (path : Str) (b : Blame) (content : Str)
    (res : CodeRecord τ) : CodeRecord τ :=
  let (_, t, p) := runScc (scc path res.language content) { lines := b.lines.map (codeLine metas) }
  let res := { res with size := content.length, totals := t }
  let res := if p.generated then { res with language := [], skipped := b!"file was a generated file" } else res
  { res with lines := p.lines.map (·.bl) }

/-- One round of the loop of `codeInfoFiles` (`/repo/ripsrc/code_info.go:40-85`): the record, if there is one, and the new cache of the file filter. -/
def codeInfoEntry {τ : Type} (cl : Classifier) (scc : Str → Str → Str → SccRun) (metas : GoMap Str (MetaCommit τ)) (commit : MetaCommit τ)
    (cache : GoMap Str Str) (path : Str) (b : Blame) : Go (Option (CodeRecord τ) × GoMap Str Str) :=
  if path = [] then .ok (none, cache)
  else match GoMap.get commit.files path with
    | none => .ok (none, cache)
    | some f =>
      let r : CodeRecord τ := { commit := commit, filename := path, status := f.status }
      if f.status = .removed then .ok (some { r with skipped := b!"File was removed" }, cache)
      else do
        let content := blameContent b
        let ((info, skip), cache) ← getInfo cl cache ⟨path, blameLines b, content⟩
        let r := { r with license := info.license, language := info.language }
        if skip ≠ [] then .ok (some { r with skipped := skip }, cache)
        else .ok (some (codeInfoFile scc metas path b content r), cache)

/-- The loop over `blame.Files` (`/repo/ripsrc/code_info.go:40-85`), in some order of the entries. -/
def codeInfoLoop {τ : Type} (cl : Classifier) (scc : Str → Str → Str → SccRun) (metas : GoMap Str (MetaCommit τ)) (commit : MetaCommit τ)
    (cache : GoMap Str Str) : Files → Go (List (CodeRecord τ) × GoMap Str Str)
  | [] => .ok ([], cache)
  | (path, b) :: es => do
    let (r, cache) ← codeInfoEntry cl scc metas commit cache path b
    let (rs, cache) ← codeInfoLoop cl scc metas commit cache es
    return (r.toList ++ rs, cache)

/-- The consistency check (`/repo/ripsrc/code_info.go:20-38`): the target of a rename in the metadata must be among the files of the blame. (The paths of the blame are
checked too, trivially.) -/
def renamesInBlame {τ : Type} (commit : MetaCommit τ) (files : Files) : Bool :=
  commit.files.all (fun e => !e.2.renamed || GoMap.has files e.2.renamedTo)

/-- `codeInfoFiles` (`/repo/ripsrc/code_info.go:17-87`). `order` is the order of the iteration over `blame.Files`. -/
def codeInfoFiles {τ : Type} (cl : Classifier) (scc : Str → Str → Str → SccRun) (order : Files → Files) (metas : GoMap Str (MetaCommit τ))
    (cache : GoMap Str Str) (blame : Result) : Go (List (CodeRecord τ) × GoMap Str Str) :=
  let commit := metaAt metas blame.commit
  if renamesInBlame commit blame.files then codeInfoLoop cl scc metas commit cache (order blame.files)
  else .error (.panic "File was in stats output, but not in blame")

/-- What the goroutine of `CodeByCommit` computes for the results it receives, one after the other (`/repo/ripsrc/code.go:146-160`): for each the commit and the
records. `orders n` is the map order for the `n`-th. (The channels are in Model/Pipeline.lean.) -/
def codeByCommit {τ : Type} (cl : Classifier) (scc : Str → Str → Str → SccRun) (orders : Nat → Files → Files) (metas : GoMap Str (MetaCommit τ)) :
    Nat → GoMap Str Str → List Result → Go (List (MetaCommit τ × List (CodeRecord τ)))
  | _, _, [] => .ok []
  | n, cache, r :: rs =>
    match GoMap.get metas r.commit with
    | none => .error (.panic "commit not found in commit meta")
    | some commit => do
      let (recs, cache) ← codeInfoFiles cl scc (orders n) metas cache r
      let out ← codeByCommit cl scc orders metas (n + 1) cache rs
      return (commit, recs) :: out

end Ripsrc
