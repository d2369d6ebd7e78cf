import Verif.Spec.FileInfo
import Verif.Model.CodeInfo
/-!
# What the code records should say

The data types of the model are used, but none of its functions.
-/
namespace Ripsrc.Spec

/-- The text has one of the marks of generated files. -/
def HasMarker (s : Str) : Prop :=
  ∃ w ∈ [b!"GENERATED", b!"DO NOT EDIT", b!"DO NOT MODIFY", b!"machine generated"], ∃ pre post, s = pre ++ (w ++ post)

/-- The calls of the line counter for one file, and its totals, when it is answered by `ans` (given the calls before). -/
def callsOf (ans : List (Int × LineType) → Int → LineType → Bool) : List (Int × LineType) → SccRun → List (Int × LineType) × SccTotals
  | _, .done t => ([], t)
  | before, .call n ty next =>
    let (cs, t) := callsOf ans (before ++ [(n, ty)]) (next (ans before n ty))
    ((n, ty) :: cs, t)

open Classical in
/-- The answer: go on, unless the line does not exist or is now, for the first time, seen to be a comment with the mark of a generated file. -/
noncomputable def goOn (texts : List Str) (before : List (Int × LineType)) (n : Int) (ty : LineType) : Bool :=
  decide (∃ (i : Nat) (text : Str), n = (i : Int) + 1 ∧ texts[i]? = some text ∧ ¬ (ty = .comment ∧ (n, .comment) ∉ before ∧ HasMarker text))

/-- The file was found to be generated. -/
def Generated (texts : List Str) (calls : List (Int × LineType)) : Prop :=
  ∃ (i : Nat) (text : Str), ((i : Int) + 1, LineType.comment) ∈ calls ∧ texts[i]? = some text ∧ HasMarker text

/-- The code line for a blame line. -/
structure LineOf {τ : Type} (metas : GoMap Str (MetaCommit τ)) (calls : List (Int × LineType)) (i : Nat) (l : Line) (c : CodeLine τ) : Prop where
  sha : c.sha = l.commit
  author : ∀ m, GoMap.get metas l.commit = some m → c.name = m.authorName ∧ c.email = m.authorEmail ∧ c.date = m.date
  /-- nothing is known about the commit -/
  unknown : GoMap.get metas l.commit = none → c.name = [] ∧ c.email = [] ∧ c.date = none
  comment : c.comment = true ↔ ((i : Int) + 1, LineType.comment) ∈ calls
  code : c.code = true ↔ ((i : Int) + 1, LineType.code) ∈ calls
  blank : c.blank = true ↔ ((i : Int) + 1, LineType.blank) ∈ calls

/-- One code line per blame line, in order. -/
def LinesOf {τ : Type} (metas : GoMap Str (MetaCommit τ)) (calls : List (Int × LineType)) (ls : List Line) (cs : List (CodeLine τ)) : Prop :=
  cs.length = ls.length ∧ ∀ i l c, ls[i]? = some l → cs[i]? = some c → LineOf metas calls i l c

/-- The verdict of the file filter. -/
structure Judged (cl : Classifier) (a : InfoArgs) (language : Str) (license : Option License) (skip : Str) : Prop where
  reason : FirstReason (checks cl a) skip
  lang : language = if skip = [] then cl.language a.path a.content else []
  lic : license.isSome ↔ skip = b!"File is a license file"
  best : ∀ l, license = some l → ∃ kv, cl.licenseDb a.path a.content = .found kv ∧ (l.name, l.confidence) ∈ kv ∧ cl.minConfidence ≤ l.confidence ∧
    ∀ e ∈ kv, e.2 ≤ l.confidence

/-- The record of a removed file. -/
structure RemovedRecord {τ : Type} (rec : CodeRecord τ) : Prop where
  skipped : rec.skipped = b!"File was removed"
  lines : rec.lines = []
  language : rec.language = []
  license : rec.license = none

/-- The record of a file that the filter refuses. -/
structure SkippedRecord {τ : Type} (rec : CodeRecord τ) (skip : Str) : Prop where
  reason : skip ≠ []
  skipped : rec.skipped = skip
  lines : rec.lines = []
  language : rec.language = []

/-- The record of a file that is processed. -/
structure ProcessedRecord {τ : Type} (scc : Str → Str → Str → SccRun) (metas : GoMap Str (MetaCommit τ)) (b : Blame) (content language : Str)
    (rec : CodeRecord τ) : Prop where
  size : rec.size = content.length
  lines : LinesOf metas (callsOf (goOn (b.lines.map (·.line))) [] (scc rec.filename language content)).1 b.lines rec.lines
  totals : rec.totals = (callsOf (goOn (b.lines.map (·.line))) [] (scc rec.filename language content)).2
  generated : Generated (b.lines.map (·.line)) (callsOf (goOn (b.lines.map (·.line))) [] (scc rec.filename language content)).1 →
    rec.skipped = b!"file was a generated file" ∧ rec.language = []
  human : ¬ Generated (b.lines.map (·.line)) (callsOf (goOn (b.lines.map (·.line))) [] (scc rec.filename language content)).1 →
    rec.skipped = [] ∧ rec.language = language

/-- `rec` is the code record of the file `b` with the metadata `f` in commit `c`. -/
def CodeOf {τ : Type} (cl : Classifier) (scc : Str → Str → Str → SccRun) (metas : GoMap Str (MetaCommit τ)) (c : MetaCommit τ) (b : Blame) (f : CommitFile)
    (rec : CodeRecord τ) : Prop :=
  rec.commit = c ∧ rec.status = f.status ∧
  ((f.status = .removed ∧ RemovedRecord rec) ∨
   (f.status ≠ .removed ∧ ∃ content language skip, content = (b.lines.map (fun l => l.line ++ [10])).flatten ∧
      Judged cl ⟨rec.filename, b.lines.map (·.line), content⟩ language rec.license skip ∧
      (SkippedRecord rec skip ∨ (skip = [] ∧ ProcessedRecord scc metas b content language rec))))

end Ripsrc.Spec
