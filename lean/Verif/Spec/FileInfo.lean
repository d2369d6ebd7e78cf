import Verif.Model.FileInfo
/-!
# When a file should be processed

Written without the functions of the model; only the record of external classifiers is shared.
-/
namespace Ripsrc.Spec

/-- The two nondeterministic operations of the licence detection behave: a map is iterated in some order, a slice is sorted by descending
confidence. -/
structure Lawful (cl : Classifier) : Prop where
  order : ∀ kv, (cl.mapOrder kv).Perm kv
  sort : ∀ l : List License, (cl.sortMatches l).Perm l ∧ (cl.sortMatches l).Pairwise (fun a b => b.confidence ≤ a.confidence)

/-- The names of licence files: they *end* in one of the usual names (with an optional extension), or have `LICENSE-` anywhere. -/
def LicenseName (path : Str) : Prop :=
  (∃ pre w e, path = pre ++ (w ++ e) ∧
      w ∈ [b!"LICENSE", b!"LICENCE", b!"README", b!"COPYING", b!"UNLICENSE", b!"UNLICENCE"] ∧ e ∈ [b!"", b!".md", b!".txt"])
    ∨ (∃ pre rest, path = pre ++ (b!"LICENSE-" ++ rest) ∧ (10 : UInt8) ∉ rest)

/-- The licence database reports a licence with sufficient confidence. -/
def Licensed (cl : Classifier) (path content : Str) : Prop :=
  ∃ kv, cl.licenseDb path content = .found kv ∧ ∃ e ∈ kv, cl.minConfidence ≤ e.2

/-- A file that is processed. -/
structure Acceptable (cl : Classifier) (a : InfoArgs) : Prop where
  size : a.content.length ≤ 1000000
  noLicense : ¬ (LicenseName a.path ∧ Licensed cl a.path a.content)
  notConfig : cl.isConfig a.path = false
  notDot : cl.isDot a.path = false
  notIgnored : cl.ignored a.path = false
  notVendored : cl.isVendor a.path = true → ∃ rest, a.path = b!"src/" ++ rest
  lines : a.lines.length ≤ 40000
  width : ∀ l ∈ a.lines, l.length ≤ 1096
  language : cl.language a.path a.content ≠ []

/-- The checks in the order in which they are reported. Each gives the text with which it rejects the file. -/
def checks (cl : Classifier) (a : InfoArgs) : List (Str → Prop) :=
  [ fun r => 1000000 < a.content.length ∧ r = b!"File size was " ++ (itoa (a.content.length / 1000) ++ b!"K which exceeds limit of 1000K"),
    fun r => (LicenseName a.path ∧ Licensed cl a.path a.content) ∧ r = b!"File is a license file",
    fun r => cl.isConfig a.path = true ∧ r = b!"File was a config file",
    fun r => cl.isDot a.path = true ∧ r = b!"File was a dot file",
    fun r => cl.ignored a.path = true ∧ r = b!"File was on an exclusion list",
    fun r => (cl.isVendor a.path = true ∧ ¬ ∃ rest, a.path = b!"src/" ++ rest) ∧ r = b!"File was a vendored file",
    fun r => 40000 < a.lines.length ∧ r = b!"File has more than 40000 lines",
    fun r => ∃ before l after, a.lines = before ++ l :: after ∧ (∀ x ∈ before, x.length ≤ 1096) ∧ 1096 < l.length ∧
      r = b!"File has a line width of " ++ (itoa l.length ++ b!" which is greater than max of 1096"),
    fun r => cl.language a.path a.content = [] ∧ r = b!"Language was unknown" ]

/-- `r` is the text of the first check that rejects; the empty text if none does. -/
def FirstReason : List (Str → Prop) → Str → Prop
  | [], r => r = []
  | p :: ps, r => p r ∨ ((∀ r', ¬ p r') ∧ FirstReason ps r)

end Ripsrc.Spec
