import Verif.Go.Bytes
/-!
# The output of `git blame --porcelain`

Each line of the file is printed as a header line `<hash> <numbers>`, then some `key value` (or `key`) lines - normally only
the first time a commit occurs - and then the content of the line after a tab.
-/
namespace Ripsrc.Spec

/-- What is printed for one line of the blamed file. -/
structure BlameEntry where
  /-- the commit -/
  hash : Str
  /-- the rest of the header: empty, or beginning with a space -/
  header : Str := []
  /-- the metadata lines printed here -/
  info : List (Str × Option Str) := []
  /-- the content of the line -/
  content : Str

namespace BlameEntry

def infoLine (kv : Str × Option Str) : Str :=
  match kv.2 with
  | none => kv.1
  | some v => kv.1 ++ 32 :: v

def lines (e : BlameEntry) : List Str := (e.hash ++ e.header) :: (e.info.map infoLine ++ [9 :: e.content])

/-- The text is well formed: no stray newlines, hash without space, keys without space and not beginning with a tab. -/
structure Ok (e : BlameEntry) : Prop where
  hash : e.hash ≠ [] ∧ NoNL e.hash ∧ (32 : UInt8) ∉ e.hash
  header : NoNL e.header ∧ (e.header = [] ∨ e.header.head? = some 32)
  info : ∀ kv ∈ e.info, kv.1 ≠ [] ∧ NoNL kv.1 ∧ (32 : UInt8) ∉ kv.1 ∧ kv.1.head? ≠ some 9 ∧ ∀ v, kv.2 = some v → NoNL v
  content : NoNL e.content

end BlameEntry

/-- The whole output. -/
def blameText (es : List BlameEntry) : Str := unlines (es.flatMap BlameEntry.lines)

/-- The metadata lines in force for the entry `e` printed after `before`: its own, or else those of the latest earlier entry
of the same commit that has any. -/
def infoInForce (before : List BlameEntry) (e : BlameEntry) : List (Str × Option Str) :=
  if e.info ≠ [] then e.info
  else match before.reverse.find? (fun x => decide (x.hash = e.hash ∧ x.info ≠ [])) with
    | some x => x.info
    | none => []

/-- The value of a key in metadata lines: the last one printed (`""` for a key without value). -/
def infoValue (ls : List (Str × Option Str)) (k : Str) : Option Str :=
  (ls.reverse.find? (fun kv => decide (kv.1 = k))).map (fun kv => kv.2.getD [])

end Ripsrc.Spec
