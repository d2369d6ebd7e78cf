import Verif.Go.Map
import Verif.Go.Split
/-!
# `git blame --porcelain` output

Models `/repo/ripsrc/gitblame2/parse_output.go` and the conversion in `/repo/ripsrc/gitblame2/gitblame.go:30-52`.
-/
namespace Ripsrc

/-- `line`: `/repo/ripsrc/gitblame2/parse_output.go:7-11`. -/
structure BlameLine where
  hash : Str
  content : Str
  info : GoMap Str Str
deriving DecidableEq, Repr

/-- `strings.SplitN(l, " ", 2)` as used at `/repo/ripsrc/gitblame2/parse_output.go:33-39`: key and value of a metadata line;
a line without a space is a key with value `""`. -/
def blameKV : Str → Str × Str
  | [] => ([], [])
  | b :: r => if b = 32 then ([], r) else let kv := blameKV r; (b :: kv.1, kv.2)

/-- The two nested loops of `parseOutput`: `/repo/ripsrc/gitblame2/parse_output.go:16-52`, as one recursion over the remaining
lines. The state is `none` at the head of the outer loop and `some (hash, meta)` in the inner one; `metas` is
`metasByCommit`. A missing map entry (`nil` map) is the empty map. -/
def blameLoop (metas : GoMap Str (GoMap Str Str)) : Option (Str × GoMap Str Str) → List Str → Go (List BlameLine)
  | none, [] => .ok []
  | none, fl :: rest =>
    if fl = [] ∧ rest = [] then .ok []
    else blameLoop metas (some ((splitByte 32 fl).headD [], [])) rest
  | some _, [] => .error (.panic "after header in git blame we need the content line")
  | some (h, m), l :: rest =>
    match l with
    | [] => .error (.panic "index out of range")
    | c :: t =>
      if c ≠ 9 then
        let kv := blameKV (c :: t)
        blameLoop metas (some (h, m.set kv.1 kv.2)) rest
      else if m = [] then do
        let r ← blameLoop metas none rest
        .ok ({ hash := h, content := t, info := (metas.get h).getD [] } :: r)
      else do
        let r ← blameLoop (metas.set h m) none rest
        .ok ({ hash := h, content := t, info := m } :: r)

/-- `parseOutput`: `/repo/ripsrc/gitblame2/parse_output.go:13-54`. -/
def parseBlame (data : Str) : Go (List BlameLine) := blameLoop [] none (splitByte 10 data)

/-- `Run` after git has exited normally: `/repo/ripsrc/gitblame2/gitblame.go:47-51`. -/
def blameResult (data : Str) : Go (List (Str × Str)) := do
  let ls ← parseBlame data
  .ok (ls.map (fun l => (l.hash, l.content)))

end Ripsrc
