import Verif.Go.Map
import Verif.Go.Sort
import Verif.Go.Split
/-!
# Model of package `parentsgraph` (and `parentsp`)
-/
namespace Ripsrc

/-- `parentsgraph.Graph` : `/repo/ripsrc/parentsgraph/parents.go:14-18`. The options (repo dir, logger) are not
modelled. -/
structure Graph where
  parents : GoMap Str (List Str)
  children : GoMap Str (List Str)

/-- `s.Children[p] = append(s.Children[p], commit)` for every `p` in `parents`:
`/repo/ripsrc/parentsgraph/parents.go:60-62`. -/
def appendChildren (ch : GoMap Str (List Str)) (commit : Str) (parents : List Str) : GoMap Str (List Str) :=
  parents.foldl (fun ch p => ch.set p ((ch.get p).getD [] ++ [commit])) ch

/-- One iteration of the loop over `s.Parents`: `/repo/ripsrc/parentsgraph/parents.go:55-63`. -/
def childrenStep (ch : GoMap Str (List Str)) (e : Str × List Str) : GoMap Str (List Str) :=
  let ch := if ch.has e.1 then ch else ch.set e.1 []
  appendChildren ch e.1 e.2

/-- `childrenFromParents` : `/repo/ripsrc/parentsgraph/parents.go:53-67`. `order` is the sequence of entries in which
Go happens to iterate over `s.Parents` (any permutation of the map's entries). The final loop sorts each list in
place; the order of that loop is irrelevant since the slices do not share memory. -/
def childrenFromParents (order : List (Str × List Str)) : GoMap Str (List Str) :=
  (order.foldl childrenStep []).map (fun e => (e.1, sortStrings e.2))

/-- `NewFromMap` / `Read` after the parents are known: `/repo/ripsrc/parentsgraph/parents.go:32-37,39-51`. -/
def Graph.newFromMap (parents : GoMap Str (List Str)) (order : List (Str × List Str)) : Graph :=
  { parents := parents, children := childrenFromParents order }

/-- `maxLine` : `/repo/ripsrc/parentsgraph/parentsp/parser.go:22-23`. -/
def parentsMaxLine : Nat := 1000 * 1000

/-- Body of the scan loop: `/repo/ripsrc/parentsgraph/parentsp/parser.go:31-39`. `parts[1]` panics when the line has
no `@`. -/
def parentsLine (res : GoMap Str (List Str)) (line : Str) : Go (GoMap Str (List Str)) :=
  match splitByte 64 line with
  | commit :: p1 :: _ => .ok (res.set commit (if p1.length ≠ 0 then splitByte 32 p1 else []))
  | _ => .error (.panic "index out of range: parts[1]")

/-- `Parser.Run` : `/repo/ripsrc/parentsgraph/parentsp/parser.go:25-45`. -/
def parentsRun (input : Str) : Go (GoMap Str (List Str)) := do
  let (lines, tooLong) := scan parentsMaxLine input
  let res ← lines.foldlM parentsLine []
  if tooLong then .error (.error "bufio.Scanner: token too long") else .ok res

end Ripsrc
