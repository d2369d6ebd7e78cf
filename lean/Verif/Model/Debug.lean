import Verif.Go.Num
import Verif.Go.Sort
import Verif.Model.Process
/-!
# Comparing and printing blames
-/
namespace Ripsrc

/-- `Line.String` (`/repo/ripsrc/history3/incblame/apply.go:33-35`). -/
def Line.string (l : Line) : Str := l.commit ++ b!":" ++ l.line

/-- `Line.Eq` (`/repo/ripsrc/history3/incblame/apply.go:37-45`). -/
def Line.eq (l l2 : Line) : Bool :=
  if l.commit ≠ l2.commit then false
  else if l.line ≠ l2.line then false
  else true

/-- The loop of `Blame.Eq` (`/repo/ripsrc/history3/incblame/apply.go:70-76`), for lists of the same length. -/
def linesEq : List Line → List Line → Bool
  | a :: as, b :: bs => if a.eq b = false then false else linesEq as bs
  | _, _ => true

/-- `Blame.Eq` (`/repo/ripsrc/history3/incblame/apply.go:63-78`); the argument is a pointer, which is not nil here. -/
def Blame.eq (f f2 : Blame) : Bool :=
  if f.commit ≠ f2.commit then false
  else if f.lines.length ≠ f2.lines.length then false
  else linesEq f.lines f2.lines

/-- The loop of `Blame.String` (`/repo/ripsrc/history3/incblame/apply.go:56-58`), from line number `i`. -/
def linesOut (i : Nat) : List Line → List Str
  | [] => []
  | l :: ls => (itoa i ++ b!":" ++ l.string) :: linesOut (i + 1) ls

/-- The variable `out` of `Blame.String` (`/repo/ripsrc/history3/incblame/apply.go:49-59`). -/
def Blame.out (f : Blame) : List Str :=
  [f.commit] ++ (if f.lines.length = 0 then [b!"empty"] else []) ++ (if f.isBinary then [b!"binary"] else linesOut 0 f.lines)

/-- `Blame.String` (`/repo/ripsrc/history3/incblame/apply.go:48-61`). -/
def Blame.string (f : Blame) : Str := joinWith b!"\n" f.out

/-- The function `line` of `Repo.Debug` (`/repo/ripsrc/history3/process/repo/repo.go:33-36`). -/
def debugLine (s : Str) : Str := s ++ b!"\n"

/-- `Repo.Debug` (`/repo/ripsrc/history3/process/repo/repo.go:18-63`). `srtC` and `srtF` are what the loops over the maps (in any order) and `sort.Slice` by the key
give. -/
def Repo.debug (srtC : Repo → Repo) (srtF : Files → Files) (r : Repo) : Str :=
  debugLine [] ++
  (srtC r).flatMap (fun v => debugLine (b!"commit:" ++ v.1) ++
    (srtF v.2).flatMap fun w => debugLine (b!"commit:" ++ v.1) ++ debugLine (b!"file:" ++ w.1) ++ debugLine w.2.string ++ debugLine []) ++
  debugLine []

/-- `Repo.CommitsInMemory` (`/repo/ripsrc/history3/process/repo/repo.go:65-67`). -/
def Repo.commitsInMemory (r : Repo) : Nat := (GoMap.keys r).length

/-- `Diff.PathOrPrev` (`/repo/ripsrc/history3/incblame/parse.go:17-22`): used for error texts only. -/
def Diff.pathOrPrev (d : Diff) : Str := if d.path ≠ [] then d.path else d.pathPrev

end Ripsrc
