import Verif.Go.Bytes
/-!
# Regular expressions

The package `regexp` of Go is not in `/repo`. The expressions that ripsrc compiles (`/repo/ripsrc/fileinfo/license.go:11`, `/repo/ripsrc/fileinfo/gitignore.go:7`,
`/repo/ripsrc/code_info.go:201`, `/repo/ripsrc/commitmeta/commitmeta.go:226-235,292-294`, `/repo/genignore.go:83`) are parsed and run here by their text. The part of
the syntax that they use is modelled: literals, escapes, classes of single characters, `.`, `^`, `$`, groups, `|`, `?`, and `*`, `*?`, `+` after a single
character or class. The matcher finds what the package documents: of the leftmost matches the one that a backtracking search tries first.

Simplification: expressions work on bytes. The package works on code points; every literal and class here is ASCII, and `.*` is always delimited by them, so
that both find the same matches.
-/
namespace Ripsrc

/-- A class of bytes: the ranges, or everything else. -/
structure Cls where
  neg : Bool := false
  ranges : List (UInt8 × UInt8) := []
deriving DecidableEq, Repr

/-- Membership. -/
def Cls.has (c : Cls) (b : UInt8) : Bool := c.neg != c.ranges.any (fun r => decide (r.1 ≤ b) && decide (b ≤ r.2))

/-- One byte. -/
def Cls.lit (b : UInt8) : Cls := ⟨false, [(b, b)]⟩
/-- `.`: everything but a newline. -/
def Cls.dot : Cls := ⟨true, [(10, 10)]⟩
/-- `\s` -/
def Cls.space : Cls := ⟨false, [(9, 10), (12, 13), (32, 32)]⟩

/-- Syntax trees. Groups are numbered from 1 in the order of their opening parentheses. -/
inductive Rx where
  | eps
  | one (c : Cls)
  | bol
  | eol
  | seq (a b : Rx)
  | alt (a b : Rx)
  | opt (a : Rx)
  | star (c : Cls) (greedy : Bool)
  | group (n : Nat) (a : Rx)
deriving DecidableEq, Repr

/-! ## Parsing -/

/-- Concatenation. -/
def seqOf : List Rx → Rx
  | [] => .eps
  | [a] => a
  | a :: l => .seq a (seqOf l)

/-- Alternatives. -/
def altOf : List Rx → Rx
  | [] => .eps
  | [a] => a
  | a :: l => .alt a (altOf l)

/-- An open group: the finished alternatives, the parts of the current one (last part first), the number of the group. -/
structure Frame where
  alts : List Rx := []
  cur : List Rx := []
  idx : Nat := 0
deriving DecidableEq, Repr

/-- The tree of a finished group. -/
def Frame.close (f : Frame) : Rx := altOf (f.alts ++ [seqOf f.cur.reverse])

/-- The parser: the innermost open group, the outer ones, the number of groups, whether a backslash was read, the class being read. -/
structure RxParser where
  top : Frame := {}
  outer : List Frame := []
  groups : Nat := 0
  esc : Bool := false
  cls : Option (List (UInt8 × UInt8)) := none
deriving DecidableEq, Repr

/-- One more part. -/
def RxParser.push (p : RxParser) (r : Rx) : RxParser := { p with top := { p.top with cur := r :: p.top.cur } }

/-- What an escaped character stands for. -/
def escaped (c : UInt8) : Option Cls :=
  if c = 116 then some (.lit 9)
  else if c = 115 then some .space
  else if (48 ≤ c ∧ c ≤ 57) ∨ (65 ≤ c ∧ c ≤ 90) ∨ (97 ≤ c ∧ c ≤ 122) then none
  else some (.lit c)

/-- One character of the expression; `none` if the expression is not valid or not in the modelled part of the syntax. -/
def RxParser.step (p : RxParser) (c : UInt8) : Option RxParser :=
  match p.cls with
  | some rs =>
    if p.esc then (escaped c).map (fun k => { p with esc := false, cls := some (rs ++ k.ranges) })
    else if c = 92 then some { p with esc := true }
    else if c = 93 then (if rs = [] then none else some { (p.push (.one ⟨false, rs⟩)) with cls := none })
    else if c = 94 ∨ c = 91 ∨ (c = 45 ∧ rs ≠ []) then none
    else some { p with cls := some (rs ++ [(c, c)]) }
  | none =>
    if p.esc then (escaped c).map (fun k => { (p.push (.one k)) with esc := false })
    else if c = 92 then some { p with esc := true }
    else if c = 91 then some { p with cls := some [] }
    else if c = 40 then some { p with top := { idx := p.groups + 1 }, outer := p.top :: p.outer, groups := p.groups + 1 }
    else if c = 41 then
      match p.outer with
      | [] => none
      | f :: fs => some { p with top := { f with cur := .group p.top.idx p.top.close :: f.cur }, outer := fs }
    else if c = 124 then some { p with top := { p.top with alts := p.top.alts ++ [seqOf p.top.cur.reverse], cur := [] } }
    else if c = 46 then some (p.push (.one .dot))
    else if c = 94 then some (p.push .bol)
    else if c = 36 then some (p.push .eol)
    else if c = 63 then
      match p.top.cur with
      | .one k :: l => some { p with top := { p.top with cur := .opt (.one k) :: l } }
      | .group n a :: l => some { p with top := { p.top with cur := .opt (.group n a) :: l } }
      | .star k true :: l => some { p with top := { p.top with cur := .star k false :: l } }
      | _ => none
    else if c = 42 then
      match p.top.cur with
      | .one k :: l => some { p with top := { p.top with cur := .star k true :: l } }
      | _ => none
    else if c = 43 then
      match p.top.cur with
      | .one k :: l => some { p with top := { p.top with cur := .seq (.one k) (.star k true) :: l } }
      | _ => none
    else if c = 123 then none
    else some (p.push (.one (.lit c)))

/-- The end of the expression. -/
def RxParser.finish (p : RxParser) : Option Rx :=
  if p.esc = true ∨ p.cls ≠ none ∨ p.outer ≠ [] then none else some p.top.close

/-- `regexp.MustCompile`, in the modelled part of the syntax. -/
def rxParse (text : Str) : Option Rx := (text.foldlM RxParser.step {}).bind RxParser.finish

/-! ## Matching -/

/-- A position in the text: whether it is the beginning, the rest of the text, the groups matched so far. -/
structure RxState where
  start : Bool
  rest : Str
  caps : List (Nat × Str) := []
deriving DecidableEq, Repr

/-- All ways to match `c*`, in the order in which they are tried: the longest first, or for `c*?` the shortest. -/
def starRuns (c : Cls) (greedy : Bool) (caps : List (Nat × Str)) : Bool → Str → List RxState
  | start, [] => [⟨start, [], caps⟩]
  | start, b :: s =>
    if c.has b then
      if greedy then starRuns c greedy caps false s ++ [⟨start, b :: s, caps⟩] else ⟨start, b :: s, caps⟩ :: starRuns c greedy caps false s
    else [⟨start, b :: s, caps⟩]

/-- All ways to match at a position, in the order in which they are tried. -/
def Rx.runs : Rx → RxState → List RxState
  | .eps, s => [s]
  | .one c, s => match s.rest with
    | [] => []
    | b :: r => if c.has b then [{ s with start := false, rest := r }] else []
  | .bol, s => if s.start then [s] else []
  | .eol, s => if s.rest = [] then [s] else []
  | .seq a b, s => (a.runs s).flatMap b.runs
  | .alt a b, s => a.runs s ++ b.runs s
  | .opt a, s => a.runs s ++ [s]
  | .star c g, s => starRuns c g s.caps s.start s.rest
  | .group n a, s => (a.runs s).map (fun t => { t with caps := t.caps ++ [(n, s.rest.take (s.rest.length - t.rest.length))] })

/-- The leftmost match from a position on; of the matches at that place the one tried first. -/
def Rx.findFrom (r : Rx) : Bool → Str → Option RxState
  | start, [] => (r.runs ⟨start, [], []⟩).head?
  | start, b :: s => match r.runs ⟨start, b :: s, []⟩ with
    | t :: _ => some t
    | [] => r.findFrom false s

/-- `Regexp.FindStringSubmatch`: the state after the match. -/
def Rx.find (r : Rx) (text : Str) : Option RxState := r.findFrom true text

/-- The text of group `n`; empty if the group took no part. -/
def RxState.sub (s : RxState) (n : Nat) : Str := ((s.caps.find? (fun x => x.1 == n)).map (·.2)).getD []

/-- `Regexp.MatchString`. -/
def Rx.matchString (r : Rx) (text : Str) : Bool := (r.find text).isSome

/-- The pieces between the matches of `FindAllStringIndex(text, -1)`, as `regSplit` cuts them. `skip` bytes of the current match are still to be passed, `seg` is the
piece so far, `adj` tells that a match ended here (an empty match is then not counted). -/
def regSplitFrom (r : Rx) : Bool → Bool → Nat → Str → Str → List Str
  | _, _, _ + 1, seg, [] => [seg]
  | _, _, k + 1, seg, _ :: s => regSplitFrom r false true k seg s
  | start, adj, 0, seg, [] => match r.runs ⟨start, [], []⟩ with
    | [] => [seg]
    | _ :: _ => if adj then [seg] else [seg, []]
  | start, adj, 0, seg, b :: s => match r.runs ⟨start, b :: s, []⟩ with
    | [] => regSplitFrom r false false 0 (seg ++ [b]) s
    | t :: _ => match (b :: s).length - t.rest.length with
      | 0 => if adj then regSplitFrom r false false 0 (seg ++ [b]) s else seg :: regSplitFrom r false false 0 [b] s
      | k + 1 => seg :: regSplitFrom r false true k [] s

/-- `regSplit` : `/repo/ripsrc/commitmeta/commitmeta.go:300-310`. -/
def regSplit (r : Rx) (text : Str) : List Str := regSplitFrom r true false 0 [] text

end Ripsrc
