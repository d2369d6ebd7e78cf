import Verif.Go.Map
/-!
# Model of package `process/graph`
-/
namespace Ripsrc

/-- `trace` : `/repo/ripsrc/history3/process/graph/graph.go:7-10`. -/
structure Trace where
  headInd : Nat
  commit : Str
deriving DecidableEq

/-- `reached` : `/repo/ripsrc/history3/process/graph/graph.go:17`. -/
abbrev Reached := GoMap Str (GoMap Nat Bool)

/-- `markReach` : `/repo/ripsrc/history3/process/graph/graph.go:18-29`; `n` is `len(heads)`. -/
def markReach (n : Nat) (r : Reached) (tr : Trace) : Reached × Bool :=
  let r := if GoMap.has r tr.commit then r else GoMap.set r tr.commit []
  let inner := GoMap.set ((GoMap.get r tr.commit).getD []) tr.headInd true
  (GoMap.set r tr.commit inner, decide (inner.length = n))

/-- Outcome of a round of the loop. -/
inductive Round where
  | found (commit : Str)
  | next (reached : Reached) (ntr : List Trace)

/-- The loop over `curr` : `/repo/ripsrc/history3/process/graph/graph.go:31-41`. -/
def lcpRound (g : GoMap Str (List Str)) (n : Nat) (r : Reached) (ntr : List Trace) : List Trace → Round
  | [] => .next r ntr
  | tr :: rest =>
    let (r, done) := markReach n r tr
    if done then .found tr.commit
    else lcpRound g n r (ntr ++ ((GoMap.get g tr.commit).getD []).map (fun p => { headInd := tr.headInd, commit := p })) rest

/-- The endless loop: `/repo/ripsrc/history3/process/graph/graph.go:30-46`, at most `rounds` rounds of it; `none` if it has not ended
by then. -/
def lcpLoop (g : GoMap Str (List Str)) (n : Nat) : Nat → Reached → List Trace → Option (Go Str)
  | 0, _, _ => none
  | k + 1, r, curr => match lcpRound g n r [] curr with
    | .found c => some (.ok c)
    | .next r ntr => if ntr.length = 0 then some (.error (.panic "all roots reached")) else lcpLoop g n k r ntr

/-- `LastCommonParent` : `/repo/ripsrc/history3/process/graph/graph.go:12-47`. -/
def lastCommonParent (g : GoMap Str (List Str)) (heads : List Str) (rounds : Nat) : Option (Go Str) :=
  lcpLoop g heads.length rounds [] (heads.zipIdx.map (fun e => { headInd := e.2, commit := e.1 }))

end Ripsrc
