import Verif.Model.Graph
/-!
# Model of package `branches2`

`map[string]bool` values that only ever get `true` stored are modelled as duplicate-free lists in insertion order
(membership = `m[k]`). The recursive closures carry a fuel argument (Lean needs a structural measure); running out of
fuel is a distinguished panic, and `Props/Branches.lean` proves that it never occurs with `Graph.fuel`.
-/
namespace Ripsrc

/-- Recursion bound: more than the number of distinct hashes that occur in the graph plus the start hash. -/
def Graph.fuel (gr : Graph) : Nat := (gr.parents.flatMap (fun e => e.1 :: e.2)).length + 2

/-- Label of the fuel panic; not part of the Go code. -/
def outOfFuel : Fault := .panic "model: out of fuel"

/-- `panic("commit not found in tree")`. -/
def notInTree : Fault := .panic "commit not found in tree"

/-- `par, ok := gr.Parents[hash]; if !ok { panic("commit not found in tree") }`, e.g.
`/repo/ripsrc/branches2/branch_commits.go:76-79`. -/
def Graph.parentsMust (gr : Graph) (h : Str) : Go (List Str) :=
  match gr.parents.get h with
  | none => .error notInTree
  | some ps => .ok ps

/-- `gr.Parents[hash]` (nil when absent). -/
def Graph.parentsOrNil (gr : Graph) (h : Str) : List Str := (gr.parents.get h).getD []

/-- Variables captured by the closure of `newReachableFromHead`: `/repo/ripsrc/branches2/branch_commits.go:15-16`. -/
structure ReachSt where
  res : List Str
  done : List Str

/-- Closure `rec` : `/repo/ripsrc/branches2/branch_commits.go:18-27`. -/
def reachRec (gr : Graph) : Nat → Str → ReachSt → Go ReachSt
  | 0, _, _ => .error outOfFuel
  | n + 1, hash, s =>
    if hash ∈ s.done then .ok s
    else (gr.parentsOrNil hash).foldlM (fun s p => reachRec gr n p s)
      { res := s.res ++ [hash], done := s.done ++ [hash] }

/-- `newReachableFromHead` : `/repo/ripsrc/branches2/branch_commits.go:14-30`. -/
def newReachableFromHead (gr : Graph) (defaultHead : Str) : Go (List Str) := do
  let s ← reachRec gr gr.fuel defaultHead ⟨[], []⟩
  return s.res

/-- Closure `rec` of the merged case: `/repo/ripsrc/branches2/branch_commits.go:41-62`. -/
def reachStopRec (gr : Graph) (branchHead : Str) : Nat → Str → ReachSt → Go ReachSt
  | 0, _, _ => .error outOfFuel
  | n + 1, hash, s =>
    if hash ∈ s.done then .ok s
    else
      let s : ReachSt := { res := s.res ++ [hash], done := s.done ++ [hash] }
      if hash = branchHead then .ok s
      else do
        let par ← gr.parentsMust hash
        par.foldlM (fun s p => reachStopRec gr branchHead n p s) s

/-- Variables captured by the second closure of `branchCommits` (`commitsDone`, and the named results):
`/repo/ripsrc/branches2/branch_commits.go:36,66`. -/
structure BranchSt where
  commits : List Str
  branchedFrom : List Str
  done : List Str

/-- Second closure `rec` of `branchCommits`: `/repo/ripsrc/branches2/branch_commits.go:68-89`. The `for i := len-1..0`
loop is a fold over the reversed list. -/
def branchRec (gr : Graph) (reachable : List Str) : Nat → Str → BranchSt → Go BranchSt
  | 0, _, _ => .error outOfFuel
  | n + 1, hash, s =>
    if hash ∈ s.done then .ok s
    else do
      let s : BranchSt := { s with commits := s.commits ++ [hash], done := s.done ++ [hash] }
      let par ← gr.parentsMust hash
      par.reverse.foldlM (fun s p =>
        if p ∈ reachable then .ok { s with branchedFrom := s.branchedFrom ++ [p] }
        else branchRec gr reachable n p s) s

/-- Variables captured by the closure of `dedupLinearFromHead`: `/repo/ripsrc/branches2/branch_commits.go:98,102`. -/
structure DeepSt where
  hasDeep : GoMap Str Bool
  done : List Str

/-- Closure `rec` of `dedupLinearFromHead`: `/repo/ripsrc/branches2/branch_commits.go:103-119`; returns the state and
the result `has`. -/
def deepRec (gr : Graph) (commitsHash : List Str) : Nat → Str → DeepSt → Go (DeepSt × Bool)
  | 0, _, _ => .error outOfFuel
  | n + 1, hash, s =>
    if hash ∈ s.done then .ok (s, (s.hasDeep.get hash).getD false)
    else do
      let s : DeepSt := { s with done := s.done ++ [hash] }
      let (s, has) ← (gr.parentsOrNil hash).foldlM (fun (acc : DeepSt × Bool) p => do
        let (s, r) ← deepRec gr commitsHash n p acc.1
        return (s, if r then true else acc.2)) (s, decide (hash ∈ commitsHash))
      return ({ s with hasDeep := s.hasDeep.set hash has }, has)

/-- `toSet` : `/repo/ripsrc/branches2/branch_commits.go:146-152`. -/
def toSet (arr : List Str) : List Str := arr.foldl (fun s v => if v ∈ s then s else s ++ [v]) []

/-- `dedupLinearFromHead` : `/repo/ripsrc/branches2/branch_commits.go:97-144`. `perm` is the order in which Go iterates
over the set `commitsHash` at line 137 (the order of the loop at line 125 is irrelevant: it fills a map). -/
def dedupLinearFromHead (gr : Graph) (commits : List Str) (defaultHead : Str) (perm : List Str → List Str) :
    Go (List Str) := do
  let commitsHash := toSet commits
  let (s, _) ← deepRec gr commitsHash gr.fuel defaultHead ⟨[], []⟩
  let dup := fun h => (gr.parentsOrNil h).any (fun p => (s.hasDeep.get p).getD false)
  return sortStrings ((perm commitsHash).filter (fun c => !dup c))

/-- `branchCommits` : `/repo/ripsrc/branches2/branch_commits.go:32-95`. -/
def branchCommits (gr : Graph) (defaultHead : Str) (reachableFromHead : List Str) (branchHead : Str)
    (perm : List Str → List Str) : Go (List Str × List Str) := do
  let reachable ←
    if branchHead ∈ reachableFromHead then do
      let s ← reachStopRec gr branchHead gr.fuel defaultHead ⟨[], []⟩
      pure s.res
    else pure reachableFromHead
  let s ← branchRec gr reachable gr.fuel branchHead ⟨[], [], []⟩
  let branchedFrom ← dedupLinearFromHead gr s.branchedFrom branchHead perm
  return (s.commits.reverse, branchedFrom)

/-- Closure of `reachableFromBranchStopOnDefault`: `/repo/ripsrc/branches2/behind_branch.go:9-21`. -/
def rfbRec (gr : Graph) (reachableFromDefault : List Str) : Nat → Str → ReachSt → Go ReachSt
  | 0, _, _ => .error outOfFuel
  | n + 1, hash, s =>
    if hash ∈ s.done then .ok s
    else
      let s : ReachSt := { res := s.res ++ [hash], done := s.done ++ [hash] }
      if hash ∈ reachableFromDefault then .ok s
      else (gr.parentsOrNil hash).foldlM (fun s p => rfbRec gr reachableFromDefault n p s) s

/-- `reachableFromBranchStopOnDefault` : `/repo/ripsrc/branches2/behind_branch.go:5-24`. -/
def reachableFromBranchStopOnDefault (gr : Graph) (reachableFromDefault : List Str) (branchHead : Str) :
    Go (List Str) := do
  let s ← rfbRec gr reachableFromDefault gr.fuel branchHead ⟨[], []⟩
  return s.res

/-- Variables captured by the closure of `behindBranch`. -/
structure BehindSt where
  res : Nat
  done : List Str

/-- Closure of `behindBranch`: `/repo/ripsrc/branches2/behind_branch.go:36-48`. -/
def behindRec (gr : Graph) (rfb : List Str) : Nat → Str → BehindSt → Go BehindSt
  | 0, _, _ => .error outOfFuel
  | n + 1, hash, s =>
    if hash ∈ s.done then .ok s
    else
      let s : BehindSt := { s with done := s.done ++ [hash] }
      if hash ∈ rfb then .ok s
      else (gr.parentsOrNil hash).foldlM (fun s p => behindRec gr rfb n p s) { s with res := s.res + 1 }

/-- `behindBranch` : `/repo/ripsrc/branches2/behind_branch.go:26-51`. -/
def behindBranch (gr : Graph) (reachableFromDefault : List Str) (branchHead defaultHead : Str) : Go Nat := do
  let rfb ← reachableFromBranchStopOnDefault gr reachableFromDefault branchHead
  let s ← behindRec gr rfb gr.fuel defaultHead ⟨0, []⟩
  return s.res

/-- `getMergeCommit` : `/repo/ripsrc/branches2/merge_commit.go:5-16`. -/
def getMergeCommit (gr : Graph) (reachableFromHead : List Str) (branchHead : Str) : Go Str :=
  match gr.children.get branchHead with
  | none => .error notInTree
  | some children => .ok ((children.find? (fun ch => decide (ch ∈ reachableFromHead))).getD [])

/-- Closure of `getAllCommits`: `/repo/ripsrc/branches2/process.go:194-208`. -/
def allRec (gr : Graph) : Nat → Str → ReachSt → Go ReachSt
  | 0, _, _ => .error outOfFuel
  | n + 1, h, s =>
    if h ∈ s.done then .ok s
    else do
      let s : ReachSt := { res := s.res ++ [h], done := s.done ++ [h] }
      let par ← gr.parentsMust h
      par.reverse.foldlM (fun s p => allRec gr n p s) s

/-- `getAllCommits` : `/repo/ripsrc/branches2/process.go:191-212`. -/
def getAllCommits (gr : Graph) (head : Str) : Go (List Str) := do
  let s ← allRec gr gr.fuel head ⟨[], []⟩
  return s.res.reverse

/-- `branchID` before hashing: `/repo/ripsrc/branches2/process.go:267-272`. -/
def branchIDInput (name : Str) (branchedFrom : List Str) : Str :=
  match branchedFrom with
  | [] => joinWith [] [name]
  | b :: _ => joinWith [] [name, b]

/-- `branchID` : `/repo/ripsrc/branches2/process.go:267-282`; SHA-256 in hex is the parameter `sha`. -/
def branchID (sha : Str → Str) (name : Str) (branchedFrom : List Str) : Str :=
  sha (branchIDInput name branchedFrom)

/-- `Branch` : `/repo/ripsrc/branches2/process.go:18-67`. -/
structure Branch where
  branchID : Str := []
  name : Str := []
  isPullRequest : Bool := false
  headSHA : Str := []
  isDefault : Bool := false
  isMerged : Bool := false
  mergeCommit : Str := []
  branchedFromCommits : List Str := []
  commits : List Str := []
  behindDefaultCount : Nat := 0
  aheadDefaultCount : Nat := 0
  firstCommit : Str := []
deriving DecidableEq

/-- `processBranch` : `/repo/ripsrc/branches2/process.go:228-265`; the record sent on the channel, `none` when the
passed sha is skipped. Logging is not modelled. -/
def processBranch (sha : Str → Str) (gr : Graph) (defaultHead : Str) (reachableFromHead : List Str)
    (perm : List Str → List Str) (name commit : Str) : Go (Option Branch) :=
  if name = [] ∧ gr.parents.get commit = none then .ok none
  else do
    let (commits, branchedFrom) ← branchCommits gr defaultHead reachableFromHead commit perm
    let res : Branch :=
      { isPullRequest := decide (name = []), headSHA := commit, name := name, commits := commits,
        branchedFromCommits := branchedFrom,
        branchID := if name ≠ [] then branchID sha name branchedFrom else [] }
    let res ←
      if commit ∈ reachableFromHead then do
        let mc ← getMergeCommit gr reachableFromHead commit
        pure { res with isMerged := true, mergeCommit := mc }
      else if branchedFrom.length ≥ 1 then do
        let b ← behindBranch gr reachableFromHead commit defaultHead
        pure { res with behindDefaultCount := b }
      else pure res
    match commits with
    | [] => .error (.panic "index out of range: Commits[0]")
    | c :: _ => .ok (some { res with aheadDefaultCount := commits.length, firstCommit := c })

/-- What `Run` computes for one branch: the reachable set once (`/repo/ripsrc/branches2/process.go:137`), then
`processBranch` (`process.go:167`). -/
def runBranch (sha : Str → Str) (gr : Graph) (defaultHead : Str) (perm : List Str → List Str) (name commit : Str) :
    Go (Option Branch) := do
  let reachable ← newReachableFromHead gr defaultHead
  processBranch sha gr defaultHead reachable perm name commit

/-- `uniqueStrings` : `/repo/ripsrc/branches2/process.go:180-189`; `perm` is Go's iteration order over the set. -/
def uniqueStrings (perm : List Str → List Str) (arr : List Str) : List Str := perm (toSet arr)

end Ripsrc
