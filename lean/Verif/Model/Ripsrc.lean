import Verif.Model.Graph
import Verif.Model.BranchMeta
import Verif.Model.Pool
/-!
# The `Ripsrc` object and the whole call of `Branches`

From the outputs of the git commands to the inputs of the worker pool.
-/
namespace Ripsrc

/-- The part of `Ripsrc` (`/repo/ripsrc/ripsrc.go:56-68`) that survives a call and is used by `Branches`: the commit graph (`none`: nil). `gitExecPrepared` is never set
(ripsrc.go:85-90), so it is not modelled. -/
structure RipsrcObj where
  commitGraph : Option Graph := none

/-- The outputs of the git commands in the repository; `none`: the command fails. -/
structure GitOut where
  /-- `git rev-parse HEAD` -/
  head : Option Str
  /-- `git log -m --reverse --no-abbrev-commit --pretty=format:%H@%P --all` -/
  log : Option Str
  /-- `git rev-parse --abbrev-ref HEAD` -/
  abbrevRef : Option Str
  /-- `git rev-list --max-parents=0 HEAD` -/
  roots : Option Str
  /-- `git symbolic-ref --short HEAD` -/
  symref : Option Str
  /-- `git for-each-ref --format … refs/heads` or `refs/remotes/origin` -/
  refs : Bool → Option Str

/-- The options of a user that `Branches` reads: `/repo/ripsrc/ripsrc.go:19-53`. -/
structure UserOpts where
  allBranches : Bool := true
  useOrigin : Bool := false
  prs : List Str := []

/-- What is not determined by the repository and the options: the date parser, SHA-256, the number of processors, the iteration order of `s.Parents`, the result of `sort.Slice`
(not stable), the iteration orders of the maps in `uniqueStrings` and in the workers. -/
structure BranchesEnv (τ : Type) where
  parseDate : Str → Option τ
  sha : Str → Str
  numCPU : Nat
  iter : GoMap Str (List Str) → List (Str × List Str)
  sort : List (BranchTime τ) → List (BranchTime τ)
  prOrder : List Str → List Str
  perms : Str × Str → List Str → List Str

/-- Which environments can occur. -/
structure BranchesEnv.Possible {τ : Type} (e : BranchesEnv τ) : Prop where
  cpu : 1 ≤ e.numCPU
  iter : ∀ m, (e.iter m).Perm m
  sort : ∀ l, IsSort (fun a b => strLe a.name b.name) l (e.sort l)
  prOrder : ∀ s, (e.prOrder s).Perm s
  perms : ∀ x s, (e.perms x s).Perm s

/-- `exec.Cmd.Run` in the helpers `execCommand` (`/repo/ripsrc/branchmeta/branchmeta.go:112-122`, `/repo/ripsrc/branches2/name_hash.go:44-54`). -/
def execCommand (o : Option Str) : Go Str :=
  match o with
  | some s => .ok s
  | none => .error (.error "git command failed")

/-- `headCommit` of package gitexec (`/repo/ripsrc/gitexec/gitexec.go:112-123`): the error of the command is ignored. Simplification: a failing command has no output. -/
def gitexecHeadCommit (o : Option Str) : Str :=
  let res := trimSpace (o.getD [])
  if res.length ≠ 40 then [] else res

/-- `Prepare`: `/repo/ripsrc/gitexec/prepare.go:16-20`, called by `prepareGitExec` (`/repo/ripsrc/ripsrc.go:85-90`). -/
def gitexecPrepare (o : GitOut) : Go Unit :=
  if gitexecHeadCommit o.head = [] then .error (.error "can't get head commit for repo") else .ok ()

/-- `Graph.Read` (`/repo/ripsrc/parentsgraph/parents.go:39-51,69-84`): a failing git command panics in the goroutine of `ExecPiped` (`/repo/ripsrc/gitexec/gitexec.go:125-137`),
which ends the program. -/
def graphRead {τ : Type} (e : BranchesEnv τ) (o : GitOut) : Go Graph :=
  match o.log with
  | none => .error (.panic "git log failed")
  | some text => do
    let m ← parentsRun text
    .ok (Graph.newFromMap m (e.iter m))

/-- `buildCommitGraph`: `/repo/ripsrc/ripsrc.go:92-104`. The graph is stored before it is read: after an error it stays there, without commits. -/
def buildCommitGraph {τ : Type} (e : BranchesEnv τ) (o : GitOut) (s : RipsrcObj) : RipsrcObj × Option Fault :=
  match s.commitGraph with
  | some _ => (s, none)
  | none => match graphRead e o with
    | .ok g => ({ commitGraph := some g }, none)
    | .error f => ({ commitGraph := some { parents := [], children := [] } }, some f)

/-- What a call of `Code` does before it uses the graph: `/repo/ripsrc/code.go:97-110`. -/
def codePre {τ : Type} (e : BranchesEnv τ) (o : GitOut) (s : RipsrcObj) : RipsrcObj × Option Fault :=
  match gitexecPrepare o with
  | .error f => (s, some f)
  | .ok () => buildCommitGraph e o s

/-- `Branches` before `Run`: `/repo/ripsrc/branches.go:15-27`. -/
def branchesPre {τ : Type} (e : BranchesEnv τ) (o : GitOut) (u : UserOpts) (s : RipsrcObj) : RipsrcObj × Option Fault :=
  if u.allBranches = false then (s, some (.error "Branches call is only allowed when AllBranches=true"))
  else match gitexecPrepare o with
    | .error f => (s, some f)
    | .ok () => buildCommitGraph e o s

/-- `branchmeta.Get` as called by `getNamesAndHashes` (`/repo/ripsrc/branches2/name_hash.go:29-42`, `/repo/ripsrc/branchmeta/branchmeta.go:30-93`). -/
def namesAndHashes {τ : Type} (e : BranchesEnv τ) (o : GitOut) (u : UserOpts) : Go (List (Str × Str)) := do
  let h ← execCommand o.symref
  -- line 31: the default branch is determined before the refs are listed
  let _ ← getDefaultBranch h
  let data ← execCommand (o.refs u.useOrigin)
  let l ← branchGetUnsorted e.parseDate { useOrigin := u.useOrigin, includeDefault := false } h data
  .ok ((e.sort l).map (fun b => (b.name, b.commit)))

/-- A call of `Branches`: the object after it (as far as later calls can see it) and what the worker pool is started with. `/repo/ripsrc/branches.go:13-48`,
`/repo/ripsrc/branches2/process.go:88-135`. -/
def branchesCall {τ : Type} (e : BranchesEnv τ) (o : GitOut) (u : UserOpts) (s : RipsrcObj) : RipsrcObj × Pool :=
  let (s', pre) := branchesPre e o u s
  (s', {
    pre := pre
    getDefault := do
      let n ← execCommand o.abbrevRef
      -- `headBranch` fails before `rev-parse HEAD` runs
      if trimSpace n = b!"HEAD" then .error (.error "could not retrieve the name of the default branch")
      else
        let c ← execCommand o.head
        branchGetDefault n c
    firstCommit := do
      let r ← execCommand o.roots
      .ok (trimSpace r)
    names := namesAndHashes e o u
    prs := u.prs
    includeDefault := true
    prOnly := false
    concurrency := 0
    numCPU := e.numCPU
    graph := s'.commitGraph.getD { parents := [], children := [] }
    sha := e.sha
    prOrder := e.prOrder
    perms := e.perms })

end Ripsrc
