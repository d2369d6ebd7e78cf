import Verif.Model.Incblame
import Verif.Model.GitLog
import Verif.Model.GitBlame
import Verif.Model.Graph
/-!
# Model of packages `process/repo` (in-memory part) and `process`

`*incblame.Blame` pointers are modelled by values: nothing reachable from a stored blame is ever modified (C54).
Timing statistics are modelled separately (`Model/Timing.lean`), channels by the list of results sent so far
(`Model/Pipeline.lean` has the concurrency).
-/
namespace Ripsrc

/-- `map[string]*incblame.Blame`. -/
abbrev Files := GoMap Str Blame

/-- `Repo` : `/repo/ripsrc/history3/process/repo/repo.go:12`. -/
abbrev Repo := GoMap Str Files

/-- `AddCommit` : `/repo/ripsrc/history3/process/repo/repo.go:69-71`. -/
def Repo.addCommit (r : Repo) (c : Str) : Repo := GoMap.set r c []

/-- `GetCommitMust` : `/repo/ripsrc/history3/process/repo/repo.go:73-79`. -/
def Repo.getCommitMust (r : Repo) (c : Str) : Go Files :=
  match GoMap.get r c with
  | none => .error (.panic "commit not found")
  | some fs => .ok fs

/-- `GetFileOptional` : `/repo/ripsrc/history3/process/repo/repo.go:81-87`. -/
def Repo.getFileOptional (r : Repo) (c f : Str) : Go (Option Blame) :=
  match GoMap.get r c with
  | none => .error (.panic "commit not found when looking for file")
  | some fs => .ok (GoMap.get fs f)

/-- `GetFileMust` : `/repo/ripsrc/history3/process/repo/repo.go:89-99`. -/
def Repo.getFileMust (r : Repo) (c f : Str) : Go Blame :=
  match GoMap.get r c with
  | none => .error (.panic "commit not found when looking for file")
  | some fs => match GoMap.get fs f with
    | none => .error (.error "file is missing in commit")
    | some b => .ok b

/-- `s.repo[c][f] = b`; assignment to an entry of a nil map panics. -/
def Repo.put (r : Repo) (c f : Str) (b : Blame) : Go Repo :=
  match GoMap.get r c with
  | none => .error (.panic "assignment to entry in nil map")
  | some fs => .ok (GoMap.set r c (GoMap.set fs f b))

/-- `maxCommitsInCheckpoint` : `/repo/ripsrc/history3/process/repo/repo.go:113`. -/
def maxCommitsInCheckpoint : Nat := 1000

/-- `Unload` : `/repo/ripsrc/history3/process/repo/repo.go:115-123`. The list is `toUnload`, front first. -/
def unload (r : Repo) (toUnload : List Str) (c : Str) : Repo × List Str :=
  let l := c :: toUnload
  if l.length > maxCommitsInCheckpoint then
    match l.getLast? with
    | some last => (GoMap.del r last, l.dropLast)
    | none => (r, l)
  else (r, l)

/-- `Result` : `/repo/ripsrc/history3/process/process.go:78-81`. -/
structure Result where
  commit : Str
  files : Files
deriving DecidableEq

/-- What the program gets from its environment: `srt` is `sort.Slice` on hunks, `order n k l` is the order in which the
`k`-th map iteration while processing the `n`-th commit of the run visits the keys `l` of the map, `blameOut c f` is what
`git blame` prints for file `f` of commit `c` (`none` when git fails). -/
structure Env where
  srt : List Hunk → List Hunk
  order : Nat → Nat → List Str → List Str
  blameOut : Str → Str → Option Str

/-- `slowGitBlame` : `/repo/ripsrc/history3/process/process.go:765-779` with `gitblame2.Run`
(`/repo/ripsrc/gitblame2/gitblame.go:31-52`), which panics when git fails. -/
def slowGitBlame (env : Env) (c f : Str) : Go Blame :=
  match env.blameOut c f with
  | none => .error (.panic "git blame failed")
  | some out => do
    let ls ← blameResult out
    .ok { commit := c, lines := ls.map (fun l => { line := l.2, commit := l.1 }) }

/-! ## Regular commits -/

/-- The part for renames: `/repo/ripsrc/history3/process/process.go:392-417`. Returns the parent's blame if the file is a
binary file renamed without a patch. -/
def renamedBinary (repo : Repo) (parents : List Str) (diff : Diff) : Go (Option Blame) :=
  if diff.pathPrev ≠ [] ∧ diff.pathPrev ≠ diff.path then
    match parents with
    | [p] =>
      if diff.hunks.length = 0 then do
        let pb ← repo.getFileMust p diff.pathPrev
        if pb.isBinary then .ok (some pb) else .ok none
      else .ok none
    | _ => .error (.panic "rename with more than 1 parent (merge) not supported")
  else .ok none

/-- `parentBlame` : `/repo/ripsrc/history3/process/process.go:419-437`. -/
def parentBlameOf (repo : Repo) (parents : List Str) (diff : Diff) : Go (Option Blame) :=
  if diff.pathPrev = [] then .ok none
  else match parents with
    | [] => .ok none
    | [p] => repo.getFileOptional p diff.pathPrev
    | [_, _] => .error (.panic "merge passed to regular commit processing")
    | _ => .ok none

/-- The new blame of a file: `/repo/ripsrc/history3/process/process.go:439-452`. -/
def newBlame (env : Env) (hash : Str) (parentBlame : Option Blame) (diff : Diff) : Go Blame :=
  match parentBlame with
  | none => apply env.srt { commit := [], lines := [] } diff hash
  | some pb => if pb.isBinary then slowGitBlame env hash diff.path else apply env.srt pb diff hash

/-- `s.repo[hash][p] = bl; res.Files[p] = bl`. -/
def store (hash : Str) (st : Repo × Files) (p : Str) (bl : Blame) : Go (Repo × Files) := do
  let r ← st.1.put hash p bl
  .ok (r, GoMap.set st.2 p bl)

/-- One iteration of the loop over the changes: `/repo/ripsrc/history3/process/process.go:358-455`; the state is the repo and
`res.Files`. -/
def regularChange (env : Env) (hash : Str) (parents : List Str) (st : Repo × Files) (ch : Str) : Go (Repo × Files) := do
  let diff ← parseDiff ch
  if diff.isBinary then
    if diff.path = [] then .ok (st.1, GoMap.set st.2 diff.pathPrev (blameBinaryFile hash))
    else store hash st diff.path (blameBinaryFile hash)
  else if diff.path = [] then .ok (st.1, GoMap.set st.2 diff.pathPrev { commit := hash, lines := [] })
  else do
    let rb ← renamedBinary st.1 parents diff
    match rb with
    | some pb => store hash st diff.path pb
    | none => do
      let pb ← parentBlameOf st.1 parents diff
      let bl ← newBlame env hash pb diff
      store hash st diff.path bl

/-- One iteration of the loop copying unchanged files: `/repo/ripsrc/history3/process/process.go:465-477`. -/
def copyUnchanged (hash parent : Str) (res : Files) (repo : Repo) (fp : Str) : Go Repo :=
  if GoMap.has res fp then .ok repo
  else do
    let bl ← repo.getFileMust parent fp
    repo.put hash fp bl

/-- `processRegularCommit` : `/repo/ripsrc/history3/process/process.go:337-480` (without the timing); `n` is the number of
commits processed before in this run. -/
def processRegularCommit (env : Env) (n : Nat) (repo : Repo) (hash : Str) (parents : List Str) (changes : List Str) :
    Go (Repo × Result) :=
  if parents.length > 1 then .error (.panic "not a regular commit")
  else do
    let st ← changes.foldlM (regularChange env hash parents) (repo.addCommit hash, [])
    match parents with
    | [] => .ok (st.1, { commit := hash, files := st.2 })
    | p :: _ => do
      let files ← st.1.getCommitMust p
      let r ← (env.order n 0 (GoMap.keys files)).foldlM (copyUnchanged hash p st.2) st.1
      .ok (r, { commit := hash, files := st.2 })

/-! ## Merge commits -/

/-- `deletedPrefix` : `/repo/ripsrc/history3/process/process.go:482`. -/
def deletedPrefix : Str := b!"@@@del@@@"

/-- The key of a diff: `/repo/ripsrc/history3/process/process.go:517-522`. -/
def mergeKey (d : Diff) : Str := if d.path ≠ [] then d.path else deletedPrefix ++ d.pathPrev

/-- `hashToParOrd` : `/repo/ripsrc/history3/process/process.go:509-512`. -/
def hashToParOrd (parentHashes : List Str) : GoMap Str Nat :=
  parentHashes.zipIdx.foldl (fun m e => GoMap.set m e.1 e.2) []

/-- `map[string][]*incblame.Diff`. -/
abbrev DiffsByKey := GoMap Str (List (Option Diff))

/-- One change of one part: `/repo/ripsrc/history3/process/process.go:515-530`. `par[parInd]` panics when out of range. -/
def addDiff (parentHashes : List Str) (parHash : Str) (diffs : DiffsByKey) (ch : Str) : Go DiffsByKey := do
  let diff ← parseDiff ch
  let key := mergeKey diff
  let par := (GoMap.get diffs key).getD (List.replicate parentHashes.length none)
  let ind := (GoMap.get (hashToParOrd parentHashes) parHash).getD 0
  if ind < par.length then .ok (GoMap.set diffs key (par.set ind (some diff)))
  else .error (.panic "index out of range: par[parInd]")

/-- All changes of one part, then all parts in iteration order: `/repo/ripsrc/history3/process/process.go:514-531`. -/
def addPart (parentHashes : List Str) (parts : GoMap Str LogCommit) (diffs : DiffsByKey) (parHash : Str) : Go DiffsByKey :=
  ((GoMap.get parts parHash).getD {}).changes.foldlM (addDiff parentHashes parHash) diffs

/-- `isDelete` : `/repo/ripsrc/history3/process/process.go:545-550`. -/
def isDelete (ds : List (Option Diff)) : Bool :=
  ds.all (fun d => match d with
    | some d => decide (d.path = [])
    | none => true)

/-- `binaryDiffs != 0` : `/repo/ripsrc/history3/process/process.go:566-574`. -/
def anyBinaryDiff (ds : List (Option Diff)) : Bool :=
  ds.any (fun d => match d with
    | some d => d.isBinary
    | none => false)

/-- The loop counting binary parents, `binParentsWithDiffs != 0`: `/repo/ripsrc/history3/process/process.go:576-594`; the list
pairs each parent with its diff. -/
def anyBinaryParent (repo : Repo) : List (Str × Option Diff) → Go Bool
  | [] => .ok false
  | (_, none) :: rest => anyBinaryParent repo rest
  | (p, some d) :: rest =>
    if d.pathPrev = [] then anyBinaryParent repo rest
    else do
      let pb ← repo.getFileMust p d.pathPrev
      let r ← anyBinaryParent repo rest
      .ok (pb.isBinary || r)

/-- The search for a parent with the same file: `/repo/ripsrc/history3/process/process.go:623-634`. -/
def sameAsParent (repo : Repo) (k : Str) : List (Str × Option Diff) → Go (Option Blame)
  | [] => .ok none
  | (_, some _) :: rest => sameAsParent repo k rest
  | (p, none) :: rest => do
    let pb ← repo.getFileOptional p k
    match pb with
    | some b => .ok (some b)
    | none => sameAsParent repo k rest

/-- The blames of the parents for `ApplyMerge`: `/repo/ripsrc/history3/process/process.go:636-663`. -/
def mergeParents (repo : Repo) (k : Str) : List (Str × Option Diff) → Go (List Blame)
  | [] => .ok []
  | (p, d) :: rest => do
    let b ← match d with
      | none => do
        let pb ← repo.getFileOptional p k
        match pb with
        | some b => .ok b
        | none => .error (.panic "merge: no change for file recorded, but parent does not contain file")
      | some d =>
        if d.pathPrev = [] then .ok { commit := [], lines := [] }
        else repo.getFileMust p d.pathPrev
    let bs ← mergeParents repo k rest
    .ok (b :: bs)

/-- One iteration of the loop `EACHFILE`: `/repo/ripsrc/history3/process/process.go:541-677`; `ds` is `diffs[k]`. `parentHashes[i]`
cannot be out of range as `ds` has that length. `k[len(deletedPrefix):]` panics for a short key. -/
def mergeFile (env : Env) (hash : Str) (parentHashes : List Str) (diffs : DiffsByKey) (st : Repo × Files) (k : Str) :
    Go (Repo × Files) :=
  let ds := (GoMap.get diffs k).getD []
  let pds := parentHashes.zip ds
  if isDelete ds then
    if k.length < deletedPrefix.length then .error (.panic "slice bounds out of range")
    else .ok (st.1, GoMap.set st.2 (k.drop deletedPrefix.length) { commit := hash, lines := [] })
  else do
    let bp ← anyBinaryParent st.1 pds
    if anyBinaryDiff ds || bp then store hash st k (blameBinaryFile hash)
    else do
      let same ← sameAsParent st.1 k pds
      match same with
      | some b => do
        let r ← st.1.put hash k b
        .ok (r, st.2)
      | none => do
        let ps ← mergeParents st.1 k pds
        let bl ← applyMerge env.srt ps (ds.map (fun d => d.getD {})) hash
        store hash st k bl

/-- The files of all parents, each once: `/repo/ripsrc/history3/process/process.go:681-688`. The order of the insertions into the
set is irrelevant. -/
def allParentFiles (repo : Repo) : List Str → Go (List Str)
  | [] => .ok []
  | p :: ps => do
    let fs ← repo.getCommitMust p
    let rest ← allParentFiles repo ps
    .ok (GoMap.keys fs ++ rest)

/-- `candidates` : `/repo/ripsrc/history3/process/process.go:706-712`. -/
def candidates (repo : Repo) (f : Str) : List Str → Go (List Blame)
  | [] => .ok []
  | p :: ps => do
    let b ← repo.getFileOptional p f
    let rest ← candidates repo f ps
    .ok (match b with
      | some b => b :: rest
      | none => rest)

/-- One iteration of the loop over the files of the parents: `/repo/ripsrc/history3/process/process.go:692-760`; of several
candidates the last is taken, so the case of a single one needs no distinction. -/
def mergeUnchanged (hash : Str) (parentHashes : List Str) (repo : Repo) (f : Str) : Go Repo := do
  let bl ← repo.getFileOptional hash f
  match bl with
  | some _ => .ok repo
  | none => do
    let cs ← candidates repo f parentHashes
    match cs.getLast? with
    | none => .error (.panic "no file candidates")
    | some b => repo.put hash f b

/-- `processMergeCommit` : `/repo/ripsrc/history3/process/process.go:484-763` (without the timing). -/
def processMergeCommit (env : Env) (n : Nat) (repo : Repo) (hash : Str) (parentHashes : List Str) (parts : GoMap Str LogCommit) :
    Go (Repo × Result) := do
  let diffs ← (env.order n 0 (GoMap.keys parts)).foldlM (addPart parentHashes parts) []
  let st ← (env.order n 1 (GoMap.keys diffs)).foldlM (mergeFile env hash parentHashes diffs) (repo.addCommit hash, [])
  let files ← allParentFiles st.1 parentHashes
  let r ← (env.order n 2 files.eraseDups).foldlM (mergeUnchanged hash parentHashes) st.1
  .ok (r, { commit := hash, files := st.2 })

/-! ## The run -/

/-- `Process` : `/repo/ripsrc/history3/process/process.go:25-46`; `sent` are the results sent on the channel. -/
structure Proc where
  graph : Graph
  childrenProcessed : GoMap Str Nat := []
  mergePartsCommit : Str := []
  mergeParts : GoMap Str LogCommit := []
  repo : Repo := []
  toUnload : List Str := []
  lastProcessed : Str := []
  sent : List Result := []

/-- `s.graph.Parents[hash]`. -/
def Proc.parents (s : Proc) (hash : Str) : List Str := (GoMap.get s.graph.parents hash).getD []

/-- One parent in `trimGraphAfterCommitProcessed` : `/repo/ripsrc/history3/process/process.go:223-230`. -/
def Proc.trimParent (s : Proc) (p : Str) : Proc :=
  let cnt := (GoMap.get s.childrenProcessed p).getD 0 + 1
  let s := { s with childrenProcessed := GoMap.set s.childrenProcessed p cnt }
  if cnt = ((GoMap.get s.graph.children p).getD []).length then
    let u := unload s.repo s.toUnload p
    { s with repo := u.1, toUnload := u.2 }
  else s

/-- `trimGraphAfterCommitProcessed` : `/repo/ripsrc/history3/process/process.go:221-236`. -/
def Proc.trim (s : Proc) (hash : Str) : Proc := (s.parents hash).foldl Proc.trimParent s

/-- `processGotMergeParts` : `/repo/ripsrc/history3/process/process.go:269-277`: an error becomes a panic. -/
def Proc.finishMerge (env : Env) (s : Proc) : Go Proc :=
  match processMergeCommit env s.sent.length s.repo s.mergePartsCommit (s.parents s.mergePartsCommit) s.mergeParts with
  | .error _ => .error (.panic "processMergeCommit")
  | .ok (r, res) =>
    let s := { s with repo := r, lastProcessed := s.mergePartsCommit }
    let s := s.trim s.mergePartsCommit
    .ok { s with mergeParts := [], sent := s.sent ++ [res] }

/-- The second part of `processCommit` : `/repo/ripsrc/history3/process/process.go:254-266`. -/
def Proc.newCommit (env : Env) (s : Proc) (c : LogCommit) : Go Proc :=
  if (s.parents c.hash).length > 1 then
    .ok { s with mergePartsCommit := c.hash, mergeParts := [(c.mergeDiffFrom, c)] }
  else do
    let (r, res) ← processRegularCommit env s.sent.length s.repo c.hash (s.parents c.hash) c.changes
    let s := { s with repo := r, lastProcessed := c.hash }
    let s := s.trim c.hash
    .ok { s with sent := s.sent ++ [res] }

/-- `processCommit` : `/repo/ripsrc/history3/process/process.go:238-267`. The state is also returned on failure: a merge may have
been completed before. -/
def Proc.commit (env : Env) (s : Proc) (c : LogCommit) : Proc × Option Fault :=
  if s.mergeParts.length > 0 then
    if s.mergePartsCommit = c.hash then
      ({ s with mergeParts := GoMap.set s.mergeParts c.mergeDiffFrom c }, none)
    else match s.finishMerge env with
      | .error e => (s, some e)
      | .ok s => match s.newCommit env c with
        | .error e => (s, some e)
        | .ok s => (s, none)
  else match s.newCommit env c with
    | .error e => (s, some e)
    | .ok s => (s, none)

/-- The loop over the commits of the log: `/repo/ripsrc/history3/process/process.go:180-195`, without the initialisation. -/
def Proc.loop (env : Env) (s : Proc) : List LogCommit → Proc × Option Fault
  | [] => (s, none)
  | c :: cs => match s.commit env c with
    | (s, some e) => (s, some e)
    | (s, none) => s.loop env cs

/-- The options that matter here: `/repo/ripsrc/history3/process/process.go:48-76`. -/
structure RunOpts where
  commitFromIncl : Str := []
  noStrictResume : Bool := false

/-- `initCheckpoints` : `/repo/ripsrc/history3/process/process.go:107-128`. `read expected` stands for
`CheckpointReader.Read(dir, expected)`. -/
def initCheckpoints (opts : RunOpts) (read : Str → Go Repo) : Go Repo :=
  if opts.commitFromIncl = [] then .ok []
  else read (if opts.noStrictResume then [] else opts.commitFromIncl)

/-- Outcome of `Run`: the results sent, the panic or returned error if any, and the arguments given to the checkpoint writer
(`none` if it is not called). -/
structure RunOut where
  sent : List Result
  fault : Option Fault
  written : Option (Repo × Str)

/-- `Run` : `/repo/ripsrc/history3/process/process.go:130-219`, from the point where the graph is known and the log is opened; `log`
are the commits delivered by the log parser. The outcome of `CheckpointWriter.Write` is not included. -/
def run (env : Env) (opts : RunOpts) (read : Str → Go Repo) (g : Graph) (log : List LogCommit) : RunOut :=
  match log with
  | [] => { sent := [], fault := none, written := none }
  | _ => match initCheckpoints opts read with
    | .error e => { sent := [], fault := some e, written := none }
    | .ok repo =>
      match Proc.loop env { graph := g, repo := repo } log with
      | (s, some e) => { sent := s.sent, fault := some e, written := none }
      | (s, none) =>
        if s.mergeParts.length > 0 then
          match s.finishMerge env with
          | .error e => { sent := s.sent, fault := some e, written := none }
          | .ok s => { sent := s.sent, fault := none, written := some (s.repo, s.lastProcessed) }
        else { sent := s.sent, fault := none, written := some (s.repo, s.lastProcessed) }

end Ripsrc
