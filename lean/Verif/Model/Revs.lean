import Verif.Go.Cut
/-!
# The arguments of the three `git log` commands

The text log with the patches, the log with the metadata of the commits and the log with the parents are three separate
commands. Which commits each of them prints depends on their arguments only.
-/
namespace Ripsrc

/-- The options of a user that select commits: `/repo/ripsrc/ripsrc.go:19-53`. -/
structure RevOpts where
  commitFromIncl : Str := []
  commitFromMakeNonIncl : Bool := false
  allBranches : Bool := false
deriving DecidableEq, Repr

/-- The same fields of `process.Opts` (`/repo/ripsrc/history3/process/process.go:59-72`) and of `commitmeta.Opts`
(`/repo/ripsrc/commitmeta/commitmeta.go:20-32`). -/
structure LogOpts where
  commitFromIncl : Str := []
  commitFromMakeNonIncl : Bool := false
  allBranches : Bool := false
  wantedBranchRefs : List Str := []
deriving DecidableEq, Repr

/-- `gitLogPatches`: `/repo/ripsrc/history3/process/process.go:796-844`; `tmp` is the name of the empty temporary file. -/
def gitLogPatchesArgs (tmp : Str) (o : LogOpts) : List Str :=
  [b!"-c", b!"core.attributesFile=" ++ tmp, b!"-c", b!"diff.renameLimit=10000", b!"log", b!"-p", b!"-m", b!"--date-order",
   b!"--reverse", b!"--no-abbrev-commit", b!"--pretty=short"] ++
  if o.commitFromIncl ≠ [] then
    (if o.allBranches then o.wantedBranchRefs else []) ++
      [o.commitFromIncl ++ (if o.commitFromMakeNonIncl then b!"..HEAD" else b!"^..HEAD")]
  else if o.allBranches then [b!"--all"] else []

/-- `gitLog` of package commitmeta: `/repo/ripsrc/commitmeta/commitmeta.go:174-216`. -/
def gitLogMetaArgs (tmp : Str) (o : LogOpts) : List Str :=
  [b!"-c", b!"core.attributesFile=" ++ tmp, b!"-c", b!"diff.renameLimit=10000", b!"log", b!"-c", b!"--raw", b!"--reverse",
   b!"--numstat",
   b!"--pretty=format:!SHA: %H%n!Parents: %P%n!Committer: %ce%n!CName: %cn%n!Author: %ae%n!AName: %an%n!Date: %aI%n!Message: %s%n"] ++
  if o.commitFromIncl ≠ [] then
    (if o.allBranches then o.wantedBranchRefs else []) ++
      [o.commitFromIncl ++ (if o.commitFromMakeNonIncl then b!"..HEAD" else b!"^..HEAD")]
  else if o.allBranches then [b!"--all"] else []

/-- `gitLogParents`: `/repo/ripsrc/parentsgraph/parents.go:86-101`. -/
def gitLogParentsArgs (allBranches : Bool) : List Str :=
  [b!"log", b!"-m", b!"--reverse", b!"--no-abbrev-commit", b!"--pretty=format:%H@%P"] ++
  if allBranches then [b!"--all"] else []

/-- The options `CodeByCommit` gives to `process.New`: `/repo/ripsrc/code.go:107-137,166-180`. The code that would fill
`wantedBranchRefs` is commented out, so it is always empty. -/
def processLogOpts (u : RevOpts) : LogOpts :=
  { commitFromIncl := u.commitFromIncl, commitFromMakeNonIncl := u.commitFromMakeNonIncl, allBranches := u.allBranches,
    wantedBranchRefs := [] }

/-- The options `getCommitInfo` gives to `commitmeta.New`: `/repo/ripsrc/commit_info.go:9-22`, called with the same empty
`wantedBranchRefs`. -/
def metaLogOpts (u : RevOpts) : LogOpts :=
  { commitFromIncl := u.commitFromIncl, commitFromMakeNonIncl := u.commitFromMakeNonIncl, allBranches := u.allBranches,
    wantedBranchRefs := [] }

/-- The commands of one call of `CodeByCommit`: the log with the patches. -/
def patchCommand (tmp : Str) (u : RevOpts) : List Str := gitLogPatchesArgs tmp (processLogOpts u)
/-- The log with the metadata. -/
def metaCommand (tmp : Str) (u : RevOpts) : List Str := gitLogMetaArgs tmp (metaLogOpts u)
/-- The log with the parents: `buildCommitGraph`, `/repo/ripsrc/ripsrc.go:92-104`. -/
def graphCommand (u : RevOpts) : List Str := gitLogParentsArgs u.allBranches

end Ripsrc
