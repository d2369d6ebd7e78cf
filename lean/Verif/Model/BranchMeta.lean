import Verif.Go.Cut
import Verif.Go.Sort
import Verif.Go.Space
/-!
# Listing the branches

Models `/repo/ripsrc/branchmeta/branchmeta.go` and `/repo/ripsrc/branchmeta/default.go`. The output of the git commands is a
parameter; the date parser (`/repo/ripsrc/gittime/gittime.go:6-9`, `time.Parse`) is an arbitrary partial function into a type
of times.
-/
namespace Ripsrc

/-- `BranchWithCommitTime`: `/repo/ripsrc/branchmeta/branchmeta.go:24-28`. -/
structure BranchTime (τ : Type) where
  name : Str
  commit : Str
  time : τ
deriving DecidableEq, Repr

/-- `Opts`: `/repo/ripsrc/branchmeta/branchmeta.go:17-22`. -/
structure BranchOpts where
  useOrigin : Bool
  includeDefault : Bool
deriving DecidableEq, Repr

/-- `getDefaultBranch` applied to the output of git: `/repo/ripsrc/branchmeta/branchmeta.go:95-110`. -/
def getDefaultBranch (headOut : Str) : Go Str :=
  let res := trimSpace headOut
  if res = [] then .error (.error "could not get the default branch name") else .ok res

/-- One iteration of the loop in `Get`: `/repo/ripsrc/branchmeta/branchmeta.go:51-85`; `none` is `continue`. -/
def branchLine {τ : Type} (parseDate : Str → Option τ) (opts : BranchOpts) (defaultBranch : Str) (line0 : Str) :
    Go (Option (BranchTime τ)) :=
  let line := trimSpace line0
  match line with
  | [] => .ok none
  | c :: _ =>
    if c = 40 then .ok none
    else match cut b!"@@@" line with
      | none => .error (.panic "unexpected format")
      | some (commit, rest) => match cut b!"@@@" rest with
        | none => .error (.panic "unexpected format")
        | some (name, date) => match parseDate date with
          | none => .error (.panic "invalid date format")
          | some t =>
            if opts.useOrigin ∧ startsWith name b!"origin/" = false then
              .error (.panic "branch name does not have origin/ prefix")
            else
              let name := if opts.useOrigin then name.drop 7 else name
              if name = b!"HEAD" then .ok none
              else if opts.includeDefault = false ∧ name = defaultBranch then .ok none
              else .ok (some { name := name, commit := commit, time := t })

/-- The loop over the lines. -/
def branchLoop {τ : Type} (parseDate : Str → Option τ) (opts : BranchOpts) (defaultBranch : Str) :
    List Str → Go (List (BranchTime τ))
  | [] => .ok []
  | l :: ls => do
    let b ← branchLine parseDate opts defaultBranch l
    let rest ← branchLoop parseDate opts defaultBranch ls
    .ok (b.toList ++ rest)

/-- `Get`: `/repo/ripsrc/branchmeta/branchmeta.go:30-93`, up to the final `sort.Slice`. -/
def branchGetUnsorted {τ : Type} (parseDate : Str → Option τ) (opts : BranchOpts) (headOut data : Str) :
    Go (List (BranchTime τ)) := do
  let d ← getDefaultBranch headOut
  branchLoop parseDate opts d (splitByte 10 data)

/-- The possible results of `Get`: the list is sorted by name with `sort.Slice` (not stable), so every sorted permutation is
possible. -/
def BranchGet {τ : Type} (parseDate : Str → Option τ) (opts : BranchOpts) (headOut data : Str)
    (res : Go (List (BranchTime τ))) : Prop :=
  match branchGetUnsorted parseDate opts headOut data with
  | .error e => res = .error e
  | .ok l => ∃ m, res = .ok m ∧ IsSort (fun a b => strLe a.name b.name) l m

/-- `GetDefault`: `/repo/ripsrc/branchmeta/default.go:14-51`, on the outputs of `git rev-parse --abbrev-ref HEAD` and
`git rev-parse HEAD`. -/
def branchGetDefault (nameOut commitOut : Str) : Go (Str × Str) :=
  let name := trimSpace nameOut
  if name = b!"HEAD" then .error (.error "could not retrieve the name of the default branch")
  else
    let commit := trimSpace commitOut
    if commit.length ≠ 40 then .error (.error "unexpected output from git rev-parse HEAD")
    else .ok (name, commit)

end Ripsrc
