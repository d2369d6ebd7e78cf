import Verif.Model.Process
import Verif.Model.BranchMeta
/-!
# The command `ripsrc validate_inc_blame`

Models `/repo/cmd/validate.go`: for every file that a run reports, the incremental blame is compared with `git blame`. The map `manuallyChecked` is empty (validate.go:34). The goroutine that receives the results is
modelled by the sequence of what it prints.
-/
namespace Ripsrc

/-- What is printed; the two blames that are printed in full after "Failed checks." are left out. -/
inductive ValMsg where
  | running (repo : Str)
  | checkingCommit (c : Str)
  | checkingFile (c p : Str)
  | lenMismatch
  | failed
  | invalidCommit (i : Nat)
  | invalidContent (i : Nat)
  | success (repo : Str)
deriving DecidableEq, Repr

/-- `mostlySameContent` : `/repo/cmd/validate.go:92-100`. -/
def mostlySame (c1 c2 : Str) : Bool :=
  if c1 = c2 then
    if c1.length ≤ 10 then true
    else if c1 = b!"return" then true
    else false
  else false

/-- The loop over the lines: `/repo/cmd/validate.go:84-113`, from index `i` on. The two lists have the same length (checked before). -/
def validateLines : Nat → List Line → List (Str × Str) → List ValMsg
  | i, l1 :: ls1, l2 :: ls2 =>
    let c1 := trimSpace l1.line
    let c2 := trimSpace l2.2
    if l1.commit ≠ l2.1 ∧ mostlySame c1 c2 = false then [.invalidCommit i]
    else if c1 ≠ c2 then [.invalidContent i]
    else validateLines (i + 1) ls1 ls2
  | _, _, _ => []

/-- After `git blame`: `/repo/cmd/validate.go:70-114`. -/
def validateBlames (bl1 : Blame) (bl2 : List (Str × Str)) : List ValMsg :=
  if bl1.lines.length ≠ bl2.length then [.lenMismatch, .failed]
  else validateLines 0 bl1.lines bl2

/-- One file: `/repo/cmd/validate.go:55-114`, with `gitblame2.Run` (`/repo/ripsrc/gitblame2/gitblame.go:31-52`). -/
def validateFile (blameOut : Str → Str → Option Str) (c p : Str) (bl1 : Blame) : List ValMsg × Option Fault :=
  if bl1.lines.length = 0 then ([.checkingFile c p], none)
  else match blameOut c p with
    | none => ([.checkingFile c p], some (.panic "git blame failed"))
    | some out => match blameResult out with
      | .error e => ([.checkingFile c p], some e)
      | .ok bl2 => (.checkingFile c p :: validateBlames bl1 bl2, none)

/-- The loop over the files of a result, in the order `ps`: `/repo/cmd/validate.go:55-115`. -/
def validateFiles (blameOut : Str → Str → Option Str) (c : Str) (files : Files) : List Str → List ValMsg × Option Fault
  | [] => ([], none)
  | p :: ps =>
    match GoMap.get files p with
    | none => validateFiles blameOut c files ps
    | some b => match validateFile blameOut c p b with
      | (ms, some e) => (ms, some e)
      | (ms, none) => let r := validateFiles blameOut c files ps; (ms ++ r.1, r.2)

/-- The loop over the results: `/repo/cmd/validate.go:51-117`; `ord i` is the order in which the map of the `i`-th result is iterated. -/
def validateResults (blameOut : Str → Str → Option Str) (ord : Nat → List Str → List Str) : Nat → List Result → List ValMsg × Option Fault
  | _, [] => ([], none)
  | i, r :: rs =>
    match validateFiles blameOut r.commit r.files (ord i (GoMap.keys r.files)) with
    | (ms, some e) => (.checkingCommit r.commit :: ms, some e)
    | (ms, none) => let q := validateResults blameOut ord (i + 1) rs; (.checkingCommit r.commit :: (ms ++ q.1), q.2)

/-- One repository: `/repo/cmd/validate.go:39-125`. If the run fails the program panics; by then the goroutine may have printed less than is listed here. -/
def validateRepo (blameOut : Str → Str → Option Str) (ord : Nat → List Str → List Str) (repo : Str) (out : RunOut) : List ValMsg × Option Fault :=
  match validateResults blameOut ord 0 out.sent with
  | (ms, some e) => (.running repo :: ms, some e)
  | (ms, none) => match out.fault with
    | some _ => (.running repo :: ms, some (.panic "pr.Run"))
    | none => (.running repo :: ms ++ [.success repo], none)

end Ripsrc
