import Verif.Go.Sort
/-!
# `Timing` of ripsrc/history3/process/process.go
-/
namespace Ripsrc

/-- `CommitWithDuration` (`/repo/ripsrc/history3/process/process.go:287-290`); `time.Duration` is an integer number of nanoseconds (unbounded here). -/
structure CommitDur where
  commit : Str
  dur : Int
deriving DecidableEq, Repr

/-- `maxSlowestCommits` (`/repo/ripsrc/history3/process/process.go:292`). -/
def maxSlowestCommits : Nat := 10

/-- The order of the `sort.Slice` (`/repo/ripsrc/history3/process/process.go:296-300`): `a` may come before `b` unless `b.Duration > a.Duration`. -/
def durGe (a b : CommitDur) : Bool := !decide (b.dur > a.dur)

/-- `Timing.UpdateSlowestCommitsWith` (`/repo/ripsrc/history3/process/process.go:294-304`). `sort.Slice` is not stable: the sorting function is a parameter. -/
def updateSlowest (srt : List CommitDur → List CommitDur) (l : List CommitDur) (x : CommitDur) : List CommitDur :=
  let l := srt (l ++ [x])
  if l.length > maxSlowestCommits then l.take maxSlowestCommits else l

/-- `Timing.SlowestCommits` after the calls for the commits `xs`, on a new `Timing`. Each call may sort differently: `srts n` is the sort of
call number `n`. -/
def slowestAfter (srts : Nat → List CommitDur → List CommitDur) : List CommitDur → List CommitDur
  | xs => (xs.foldl (fun (p : Nat × List CommitDur) x => (p.1 + 1, updateSlowest (srts p.1) p.2 x)) (0, [])).2

/-- `Timing.SlowestCommitsDur` (`/repo/ripsrc/history3/process/process.go:306-311`). -/
def slowestDur (l : List CommitDur) : Int := l.foldl (fun res c => res + c.dur) 0

end Ripsrc
