import Verif.Model.CheckpointFS
/-!
# Specification: writing checkpoints, with crashes
-/
namespace Ripsrc.Spec

/-- A complete checkpoint: four data files and the version. -/
def checkpointDir (gz : Gzip) (r : Records) (last : Str) : Dir :=
  [(b!"repo", gz.compress r.streams.rows), (b!"blames", gz.compress r.streams.blames), (b!"lines", gz.compress r.streams.lines),
   (b!"line-data", gz.compress r.streams.lineData), (b!"checkpoint-version", last)]

/-- `t` is a sequence of file operations that writing the records `r` for the commit `last` may perform in state `s`. -/
def WriteTrace (gz : Gzip) (r : Records) (last : Str) (s : FS) (t : List FSOp) : Prop :=
  ∃ ch rm1 rm2, Chunks.Ok ch gz r last ∧ rm1.Perm (GoMap.keys (s.tmp.getD [])) ∧ rm2.Perm (GoMap.keys (s.cp.getD [])) ∧ t = writeOps s ch rm1 rm2

/-- States after any number of attempts to write a checkpoint, each of them either completed or killed at some point; `d` is the last
checkpoint whose writing was completed. -/
inductive Attempts (gz : Gzip) : Option (Records × Str) → FS → Prop
  | start : Attempts gz none {}
  | killed {d s r last t t1} : Attempts gz d s → WriteTrace gz r last s t → t1 <+: t → t1 ≠ t → Attempts gz d (s.exec t1)
  | completed {d s r last t} : Attempts gz d s → WriteTrace gz r last s t → Attempts gz (some (r, last)) (s.exec t)

/-- The function returned an error (it did not panic, and it returned no repository). -/
def ReturnsError {α : Type} (x : Go α) : Prop := ∃ e, x = .error (.error e)

end Ripsrc.Spec
