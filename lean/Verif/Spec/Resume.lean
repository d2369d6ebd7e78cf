import Verif.Spec.Run
import Verif.Lib.Acts
/-!
# Specification: a run that resumes from the checkpoint of earlier runs
-/
namespace Ripsrc.Spec

/-- Circumstances of a resumed run: `N` are the commits in its log, `B` the other commits of its history, all of them processed by
earlier runs (`P`); `R'` is what was read from the checkpoint, in which the parents that are needed are stored. The log may
contain commits that were processed before. -/
structure Resumes (H : History) (G : Str → Str → List Str) (env0 env : Env) (m : GoMap Str (List Str)) (order : List (Str × List Str))
    (P B N : History) (R' : Repo) : Prop where
  before : ∀ c ∈ B, c ∈ P
  new : ∀ c ∈ N, c ∈ H
  same : SameEnv env0 env
  setting : Setting env (B ++ N) G m order
  nonempty : N ≠ []
  needed : ∀ c ∈ B, HasChildIn N c.hash → ∃ fs, GoMap.get R' c.hash = some fs

/-- `R` is written to the checkpoint by a sequence of runs that have processed the commits `P` of the history `H`, a first one from
scratch and others that resume from the checkpoint of the one before. The environments may differ in the order in which maps are
iterated. -/
inductive Chain (H : History) (G : Str → Str → List Str) (env0 : Env) (entries : HCommit → List LogEntry) : History → Repo → Prop
  | first {env m order P read R last} : (∀ c ∈ P, c ∈ H) → SameEnv env0 env → Setting env P G m order → P ≠ [] →
      (run env {} read (Graph.newFromMap m order) ((P.flatMap entries).map LogEntry.meaning)).written = some (R, last) →
      Chain H G env0 entries P R
  | next {env m order opts read P B N R R' R2 last} : Chain H G env0 entries P R → Restored R R' → Resumes H G env0 env m order P B N R' →
      initCheckpoints opts read = .ok R' →
      (run env opts read (Graph.newFromMap m order) ((N.flatMap entries).map LogEntry.meaning)).written = some (R2, last) →
      Chain H G env0 entries (P ++ N) R2

end Ripsrc.Spec
