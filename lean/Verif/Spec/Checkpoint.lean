import Verif.Model.Checkpoint
import Verif.Spec.Run
/-!
# Specification: what a checkpoint has to preserve
-/
namespace Ripsrc.Spec

/-- The blame behind a pointer. -/
def viewBlame (mem : Mem) (b : Nat) : Blame where
  commit := (mem.blame b).commit
  lines := (mem.blame b).lines.map mem.line
  isBinary := (mem.blame b).isBinary

/-- The repository without pointers. -/
def viewRepo (mem : Mem) (P : PRepo) : Repo := P.map (fun e => (e.1, e.2.map (fun f => (f.1, viewBlame mem f.2))))

/-- Pointers to the blames of a repository, one per commit and file. -/
def repoBlames (P : PRepo) : List Nat := P.flatMap (fun e => e.2.map (·.2))

/-- Pointers to the lines of these blames. -/
def repoLines (mem : Mem) (P : PRepo) : List Nat := (repoBlames P).flatMap (fun b => (mem.blame b).lines)

/-- Go maps: no key twice. -/
def PRepo.WF (P : PRepo) : Prop := GoMap.WF P ∧ ∀ c fs, GoMap.get P c = some fs → GoMap.WF fs

/-- The orders in which the writer visits maps are permutations of their keys. -/
def WrOrder.Ok (ord : WrOrder) : Prop := (∀ l, (ord.commits l).Perm l) ∧ ∀ c l, (ord.files c l).Perm l

/-- No two different line contents of the repository have the same hash. -/
def NoCollision (hash : Str → UInt64) (mem : Mem) (P : PRepo) : Prop :=
  ∀ l ∈ repoLines mem P, ∀ l' ∈ repoLines mem P, hash (mem.line l).line = hash (mem.line l').line → (mem.line l).line = (mem.line l').line

/-- Sizes within what the format can represent: lengths below 2^32, and less than 2^64 - 1 blames and lines. -/
structure RepoFits (mem : Mem) (P : PRepo) : Prop where
  commits : ∀ c fs, GoMap.get P c = some fs → c.length < 2 ^ 32 ∧ ∀ f ∈ GoMap.keys fs, f.length < 2 ^ 32
  blames : ∀ b ∈ repoBlames P, (mem.blame b).commit.length < 2 ^ 32 ∧ (mem.blame b).lines.length < 2 ^ 32
  lines : ∀ l ∈ repoLines mem P, (mem.line l).commit.length < 2 ^ 32 ∧ (mem.line l).line.length < 2 ^ 32
  blameCount : (repoBlames P).length < 2 ^ 64 - 1
  lineCount : (repoLines mem P).length < 2 ^ 64 - 1

/-- `R'` has the same commits as `R` but for those without files, and for each of them the same paths with the same blames (commit,
binary flag, lines with their content and commit). -/
structure SameButEmpty (R R' : Repo) : Prop where
  commits : ∀ c, (∃ fs', GoMap.get R' c = some fs') ↔ ∃ fs, GoMap.get R c = some fs ∧ fs ≠ []
  files : ∀ c fs fs', GoMap.get R c = some fs → GoMap.get R' c = some fs' → ∀ f, GoMap.get fs' f = GoMap.get fs f

end Ripsrc.Spec
