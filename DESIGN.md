# Formal model of pinpt/ripsrc in Lean 4

## Layout

| directory | contents |
|---|---|
| `lean/Verif/Go` | the few pieces of Go's standard library that are needed: bytes, `strings.Split/Cut/…`, maps, decimal numbers, sorting |
| `lean/Verif/Model` | the code of /repo, function by function; every definition cites the file and lines it models and states its simplifications |
| `lean/Verif/Spec` | what the theorems talk about: edit scripts, commit histories, the texts git prints, reachability, … Written without the model's helpers |
| `lean/Verif/Lib` | lemmas |
| `lean/Verif/Props` | the theorems `Cnn_…`, with a concrete example that meets the hypotheses beside each |
| `seeded/LOG.jsonl` | mutation tests of the theorems, one line per edited model |
| `AXIOMS.md` | axioms of each theorem of the manifest (generated from `#print axioms`) |

`properties.jsonl`, `MANIFEST.json`, `AXIOMS.md` and `seeded/LOG.jsonl` are written by the scripts in `tools/`.

## Conventions of the model

* Go strings and byte slices: `Str = List UInt8` (bytes, no decoding).
* Go maps: association lists (`Verif/Go/Map.lean`). Where Go iterates over a map, the model takes the iteration order as an *argument*
  (a permutation oracle) and the theorems quantify over every order. The same for `sort.Slice`, which is not stable: any sorted permutation.
* `error` results and `panic`s: `Except Fault`, with `Fault.error` and `Fault.panic` (index, slice and nil faults are panics).
* Recursion over the commit graph: a fuel argument, larger than the number of hashes in the graph; theorems prove that it never runs out.
* `bufio.Scanner`: `scan max s`: splits at `\n`, drops one trailing `\r`, stops at a line of `max` bytes or more.
* Goroutines: `Model/Conc.lean`, a small-step semantics of goroutines, unbuffered channels, `close`, `range`, `WaitGroup` and panics with arbitrary
  interleaving. `Model/ExecPiped.lean` has its own step relation because of `io.Pipe` and the process of git.
* Memory: values, except where aliasing is the question: `Model/Heap.lean` (C54) has buffers, slices with capacity and pointers,
  `Model/Checkpoint.lean` has the addresses by which the writer identifies blames and lines.
* Files: sequences of atomic operations (`CheckpointFS`, `GitCache`), with a crash possible between any two.

## Trusted base

* Lean 4.33.0's kernel. Axioms: at most `propext`, `Classical.choice`, `Quot.sound`; per theorem in `AXIOMS.md`. No axiom is added, nothing depends
  on compiled code.
* That the hand-written model says the same as /repo. No tool connects the two; each definition cites the lines so that a reader can compare.
* That the specifications say what the English says, and that git, Go's library and msgp behave as the specifications say:
  * git's output formats (`Spec/GitLog`, `Spec/Patch`, `Spec/CommitLog`, `Spec/GitBlame`, `Spec/Combined`, `Spec/GitText`, `Spec/GitRepo`) are read off git's documentation and the
    fixtures in /repo's tests; git's revision semantics (`Spec/Revs`) off `gitrevisions(7)` and `git-log(1)`;
  * `bufio.Scanner`, `io.Pipe`, `exec.Cmd`, channels and `WaitGroup` from their documentation (C50, C22, C62);
  * `time.Parse` from the source of package `time`, with the differences between its versions as parameters (C77);
  * `github.com/tinylib/msgp` and gzip are not in /repo: the primitives are modelled after the MessagePack format, gzip as a pair of functions that
    give back what was flushed (C31, C36, C37).

## What is modelled and what is not

Modelled line by line:

| /repo/… | model |
|---|---|
| ripsrc/history3/incblame/{apply,apply_merge2,parse,parse_utils}.go | `Incblame`, `Heap`, `Debug` |
| ripsrc/history3/process/parser/parser.go | `GitLog`, `Pipeline` |
| ripsrc/history3/process/process.go | `Process`, `Timing`, `Pipeline`, `Revs`, `GetAll` |
| ripsrc/history3/process/graph/graph.go | `Lcp` |
| ripsrc/history3/process/repo/{repo,writer,reader,msgp}.go | `Process`, `Checkpoint`, `CheckpointFS` |
| ripsrc/history3/process/repo/disk/{disk,disk_gen}.go | `Msgp` |
| ripsrc/history3/process/gitblamecommit/gitblamecommit.go | `BlameCommit` |
| ripsrc/gitblame2 | `GitBlame` |
| ripsrc/parentsgraph | `Graph`, `ExecPiped` |
| ripsrc/branches2 | `Branches`, `Pool` |
| ripsrc/branchmeta | `BranchMeta` |
| ripsrc/commitmeta/commitmeta.go | `CommitMeta`, `Revs`, `ExecPiped`, `Time` |
| ripsrc/gittime | `Time` |
| ripsrc/{code,code_info,branches,commit_info,ripsrc}.go | `CodeInfo`, `Pipeline`, `Pool`, `Ripsrc` |
| ripsrc/fileinfo | `FileInfo` |
| ripsrc/gitexec/{gitexec,prepare}.go | `GitCache`, `ExecPiped` |
| cmd/validate.go | `Validate` |
| genignore.go, custom_patterns.txt | `GenIgnore`, `Regexp` |
| ripsrc/pkg/logger, ripsrc/pkg/random | `Logger`, `Random` |
| ripsrc/pkg/gitrepos, ripsrc/cmd/{cmdcode,cmdbranches,cmdutils} | `IterDir`, `Cli` |

Not modelled, or only as a parameter over which the theorems quantify:

* git itself; enry, scc (`processor.CountStats`), the licence database, SHA-256, xxhash: arbitrary functions (`time.Parse` too, except in C77, where it is modelled) (a licence's confidence is a
  natural number: it is only compared). The package
  `regexp` *is* modelled for the syntax that the code uses (`Model/Regexp.lean`), on bytes instead of code points. The exclusion list and its patterns are copied as texts and
  compared with /repo by `tools/check_texts.py`. `parseEmail` with its two expressions, `spaceSplitter`, `whitespaceSplitter` and `findFiles` of genignore.go have no caller.
* `strconv.Atoi` accepts an optional sign and digits whose number fits in 64 bits (`atoi_iff`, `Go/NumSpec.lean`); strings are ordered at the first byte where they differ (`strLe_iff`, `Go/SortSpec.lean`).
* `strings.TrimSpace` removes the 25 Unicode white-space code points in their UTF-8 form (`Go/Space.lean`). Durations are unbounded integers, `int` is unbounded.
* Loss of power: the code never calls `fsync`; C90 treats it with the assumption that each file is left with a beginning of its contents.
* Deferred calls while a goroutine panics. In C50/C22 the other goroutines may go on for any number of steps after a panic, so statements about reachable states cover it.
* `CodeInfoTimings`; the calls of the logger (the logger itself is C71); colours, elapsed times, profiling, memory logs and tables of the commands; 
  `lastErr` of the pool (never set: `processBranch` panics or returns nil).
* A failing `git log` is a panic of the caller in C58; C62 models the goroutine in which it really happens.
* The directory tree does not change during a search (C49, C60).
* The test helpers (`pkg/testutil`, `*/tests`, `e2etests`), cmd/root.go (command line definitions), code that is commented out (`Blame2`, `Timing.Stats`).

## Plan per property

| id | model | proof |
|----|-------|-------|
| C01, C02 | `Apply` line by line | induction over hunks and over the edit script; spec = edit scripts (`Spec/Edit`) |
| C03 | same | uniqueness of sorted permutation with distinct keys |
| C04 | same | inversion of a successful run: success implies each check passed |
| C05, C06 | `ApplyMerge` | pointwise reasoning over candidate lists |
| C07, C08, C10 | `Parse`, `parseContext`, `parseDiffDecl` | parse∘render = id by induction over rendered lines; `C07_combined`: combined diffs lose their path |
| C09 | same | one hunk is applied where the first number of its header says (`apply_single`); family of counter-examples for every place |
| C11 | state machine of the log parser | parse∘render = id, induction over commits, diffs, lines; the two line shapes that break it |
| C12, C13 | parentsp, childrenFromParents | render/parse; counting lemma, invariance under permutation |
| C14–C21, C23 | depth-first searches of branches2 | reachability characterisation as an invariant of the search; counter-examples where the documentation is wrong (C18, C20) |
| C22 | goroutines of `Branches` | invariant over every step of every schedule; measure for termination; also the run that fails before the workers start |
| C24–C28, C30 | `processCommit`, `processRegularCommit`, `processMergeCommit`, trim, unload | refinement to an ideal history, induction over the log |
| C29 | unloader | invariant |
| C31, C32 | writer and reader with pointers | simulation between pointer tables and heap; counter-examples for empty commits and collisions |
| C33, C34, C55, C56 | `Run` | composition of C31 with the run relation; error paths; for what is retained (C33) an invariant of the unloader: before a recent commit in its list there are only parents of recent commits |
| C35 | sequence of file operations, crash | every prefix, every payload, every number of runs |
| C36, C37 | byte-level MessagePack encoder and decoder of disk_gen.go | round trip; analysis of prefixes |
| C38–C40 | commitmeta parser | parse∘render |
| C41 | parse_output of git blame | parse∘render |
| C42–C44 | code_info | structural, scc an arbitrary interactive program |
| C45, C46 | fileinfo with oracle classifiers | decision logic, cache invariant |
| C47 | branchmeta.Get | render/parse, sortedness |
| C48 | Timing | top-k of a sorted list |
| C49 | IterDir on an abstract directory tree | induction on the tree |
| C50 | goroutines of `CodeSlice` | invariant over every step of every schedule; measure |
| C51 | LastCommonParent | invariant of the breadth-first search |
| C52 | ExecWithCache: inodes, open files, any number of processes | invariant over all interleavings and crashes |
| C53 | Parse | theorems giving the wrong outcome for quoted paths |
| C54 | heap version of Apply and ApplyMerge | heap monotonicity, refinement to the pure version |
| C57 | everything from the three texts of git to the records of `CodeSlice` | composition of C11, C38, C12, C24–C27, C42, C50 |
| C58 | everything from the texts of git to the records of `BranchesSlice` | composition of C12, C14–C21, C47, C22 |
| C59 | `Ripsrc` object between calls | case analysis on the memoised graph |
| C60 | the two commands | induction over the repositories found |
| C61 | arguments of the three `git log` commands | semantics of revisions as sets of reachable commits |
| C62 | `ExecPiped`, pipe, scanner, reader | invariant over every step; measure; the crash when a reader stops early |
| C63 | gitblamecommit.go | render/parse |
| C64 | cmd/validate.go | induction over lines and results; composition with C25, C26, C41 |
| C65 | `Run`, `processRegularCommit`, `processMergeCommit`, `GetCommitMust`, `GetFileMust` | invariant of the loop: until the failing commit, the stored state lacks the parent (or the file of the parent); for a merge, the collected diffs have the diff under its path, and the look for binary parents needs the old file |
| C66 | `DecodeMsg` of the four record types, msgp's readers and `Skip` | each reader is exact for a relation between values and bytes; `Skip` by induction on the input with a count of pending objects |
| C67 | `MarshalMsg`, `UnmarshalMsg`, `Msgsize`, `Data` | the encoders produce members of the relations of C66; induction over the lists |
| C68 | `ignorePatterns`, `fileinfo.GetInfo` | parser and backtracking matcher for the used part of `regexp`; the matcher finds a match exactly if one exists by the relation `Matches`; an expression without repetition is a list of forms (words tied to the ends or not), computed by the kernel |
| C69 | `format`, `parseFile`, `main` of genignore.go | induction over the lines; the parser run on the written text gives the tree of the patterns |
| C70 | the compiled expressions and the functions that use them | as C68; for renames the greedy search of the matcher is the greedy cut of the model |
| C71 | logger: mutex, two writes per line, failing writer; any number of goroutines | invariant: the output is a sequence of chunks, each of one goroutine, plus what the holder of the mutex has written; measure for the length of schedules |
| C72 | RunGetAll: two goroutines, two channels | invariant: list of all reachable states, indexed by the number of steps |
| C73 | random.String | induction over the bytes; counting residues |
| C74 | Eq, String, Debug | equivalences; splitting at newlines and colons; sorted permutations with unique keys are equal |
| C75 | paths stored by a sequence of runs (`RunsOn`), for any logs and graph | an invariant on the stored files of every commit, kept by each step (`run_everywhere`, `runs_everywhere`), instantiated with the three inclusions |
| C76 | the log under settings of the user's git (`Spec/GitConfig.lean`), read by the log and diff parsers and processed | the parser on decorated commit lines, then `parseLog` by induction over entries; equality of runs step by step; merges without attributed parent: `Lib/Unattributed.lean` computes what `processMergeCommit` stores; `Lib/Ran.lean` gives the state at which a merge was processed; `Props/GitSettings.lean`: empty context lines, copies, roots without a diff; copies are a kind of change of a history (`Spec.Kind.copy`), so all theorems on histories are about them too, `Props/Copies.lean` reads off what is reported |
| C77 | `time.Parse` for the two layouts, `gittime.Parse`, composed with the log parser (C38) and the branch listing (C47); the calendar counts days from 1970 (`Spec/Time.lean`) | `absDays` grows by one from day to day (induction), so it is the inverse of counting; digits, names and zones by cases; zones that do not fit leave text behind or are out of range |
| C78 | C33 (incremental results), C50 (goroutines), C42–C43 (records), C31 and C35 (checkpoint on disk, killed writes), composed | the result of each commit is the same map of blames as in the full run, so both records satisfy `CodeOf` for the same blame, and `CodeOf` determines all but the authors of unknown commits; after crashes: `C35_history` leaves the last complete checkpoint or an error |
| C79 | goroutines as in C50, C22, C72 with the accesses of each control state to the shared variables (`Model/Access.lean`); happens-before of the Go memory model over labelled schedules (`Spec/HappensBefore.lean`) | metatheorem: if no reachable state has two conflicting pending accesses then all conflicting accesses are ordered (leave out of a schedule everything that happens after the first access; the rest still executes); fork-join invariants for each child goroutine |
| C80 | goroutines of `CodeByCommit` as in C50, with an arbitrary consumer given by the channels it is ready to receive from after each history (`Model/Stream.lean`) | invariant of the reachable states (what was received, which channels are closed, what is still to come); a measure that every step lowers; progress for consumers that drain |
| C81 | the file operations of `Write` (C35), each of which may fail, and `Read` that opens its five files at different moments (`Model/CheckpointRace.lean`) | the directory at any moment is a part of the old one or the complete new one, and only the end of the write changes that; explicit schedules for the negative claims, for all records |
| C82 | two histories that share a commit and its ancestors; `Process.Run` and `CodeSlice` over each (models of C24, C57) | the ancestors are a history by themselves; a run over a part gives the results of the whole (C30/C32 machinery), so both runs agree with a third one over the ancestors only |
| C83 | file names that git quotes: diff reader, metadata reader, `CodeSlice`, renames in `processRegularCommit` (models of C07, C38, C57, C75) | the histories of the other properties allow quoted names; no path of the metadata is the unquoted spelling; a rename without a patch, or with one that shows an old line, needs a stored old name (invariant of C75 over the log before the commit, C65); for a binary one the result is computed from the parsed diffs (what a regular commit reports, by induction on its diffs); in a merge C65 for merges |
| C84 | the call of `git blame` in `processRegularCommit`, with any answer, also none; `Process.Run`, `CodeSlice` | the loop over the changes fails at the file for which git fails; the run up to the commit is right (C24 machinery for a part of the history); C55 for the call |
| C85 | the system of C62 with the channel `filejobs`, its buffer and its goroutine; programs that make any number of calls | simulation to C62; the number of sends is bounded by the steps of the caller; invariant of the receiver |
| C86 | the goroutines of `Code` and `Branches` without the collector, with an arbitrary receiver (`Model/Outlet.lean`) | every execution is one of the variant with the collector, cut short (simulation, generic in the programs); conditions on the single control states; then C50/C55/C57 and C22 |
| C87 | the programs of C50/C80/C86 with the deferred `close` calls of a panicking caller (`Model/Unwind.lean`) | simulation by the programs without them: equal up to the panic, afterwards other goroutines may only see more closed channels; then C55, C80, C86; schedules in the other direction are built from those of the variant with the collector |
| C88 | one object: the field `commitGraph`, the graphs behind it, and any number of calls at any of the points where they access them (`Model/SharedObject.lean`); the goroutines of each `Branches` call are those of C22 on the graph as it is at that moment | invariant of the object while one call is alone; then the graph never changes again, so each call is a run of C58; for the negative part executions are built step by step |
| C89 | the processor of C23–C31 with a graph that lacks the commit (`Spec/StaleGraph.lean`) | the run up to the commit is a run of the history before it; from there every log entry is processed as that of a root commit, and what each kind of change then does is computed from the parsed change; the checkpoint of that run is fed to C65; for two calls on one object, an invariant of `Model/SharedObject.lean`: once set, field and graph stay |
| C90 | the checkpoint reader of C31, C37 on a directory in which each file is cut (`Spec/PowerLoss.lean`) | a cut file has a beginning of the records (C37), whose names are distinct, so what is read is a part; simulation of the run that continues from the part by the one that continues from the whole; concrete counterexample with a merge |
| C91 | two calls of C58, on two repositories in which equal hashes name equal commits (`Spec/BranchGrowth.lean`) | the searches depend only on the parents of what they reach, and removing a set closed under ancestors removes just its members from the search order; so the fields of a record are functions of the history of the branch and of the part of it that the default branch has; the rest by reasoning about reachability; C18, C19 for the remaining fields |

Every property of `properties.jsonl` is expressed in the model; none is left out as not applicable. Where the documentation or the evident intention
promises something that the code does not do, the theorem states what the code does and a second one proves the negation of the promise.

## What the proofs found

Each of these is a theorem unless marked (reading).

* Hunks without context are applied at the wrong place (C09); combined diffs and quoted paths lose their path (C07, C53); a rename with spaces can be read as another pair (C10); a blank context line stripped of its space panics (C11).
* The "behind" count is too large around merges (C18); `Commits[0]` need not be the first commit (C20); branch ids are not injective in (name, branch points) (C23).
* A commit without files is lost by a checkpoint, after which its child fails; hash collisions of line contents corrupt blames (C32). A truncated checkpoint is read without an error (C37) and one is written when the log parser fails (C56). With an empty log the version is not checked (C34).
* An incremental run loses the authors of older lines (C43). Unloading bounds do not hold across resumed runs (C29).
* Metadata: an over-long line ends the log (C39), which in the running program is a crash of the whole process (C62), as for every reader that stops early. A renamed, quoted path panics in `code_info` (C42). Added symlinks are reported as modified (C38).
* Licence matching is nondeterministic for ties and its file-name regexp is not anchored (C45). Bare repositories are searched (C49).
* `LastCommonParent` need not return a lowest common ancestor and panics in cases that are characterised exactly (C51).
* `ExecWithCache` shares one temporary file between writers, ignores the error of closing gzip, and has an ambiguous key (C52).
* The object remembers a stale or empty graph; later calls crash (C59).
* The commands: `ExitWithErr` does not exit, the column "blanks" shows comments, SHA-256 repositories are taken for empty (C60).
* Start commits: an inclusive start at a root or unknown commit crashes, `AllBranches` is ignored, a start at a merge repeats older commits, a start that was force-pushed away is not processed (C61).
* Dates from the year 10000 on, and zones of 100 hours or more, make a metadata call fail and a branch listing panic (C77).
* The memory log of the commands reads a counter outside its lock (C79).
* A consumer of `CodeByCommit` that stops reading a `Blames` channel makes the call hang for ever; its context is not consulted (C80). The same holds for a consumer of `Code` or `Branches` that stops (C86). The git subprocesses of `Code` run with `context.Background()` (process.go:838, parents.go:99, commitmeta.go:215), so cancelling the context of the caller does not end them.
* When `Run` panics, a receiver of `Code` or `CodeByCommit` may find `res` closed, as after a complete run, before the program dies; records of commits that were processed may be missing (C87).
* Two first calls on one object at the same time are not protected: the second can crash the program, or return wrong records without an error (C88).
* A commit made after the commit graph was read is processed as if it had no parents: usually a crash, sometimes a checkpoint in which the unchanged files are missing, so that a later run fails (C89).
* The checkpoint is written without `fsync`: after a loss of power an incomplete checkpoint can be accepted, also strictly, even as the empty repository; with merges in the log the next run can then report wrong commits without an error (C90).
* A branch merged by a fast-forward gets the whole history of its head as its commits, and a new `BranchID`; `MergeCommit` can change after the merge (C91).
* Files with names that git quotes (by default every name with a byte outside ASCII) are silently missing from `Code`: the metadata reader keeps the quotes, the diff reader strips them. A rename of such a file, with or without a change, makes the run fail; a binary one that is renamed and changed is reported under its new name with the quotes, unlike in all other results; in a merge every rename of such a file makes the run fail (C83).
* A change of the mode of a binary file makes the program ask `git blame`, and the file is reported as a text file; if git blame fails (for example for a quoted name, which it is asked for in its escaped spelling), the program panics (C84).
* Every metadata call, and so every call of `Code`, leaves one goroutine behind for ever (C85). (reading) Each also leaves an empty temporary file (process.go:800, commitmeta.go:175), and the checkpoint reader leaves files open after an error.
* Two processes on one checkpoint directory: a strict read can return the repository of another commit, or files with the blames of other files, without an error; a writer can report success for a checkpoint that holds the repository of another process (C81).
* The log is read under the user's git settings: many of them make the parser panic, and some (decorations of merges, `log.diffMerges`, `diff.renames=copies` with names with spaces) silently give wrong results (C76).
* A renamed binary file keeps the commit of its parent's blame (C24_blame_commit states what remains true).
* (reading) Deleted files come back into the *stored* state of a merge by its second loop, and renames keep the old path there; the theorems C25–C27 are about what is reported and about files that exist. A merge that deletes `x` and changes a file `@@@del@@@x` confuses the two: the change is lost, the run succeeds and the checkpoint has the old content (`C27_marker_collision`). The documentation of `CommitFromMakeNonIncl` does not match. `prepareGitExec` never sets `gitExecPrepared`. `genignore.go` drops a last line without newline.

## Tests of the theorems against wrong programs

`seeded/LOG.jsonl`: one line per edit of a model definition (wrong boundary, missed case, swapped argument, dropped update) with the theorems that stop proving. Edits that survived
led to a stronger theorem (field `tightened`, and a second entry for the rerun) or are equivalent to the original program (field `note`).
