{"id": "C01", "title": "Applying a patch reproduces the new file", "statement": "If a file's blame holds the lines of the old version and the diff handed to incblame.Apply is a unified diff (hunks cut the way git cuts them with its default context) of an edit from old to new, then Apply succeeds and the lines of the returned blame are, in order, exactly the lines of the new version (added lines lose one trailing carriage return, which is what the code does on purpose: line endings are normalised).", "quantifier": "every old file, every new file, every edit script between them, every way of cutting it into git-style hunks with >=2 lines of leading context", "why_tests_cant": "tests apply a handful of literal patches; index arithmetic between hunks can be wrong only for particular gap/offset combinations", "anchors": ["ripsrc/history3/incblame/apply.go:Apply"]}
{"id": "C02", "title": "Blame attribution of a patch", "statement": "After Apply, every line that the patch keeps carries the same commit it carried before, every line the patch adds carries the commit passed in, deleted lines vanish, and the blame's own Commit is the commit passed in.", "quantifier": "every old blame (any attribution), every edit script, every git-style hunk cut", "why_tests_cant": "the attribution of each line depends on its position relative to all hunks; a test samples a few positions", "anchors": ["ripsrc/history3/incblame/apply.go:Apply"]}
{"id": "C03", "title": "Hunk order does not matter", "statement": "Apply returns the same result for every ordering of the hunks of one diff as long as their old-file offsets are distinct.", "quantifier": "every blame, diff and permutation of its hunks", "why_tests_cant": "n! orders; and Go's sort.Slice is not stable so tests see one outcome only", "anchors": ["ripsrc/history3/incblame/apply.go:Apply"]}
{"id": "C04", "title": "Apply rejects instead of guessing", "statement": "Apply never returns a result for a binary blame, a binary diff, a patch line with an unknown prefix, an empty patch line, a backslash line other than the no-newline marker, a hunk without location, or a hunk that reaches outside the old file (context lines/offsets beyond its end, or overlapping the previous hunk): it panics.", "quantifier": "every blame and diff having one of the listed defects anywhere", "why_tests_cant": "defects may be in any hunk at any line", "anchors": ["ripsrc/history3/incblame/apply.go:Apply"]}
{"id": "C05", "title": "Merge blame", "statement": "For a merge in which every parent's diff leads to the same new version, ApplyMerge succeeds, its lines are the lines of that version, and each line carries the attribution it has in the first parent (in parent order) whose version keeps it, or the merge commit if no parent has it.", "quantifier": "any number of parents >=1, any old versions, any attributions not naming the merge commit, any edit scripts to one common new version", "why_tests_cant": "number of parents x positions x overlap patterns is unbounded", "anchors": ["ripsrc/history3/incblame/apply_merge2.go:ApplyMerge"]}
{"id": "C06", "title": "Merge blame rejects inconsistent input", "statement": "ApplyMerge panics when the patched parents do not all have the same number of lines, when a parent or a diff is binary, or when there are no parents; it never returns a blame in those cases.", "quantifier": "every list of parents/diffs with such a defect", "why_tests_cant": "a defect may be at any parent index", "anchors": ["ripsrc/history3/incblame/apply_merge2.go:ApplyMerge"]}
{"id": "C07", "title": "File-diff parser inverts git's file-diff format", "statement": "For every textual file change rendered the way `git log -p` renders it (declaration line, extended header lines, ---/+++ lines, hunks), Parse returns the previous path, the new path (empty when created/deleted respectively), the binary flag and the hunks with their old/new locations and their exact lines (modulo one trailing CR per line).", "quantifier": "every path without newline/quote/space complications as delimited in the statement, every kind of change (add, delete, modify, rename, binary, mode change), every list of hunks", "why_tests_cant": "contents of patch lines can imitate every header keyword; unit tests use a dozen literals", "anchors": ["ripsrc/history3/incblame/parse.go:Parse", "ripsrc/history3/incblame/parse_utils.go:parseDiffDecl", "ripsrc/history3/incblame/parse_utils.go:parseContext"]}
{"id": "C08", "title": "Hunk headers", "statement": "parseContext of `@@ -a,b +c,d @@ <any heading>` (and of combined `@@@ ... @@@` headers) returns exactly the locations (-,a,b),(+,c,d); where git omits `,1` the count is returned as 1-line location whose offset is reported as 0.", "quantifier": "all natural numbers a,b,c,d and any section heading, including headings containing @ signs", "why_tests_cant": "unbounded numbers and arbitrary heading bytes", "anchors": ["ripsrc/history3/incblame/parse_utils.go:parseContext"]}
{"id": "C09", "title": "Diffs with less than two lines of context are mis-applied", "statement": "The property C01 without the >=2 context hypothesis is false of the code: a hunk whose header omits its old line count (`@@ -n +m @@`, n>1) or has an old count of 0 at n>0 is applied at the wrong place: the first always to the first line of the file, the second one line too early; with git's default 3 lines of context this cannot occur.", "quantifier": "every file, every single hunk of these forms and every place; positive statement for all cuts with context >= 2", "why_tests_cant": "tests never set diff.context", "anchors": ["ripsrc/history3/incblame/parse_utils.go:parseContext", "ripsrc/history3/incblame/apply.go:Apply"]}
{"id": "C10", "title": "Declaration line of a file diff", "statement": "parseDiffDecl returns (p,q) on `diff --git a/p b/q` for all space-free p,q (also when both are double-quoted), returns (p,p) on `diff --git a/p b/p` for every p whatever spaces it contains, and on a spaced pair returns a pair only when the text is two equal halves around one byte (every other spaced pair is reported as 'rename with spaces'). The pair it returns for such a rename can be wrong (counter-example); Parse repairs it from the rename lines.", "quantifier": "all paths", "why_tests_cant": "ambiguity of the separator depends on the bytes of the path ('a.txt b/b.txt')", "anchors": ["ripsrc/history3/incblame/parse_utils.go:parseDiffDecl"]}
{"id": "C11", "title": "git log parser inverts git log's format", "statement": "For every sequence of commits rendered as `git log -p -m --pretty=short` renders it, the parser emits exactly those commits, in order, with hash, merge-diff source and the exact bytes of each file diff (CRLF normalised), regardless of author lines and message text.", "quantifier": "every list of commits, messages, authors, diffs (in git's line alphabet)", "why_tests_cant": "commit messages and diffs are arbitrary text; separators are ambiguous in principle", "anchors": ["ripsrc/history3/process/parser/parser.go:Parser.Run"]}
{"id": "C12", "title": "Commit graph reader", "statement": "Reading `%H@%P` lines gives a graph that maps each hash to exactly its parents, in order.", "quantifier": "every list of commits with distinct hashes and any number of parents", "why_tests_cant": "unbounded size", "anchors": ["ripsrc/parentsgraph/parentsp/parser.go:Parser.Run"]}
{"id": "C13", "title": "Children are the inverse of parents", "statement": "In a commit graph, c is listed among the children of p exactly as many times as p is listed among the parents of c; every commit has an entry; each list is sorted; and the outcome does not depend on Go's map iteration order.", "quantifier": "every parents map and every iteration order", "why_tests_cant": "iteration order is random, sizes unbounded", "anchors": ["ripsrc/parentsgraph/parents.go:Graph.childrenFromParents"]}
{"id": "C14", "title": "Default branch commits", "statement": "The commits reported for the default branch are exactly the commits reachable from its head, each once, the head last; it panics iff a reachable commit is missing from the graph.", "quantifier": "every commit graph and head", "why_tests_cant": "graph shapes are unbounded", "anchors": ["ripsrc/branches2/process.go:getAllCommits"]}
{"id": "C15", "title": "Commits of an unmerged branch", "statement": "For a branch whose head is not reachable from the default head, the reported commits are exactly the commits reachable from the branch head and not from the default head, each once, the branch head last.", "quantifier": "every commit graph, default head and branch head", "why_tests_cant": "graph shapes are unbounded", "anchors": ["ripsrc/branches2/branch_commits.go:branchCommits", "ripsrc/branches2/branch_commits.go:newReachableFromHead"]}
{"id": "C16", "title": "Commits of a merged branch", "statement": "For a branch whose head is reachable from the default head, the reported commits are the branch head plus exactly those of its ancestors that the default head reaches only through the branch head.", "quantifier": "every acyclic commit graph, default head and branch head reachable from it", "why_tests_cant": "needs domination reasoning over all paths", "anchors": ["ripsrc/branches2/branch_commits.go:branchCommits"]}
{"id": "C17", "title": "Branch points", "statement": "BranchedFromCommits is the sorted, duplicate-free list of exactly those default-branch commits which are a parent of a commit of the branch and from whose parents no other such commit is reachable (the oldest intersections); it does not depend on map iteration order.", "quantifier": "every acyclic commit graph and pair of heads", "why_tests_cant": "graph shapes and iteration orders", "anchors": ["ripsrc/branches2/branch_commits.go:dedupLinearFromHead"]}
{"id": "C18", "title": "Behind count", "statement": "BehindDefaultCount of an unmerged branch with a branch point is exactly the number of default-branch commits that the default head reaches along a path containing no meeting point of the two branches. It is therefore never smaller than the number of default-branch commits not in the branch, and equals that number (what the doc comment promises) if and only if no ancestor of the branch head can be reached around the meeting points, in particular whenever the default history is linear; there are repositories for which it differs. A branch with no branch point reports 0.", "quantifier": "every commit graph", "why_tests_cant": "needs path reasoning; existing tests pass although equality is false", "anchors": ["ripsrc/branches2/behind_branch.go:behindBranch"]}
{"id": "C19", "title": "Merge commit of a merged branch", "statement": "MergeCommit is a child of the branch head reachable from the default head; it is the smallest such hash; it is set for every merged branch except when the branch head is the default head itself, in which case it is empty; it is empty for unmerged branches.", "quantifier": "every graph and heads", "why_tests_cant": "graph shapes", "anchors": ["ripsrc/branches2/merge_commit.go:getMergeCommit", "ripsrc/branches2/process.go:processBranch"]}
{"id": "C20", "title": "Order of branch commits", "statement": "Every commit of a branch other than its head is listed in Commits before at least one of its children on the branch, and if it is listed after one of its children then it has another child on the branch listed after it. So if within the branch every commit has at most one child, each commit comes after all its branch parents and Commits[0]/FirstCommit has no parent on the branch. Without that hypothesis the documented 'Commits[0] is the first commit' is false of the code.", "quantifier": "every acyclic graph, heads and map orders; plus a counter-example to the documented order", "why_tests_cant": "the existing test even pins the wrong order", "anchors": ["ripsrc/branches2/branch_commits.go:branchCommits", "ripsrc/branches2/process.go:processBranch"]}
{"id": "C21", "title": "Branch record consistency", "statement": "For every processed branch: AheadDefaultCount=len(Commits)>=1, FirstCommit=Commits[0], HeadSHA is the last commit, IsMerged iff the head is reachable from the default head, merged implies BehindDefaultCount=0, unmerged implies MergeCommit empty; a pull-request sha not in the graph yields no record and no failure.", "quantifier": "every graph, name, head", "why_tests_cant": "relations between independently computed fields", "anchors": ["ripsrc/branches2/process.go:processBranch"]}
{"id": "C22", "title": "Branch worker pool", "statement": "Whatever the scheduling of the workers, Branches emits one record per branch and per distinct known pull-request sha, no duplicates, none lost, then closes; it cannot deadlock.", "quantifier": "every number of workers >=1, every list of branches, every interleaving", "why_tests_cant": "schedules", "anchors": ["ripsrc/branches2/process.go:Process.Run", "ripsrc/branches2/name_hash.go:Chan"]}
{"id": "C23", "title": "Branch ID", "statement": "BranchID depends only on the name and the first branch point; two branches whose branch points have equal hash length get the same hash input iff they agree on both. (Across 'no branch point' and 'some branch point' the concatenation is ambiguous: counter-example.)", "quantifier": "all names and branch points", "why_tests_cant": "infinite domain", "anchors": ["ripsrc/branches2/process.go:branchID"]}
{"id": "C24", "title": "One result per commit in log order", "statement": "A run over any log emits exactly one result per distinct consecutive commit of the log, in log order, merges (whose parts arrive as several log entries) included, also when the merge is the last entry.", "quantifier": "every log in which the entries of a merge are adjacent", "why_tests_cant": "merge entries are buffered; the flush points are easy to miss for particular successions", "anchors": ["ripsrc/history3/process/process.go:processCommit", "ripsrc/history3/process/process.go:Run"]}
{"id": "C25", "title": "Blame content follows the repository", "statement": "Run over any git history in topological order whose log entries are valid diffs of the trees: after each commit, for every path in that commit's tree the stored blame has exactly the file's lines (or is marked binary), the run neither panics nor errors. Over any log whatever, a blame marked binary has no lines.", "quantifier": "every finite history: any DAG, any number of parents, any trees, edits, renames, copies (diff.renames=copies, names without spaces), deletes, binary files", "why_tests_cant": "histories are unbounded", "anchors": ["ripsrc/history3/process/process.go:processRegularCommit", "ripsrc/history3/process/process.go:processMergeCommit"]}
{"id": "C26", "title": "Blame attribution follows the repository", "statement": "In such a run each line of each stored blame is attributed to the commit given by following the edit scripts back to the commit that added it; in particular to the commit itself or one of its ancestors. Over any log whatever, a line names only commits of the log, of the checkpoint the run started from, or named by git blame.", "quantifier": "every finite history", "why_tests_cant": "histories are unbounded", "anchors": ["ripsrc/history3/process/process.go:processRegularCommit", "ripsrc/history3/process/process.go:processMergeCommit"]}
{"id": "C27", "title": "Files reported for a commit", "statement": "The result of a regular commit lists exactly the paths created, modified, renamed to or deleted by it; the result of a merge lists exactly the deleted paths and the paths which differ from every parent or are binary. (Not so for a merge that deletes a file x and has a file with the name @@@del@@@x: its change is lost without an error.)", "quantifier": "every commit and set of changes", "why_tests_cant": "unbounded", "anchors": ["ripsrc/history3/process/process.go:processRegularCommit", "ripsrc/history3/process/process.go:processMergeCommit"]}
{"id": "C28", "title": "Parents are never unloaded too early", "statement": "During a full run over a topologically ordered log, the stored files of a commit are not dropped before every child of it in the graph has been processed, so the lookups of a parent never fail.", "quantifier": "every graph and topological order", "why_tests_cant": "depends on order and on more than 1000 commits", "anchors": ["ripsrc/history3/process/process.go:trimGraphAfterCommitProcessed", "ripsrc/history3/process/repo/repo.go:Unloader.Unload"]}
{"id": "C29", "title": "Bound on retained commits", "statement": "After any full run the number of retained commits whose children are all processed is at most 1000, and the unloader drops them oldest first.", "quantifier": "every sequence of unload calls", "why_tests_cant": "tests never reach 1000; FIFO discipline over unbounded histories", "anchors": ["ripsrc/history3/process/repo/repo.go:Unloader.Unload"]}
{"id": "C30", "title": "Independence from map iteration order", "statement": "The results and the stored state after processing a commit do not depend on the order in which Go iterates its maps, provided no path is both deleted and re-created against parents of one merge (type change), for which a counter-example shows that the result is order dependent.", "quantifier": "every iteration order", "why_tests_cant": "iteration order is randomised by the runtime", "anchors": ["ripsrc/history3/process/process.go:processMergeCommit", "ripsrc/history3/process/process.go:processRegularCommit"]}
{"id": "C31", "title": "Checkpoint round trip", "statement": "Reading back a written checkpoint gives the same commits, paths, and blames (commit, binary flag, lines with content and commit), for any sharing between blames and lines and any map iteration order, provided no two different line contents have the same 64-bit hash; commits without files are lost.", "quantifier": "every repo state, sharing pattern, iteration order", "why_tests_cant": "state space unbounded", "anchors": ["ripsrc/history3/process/repo/writer.go:CheckpointWriter.Write", "ripsrc/history3/process/repo/reader.go:CheckpointReader.Read"]}
{"id": "C32", "title": "Empty-tree commits are lost by a checkpoint; hash collisions corrupt", "statement": "The full round trip is false: a commit with no files is absent after reading (a later child of it then panics), and two lines with equal 64-bit hash come back with the same content.", "quantifier": "counter-examples", "why_tests_cant": "tests do not checkpoint an empty tree", "anchors": ["ripsrc/history3/process/repo/writer.go:CheckpointWriter.Write", "ripsrc/history3/process/repo/repo.go:GetCommitMust"]}
{"id": "C33", "title": "Incremental run equals full run", "statement": "Processing a log in one run gives the same results as processing a prefix, writing the checkpoint, reading it and processing the rest, provided no commit with an empty tree is needed and the needed parents are still retained. Retained are the commits of the last run that have no children, and its last commits and their parents, going back as far as these parents are at most 1000; and everything of the checkpoint that is not in the history of the last run.", "quantifier": "every log and split point", "why_tests_cant": "split points and histories unbounded", "anchors": ["ripsrc/history3/process/process.go:Run", "ripsrc/history3/process/process.go:initCheckpoints"]}
{"id": "C34", "title": "Strict resume", "statement": "With strict resume a run whose start commit is not the commit the checkpoint was written for returns an error, emits no result and leaves the checkpoint untouched; without strictness the check is skipped. A checkpoint of which a file is missing or not gzip is an error either way. The written version is the last processed commit.", "quantifier": "every pair of commits and every log", "why_tests_cant": "small but conditional on option combinations", "anchors": ["ripsrc/history3/process/repo/reader.go:CheckpointReader.Read", "ripsrc/history3/process/process.go:initCheckpoints", "ripsrc/history3/process/process.go:Run"]}
{"id": "C35", "title": "Checkpoint crash safety", "statement": "If the process is killed at any point while writing a checkpoint, a later read returns either the complete old checkpoint, the complete new one, or an error - never a mixture or a part. (It may return an error: between removal and rename no checkpoint exists; counter-example to full atomicity.)", "quantifier": "every crash point, every old directory state", "why_tests_cant": "crash points", "anchors": ["ripsrc/history3/process/repo/writer.go:CheckpointWriter.Write", "ripsrc/history3/process/repo/msgp.go:msgWriter.Finish", "ripsrc/history3/process/repo/writer.go:writeFileAtomic"]}
{"id": "C36", "title": "Checkpoint record encoding", "statement": "Decoding the concatenation of encoded records gives back the same records for each of the four record types, for all 64-bit integers, strings, byte strings and arrays below 2^32 in length.", "quantifier": "all records and all streams", "why_tests_cant": "size classes of msgpack at 2^5,2^7,2^8,2^16,2^32", "anchors": ["ripsrc/history3/process/repo/disk/disk_gen.go", "ripsrc/history3/process/repo/msgp.go"]}
{"id": "C37", "title": "Truncated checkpoint files", "statement": "A record stream cut anywhere decodes to a prefix of the records and then either ends silently (cut between fields) or errors (cut inside a value); the reader therefore cannot detect all truncations: counter-example. Whatever bytes the four streams contain, reading succeeds exactly if every stream was decoded to its end and no pointer dangles, and then gives for each commit and path exactly what the records say (the last record of a name counts).", "quantifier": "all streams, all cut points", "why_tests_cant": "all cut points", "anchors": ["ripsrc/history3/process/repo/reader.go:msgIsEOF", "ripsrc/history3/process/repo/disk/disk_gen.go"]}
{"id": "C38", "title": "Commit metadata parser", "statement": "For every list of commits rendered in the `!SHA:...` log format, the parser emits the same commits in order with hash, parents, author, committer, message, ordinal 1..n and per file status / additions / deletions / binary flag. Lines that git does not print in that place crash the program: a line of a commit before its hash, a raw line that is cut off, a combined raw line before the numstat lines.", "quantifier": "every list of commits and files", "why_tests_cant": "arbitrary messages, counts", "anchors": ["ripsrc/commitmeta/commitmeta.go:parser.parse"]}
{"id": "C39", "title": "Commit metadata: over-long lines", "statement": "A log line of 64 KiB or more silently ends the commit list: later commits are missing and no error is returned (counter-example to completeness); if all lines are shorter nothing is lost.", "quantifier": "all logs", "why_tests_cant": "boundary in bytes", "anchors": ["ripsrc/commitmeta/commitmeta.go:Processor.Run"]}
{"id": "C40", "title": "Rename notation", "statement": "getFilename inverts git's numstat rename notation `pre{old => new}post` and `old => new`, and is the identity on names not containing ` => `. Every name that contains ` => ` is taken for a rename, also a plain file so named; and a rename whose old part contains `{` is split at its last brace, so that both paths are reported with one directory too many.", "quantifier": "all path pieces without the delimiters", "why_tests_cant": "arbitrary bytes", "anchors": ["ripsrc/commitmeta/commitmeta.go:getFilename"]}
{"id": "C41", "title": "git blame porcelain parser", "statement": "parseOutput on any porcelain blame output returns one entry per line in order with its hash and its exact content, and for a line without header metadata the metadata printed the last time for its hash. Git prints part of the metadata again when a commit contributes lines from a second path; lines of that commit that follow then have no author (counter-example to the intention that the author of the first occurrence is kept). Whatever the output, no line is dropped: if the parser returns, there is one entry for every record of the output.", "quantifier": "all contents and headers", "why_tests_cant": "content may imitate headers", "anchors": ["ripsrc/gitblame2/parse_output.go:parseOutput"]}
{"id": "C42", "title": "Code records", "statement": "For each commit the code records are in one-to-one correspondence with the non-empty changed paths that have metadata; a removed file has no lines; every other unskipped record has one line per blame line in order, carrying that line's commit hash and the author name/email/date recorded for that commit.", "quantifier": "every result and metadata map", "why_tests_cant": "unbounded", "anchors": ["ripsrc/code_info.go:codeInfoFiles", "ripsrc/code_info.go:codeInfoFile"]}
{"id": "C43", "title": "Code records in incremental runs lose authors", "statement": "Author data of a line is present only if the line's commit is in the current metadata map; in an incremental run, lines from older commits have an empty author (counter-example to 'every line has its author').", "quantifier": "every metadata map", "why_tests_cant": "needs cross-run reasoning", "anchors": ["ripsrc/code_info.go:codeInfoFile", "ripsrc/commit_info.go:getCommitInfo"]}
{"id": "C44", "title": "Generated-file detection and line classes", "statement": "Each line callback sets exactly the class flag of its line; the file is marked generated iff a line first classified as comment contains a marker; indexes outside the file are ignored.", "quantifier": "every callback sequence", "why_tests_cant": "callback sequences are chosen by the external counter", "anchors": ["ripsrc/code_info.go:statsProcessor.ProcessLine", "ripsrc/code_info.go:codeStats"]}
{"id": "C45", "title": "File filter", "statement": "A file is processed (not skipped) iff its size is <= 1,000,000 bytes, no licence was detected in it, its path is not config/dot/excluded/vendored (src/ exempt), it has at most 40000 lines each at most 1096 bytes, and its language is known; the reason reported is the first failing check in that order.", "quantifier": "every path and content, any classifier behaviour", "why_tests_cant": "boundaries and check order", "anchors": ["ripsrc/fileinfo/fileinfo.go:GetInfo"]}
{"id": "C46", "title": "Path-check cache is transparent", "statement": "The answer for a path never depends on which files were examined before.", "quantifier": "every history of calls", "why_tests_cant": "histories", "anchors": ["ripsrc/fileinfo/fileinfo.go:checkFilePath"]}
{"id": "C47", "title": "Branch listing", "statement": "The branch listing contains exactly the listed refs minus HEAD and (unless requested) the default branch, with origin/ removed in origin mode, sorted by name. A branch whose name contains @@@ or ends in @ makes the listing panic.", "quantifier": "every ref listing", "why_tests_cant": "unbounded", "anchors": ["ripsrc/branchmeta/branchmeta.go:Get"]}
{"id": "C48", "title": "Slowest commits", "statement": "After any sequence of commits SlowestCommits holds the 10 largest durations (all if fewer), in descending order.", "quantifier": "every sequence of durations", "why_tests_cant": "unbounded", "anchors": ["ripsrc/history3/process/process.go:Timing.UpdateSlowestCommitsWith"]}
{"id": "C49", "title": "Repository discovery", "statement": "IterDir calls the callback on exactly the directories at depth <= maxRecursion that contain a .git directory, or are named *.git and contain objects, not looking below one that contains .git; it stops at the first error.", "quantifier": "every directory tree and depth", "why_tests_cant": "unbounded trees", "anchors": ["ripsrc/pkg/gitrepos/gitrepos.go:IterDir"]}
{"id": "C50", "title": "Streaming pipeline", "statement": "Code delivers the per-file records grouped by commit in commit order; no interleaving of the goroutines loses, duplicates or reorders a record or deadlocks as long as the consumer drains the channels.", "quantifier": "every schedule", "why_tests_cant": "schedules", "anchors": ["ripsrc/code.go:Code", "ripsrc/code.go:CodeByCommit"]}
{"id": "C51", "title": "Common ancestor search", "statement": "LastCommonParent returns a commit reachable from all heads; no commit is reachable from all heads in fewer steps; it panics exactly if no commit is reachable from all of them, or if there are no heads; it terminates on every acyclic graph; what it returns is not always a lowest common ancestor (counter-example).", "quantifier": "every acyclic graph and list of heads", "why_tests_cant": "graph shapes", "anchors": ["ripsrc/history3/process/graph/graph.go:LastCommonParent"]}
{"id": "C52", "title": "Cached git output", "statement": "ExecWithCache never returns the content of a partially written cache file after a crash; two calls with the same args and the same head share the entry; ambiguity of the joined key is possible only when an argument contains '@' or when a head is not 40 characters long (all such heads, e.g. SHA-256 ones, count as the same). Without these cases and without a collision of the hash a call returns what its own command prints, if the same command prints the same for the same head.", "quantifier": "every crash point, every argument list", "why_tests_cant": "crash points", "anchors": ["ripsrc/gitexec/gitexec.go:ExecWithCache"]}
{"id": "C53", "title": "Quoted paths", "statement": "A file whose name git quotes and which contains a space is reported with an empty path; a rename to a quoted name is stored with its quotes while later diffs of it are looked up without (counter-examples to 'blame follows renames for every path').", "quantifier": "counter-examples, universally over names", "why_tests_cant": "tests use one quoted name", "anchors": ["ripsrc/history3/incblame/parse.go:Parse", "ripsrc/history3/incblame/parse_utils.go:parseDiffDecl"]}
{"id": "C54", "title": "Previously emitted blames are never modified", "statement": "Applying patches and merges allocates new lines/blames only; no blame or line object reachable from an earlier result changes.", "quantifier": "every heap and sharing pattern", "why_tests_cant": "aliasing", "anchors": ["ripsrc/history3/incblame/apply.go:Apply", "ripsrc/history3/incblame/apply_merge2.go:ApplyMerge"]}
{"id": "C55", "title": "Error handling of a run", "statement": "If reading the checkpoint or processing a regular commit returns an error, Run returns that error after draining the log parser (no goroutine blocked, result channel closed) and writes no checkpoint. CodeSlice returns (in some, equivalently every, complete schedule) iff neither the run nor the processing of a result panics; if one panics, every complete schedule ends in a crash and none returns, in particular when the log has a commit that the metadata does not know.", "quantifier": "every log and failing position", "why_tests_cant": "schedules x failing positions", "anchors": ["ripsrc/history3/process/process.go:Run"]}
{"id": "C56", "title": "A broken log leaves a truncated checkpoint", "statement": "If the log parser fails in the middle of the git log (unexpected or over-long line), every schedule processes the commits before that point, writes the checkpoint for them, and only then the program panics; no schedule returns normally. (Finding: the deferred send on the done channel happens before the panic takes effect.)", "quantifier": "every log text, position of the failure and schedule of the goroutines", "why_tests_cant": "schedules x failing positions", "anchors": ["ripsrc/history3/process/process.go:Run", "ripsrc/history3/process/parser/parser.go:Run"]}
{"id": "C57", "title": "A whole call of CodeSlice over a git history", "statement": "For every well-formed git history whose log, parents and metadata git prints correctly, CodeSlice returns in every schedule without error and with no goroutine left (but for one of the metadata reader, C85), having delivered for each commit in log order exactly one record per written or deleted path listed in its metadata; a record that is not skipped has one line per line of the file, each naming the commit it originates from and that commit's author.", "quantifier": "every history, schedule, map iteration order, classifier and line counter", "why_tests_cant": "composition of all parts over unbounded histories and schedules", "anchors": ["ripsrc/code.go:CodeSlice", "ripsrc/code.go:CodeByCommit", "ripsrc/history3/process/process.go:Run", "ripsrc/commit_info.go"]}
{"id": "C58", "title": "A whole call of BranchesSlice over a repository", "statement": "For every git repository with full history (any number of branches, merges and roots; local or origin refs), whatever the schedule of the goroutines, map iteration orders and sort: BranchesSlice terminates without panic and returns first the record of the default branch (commits = ancestors of HEAD, FirstCommit = its root commits) and then exactly one record per other branch and per distinct known pull request, each with the right commits, branch points, merge flag and commit, ahead count, and behind count at least the number of commits missing. Without AllBranches, without commits or with a detached HEAD it returns an error and no records.", "quantifier": "every repository, option, schedule, iteration order and previous use of the object", "why_tests_cant": "composition of git output parsers, graph algorithms and goroutines over unbounded repositories", "anchors": ["ripsrc/branches.go:Branches", "ripsrc/branches.go:BranchesSlice", "ripsrc/ripsrc.go:buildCommitGraph", "ripsrc/branches2/process.go:Run", "ripsrc/branchmeta/branchmeta.go:Get", "ripsrc/branchmeta/default.go:GetDefault", "ripsrc/gitexec/prepare.go:Prepare"]}
{"id": "C59", "title": "Several calls on one Ripsrc object", "statement": "Calls on an unchanged repository return the same records (up to order) each time. The commit graph is read only once per object: after a new commit on the current branch the next call on the same object crashes the program, and after a call whose graph read failed with an error the next call does not read again but crashes the program. (The last two are findings.)", "quantifier": "every repository, history of calls, schedule and iteration order", "why_tests_cant": "histories of calls x schedules", "anchors": ["ripsrc/ripsrc.go:buildCommitGraph", "ripsrc/branches.go:Branches"]}
{"id": "C60", "title": "The commands ripsrc code and ripsrc branches", "statement": "On a readable directory the command processes every repository in the directory and one level below exactly once, even if others fail, prints all records of each in the order delivered, and (exit status 0) ends with a line that gives the number of repositories and records and warns about empty repositories. The exit status is 1 iff at least two repositories fail and 2 iff processing one panics (then no later repository is processed and there is no summary). Findings: a single failing repository, an unreadable directory or no repository at all still end with 'Finished processing' and exit status 0; blanks= shows the number of comment lines; a repository with 64-character object names is treated as empty.", "quantifier": "every directory tree and every behaviour of the repositories in it", "why_tests_cant": "unbounded directory trees and combinations of outcomes; the commands have no tests", "anchors": ["ripsrc/cmd/cmdcode/cmd.go:Run", "ripsrc/cmd/cmdcode/cmd.go:runOnDirs", "ripsrc/cmd/cmdbranches/cmd.go:Run", "ripsrc/cmd/cmdutils/errors.go:ExitWithErrs", "ripsrc/cmd/cmdutils/repo_run.go:RunOnRepo"]}
{"id": "C61", "title": "Which commits a run processes", "statement": "For every repository and all options the patch log and the metadata log print the same commits (or git refuses both), and all of them and their ancestors are in the commit graph. Without a start: all commits of HEAD (with AllBranches: of all refs). With an inclusive start x: what HEAD reaches minus what the first parent of x reaches, so x itself iff HEAD reaches it, every commit built on x, and in a linear history nothing else. A run up to x followed by an incremental run from x covers exactly the commits of a full run; processed twice are exactly the commits x has beyond its first parent (none with the exclusive start). Findings: git refuses an inclusive start at a root commit or an unknown commit; AllBranches has no effect with a start; a merge as start repeats older commits; after a forced push the start is not processed.", "quantifier": "every repository (any graph, any refs) and all combinations of options", "why_tests_cant": "unbounded commit graphs", "anchors": ["ripsrc/history3/process/process.go:gitLogPatches", "ripsrc/commitmeta/commitmeta.go:gitLog", "ripsrc/parentsgraph/parents.go:gitLogParents", "ripsrc/code.go:CodeByCommit", "ripsrc/commit_info.go:getCommitInfo"]}
{"id": "C62", "title": "Streaming the output of git", "statement": "However git's output is divided into writes and reads and however the goroutines are scheduled, RunSlice/RunMap of the commit metadata and the graph reader return what they would compute from the whole output in one piece, after a bounded number of steps, with no goroutine of git or of the collector left. If git fails after printing, the call never returns a result: the program crashes. If a line cannot be parsed, the error and the commits before it are returned. Findings: a reader that stops early (a line over the limit of the scanner, or an error with more output to come than fits in its buffer) makes the program crash from the goroutine that runs git, in every schedule, even though the call itself returns a result or an error.", "quantifier": "every output of git, every division into pieces, every schedule", "why_tests_cant": "schedules and chunkings are unbounded", "anchors": ["ripsrc/gitexec/gitexec.go:ExecPiped", "ripsrc/commitmeta/commitmeta.go:Run", "ripsrc/commitmeta/commitmeta.go:RunSlice", "ripsrc/commitmeta/commitmeta.go:RunMap", "ripsrc/parentsgraph/parents.go:retrieveParents", "ripsrc/parentsgraph/parentsp/parser.go:Run"]}
{"id": "C63", "title": "The state of one commit from git ls-tree", "statement": "gitblamecommit.Blame enters exactly the files git lists, each as a binary file without lines, provided the first name does not begin and the last does not end with white space. Findings: a commit without files gets one file with the empty name; leading white space of the first name is lost; a failure of git panics instead of being returned as an error.", "quantifier": "every list of file names", "why_tests_cant": "lists are unbounded", "anchors": ["ripsrc/history3/process/gitblamecommit/gitblamecommit.go:Blame", "ripsrc/history3/process/gitblamecommit/gitblamecommit.go:listOfFiles"]}
{"id": "C64", "title": "The command validate_inc_blame", "statement": "For each reported file with lines the command complains exactly if the incremental blame and git blame disagree (length; text up to surrounding white space; commit, for texts over 10 bytes), and the complaint is about the first disagreeing line. Over any history in which git blame names the commits that following the changes back gives, it complains about nothing. SUCCESS is printed exactly if the run succeeds and git blame succeeds for every reported file with lines. Findings: SUCCESS is printed whatever was complained about; binary files are never compared.", "quantifier": "every run result and output of git blame; every history", "why_tests_cant": "histories and files are unbounded", "anchors": ["cmd/validate.go:validateIncBlameCmd"]}
{"id": "C65", "title": "An incomplete checkpoint is noticed", "statement": "If a run comes to a commit with a parent that is neither in the checkpoint nor before it in the log, or to a change of a file that the stored state of the parent does not have (one parent: a rename without patch, or a patch that shows an old line; a merge: any diff against that parent that has an old and a new name, whatever it shows), the run fails: it sends no result for that commit or a later one and writes no checkpoint. A run from the beginning that does not fail has therefore seen, for every file from which a commit with one parent keeps or removes a line, an earlier entry of an ancestor that wrote this file; and for every file that the diff of a merge against one of its parents changes or renames, an entry of this parent or one of its ancestors that wrote it.", "quantifier": "every log, graph, checkpoint and position", "why_tests_cant": "unbounded logs and checkpoints", "anchors": ["ripsrc/history3/process/process.go:processRegularCommit", "ripsrc/history3/process/process.go:processMergeCommit", "ripsrc/history3/process/repo/repo.go:GetFileMust"]}
{"id": "C66", "title": "Which checkpoint records can be read", "statement": "Each record decoder succeeds exactly on the MessagePack maps, whatever else wrote them: fields in any order, every legal representation of a value, unknown fields with values of any kind and depth skipped, of several fields with the same name the last one counts, missing fields keep their value; it consumes exactly the bytes of the map. Everything else is refused by the decoder. Finding: a file that ends anywhere inside the value of an unknown field is taken for a complete file, so that the record is dropped without an error.", "quantifier": "every byte sequence", "why_tests_cant": "byte sequences and nesting are unbounded", "anchors": ["ripsrc/history3/process/repo/disk/disk_gen.go:DataRow.DecodeMsg", "ripsrc/history3/process/repo/disk/disk_gen.go:Blame.DecodeMsg", "ripsrc/history3/process/repo/disk/disk_gen.go:Line.DecodeMsg", "ripsrc/history3/process/repo/disk/disk_gen.go:LineData.DecodeMsg"]}
{"id": "C67", "title": "The generated record code", "statement": "For every record of each of the five types (with lengths below 2^32): MarshalMsg appends exactly the bytes that EncodeMsg writes; they are at most Msgsize many and are one MessagePack object; DecodeMsg and UnmarshalMsg into an object with any old content, with any bytes following, give exactly the record and leave exactly the following bytes. Finding: records without fields (which the encoder never writes) show the old elements of a reused slice.", "quantifier": "every record, every old content of the object, every rest of the input", "why_tests_cant": "the generated tests use empty records only; records are unbounded", "anchors": ["ripsrc/history3/process/repo/disk/disk_gen.go:Data.DecodeMsg", "ripsrc/history3/process/repo/disk/disk_gen.go:Data.MarshalMsg", "ripsrc/history3/process/repo/disk/disk_gen.go:Data.UnmarshalMsg", "ripsrc/history3/process/repo/disk/disk_gen.go:Data.Msgsize", "ripsrc/history3/process/repo/disk/disk_gen.go:Blame.UnmarshalMsg"]}
{"id": "C68", "title": "The exclusion list", "statement": "The expression that excludes files compiles, and it matches a path exactly if the path contains one of 23 words, ends with one of about 190 endings, begins with dexguard/ or is one of six whole paths. A path on the list is never processed, and the reason 'File was on an exclusion list' is given for no other path. The committed file is what the generator writes for the committed patterns. For any patterns the generator joins the lines that are neither blank nor comments; a last line without a newline at its end never counts. Findings: PDF and Parquet files are not excluded; a word such as DCO, README or NOTICE anywhere in a path excludes it.", "quantifier": "every path; every sequence of requests", "why_tests_cant": "paths are unbounded", "anchors": ["ripsrc/fileinfo/gitignore.go:ignorePatterns", "ripsrc/fileinfo/fileinfo.go:GetInfo", "custom_patterns.txt", "genignore.go:main"]}
{"id": "C69", "title": "The generator of the exclusion list", "statement": "For every file of patterns (ASCII text with * for anything, ^ and $ to tie it to the ends of the path), comments and blank lines with at least one pattern, genignore writes a Go file with an expression that compiles and that matches a path exactly if one of the patterns covers it. Findings: the text after the last newline is ignored; a file without patterns gives an expression that excludes every path.", "quantifier": "every patterns file, every path", "why_tests_cant": "files and paths are unbounded", "anchors": ["genignore.go:format", "genignore.go:parseFile", "genignore.go:main"]}
{"id": "C70", "title": "The regular expressions", "statement": "The regular expressions of the code compile, and for every text they find what the documentation of the features says: markers of generated files, names of licence files, modes of regular files, columns separated by tabs, and the four parts of a rename with braces in git's output (for names without newline).", "quantifier": "every text", "why_tests_cant": "texts are unbounded", "anchors": ["ripsrc/code_info.go:generatedRegexp", "ripsrc/fileinfo/license.go:licenses", "ripsrc/commitmeta/commitmeta.go:filenameMask", "ripsrc/commitmeta/commitmeta.go:renameRe", "ripsrc/commitmeta/commitmeta.go:regSplit"]}
{"id": "C71", "title": "Log lines of concurrent goroutines", "statement": "For any number of goroutines that call Info and Debug of one default logger: in every schedule the output consists of whole lines, each exactly once, those of one goroutine in the order of its calls; lines of different goroutines are never mixed; nothing deadlocks. A call with keys (strings) and values prints one line with all pairs; a call with other arguments prints an error line with all arguments and a second line without them. After an error of the writer the goroutine panics, only its last line is broken. Findings: a message with a newline prints the same bytes as two calls; the line of another goroutine can be glued to a broken line.", "quantifier": "every number of goroutines, every sequence of calls, every schedule, every behaviour of the writer", "why_tests_cant": "schedules are unbounded; a test sees one", "anchors": ["ripsrc/pkg/logger/logger.go:log", "ripsrc/pkg/logger/logger.go:formatArgs"]}
{"id": "C72", "title": "Collecting all results", "statement": "RunGetAll of the log parser and of the blame processor: if Run does not panic, then in every schedule the call returns, with all values that Run sent, in their order, and the error of Run; no goroutine is left and nothing deadlocks. If Run panics the call never returns. For the log parser: on a text that it refuses the call returns the commits before that point together with the error, or, if it panics, never returns.", "quantifier": "every sequence of values, every end of Run, every schedule", "why_tests_cant": "schedules are unbounded; a test sees one", "anchors": ["ripsrc/history3/process/process.go:RunGetAll", "ripsrc/history3/process/parser/parser.go:RunGetAll"]}
{"id": "C73", "title": "Random strings", "statement": "random.String gives a string of the wanted length made of characters of the alphabet, for every alphabet whose size is not a multiple of 256. Findings: for a multiple of 256 (0, 256, ...) it panics; of a larger alphabet only the first (size mod 256) characters are used; the characters are not equally likely: of the 256 byte values, 256/n + 1 give each of the first 256 mod n characters and 256/n each other one.", "quantifier": "every alphabet, every sequence of random bytes", "why_tests_cant": "alphabets and random bytes are unbounded; a bias is not visible in single results", "anchors": ["ripsrc/pkg/random/random.go:String"]}
{"id": "C74", "title": "Comparing and printing blames", "statement": "Blame.Eq holds exactly if the commits and all lines are the same. Finding: it does not look at IsBinary, so that a binary file equals an empty text file of the same commit. Blame.String determines the blame of a text file (hashes without newline and colon, lines without newline). Repo.Debug depends only on the contents of the repo, not on the iteration order of maps or the sort. CommitsInMemory is the number of commits that are kept. The path that messages name for a changed file is its path after the change, for a deleted file the one before.", "quantifier": "every pair of blames, every repo, every iteration order of the maps and every outcome of the sort", "why_tests_cant": "blames and orders are unbounded", "anchors": ["ripsrc/history3/incblame/apply.go:Eq", "ripsrc/history3/incblame/apply.go:String", "ripsrc/history3/process/repo/repo.go:Debug"]}
{"id": "C75", "title": "Which paths the checkpoint stores", "statement": "For every graph and every sequence of runs, each with any log and each but the first resuming from the checkpoint of the one before: what is stored for a commit (in memory and in the checkpoint) contains every path the commit writes, every path stored for its parent that it does not delete, and for a merge every path stored for any of its parents; it contains only paths written by that commit or one of its ancestors, and not the paths a commit with at most one parent deletes. Findings: a rename does not remove the old path and a merge removes nothing, so that after n renames of one file n + 1 paths are stored for each later commit; results are not affected (C25, C27), memory and checkpoint size are.", "quantifier": "every log, graph and iteration order of the maps", "why_tests_cant": "histories are unbounded; the stale paths never show in results", "anchors": ["ripsrc/history3/process/process.go:processRegularCommit", "ripsrc/history3/process/process.go:processMergeCommit", "ripsrc/history3/process/repo/writer.go:Write"]}
{"id": "C76", "title": "Settings of the user's git", "statement": "The log is read from git with the settings of the user in force. What a setting that changes the output of git log does to a run: with log.decorate the log is read completely, with the right hashes and file diffs, if the names shown for commits that are not merges have at least five characters; with shorter names (a branch dev, a tag v1) the parser panics; decorations never affect commits that are not merges, but the parents of decorated merges are misread. If no entry of a merge names one of its parents (decorations, log.diffMerges=first-parent), a file changed in the merge is recorded as it is in the first other parent that has it, without reporting a change, whatever the diffs say; and a file that the other parent's side never had makes the whole run fail. With diff.noprefix, diff.srcPrefix or diff.dstPrefix reading a diff panics, or - names with spaces - the change is lost and a file with an empty name is reported as deleted. log.diffMerges=dense-combined, color.ui=always, log.showSignature and diff.submodule=log make the parser panic. diff.suppressBlankEmpty makes it panic at the line after the first empty context line (if nothing follows, the last commit is sent twice). With diff.renames=copies the diff of a copied file is read as meant if the names have no space: the copied file is reported with the lines it has, a line that was in the source names the commit that last changed it there, an added line the commit itself; otherwise the copy is lost and a file with an empty name is reported as deleted. With log.showRoot=false the first commit that changes a file of the root makes the run fail.", "quantifier": "every log, every decoration, every prefix, every history", "why_tests_cant": "the settings and the histories are unbounded, and tests run with the settings of the machine", "anchors": ["ripsrc/history3/process/process.go:gitLogPatches", "ripsrc/history3/process/parser/parser.go:parseCommitLine", "ripsrc/history3/incblame/parse.go:parseDiffDecl", "ripsrc/history3/process/process.go:processMergeCommit"]}
{"id": "C77", "title": "Dates", "statement": "The date of a commit is the second at which it was authored, without fraction, with the offset from UTC of its author; the date of a branch is that of its last commit, with the offset of the committer. This holds for every time from 1970 to the end of the year 9999 on the clock of the author and every zone of less than 100 hours (in versions of Go that check it: at most 24 hours and at most 60 minutes). Every day of the calendar is mapped to the right number of seconds. One commit with a date from the year 10000 on, or with a zone of 100 hours or more (such commits exist, e.g. +51800), makes the whole metadata call fail: the commits before it are reported, the later ones are not. One branch whose last commit has such a date makes the whole branch listing panic, even if it is the default branch that the listing leaves out. No text is read as a date that does not exist (such as the thirtieth of February or the day 0).", "quantifier": "every second, every zone, every log, every listing", "why_tests_cant": "there are more dates than tests, and the calendar has exceptions every four, hundred and four hundred years", "anchors": ["ripsrc/commitmeta/commitmeta.go:parseDate", "ripsrc/gittime/gittime.go:Parse", "ripsrc/branchmeta/branchmeta.go:Get"]}
{"id": "C78", "title": "A whole incremental call, also after crashes", "statement": "The history is processed in several calls, each of which resumes from the checkpoint on disk of the one before. In every schedule of its goroutines, the next call of CodeSlice returns without error, leaves no goroutine behind (but for one of the metadata reader, C85), and delivers for the commits in its log, in the order of the log, exactly the records that a single call over the whole history delivers for them: the same files, status, language, skip reason, size and counts, the same lines with the same classes and the same originating commits. The only differences: the author and the date of lines that come from commits before its log are empty, and the ordinal numbers may differ. If earlier processes were killed at any point while writing checkpoints, the call either does this from the last complete checkpoint or returns an error without delivering anything; never anything else.", "quantifier": "every history, every split into calls, every point at which a write is killed, every schedule, every file filter and line counter", "why_tests_cant": "histories, splits, schedules and crash points are unbounded and multiply each other", "anchors": ["ripsrc/code.go:CodeSlice", "ripsrc/history3/process/process.go:initCheckpoints", "ripsrc/history3/process/process.go:Run", "ripsrc/history3/process/repo/writer.go:Write", "ripsrc/history3/process/repo/reader.go:Read"]}
{"id": "C79", "title": "No data races", "statement": "In every schedule of CodeSlice, BranchesSlice and RunGetAll, also one that is cut short by a panic, two goroutines never access a shared variable (the result slice, the metadata and the graph of the commits, the cache of the file filter, the timings, the fields of the processors, the log, the error) without one access happening before the other by the rules of the Go memory model, unless both only read. When the call has returned, everything its goroutines did with these variables has happened before, so the caller sees all of it and may use the object again. Finding: the memory log of the commands reads a counter outside its lock while another goroutine writes it.", "quantifier": "every schedule of the goroutines, every input, every number of workers, every point at which a goroutine panics", "why_tests_cant": "a race shows only in rare schedules, and the race detector sees only the schedules that are run", "anchors": ["ripsrc/code.go:CodeSlice", "ripsrc/code.go:CodeByCommit", "ripsrc/history3/process/process.go:Run", "ripsrc/branches.go:BranchesSlice", "ripsrc/branches2/process.go:Run", "ripsrc/cmd/cmdutils/memstats.go:StartMemLogs"]}
{"id": "C80", "title": "Streaming with any consumer", "statement": "CodeByCommit(ctx, res) with any consumer (one goroutine or several, any choice of channels to read), in a run in which no panic of Run occurs (else: C87): at every moment what the consumer has received is a beginning of the one stream of commits in the order of the run, each followed by its records; it finds a Blames channel closed only after all records of that commit, and res closed only after everything. If the call returns, everything was received, and its error and checkpoint are those of the run. A consumer that reads every Blames channel of the commits it received to the end, at once or concurrently, and receives commits until res is closed, gets the whole stream: every schedule ends, without a deadlock or panic, with the call and its goroutines returned and all channels found closed. A consumer that will never again read the channel on which the next value comes receives nothing more and the call never returns (its context is not consulted while it waits). If the records of a commit cannot be computed the consumer sees only a beginning of the stream of the commits before it, and neither a closed res nor a return.", "quantifier": "every consumer, every schedule, every input", "why_tests_cant": "a test has one consumer and sees one schedule; deadlocks and misordered closes show only in some", "anchors": ["ripsrc/code.go:CodeByCommit", "ripsrc/history3/process/process.go:Run"]}
{"id": "C81", "title": "Two processes on one checkpoint directory", "statement": "Nothing locks the checkpoint directory. When one process alone writes a checkpoint, every file operation succeeds whatever an earlier process left behind. A read that overlaps with a write never sees an incomplete file: it gives an error, or what a read of a directory gives whose first k files (in the order of opening: version, repo, blames, lines, line-data) are the old ones and whose others are the new ones. A strict read for the commit that is being written gives an error or exactly the new checkpoint. But every such mixture can be read: a strict read for the commit of the old checkpoint can return the repository of the new one, or the files of the old checkpoint with blames of the new one, without an error. And of two processes that write at the same time, one can report success although the checkpoint then on disk, accepted by a strict read for its commit, has the repository of the other.", "quantifier": "every content of the directory, all records and commits, every schedule of the file operations of the two processes", "why_tests_cant": "the overlap is a matter of microseconds, and the interleavings are unbounded", "anchors": ["ripsrc/history3/process/repo/writer.go:Write", "ripsrc/history3/process/repo/reader.go:Read", "ripsrc/history3/process/repo/msgp.go:newMsgReader"]}
{"id": "C82", "title": "Only the ancestors of a commit matter for what is reported for it", "statement": "What is reported for a commit depends only on the commit and its ancestors. If two repositories (two clones, a repository at two times, another branch selection) contain the same commit with the same ancestors, and whatever else, then a full run over the one and a full run over the other report the same for this commit, whatever the order of the logs and of the maps: the same files with the same lines, each of which originates from the commit or one of its ancestors; and CodeSlice delivers the same records, with the same status, language, skip reason, size, counts, and for each line the same class, commit, author and date. Only the ordinal and the choice between licence names of equal confidence may differ.", "quantifier": "all pairs of histories that share a commit and its ancestors, all contents, log orders, map orders, schedules", "why_tests_cant": "there are infinitely many histories around a commit", "anchors": ["ripsrc/history3/process/process.go:Process.Run", "ripsrc/code.go:Ripsrc.CodeSlice"]}
{"id": "C83", "title": "File names that git prints in quotes", "statement": "git prints a name with a byte outside ASCII, a quote, a backslash or a control character in double quotes with escape sequences, and ripsrc does not change this. The results of a run contain such files, under the escaped spelling without the quotes, with the right content and origin of lines (C24 to C27 hold for them). But CodeSlice, which returns without an error, delivers no record for any of them: the metadata have the name with the quotes, so all these files are silently missing. And if a commit with one parent renames such a file without a change, or renames a text file with such a name and changes it so that the patch shows one of its old lines (git takes it for a rename only if the two versions are similar), and no earlier commit renamed a file to that name, the whole run fails and no checkpoint is written: in a run that does not fail, the old name of every such rename was a new name in the diff of an earlier commit, an ancestor. If such a commit renames a binary file with such a name and changes it, and otherwise only other files, and the run succeeds, its result lists the new file as binary, but under the new name with the quotes if that is a quoted one, and not under the spelling of all other results, and says nothing of the old name. A merge whose diff against one of its parents renames such a file, changed or not, text or binary, makes the run fail as well if nothing in the log was renamed to that name.", "quantifier": "every history, every quoted name without a space, all metadata, all schedules; for renames every log", "why_tests_cant": "names and histories are unbounded, and a missing record is not an error", "anchors": ["ripsrc/commitmeta/commitmeta.go:gitLog", "ripsrc/code.go:codeInfoFiles", "ripsrc/history3/incblame/parse.go:Parse", "ripsrc/history3/process/process.go:processRegularCommit"]}
{"id": "C84", "title": "git blame is asked for changed binary files", "statement": "For a commit with one parent, git blame is asked about a changed file exactly if the file was binary in the parent and the diff does not say that it is binary now. This includes a commit that only changes the mode of a binary file: if git blame works, the result has the binary file as a text file with all its lines. If git blame fails for such a file (for example because its name is one that git quotes: it is asked under the escaped spelling), the run panics at this commit whatever follows: exactly the results of the commits before it were sent, they are right, and no checkpoint is written; CodeSlice never returns in any schedule, the program ends in a panic, and what was delivered is a beginning of the records of the commits before.", "quantifier": "every history with a changed binary file, every answer of git blame, all contents, map orders and schedules", "why_tests_cant": "histories and schedules are unbounded, and the failure depends on an external program", "anchors": ["ripsrc/history3/process/process.go:slowGitBlame", "ripsrc/history3/process/process.go:processRegularCommit", "ripsrc/gitblame2/gitblame.go:Run"]}
{"id": "C85", "title": "A metadata call leaks one goroutine", "statement": "The metadata reader (RunSlice, RunMap, and so every Code call) sends each file it reads on a buffered channel that another goroutine drains. In every schedule, that channel neither blocks the call nor changes its result, and the number of steps is bounded; but the channel is never closed: when the call has returned and everything has come to rest, exactly one goroutine is left, waiting for ever. A program that reads metadata k times has at least k such goroutines.", "quantifier": "every output of git, every schedule, every number of calls", "why_tests_cant": "A test sees one schedule; a leaked goroutine is invisible in the result.", "anchors": ["ripsrc/commitmeta/commitmeta.go: Run, RunSlice, RunMap, parser.parse"]}
{"id": "C86", "title": "Code and Branches with any consumer", "statement": "Code(ctx, res) and Branches(ctx, res) with any receiver of res: however the goroutines are scheduled and however the receiver behaves, what it has received is always a beginning of what CodeSlice (BranchesSlice) returns, it finds res closed only after the last record, and if the call returns, everything was received and the error (and the checkpoint written) are those of the slice variant; the number of steps is bounded and nothing panics. A receiver that keeps receiving until res is closed gets everything, and then the call and all its goroutines have ended. One that stops earlier receives nothing more and the call never returns (the context is not consulted while it waits).", "quantifier": "every receiver, every schedule, every input on which the slice variant returns", "why_tests_cant": "a test has one receiver and sees one schedule", "anchors": ["ripsrc/code.go:Code", "ripsrc/code.go:CodeSlice", "ripsrc/branches.go:Branches", "ripsrc/branches.go:BranchesSlice"]}
{"id": "C87", "title": "What a consumer sees of a run that panics", "statement": "When Run panics (a diff that cannot be applied, a parent whose result is missing, a failing git blame), its deferred calls and those of CodeByCommit and Code close their channels before the program dies, while the other goroutines go on. In every schedule and with every receiver: what was received from Code or CodeByCommit is a beginning of the stream of the commits before the panic, a Blames channel is found closed only after all records of its commit, the call (Code, CodeByCommit, CodeSlice) never returns, and with a receiver of Code that is ready, or a consumer of CodeByCommit that drains, nothing ends before the program dies. But a closed res does not mean that the history is complete: for every such run there is a schedule in which the receiver of Code finds res closed as after a complete run, and there are runs in which it then has not even got the records of the results before the panic. After a panic while the call is prepared the receiver of Code gets nothing, the call does not return, and can find res closed as after a run without records. If nothing panics, the deferred calls change nothing: the executions are those of C80 and C86.", "quantifier": "every input on which the run panics, every receiver, every schedule", "why_tests_cant": "whether the receiver sees the closed channel before the program dies depends on the schedule", "anchors": ["ripsrc/code.go:Code", "ripsrc/code.go:CodeByCommit", "ripsrc/code.go:CodeSlice", "ripsrc/history3/process/process.go:Run"]}
{"id": "C88", "title": "Calls on one object at the same time", "statement": "Any number of goroutines call BranchesSlice and Code on one object for one repository. If the first call has read the commit graph before any other call begins, then in every schedule every call uses the graph of the repository, no call of Branches panics, each needs a bounded number of steps, can always go on until it is done, and returns exactly the records it returns alone (C58). Without this order nothing protects the object: for every repository, a call of Branches made while the first call waits for git finds a graph that has not been read and can crash the program; and a call made a little later can return without an error and with a wrong record (a merged branch without its merge commit). Whatever calls at the same time left in the graph, the last call that waits for git while all others are done replaces it by the graph of what git printed for it. Whatever git prints: a call made when all earlier calls have got their graph or failed, with no further call until it has too, does exactly what the calls one after the other of C58 and C59 do.", "quantifier": "every repository, every number and kind of calls, every schedule", "why_tests_cant": "a test sees one interleaving, and the wrong record comes without an error", "anchors": ["ripsrc/ripsrc.go:buildCommitGraph", "ripsrc/parentsgraph/parents.go:Read", "ripsrc/branches.go:Branches", "ripsrc/code.go:Code"]}
{"id": "C89", "title": "Commits made after the commit graph was read", "statement": "The commit graph is read once per object, and before the log. Let the log of a repository, with git working, have a commit c that is not in the graph (made meanwhile, or between two calls on one object); the commits before it are in the graph. If c renames a text file, or changes one that was not empty, Code crashes the program at c, in every schedule; the results sent before are right, no checkpoint is written. If c has one parent and only creates or deletes files, changes binary files or adds lines to empty text files (that were not binary before), and is the last commit, the run succeeds and all results are right, but the checkpoint has for c only the files c changes: a later run that continues from it fails at the first commit on top of c that changes another text file, although its own graph is complete. On one object every call uses the graph that the first call has read, whatever git prints for later calls, so a second call of Code made after a commit that changes a text file crashes in every schedule, although a call on a new object succeeds. A file of which c only changes the mode is reported as an empty text file. A text file that was empty and to which c only adds lines is reported rightly, with exactly its lines, each written in c. With such changes too the checkpoint has for c only the files that c changes, and the later run fails. If c is a merge it is reported once for each parent from which it differs.", "quantifier": "every history, every point at which the graph was read, every graph that lacks the commit, every schedule", "why_tests_cant": "needs a commit made between two git commands of one run", "anchors": ["ripsrc/ripsrc.go:buildCommitGraph", "ripsrc/history3/process/process.go:processCommit", "ripsrc/history3/process/process.go:processRegularCommit", "ripsrc/code.go:CodeByCommit"]}
{"id": "C90", "title": "Loss of power after a checkpoint was written", "statement": "The checkpoint writer never calls fsync, so after a loss of power the files can be there under their final names with only a beginning of their contents. Whatever is left, a read fails or returns a part of what was written: files can be missing, but every file that is returned has its own lines with their commits. A strict read needs the expected commit in the version file, but not the data: for every checkpoint there is such a state that is read strictly, without an error, as the repository without any commit. A run that continues from a part over a log without merges, in which every change is one that can be understood without the old version (creation, deletion, binary) or shows the old version (or is a rename without a change), either fails and writes no checkpoint, or gives a result for every commit; and every result it gives is the one a single run over the whole history gives. A commit that only changes the mode of a file whose entry was lost is not noticed: the run does not fail there and reports the file as an empty text file. With a merge the claim is false: there are a torn checkpoint and a log for which the run succeeds and a line is reported as written in the wrong commit.", "quantifier": "every stored repository, every beginning that is left of each file, every history before and log after", "why_tests_cant": "needs a loss of power, and each file can be cut at every byte", "anchors": ["ripsrc/history3/process/repo/msgp.go:Finish", "ripsrc/history3/process/repo/writer.go:Write", "ripsrc/history3/process/repo/reader.go:Read", "ripsrc/history3/process/process.go:processRegularCommit"]}
{"id": "C91", "title": "The record of a branch while the repository grows", "statement": "Two results of Branches on one repository at two moments (or on two clones). If the current branch is at the same commit, the record of every branch or pull request that is at the same commit is the same in all fields, and that of the current branch too, whatever happened to other branches. If the current branch has moved on, a merged branch stays merged, and the Commits of an unmerged branch only lose those that the current branch has got, the others keep their order. As long as the current branch has moved on beside the branch (nothing on it was built on commits of the branch below its head), Commits, FirstCommit, the count of commits, the branch points and the BranchID stay the same, also when the branch is merged by a merge commit: then the record is the old one with IsMerged, the MergeCommit and BehindDefaultCount 0. Commits pushed on top of the current branch that are not part of the branch make an unmerged branch with a branch point behind by exactly that many more. But a branch merged by a fast-forward gets a record that lists the whole history of its head as its work, without branch point and with another BranchID; and the MergeCommit is the smallest hash among the commits of the current branch built on the head of the branch, so it can change when such a commit arrives later.", "quantifier": "every pair of repositories with full history in which equal hashes name equal commits, every result of either call (schedule, iteration orders, sort, options)", "why_tests_cant": "it relates two histories of arbitrary shape; tests compare one record on one history", "anchors": ["ripsrc/branches.go:BranchesSlice", "ripsrc/branches2/process.go:processBranch", "ripsrc/branches2/branch_commits.go:branchCommits", "ripsrc/branches2/merge_commit.go:getMergeCommit", "ripsrc/branches2/behind_branch.go:behindBranch"]}
