import Verif.Props.Checkpoint
/-!
# C34, C35, C33 with the checkpoint on disk
-/
namespace Ripsrc
open Spec

/-! ## C34 -/

/-- **C34.** With strict resume, a run over a non-empty log whose start commit is not the commit the checkpoint was written for (or for which
no version can be read) returns an error, emits nothing and does not write a checkpoint. -/
theorem C34_strict_mismatch {env : Env} {opts : RunOpts} {gz : Gzip} {dir : Option Dir} {g : Graph} {log : List LogCommit} (hlog : log ≠ [])
    (hs : opts.noStrictResume = false) (hne : opts.commitFromIncl ≠ []) (hv : GoMap.get (dir.getD []) b!"checkpoint-version" ≠ some opts.commitFromIncl) :
    let out := run env opts (checkpointRead gz dir) g log
    out.sent = [] ∧ (∃ msg, out.fault = some (.error msg)) ∧ out.written = none := by
  intro out
  have hr : ∃ msg, initCheckpoints opts (checkpointRead gz dir) = .error (.error msg) := by
    unfold initCheckpoints checkpointRead checkVersion
    rw [if_neg hne, hs]
    simp only [Bool.false_eq_true, if_false, if_neg hne]
    have hv : GoMap.get (dir.getD []) versionFile ≠ some opts.commitFromIncl := hv
    cases hg : GoMap.get (dir.getD []) versionFile with
    | none => exact ⟨_, rfl⟩
    | some v =>
      rw [hg] at hv
      simp only
      rw [if_neg (fun hh => hv (by rw [hh]))]
      exact ⟨_, rfl⟩
  obtain ⟨msg, hr⟩ := hr
  have ho : out = { sent := [], fault := some (.error msg), written := none } := by
    show run env opts _ g log = _
    cases log with
    | nil => exact absurd rfl hlog
    | cons e es => simp only [run, hr]
  rw [ho]
  exact ⟨rfl, ⟨msg, rfl⟩, rfl⟩

/-- **C34 (unreadable files).** If one of the four record files of the checkpoint does not exist or is not a gzip file, a run over a non-empty log that starts from a commit returns an error, strict or not; it
emits nothing and does not write a checkpoint. It never starts from an empty state instead. -/
theorem C34_unreadable_file {env : Env} {opts : RunOpts} {gz : Gzip} {dir : Option Dir} {g : Graph} {log : List LogCommit} (hlog : log ≠ [])
    (hne : opts.commitFromIncl ≠ []) {k : Str} (hk : k ∈ [b!"repo", b!"blames", b!"lines", b!"line-data"])
    (hbad : ∀ content, GoMap.get (dir.getD []) k = some content → gz.openFile content = none) :
    let out := run env opts (checkpointRead gz dir) g log
    out.sent = [] ∧ (∃ msg, out.fault = some (.error msg)) ∧ out.written = none := by
  intro out
  have herr : ReturnsError (openMsg gz (dir.getD []) k) := by
    unfold openMsg
    cases hg : GoMap.get (dir.getD []) k with
    | none => exact ⟨_, rfl⟩
    | some c => simp only [hbad c hg]; exact ⟨_, rfl⟩
  have step : ∀ {α β : Type} (x : Go α) (f : α → Go β), (∀ a, ReturnsError (f a)) → (∀ e, x = .error e → ∃ m, e = .error m) → ReturnsError (x >>= f) := by
    intro α β x f hf hx
    cases x with
    | ok a => exact hf a
    | error e => obtain ⟨m, rfl⟩ := hx e rfl; exact ⟨m, rfl⟩
  have first : ∀ {α β : Type} (x : Go α) (f : α → Go β), ReturnsError x → ReturnsError (x >>= f) := by
    rintro α β x f ⟨m, rfl⟩
    exact ⟨m, rfl⟩
  have plain : ∀ j e, openMsg gz (dir.getD []) j = .error e → ∃ m, e = .error m := by
    intro j e he
    unfold openMsg at he
    split at he
    · cases he; exact ⟨_, rfl⟩
    · split at he
      · cases he; exact ⟨_, rfl⟩
      · cases he
  have plainV : ∀ v e, checkVersion (dir.getD []) v = .error e → ∃ m, e = .error m := by
    intro v e he
    unfold checkVersion at he
    split at he
    · cases he
    · split at he
      · cases he; exact ⟨_, rfl⟩
      · split at he
        · cases he
        · cases he; exact ⟨_, rfl⟩
  have hfiles : ReturnsError (readFiles gz (dir.getD [])) := by
    unfold readFiles
    simp only [List.mem_cons, List.not_mem_nil, or_false] at hk
    rcases hk with rfl | rfl | rfl | rfl
    · exact first _ _ herr
    · exact step _ _ (fun _ => first _ _ herr) (plain _)
    · exact step _ _ (fun _ => step _ _ (fun _ => first _ _ herr) (plain _)) (plain _)
    · exact step _ _ (fun _ => step _ _ (fun _ => step _ _ (fun _ => first _ _ herr) (plain _)) (plain _)) (plain _)
  have hr : ∃ msg, initCheckpoints opts (checkpointRead gz dir) = .error (.error msg) := by
    have : ∀ v, ReturnsError (checkpointRead gz dir v) := fun v => step _ _ (fun _ => hfiles) (plainV v)
    unfold initCheckpoints
    rw [if_neg hne]
    exact this _
  obtain ⟨msg, hr⟩ := hr
  have ho : out = { sent := [], fault := some (.error msg), written := none } := by
    show run env opts _ g log = _
    cases log with
    | nil => exact absurd rfl hlog
    | cons e es => simp only [run, hr]
  rw [ho]
  exact ⟨rfl, ⟨msg, rfl⟩, rfl⟩

/-- A file that is not gzip. -/
example : ∀ content, GoMap.get ((some [(b!"repo", b!"garbage")] : Option Dir).getD []) b!"repo" = some content →
    (Gzip.mk id (fun s => if s.head? = some 0x1f then some s else none)).openFile content = none := by
  intro content h
  cases h
  decide

/-- Without strictness the version has no influence. -/
theorem C34_not_strict {env : Env} {opts : RunOpts} {gz : Gzip} {d : Dir} {g : Graph} {log : List LogCommit} (hs : opts.noStrictResume = true) (v v' : Str) :
    run env opts (checkpointRead gz (some (GoMap.set d b!"checkpoint-version" v))) g log =
    run env opts (checkpointRead gz (some (GoMap.set d b!"checkpoint-version" v'))) g log := by
  have : initCheckpoints opts (checkpointRead gz (some (GoMap.set d b!"checkpoint-version" v))) =
      initCheckpoints opts (checkpointRead gz (some (GoMap.set d b!"checkpoint-version" v'))) := by
    unfold initCheckpoints checkpointRead checkVersion readFiles openMsg
    rw [hs]
    simp only [if_true, Option.getD_some]
    have h : ∀ k : Str, b!"checkpoint-version" ≠ k → GoMap.get (GoMap.set d b!"checkpoint-version" v) k = GoMap.get (GoMap.set d b!"checkpoint-version" v') k := by
      intro k hk
      rw [GoMap.get_set_ne _ _ hk, GoMap.get_set_ne _ _ hk]
    rw [h b!"repo" (by decide), h b!"blames" (by decide), h b!"lines" (by decide), h b!"line-data" (by decide)]
  unfold run
  rw [this]

/-- When the version matches, a strict run does what a run without strictness does. -/
theorem C34_strict_match {env : Env} {gz : Gzip} {d : Dir} {g : Graph} {log : List LogCommit} {c : Str} (hv : GoMap.get d b!"checkpoint-version" = some c) :
    run env { commitFromIncl := c } (checkpointRead gz (some d)) g log = run env { commitFromIncl := c, noStrictResume := true } (checkpointRead gz (some d)) g log := by
  have : initCheckpoints { commitFromIncl := c } (checkpointRead gz (some d)) = initCheckpoints { commitFromIncl := c, noStrictResume := true } (checkpointRead gz (some d)) := by
    unfold initCheckpoints checkpointRead checkVersion
    have hv : GoMap.get d versionFile = some c := hv
    by_cases hc : c = []
    · simp [hc]
    · simp only [if_neg hc, Option.getD_some, hv, if_true, Bool.false_eq_true, if_false]
  unfold run
  rw [this]

/-- The version that is written is the commit of the last result. -/
theorem C34_version_written {env : Env} {opts : RunOpts} {read : Str → Go Repo} {g : Graph} {log : List LogCommit} {R : Repo} {last : Str}
    (h : (run env opts read g log).written = some (R, last)) : ((run env opts read g log).sent.map (·.commit)).getLast? = some last := (run_last h).2

/-- With an empty log nothing is checked: the run succeeds even when there is no checkpoint. -/
theorem C34_empty_log_not_checked (env : Env) (opts : RunOpts) (read : Str → Go Repo) (g : Graph) :
    run env opts read g [] = { sent := [], fault := none, written := none } := rfl

/-- A checkpoint for another commit. -/
example (gz : Gzip) (r : Records) : GoMap.get ((some (checkpointDir gz r b!"c2")).getD []) b!"checkpoint-version" ≠ some b!"c1" ∧
    GoMap.get (checkpointDir gz r b!"c2") b!"checkpoint-version" = some b!"c2" := by
  have : GoMap.get (checkpointDir gz r b!"c2") b!"checkpoint-version" = some b!"c2" := rfl
  exact ⟨by rw [Option.getD_some, this]; decide, this⟩

/-! ## C35 -/

/-- Splitting a prefix of a list that ends in one more element. -/
theorem writeTrace_cut {gz : Gzip} {r : Records} {last : Str} {s : FS} {t t1 : List FSOp} (h : WriteTrace gz r last s t) (hp : t1 <+: t) :
    (t1 = t ∧ ∃ d, (s.exec t).cp = some d ∧ ∀ n ∈ GoMap.keys (checkpointDir gz r last), GoMap.get d n = GoMap.get (checkpointDir gz r last) n) ∨
    PartOf (s.exec t1).cp s.cp := by
  obtain ⟨ch, rm1, rm2, hch, h1, h2, rfl⟩ := h
  have hfull : s.exec (writeOps s ch rm1 rm2) = { tmp := none, cp := (bodyOps ch).foldl DirOp.run none } := by
    obtain ⟨d, hd, _⟩ := body_get hch
    unfold writeOps
    rw [exec_append, exec_append, exec_append, exec_tmp, exec_tmp, exec_cp]
    simp only [removeAll_none h1, removeAll_none h2, hd]
    rfl
  have hsub : ∀ ops : List DirOp, ∀ s : FS, (s.exec (ops.map .tmp)).cp = s.cp := by
    intro ops s
    rw [exec_tmp]
  unfold writeOps at hp
  rcases List.prefix_concat_iff.1 hp with hp | hp
  · left
    refine ⟨hp, ?_⟩
    obtain ⟨d, hd, hg⟩ := body_get hch
    exact ⟨d, by rw [hfull]; exact hd, hg⟩
  · right
    rw [← List.map_append] at hp
    by_cases hle : t1.length ≤ ((removeAllOps s.tmp rm1 ++ bodyOps ch).map FSOp.tmp).length
    · have : t1 <+: (removeAllOps s.tmp rm1 ++ bodyOps ch).map FSOp.tmp := List.prefix_of_prefix_length_le hp (List.prefix_append _ _) hle
      rw [List.prefix_iff_eq_take.1 this, ← List.map_take, hsub]
      intro n; right; rfl
    · obtain ⟨u, hu⟩ : (removeAllOps s.tmp rm1 ++ bodyOps ch).map FSOp.tmp <+: t1 := List.prefix_of_prefix_length_le (List.prefix_append _ _) hp (by omega)
      rw [← hu] at hp
      have hu2 : u <+: (removeAllOps s.cp rm2).map FSOp.cp := (List.prefix_append_right_inj _).1 hp
      rw [← hu, exec_append, List.prefix_iff_eq_take.1 hu2, ← List.map_take, exec_cp]
      simp only [hsub]
      exact removeAll_prefix (List.take_prefix _ _)

theorem read_full {gz : Gzip} {r : Records} {last : Str} {d : Dir} (h : ∀ n ∈ GoMap.keys (checkpointDir gz r last), GoMap.get d n = GoMap.get (checkpointDir gz r last) n)
    (e : Str) : checkpointRead gz (some d) e = checkpointRead gz (some (checkpointDir gz r last)) e := by
  refine read_congr (fun n hn => h n ?_) e
  simp only [checkpointDir, GoMap.keys, List.map_cons, List.map_nil, List.mem_cons, List.not_mem_nil, or_false]
  rcases hn with hn | hn | hn | hn | hn
  · exact Or.inl hn
  · exact Or.inr (Or.inl hn)
  · exact Or.inr (Or.inr (Or.inl hn))
  · exact Or.inr (Or.inr (Or.inr (Or.inl hn)))
  · exact Or.inr (Or.inr (Or.inr (Or.inr hn)))

/-- **C35.** If the process is killed after any number of file operations while writing a checkpoint, whatever was in the directory before,
a later read gives what it would have given before, or what the complete new checkpoint gives, or an error. -/
theorem C35_crash {gz : Gzip} {r : Records} {last : Str} {s : FS} {t t1 : List FSOp} (h : WriteTrace gz r last s t) (hp : t1 <+: t) (e : Str) :
    checkpointRead gz (s.exec t1).cp e = checkpointRead gz s.cp e ∨
    checkpointRead gz (s.exec t1).cp e = checkpointRead gz (some (checkpointDir gz r last)) e ∨
    ReturnsError (checkpointRead gz (s.exec t1).cp e) := by
  rcases writeTrace_cut h hp with ⟨rfl, d, hd, hg⟩ | hpart
  · right; left
    rw [hd]
    exact read_full hg e
  · rcases read_part hpart e with h | h
    · exact Or.inl h
    · exact Or.inr (Or.inr h)

/-- When writing is completed, the directory has the files of the new checkpoint. -/
theorem completed_get {gz : Gzip} {r : Records} {last : Str} {s : FS} {t : List FSOp} (h : WriteTrace gz r last s t) :
    ∃ d, (s.exec t).cp = some d ∧ ∀ n ∈ GoMap.keys (checkpointDir gz r last), GoMap.get d n = GoMap.get (checkpointDir gz r last) n := by
  obtain ⟨ch, rm1, rm2, hch, h1, h2, rfl⟩ := h
  obtain ⟨d, hd, hg⟩ := body_get hch
  have : s.exec (writeOps s ch rm1 rm2) = { tmp := none, cp := (bodyOps ch).foldl DirOp.run none } := by
    unfold writeOps
    rw [exec_append, exec_append, exec_append, exec_tmp, exec_tmp, exec_cp]
    simp only [removeAll_none h1, removeAll_none h2, hd]
    rfl
  rw [this]
  exact ⟨d, hd, hg⟩

/-- When writing is completed, the new checkpoint is read. -/
theorem C35_completed {gz : Gzip} {r : Records} {last : Str} {s : FS} {t : List FSOp} (h : WriteTrace gz r last s t) (e : Str) :
    checkpointRead gz (s.exec t).cp e = checkpointRead gz (some (checkpointDir gz r last)) e := by
  obtain ⟨d, hd, hg⟩ := completed_get h
  rw [hd]
  exact read_full hg e

/-- After any number of attempts, completed or killed at any point, a read gives the last checkpoint whose writing was completed, or an
error; never anything else. -/
theorem C35_history {gz : Gzip} {d : Option (Records × Str)} {s : FS} (h : Attempts gz d s) (e : Str) :
    (∃ r last, d = some (r, last) ∧ checkpointRead gz s.cp e = checkpointRead gz (some (checkpointDir gz r last)) e) ∨
    ReturnsError (checkpointRead gz s.cp e) := by
  induction h with
  | start =>
    right
    unfold checkpointRead checkVersion readFiles openMsg
    by_cases he : e = []
    · rw [if_pos he]; exact ⟨_, rfl⟩
    · rw [if_neg he]; exact ⟨_, rfl⟩
  | killed _ ht hp hne ih =>
    rcases writeTrace_cut ht hp with ⟨rfl, _⟩ | hpart
    · exact absurd rfl hne
    · rcases read_part hpart e with h | h
      · rw [h]; exact ih
      · exact Or.inr h
  | completed _ ht _ => exact Or.inl ⟨_, _, rfl, C35_completed ht e⟩

/-- Full atomicity is false: before the last operation, the renaming, no checkpoint can be read, whatever was there before. -/
theorem C35_window {gz : Gzip} {r : Records} {last : Str} {s : FS} {t : List FSOp} (h : WriteTrace gz r last s t) :
    ∃ t1, t1 <+: t ∧ t1 ≠ t ∧ ∀ e, ReturnsError (checkpointRead gz (s.exec t1).cp e) := by
  obtain ⟨ch, rm1, rm2, hch, h1, h2, rfl⟩ := h
  refine ⟨(removeAllOps s.tmp rm1).map .tmp ++ (bodyOps ch).map .tmp ++ (removeAllOps s.cp rm2).map .cp, List.prefix_append _ _, ?_, ?_⟩
  · intro hh
    have := congrArg List.length hh
    simp [writeOps] at this
  · intro e
    rw [exec_append, exec_append, exec_tmp, exec_tmp, exec_cp]
    simp only [removeAll_none h2]
    unfold checkpointRead checkVersion readFiles openMsg
    by_cases he : e = []
    · rw [if_pos he]; exact ⟨_, rfl⟩
    · rw [if_neg he]; exact ⟨_, rfl⟩

/-- A trace exists for all records and states of the directory. -/
example (gz : Gzip) (r : Records) (last : Str) (s : FS) : ∃ t, WriteTrace gz r last s t ∧ t.length ≥ 14 := by
  refine ⟨_, ⟨{ loop := [], fin := fun k => [fileContent gz r k], version := [last] }, GoMap.keys (s.tmp.getD []), GoMap.keys (s.cp.getD []), ?_, .refl _, .refl _, rfl⟩, ?_⟩
  · exact ⟨by simp, by intro k _; simp, by simp⟩
  · simp [writeOps, bodyOps, kinds]
    omega

/-! ## C33 with the checkpoint on disk -/

/-- **C33, C31.** What a run resumed at the commit `last` reads from the checkpoint written for it is what `Restored` says (which
C33 assumes), however the repository `R` is laid out in memory. -/
theorem C33_checkpoint_restores {R : Repo} {last : Str} {hash : Str → UInt64} {mem : Mem} {ord : WrOrder} {P : PRepo} (hP : PRepo.WF P)
    (hR : viewRepo mem P = R) (ho : WrOrder.Ok ord) (hc : NoCollision hash mem P) (hf : RepoFits mem P) {gz : Gzip}
    (hz : ∀ d, gz.openFile (gz.compress d) = some d) {s : FS} {t : List FSOp} (ht : WriteTrace gz (writeRecords hash mem ord P) last s t)
    (hl : last ≠ []) : ∃ R', Restored R R' ∧ initCheckpoints { commitFromIncl := last } (checkpointRead gz (s.exec t).cp) = .ok R' := by
  obtain ⟨R', h1, h2⟩ := C31_round_trip hz hP ho hc hf last last (Or.inr rfl)
  refine ⟨R', hR ▸ h2.restored, ?_⟩
  unfold initCheckpoints
  rw [if_neg hl]
  show checkpointRead gz (s.exec t).cp last = _
  rw [C35_completed ht, h1]

/-- **C33 on disk.** Some runs have processed the commits `P0` and hold the repository `R`, which the last of them writes to disk for its last
commit. The next run, resumed at this commit from the files, gives for each commit in its log the result of a single run over the
whole history, provided the parents it needs are in `R` and have files. -/
theorem C33_on_disk {H : History} {G : Str → Str → List Str} {env0 env : Env} {entries : HCommit → List LogEntry} {m0 m : GoMap Str (List Str)}
    {order0 order : List (Str × List Str)} (hfull : Setting env0 H G m0 order0) (hne : H ≠ []) (hent : ∀ c ∈ H, Printed c (entries c))
    {P0 B N : History} {R : Repo} (hchain : Chain H G env0 entries P0 R)
    -- the checkpoint
    {hash : Str → UInt64} {mem : Mem} {ord : WrOrder} {P : PRepo} (hP : PRepo.WF P) (hR : viewRepo mem P = R) (ho : WrOrder.Ok ord)
    (hc : NoCollision hash mem P) (hf : RepoFits mem P) {gz : Gzip} (hz : ∀ d, gz.openFile (gz.compress d) = some d) {last : Str} (hl : last ≠ [])
    {s : FS} {t : List FSOp} (ht : WriteTrace gz (writeRecords hash mem ord P) last s t)
    -- the next run
    (hB : ∀ c ∈ B, c ∈ P0) (hN : ∀ c ∈ N, c ∈ H) (hN0 : N ≠ []) (hse : SameEnv env0 env) (hset : Setting env (B ++ N) G m order)
    (hneed : ∀ c ∈ B, HasChildIn N c.hash → ∃ fs, GoMap.get R c.hash = some fs ∧ fs ≠ []) (read0 : Str → Go Repo) :
    ∃ fullLog newLog, parseLog (logText (H.flatMap entries)) = .ok fullLog ∧ parseLog (logText (N.flatMap entries)) = .ok newLog ∧
      let full := run env0 {} read0 (Graph.newFromMap m0 order0) fullLog
      let out := run env { commitFromIncl := last } (checkpointRead gz (s.exec t).cp) (Graph.newFromMap m order) newLog
      full.fault = none ∧ out.fault = none ∧ out.sent.map (·.commit) = N.map (·.hash) ∧
      ∀ (i j : Nat) c, N[i]? = some c → H[j]? = some c → NoTypeChange H c →
        ∃ r r', out.sent[i]? = some r ∧ full.sent[j]? = some r' ∧ SameResult r' r := by
  obtain ⟨R', h1, h2⟩ := C33_checkpoint_restores hP hR ho hc hf hz ht hl
  refine C33_incremental_equals_full hfull hne hent hchain h1 ⟨hB, hN, hse, hset, hN0, ?_⟩ h2 read0
  intro c hcB hch
  obtain ⟨fs, h3, h4⟩ := hneed c hcB hch
  exact h1.complete _ fs h3 h4

/-! The example of `Ex.H`: a first run over `c1`, `c2` writes a checkpoint, with the blame of `f` shared by both commits; the next run
resumes at `c2`. -/

def exDiskMem : Mem where
  blame b := if b = 0 then { commit := b!"c1", lines := [0] } else { commit := b!"c2", lines := [1] }
  line l := if l = 0 then { line := b!"a", commit := b!"c1" } else { line := b!"x", commit := b!"c2" }
def exDiskRepo : PRepo := [(b!"c1", [(b!"f", 0)]), (b!"c2", [(b!"g", 1), (b!"f", 0)])]
/-- Stored without compression. -/
def exGzip : Gzip := ⟨id, some⟩

theorem exDisk_written : (run Ex.env {} (fun _ => .ok []) (Graph.newFromMap Ex.parents Ex.parents)
    (([Ex.c1, Ex.c2].flatMap Ex.entries).map LogEntry.meaning)).written = some (viewRepo exDiskMem exDiskRepo, b!"c2") := by rfl

theorem exDisk_meets : ∃ (P0 B N : History) (R : Repo) (t : List FSOp), Chain Ex.H Ex.blames Ex.env Ex.entries P0 R ∧ PRepo.WF exDiskRepo ∧
    viewRepo exDiskMem exDiskRepo = R ∧ WrOrder.Ok exOrd ∧ NoCollision exHash exDiskMem exDiskRepo ∧ RepoFits exDiskMem exDiskRepo ∧
    (∀ d, exGzip.openFile (exGzip.compress d) = some d) ∧ WriteTrace exGzip (writeRecords exHash exDiskMem exOrd exDiskRepo) b!"c2" {} t ∧
    (∀ c ∈ B, c ∈ P0) ∧ (∀ c ∈ N, c ∈ Ex.H) ∧ N ≠ [] ∧ Setting Ex.env (B ++ N) Ex.blames Ex.parents Ex.parents ∧
    (∀ c ∈ B, HasChildIn N c.hash → ∃ fs, GoMap.get R c.hash = some fs ∧ fs ≠ []) ∧ N = [Ex.c2, Ex.c3, Ex.c4, Ex.c5] := by
  have hsub : ∀ c ∈ [Ex.c1, Ex.c2], c ∈ Ex.H := by
    intro c hc
    simp only [List.mem_cons, List.not_mem_nil, or_false] at hc
    rcases hc with rfl | rfl <;> simp [Ex.H]
  have hok : History.Ok [] [Ex.c1, Ex.c2] := ⟨Ex.history_ok.1, Ex.history_ok.2.1, trivial⟩
  have hset : Setting Ex.env [Ex.c1, Ex.c2] Ex.blames Ex.parents Ex.parents :=
    ⟨isort_sortsHunks, fun _ _ _ => .refl _, hok, sub_blameWorks hok Ex.history_ok hsub Ex.blame_works, by decide, .refl _,
      fun c hc => Ex.setting.parents c (hsub c hc)⟩
  refine ⟨[Ex.c1, Ex.c2], [Ex.c1], [Ex.c2, Ex.c3, Ex.c4, Ex.c5], _, _, .first hsub ⟨rfl, rfl⟩ hset (by simp) exDisk_written, ?_, rfl, exOrd_ok, ?_, ?_,
    fun _ => rfl, ⟨{ loop := [], fin := fun k => [fileContent exGzip (writeRecords exHash exDiskMem exOrd exDiskRepo) k], version := [b!"c2"] }, [], [], ⟨by simp, by intro k _; simp, by simp⟩, .refl _, .refl _, rfl⟩,
    by simp, fun c hc => List.mem_cons_of_mem _ hc, by simp, Ex.setting, ?_, rfl⟩
  · refine ⟨by decide, ?_⟩
    intro c fs h
    have := GoMap.mem_of_get h
    simp only [exDiskRepo, List.mem_cons, List.not_mem_nil, or_false, Prod.mk.injEq] at this
    rcases this with ⟨_, rfl⟩ | ⟨_, rfl⟩ <;> decide
  · unfold NoCollision; decide
  · refine ⟨?_, by decide, by decide, by decide, by decide⟩
    intro c fs h
    have := GoMap.mem_of_get h
    simp only [exDiskRepo, List.mem_cons, List.not_mem_nil, or_false, Prod.mk.injEq] at this
    rcases this with ⟨rfl, rfl⟩ | ⟨rfl, rfl⟩ <;> decide
  · intro c hc _
    simp only [List.mem_singleton] at hc
    subst hc
    exact ⟨_, rfl, by decide⟩

end Ripsrc
