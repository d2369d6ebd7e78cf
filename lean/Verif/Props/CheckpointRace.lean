import Verif.Spec.CheckpointRace
import Verif.Props.CheckpointFS
/-!
# C81: two processes use a checkpoint directory at the same time
-/
namespace Ripsrc
open Spec

/-! ## Lemmas: reading at different moments -/

theorem readAt_const (gz : Gzip) (d : Option Dir) (e : Str) : readAt gz (fun _ => d) e = checkpointRead gz d e := rfl

/-- `readAt` looks at the version in the first directory, at `repo` in the second, and so on. -/
theorem readAt_congr {gz : Gzip} {a : Nat → Option Dir} {d : Dir} (h : ∀ i n, readOrder[i]? = some n → GoMap.get ((a i).getD []) n = GoMap.get d n) (e : Str) :
    readAt gz a e = checkpointRead gz (some d) e := by
  have h0 := h 0 b!"checkpoint-version" rfl
  have h1 := h 1 b!"repo" rfl
  have h2 := h 2 b!"blames" rfl
  have h3 := h 3 b!"lines" rfl
  have h4 := h 4 b!"line-data" rfl
  unfold readAt checkpointRead readFiles checkVersion openMsg versionFile
  simp only [Option.getD_some, h0, h1, h2, h3, h4]

/-- If a file is missing where it is looked for, the read fails, or it behaves as if it were some other thing. -/
theorem readAt_part {gz : Gzip} {a : Nat → Option Dir} {d : Dir}
    (h : ∀ i n, readOrder[i]? = some n → GoMap.get ((a i).getD []) n = none ∨ GoMap.get ((a i).getD []) n = GoMap.get d n) (e : Str) :
    readAt gz a e = checkpointRead gz (some d) e ∨ ReturnsError (readAt gz a e) := by
  have ho : ∀ i k, readOrder[i]? = some k → openMsg gz ((a i).getD []) k = openMsg gz d k ∨ ReturnsError (openMsg gz ((a i).getD []) k) := by
    intro i k hk
    unfold openMsg
    rcases h i k hk with hh | hh
    · right; rw [hh]; exact ⟨_, rfl⟩
    · left; rw [hh]
  unfold readAt checkpointRead readFiles
  refine bind_part ?_ (fun _ => bind_part (ho 1 _ rfl) (fun _ => bind_part (ho 2 _ rfl) (fun _ => bind_part (ho 3 _ rfl) (fun _ =>
      bind_part (ho 4 _ rfl) (fun _ => Or.inl rfl)))))
  unfold checkVersion
  split
  · left; rfl
  · rcases h 0 versionFile rfl with hv | hv
    · right; rw [hv]; exact ⟨_, rfl⟩
    · left; rw [Option.getD_some, hv]

theorem get_filterMap (f : Str → Option Str) (l : List Str) (n : Str) :
    GoMap.get (l.filterMap (fun x => (f x).map (fun y => (x, y)))) n = if n ∈ l then f n else none := by
  induction l with
  | nil => rfl
  | cons x l ih =>
    cases hx : f x with
    | none =>
      rw [List.filterMap_cons_none (by rw [hx]; rfl), ih]
      by_cases hn : n = x
      · subst hn
        rw [hx, if_pos List.mem_cons_self]
        split <;> rfl
      · simp [hn]
    | some y =>
      rw [List.filterMap_cons_some (b := (x, y)) (by rw [hx]; rfl)]
      by_cases hn : x = n
      · subst hn
        rw [if_pos List.mem_cons_self, hx]
        simp [GoMap.get]
      · have hn' : ¬ n = x := fun h => hn h.symm
        have : GoMap.get ((x, y) :: l.filterMap (fun x => (f x).map (fun y => (x, y)))) n = GoMap.get (l.filterMap (fun x => (f x).map (fun y => (x, y)))) n := by
          simp [GoMap.get, hn]
        rw [this, ih]
        simp [hn']

theorem mixture_exists (k : Nat) (old new : Dir) : ∃ d, Mixture k old new d := by
  refine ⟨_, fun i n hi => (get_filterMap (fun n => if readOrder.idxOf n < k then GoMap.get old n else GoMap.get new n) readOrder n).trans ?_⟩
  rw [if_pos (List.mem_of_getElem? hi)]
  have : readOrder.idxOf n = i := by
    match i, hi with
    | 0, hi => cases hi; rfl
    | 1, hi => cases hi; rfl
    | 2, hi => cases hi; rfl
    | 3, hi => cases hi; rfl
    | 4, hi => cases hi; rfl
    | i + 5, hi => simp [readOrder] at hi
  rw [this]

theorem readOrder_keys (gz : Gzip) (r : Records) (last n : Str) : n ∈ readOrder ↔ n ∈ GoMap.keys (checkpointDir gz r last) := by
  simp only [readOrder, checkpointDir, GoMap.keys, List.map_cons, List.map_nil, List.mem_cons, List.not_mem_nil, or_false]
  constructor
  · rintro (h | h | h | h | h) <;> simp [h]
  · rintro (h | h | h | h | h) <;> simp [h]

/-! ## A reader during a write -/

/-- **C81 (reading while a checkpoint is written).** Whatever the moments at which the files are opened, a read that overlaps with the writing of a checkpoint gives an error, or
what a read gives of a directory whose first `k` files (in the order in which they are opened) are the old ones and whose other files are the new ones. In particular it never sees an incomplete file. -/
theorem C81_read_during_write {gz : Gzip} {r : Records} {last : Str} {s : FS} {t : List FSOp} (h : WriteTrace gz r last s t) {n : Nat → Nat} (hn : Moments n) (e : Str) :
    ReturnsError (readAt gz (during s t n) e) ∨
    ∃ k d, Mixture k (s.cp.getD []) (checkpointDir gz r last) d ∧ readAt gz (during s t n) e = checkpointRead gz (some d) e := by
  -- the number of files that are opened before the end of the write
  obtain ⟨k, hk⟩ : ∃ k, ∀ i < 5, (i < k → n i < t.length) ∧ (¬ i < k → t.length ≤ n i) := by
    by_cases h0 : t.length ≤ n 0
    · exact ⟨0, fun i _ => ⟨fun hh => absurd hh (by omega), fun _ => Nat.le_trans h0 (hn 0 i (by omega))⟩⟩
    by_cases h1 : t.length ≤ n 1
    · refine ⟨1, fun i _ => ⟨fun hh => ?_, fun hh => Nat.le_trans h1 (hn 1 i (by omega))⟩⟩
      have := hn i 0 (by omega); omega
    by_cases h2 : t.length ≤ n 2
    · refine ⟨2, fun i _ => ⟨fun hh => ?_, fun hh => Nat.le_trans h2 (hn 2 i (by omega))⟩⟩
      have := hn i 1 (by omega); omega
    by_cases h3 : t.length ≤ n 3
    · refine ⟨3, fun i _ => ⟨fun hh => ?_, fun hh => Nat.le_trans h3 (hn 3 i (by omega))⟩⟩
      have := hn i 2 (by omega); omega
    by_cases h4 : t.length ≤ n 4
    · refine ⟨4, fun i _ => ⟨fun hh => ?_, fun hh => Nat.le_trans h4 (hn 4 i (by omega))⟩⟩
      have := hn i 3 (by omega); omega
    refine ⟨5, fun i _ => ⟨fun hh => ?_, fun hh => by omega⟩⟩
    have := hn i 4 (by omega); omega
  obtain ⟨d, hd⟩ := mixture_exists k (s.cp.getD []) (checkpointDir gz r last)
  have key : ∀ i m, readOrder[i]? = some m → GoMap.get ((during s t n i).getD []) m = none ∨ GoMap.get ((during s t n i).getD []) m = GoMap.get d m := by
    intro i m hm
    have hi : i < 5 := (List.getElem?_eq_some_iff.1 hm).1
    rw [hd i m hm]
    by_cases hik : i < k
    · rw [if_pos hik]
      have hlt := (hk i hi).1 hik
      rcases writeTrace_cut h (List.take_prefix (n i) t) with ⟨ht, _⟩ | hp
      · have := congrArg List.length ht
        rw [List.length_take] at this
        omega
      · exact hp m
    · rw [if_neg hik]
      right
      have hge := (hk i hi).2 hik
      rcases writeTrace_cut h (List.prefix_refl t) with ⟨_, d', hd', hg⟩ | hp
      · rw [during, List.take_of_length_le hge, hd']
        exact hg m ((readOrder_keys gz r last m).1 (List.mem_of_getElem? hm))
      · obtain ⟨ch, rm1, rm2, hch, h1, h2, rfl⟩ := h
        obtain ⟨d', hd', hg⟩ := body_get hch
        have hfull : s.exec (writeOps s ch rm1 rm2) = { tmp := none, cp := (bodyOps ch).foldl DirOp.run none } := by
          unfold writeOps
          rw [exec_append, exec_append, exec_append, exec_tmp, exec_tmp, exec_cp]
          simp only [removeAll_none h1, removeAll_none h2, hd']
          rfl
        rw [during, List.take_of_length_le hge, hfull]
        simp only [hd', Option.getD_some]
        exact hg m ((readOrder_keys gz r last m).1 (List.mem_of_getElem? hm))
  rcases readAt_part key e with hh | hh
  · exact Or.inr ⟨k, d, hd, hh⟩
  · exact Or.inl hh

/-- **C81 (a reader that expects the new commit).** While a checkpoint for `last` is written over one for another commit, a strict read for `last` gives an error or exactly the complete new checkpoint. -/
theorem C81_reader_for_new_commit {gz : Gzip} {r : Records} {last : Str} {s : FS} {t : List FSOp} (h : WriteTrace gz r last s t) (hl : last ≠ [])
    (hold : GoMap.get (s.cp.getD []) b!"checkpoint-version" ≠ some last) {n : Nat → Nat} (hn : Moments n) :
    ReturnsError (readAt gz (during s t n) last) ∨
    readAt gz (during s t n) last = checkpointRead gz (some (checkpointDir gz r last)) last := by
  rcases C81_read_during_write h hn last with hh | ⟨k, d, hd, hr⟩
  · exact Or.inl hh
  · by_cases hk : k = 0
    · subst hk
      right
      rw [hr]
      refine read_congr (fun m hm => ?_) last
      have hmem : m ∈ readOrder := by
        rcases hm with rfl | rfl | rfl | rfl | rfl <;> decide
      obtain ⟨i, hi⟩ := List.getElem?_of_mem hmem
      rw [hd i m hi, if_neg (by omega)]
    · left
      have hv : GoMap.get d versionFile = GoMap.get (s.cp.getD []) versionFile := by
        rw [hd 0 versionFile rfl, if_pos (by omega)]
      have hold : GoMap.get (s.cp.getD []) versionFile ≠ some last := hold
      rw [hr]
      unfold checkpointRead checkVersion
      rw [Option.getD_some, if_neg hl, hv]
      cases hg : GoMap.get (s.cp.getD []) versionFile with
      | none => exact ⟨_, rfl⟩
      | some v =>
        rw [hg] at hold
        simp only
        rw [if_neg (fun hh => hold (by rw [hh]))]
        exact ⟨_, rfl⟩

/-- A checkpoint for `c1` is replaced by one for `c2`. -/
example (gz : Gzip) (r r' : Records) : ∃ s t, s.cp = some (checkpointDir gz r b!"c1") ∧ WriteTrace gz r' b!"c2" s t ∧ GoMap.get (s.cp.getD []) b!"checkpoint-version" ≠ some b!"c2" ∧
    GoMap.get (s.cp.getD []) b!"checkpoint-version" = some b!"c1" ∧ Moments (fun i => 7 * i) :=
  ⟨{ cp := some (checkpointDir gz r b!"c1") }, _, rfl, ⟨{ loop := [], fin := fun k => [fileContent gz r' k], version := [b!"c2"] }, [], GoMap.keys (checkpointDir gz r b!"c1"),
    ⟨by simp, by intro k _; simp, by simp⟩, .refl _, .refl _, rfl⟩, by
      show GoMap.get (checkpointDir gz r b!"c1") b!"checkpoint-version" ≠ some b!"c2"
      rw [show GoMap.get (checkpointDir gz r b!"c1") b!"checkpoint-version" = some b!"c1" from rfl]
      decide, rfl, fun i j h => by dsimp only; omega⟩

/-- **C81 (every mixture can be read).** For every `k` there are moments at which a reader, overlapping with the write, gets the first `k` files of the old checkpoint and the others of the new one. -/
theorem C81_every_mixture {gz : Gzip} {r : Records} {last : Str} {s : FS} {t : List FSOp} (h : WriteTrace gz r last s t) (k : Nat) {d : Dir}
    (hd : Mixture k (s.cp.getD []) (checkpointDir gz r last) d) (e : Str) :
    ∃ n, Moments n ∧ readAt gz (during s t n) e = checkpointRead gz (some d) e := by
  refine ⟨fun i => if i < k then 0 else t.length, ?_, ?_⟩
  · intro i j hij
    dsimp only
    split <;> split <;> omega
  · refine readAt_congr (fun i m hm => ?_) e
    rw [hd i m hm]
    unfold during
    by_cases hik : i < k
    · simp only [hik, if_true, List.take_zero]
      rfl
    · simp only [hik, if_false, List.take_length]
      obtain ⟨ch, rm1, rm2, hch, h1, h2, rfl⟩ := h
      obtain ⟨d', hd', hg⟩ := body_get hch
      have hfull : s.exec (writeOps s ch rm1 rm2) = { tmp := none, cp := (bodyOps ch).foldl DirOp.run none } := by
        unfold writeOps
        rw [exec_append, exec_append, exec_append, exec_tmp, exec_tmp, exec_cp]
        simp only [removeAll_none h1, removeAll_none h2, hd']
        rfl
      rw [hfull]
      simp only [hd', Option.getD_some]
      exact hg m ((readOrder_keys gz r last m).1 (List.mem_of_getElem? hm))

/-- **C81 (the check of the version is not atomic with the read).** While a checkpoint of any records for any commit is written over a checkpoint for `v`, a strict read for `v` can give the
repository of the new checkpoint, without an error. -/
theorem C81_reader_for_old_commit {gz : Gzip} {r : Records} {last v : Str} {s : FS} {t : List FSOp} (h : WriteTrace gz r last s t)
    (hold : GoMap.get (s.cp.getD []) b!"checkpoint-version" = some v) :
    ∃ n, Moments n ∧ readAt gz (during s t n) v = checkpointRead gz (some (checkpointDir gz r last)) [] := by
  obtain ⟨d, hd⟩ := mixture_exists 1 (s.cp.getD []) (checkpointDir gz r last)
  obtain ⟨n, hn, hr⟩ := C81_every_mixture h 1 hd v
  refine ⟨n, hn, ?_⟩
  rw [hr]
  have hv : GoMap.get d versionFile = some v := by
    rw [hd 0 versionFile rfl, if_pos (by omega)]
    exact hold
  have hf : readFiles gz d = readFiles gz (checkpointDir gz r last) := by
    unfold readFiles openMsg
    rw [hd 1 b!"repo" rfl, hd 2 b!"blames" rfl, hd 3 b!"lines" rfl, hd 4 b!"line-data" rfl]
    rfl
  unfold checkpointRead checkVersion
  rw [Option.getD_some, Option.getD_some, hv, hf]
  by_cases hv0 : v = [] <;> simp [hv0]

/-- The records of a repository with one file: one row, and what the blame needs. -/
theorem writeRecords_one (hash : Str → UInt64) (mem : Mem) {ord : WrOrder} (ho : WrOrder.Ok ord) (c p : Str) (b : Nat) :
    writeRecords hash mem ord [(c, [(p, b)])] = (writeFile hash mem c {} p b).out := by
  have h1 : ord.commits [c] = [c] := List.perm_singleton.1 (ho.1 [c])
  have h2 : ord.files c [p] = [p] := List.perm_singleton.1 (ho.2 c [p])
  simp [writeRecords, GoMap.keys, GoMap.get, h1, h2]

theorem writeLine_rows (hash : Str → UInt64) (mem : Mem) (s : WrSt) (l : Nat) : (writeLine hash mem s l).1.out.rows = s.out.rows := by
  unfold writeLine
  split
  · rfl
  · dsimp only
    split <;> rfl

theorem writeLines_rows (hash : Str → UInt64) (mem : Mem) (ls : List Nat) : ∀ s, (writeLines hash mem s ls).1.out.rows = s.out.rows := by
  induction ls with
  | nil => intro s; rfl
  | cons l ls ih =>
    intro s
    show (writeLines hash mem (writeLine hash mem s l).1 ls).1.out.rows = _
    rw [ih, writeLine_rows]

theorem writeOne_rows (hash : Str → UInt64) (mem : Mem) {ord : WrOrder} (ho : WrOrder.Ok ord) (c p : Str) (b : Nat) :
    (writeRecords hash mem ord [(c, [(p, b)])]).rows = [{ commit := c, path := p, blamePointer := 1 }] := by
  rw [writeRecords_one hash mem ho]
  show (writeLines hash mem _ _).1.out.rows ++ _ = _
  rw [writeLines_rows]
  rfl

theorem writeOne_rest (hash : Str → UInt64) (mem : Mem) {ord : WrOrder} (ho : WrOrder.Ok ord) (c p c' p' : Str) (b : Nat) :
    (writeRecords hash mem ord [(c, [(p, b)])]).blames = (writeRecords hash mem ord [(c', [(p', b)])]).blames ∧
    (writeRecords hash mem ord [(c, [(p, b)])]).lines = (writeRecords hash mem ord [(c', [(p', b)])]).lines ∧
    (writeRecords hash mem ord [(c, [(p, b)])]).lineData = (writeRecords hash mem ord [(c', [(p', b)])]).lineData := by
  rw [writeRecords_one hash mem ho, writeRecords_one hash mem ho]
  exact ⟨rfl, rfl, rfl⟩

/-- **C81 (a wrong blame, without an error).** A checkpoint with one file `p` of a commit `c` is replaced by one with a file of another commit. A strict read for the commit of the old checkpoint can give,
without an error, a repository that has the file `p` in `c`, with the blame of the file of the new checkpoint. -/
theorem C81_wrong_blame {hash : Str → UInt64} {memA memB : Mem} {ordA ordB : WrOrder} (hoA : WrOrder.Ok ordA) (hoB : WrOrder.Ok ordB) {c p c' p' : Str} {a b : Nat}
    {gz : Gzip} (hz : ∀ d, gz.openFile (gz.compress d) = some d) (hc : NoCollision hash memB [(c', [(p', b)])]) (hf : RepoFits memB [(c', [(p', b)])])
    (hlc : c.length < 2 ^ 32) (hlp : p.length < 2 ^ 32) {v last : Str} {s : FS} {t : List FSOp}
    (hs : s.cp = some (checkpointDir gz (writeRecords hash memA ordA [(c, [(p, a)])]) v))
    (h : WriteTrace gz (writeRecords hash memB ordB [(c', [(p', b)])]) last s t) :
    ∃ n R', Moments n ∧ readAt gz (during s t n) v = .ok R' ∧ SameButEmpty [(c, [(p, viewBlame memB b)])] R' := by
  have hP : PRepo.WF [(c, [(p, b)])] := by
    refine ⟨by simp [GoMap.WF, GoMap.keys], ?_⟩
    intro x fs hx
    have := GoMap.mem_of_get hx
    simp only [List.mem_singleton, Prod.mk.injEq] at this
    rw [this.2]
    simp [GoMap.WF, GoMap.keys]
  have hf' : RepoFits memB [(c, [(p, b)])] := by
    refine ⟨?_, hf.blames, hf.lines, hf.blameCount, hf.lineCount⟩
    intro x fs hx
    have := GoMap.mem_of_get hx
    simp only [List.mem_singleton, Prod.mk.injEq] at this
    rw [this.1, this.2]
    exact ⟨hlc, by simpa [GoMap.keys] using hlp⟩
  obtain ⟨R', h1, h2⟩ := C31_round_trip hz hP hoB (show NoCollision hash memB [(c, [(p, b)])] from hc) hf' v v (Or.inr rfl)
  have hmix : Mixture 2 (s.cp.getD []) (checkpointDir gz (writeRecords hash memB ordB [(c', [(p', b)])]) last)
      (checkpointDir gz (writeRecords hash memB ordB [(c, [(p, b)])]) v) := by
    rw [hs]
    have hrows : (writeRecords hash memB ordB [(c, [(p, b)])]).rows = (writeRecords hash memA ordA [(c, [(p, a)])]).rows := by
      rw [writeOne_rows hash memB hoB, writeOne_rows hash memA hoA]
    obtain ⟨r1, r2, r3⟩ := writeOne_rest hash memB hoB c p c' p' b
    intro i n hi
    match i, hi with
    | 0, hi => cases hi; rfl
    | 1, hi =>
      cases hi
      show some (gz.compress (Records.streams _).rows) = some (gz.compress (Records.streams _).rows)
      unfold Records.streams
      dsimp only
      rw [hrows]
    | 2, hi =>
      cases hi
      show some (gz.compress (Records.streams _).blames) = some (gz.compress (Records.streams _).blames)
      unfold Records.streams
      dsimp only
      rw [r1]
    | 3, hi =>
      cases hi
      show some (gz.compress (Records.streams _).lines) = some (gz.compress (Records.streams _).lines)
      unfold Records.streams
      dsimp only
      rw [r2]
    | 4, hi =>
      cases hi
      show some (gz.compress (Records.streams _).lineData) = some (gz.compress (Records.streams _).lineData)
      unfold Records.streams
      dsimp only
      rw [r3]
    | i + 5, hi => simp [readOrder] at hi
  obtain ⟨n, hn, hr⟩ := C81_every_mixture h 2 hmix v
  exact ⟨n, R', hn, by rw [hr, h1], h2⟩

/-- All hypotheses are met: the file `f` of `c1`, with the line `a`, is read with the line `x` of the file `g` of `c2`. -/
example : ∃ (n : Nat → Nat) (R' : Repo) (s : FS) (t : List FSOp), s.cp = some (checkpointDir exGzip (writeRecords exHash exDiskMem exOrd [(b!"c1", [(b!"f", 0)])]) b!"c1") ∧
    WriteTrace exGzip (writeRecords exHash exDiskMem exOrd [(b!"c2", [(b!"g", 1)])]) b!"c2" s t ∧ Moments n ∧ readAt exGzip (during s t n) b!"c1" = .ok R' ∧
    SameButEmpty [(b!"c1", [(b!"f", { commit := b!"c2", lines := [{ line := b!"x", commit := b!"c2" }] })])] R' := by
  let s : FS := { cp := some (checkpointDir exGzip (writeRecords exHash exDiskMem exOrd [(b!"c1", [(b!"f", 0)])]) b!"c1") }
  have ht : ∃ t, WriteTrace exGzip (writeRecords exHash exDiskMem exOrd [(b!"c2", [(b!"g", 1)])]) b!"c2" s t :=
    ⟨_, { loop := [], fin := fun k => [fileContent exGzip (writeRecords exHash exDiskMem exOrd [(b!"c2", [(b!"g", 1)])]) k], version := [b!"c2"] },
      GoMap.keys (s.tmp.getD []), GoMap.keys (s.cp.getD []), ⟨by simp, by intro k _; simp, by simp⟩, .refl _, .refl _, rfl⟩
  obtain ⟨t, ht⟩ := ht
  obtain ⟨n, R', h1, h2, h3⟩ := C81_wrong_blame (c := b!"c1") (p := b!"f") exOrd_ok exOrd_ok (fun _ => rfl) (by unfold NoCollision; decide)
    ⟨by
      intro c fs h
      have := GoMap.mem_of_get h
      simp only [List.mem_singleton, Prod.mk.injEq] at this
      rw [this.1, this.2]
      decide, by decide, by decide, by decide, by decide⟩ (by decide) (by decide) rfl ht
  exact ⟨n, R', s, t, rfl, ht, h1, h2, h3⟩

/-! ## Two writers -/

/-- The operations on the four files, and on the version file. -/
def dataOps (ch : Chunks) : List DirOp :=
  kinds.flatMap (fun k => [.mkdir, .create (tmpName k)]) ++
  ch.loop.map (fun e => .append (tmpName e.1) e.2) ++
  kinds.flatMap (fun k => (ch.fin k).map (.append (tmpName k)) ++ [.rename (tmpName k) k])

def versionOps (ch : Chunks) : List DirOp :=
  [.create (tmpName versionFile)] ++ ch.version.map (.append (tmpName versionFile)) ++ [.rename (tmpName versionFile) versionFile]

theorem bodyOps_split (ch : Chunks) : bodyOps ch = dataOps ch ++ versionOps ch := rfl

/-- All operations in one directory succeed. -/
def DirSucceed : Option Dir → List DirOp → Prop
  | _, [] => True
  | d, o :: t => o.Succeeds d ∧ DirSucceed (o.run d) t

theorem dirSucceed_append (d : Option Dir) (a b : List DirOp) : DirSucceed d (a ++ b) ↔ DirSucceed d a ∧ DirSucceed (a.foldl DirOp.run d) b := by
  induction a generalizing d with
  | nil => simp [DirSucceed]
  | cons o a ih => simp only [List.cons_append, DirSucceed, ih, List.foldl_cons, and_assoc]

theorem dirSucceed_step {d d' : Option Dir} {a b : List DirOp} (h : DirSucceed d a) (e : a.foldl DirOp.run d = d') (hb : DirSucceed d' b) : DirSucceed d (a ++ b) :=
  (dirSucceed_append d a b).2 ⟨h, e ▸ hb⟩

theorem succeed_append (s : FS) (a b : List FSOp) : s.AllSucceed (a ++ b) ↔ s.AllSucceed a ∧ (s.exec a).AllSucceed b := by
  induction a generalizing s with
  | nil => simp [FS.AllSucceed, FS.exec]
  | cons o a ih => simp only [List.cons_append, FS.AllSucceed, ih, FS.exec, List.foldl_cons, and_assoc]

theorem succeed_tmp (s : FS) (ops : List DirOp) : s.AllSucceed (ops.map .tmp) ↔ DirSucceed s.tmp ops := by
  induction ops generalizing s with
  | nil => exact Iff.rfl
  | cons o ops ih => simp only [List.map_cons, FS.AllSucceed, DirSucceed, FSOp.Succeeds, ih, FSOp.run]

theorem succeed_cp (s : FS) (ops : List DirOp) : s.AllSucceed (ops.map .cp) ↔ DirSucceed s.cp ops := by
  induction ops generalizing s with
  | nil => exact Iff.rfl
  | cons o ops ih => simp only [List.map_cons, FS.AllSucceed, DirSucceed, FSOp.Succeeds, ih, FSOp.run]

theorem removeAll_succeeds {d : Option Dir} {names : List Str} (h : names.Perm (GoMap.keys (d.getD []))) : DirSucceed d (removeAllOps d names) := by
  cases d with
  | none => trivial
  | some d =>
    rw [removeAllOps, dirSucceed_append]
    constructor
    · have : ∀ (l : List Str) (d : Option Dir), DirSucceed d (l.map DirOp.unlink) := by
        intro l
        induction l with
        | nil => intro d; trivial
        | cons n l ih => intro d; exact ⟨trivial, ih _⟩
      exact this _ _
    · rw [unlink_all]
      have : d.filter (fun e => decide (e.1 ∉ names)) = [] := by
        rw [List.filter_eq_nil_iff]
        intro e he
        have : e.1 ∈ names := h.mem_iff.2 (List.mem_map_of_mem he)
        simp [this]
      rw [this]
      exact ⟨Or.inr rfl, trivial⟩

theorem appends_succeed (es : List (Str × Str)) (d : Dir) (h : ∀ e ∈ es, GoMap.get d e.1 ≠ none) :
    DirSucceed (some d) (es.map (fun e => DirOp.append e.1 e.2)) := by
  induction es generalizing d with
  | nil => trivial
  | cons e es ih =>
    have he := h e List.mem_cons_self
    refine ⟨he, ?_⟩
    cases hg : GoMap.get d e.1 with
    | none => exact absurd hg he
    | some c =>
      simp only [DirOp.run, hg]
      refine ih _ (fun e' he' => ?_)
      rw [GoMap.get_set]
      split
      · simp
      · exact h e' (List.mem_cons_of_mem _ he')

theorem finish_succeed {d : Dir} {k c : Str} (l : List Str) (hc : GoMap.get d (tmpName k) = some c) :
    DirSucceed (some d) (l.map (DirOp.append (tmpName k)) ++ [DirOp.rename (tmpName k) k]) := by
  obtain ⟨d1, h1, h2⟩ := appends_get (l.map (fun x => (tmpName k, x))) d
  have h3 := appends_succeed (l.map (fun x => (tmpName k, x))) d (by
    intro e he
    obtain ⟨x, _, rfl⟩ := List.mem_map.1 he
    rw [hc]; simp)
  rw [List.map_map] at h1 h3
  rw [dirSucceed_append]
  refine ⟨h3, ?_⟩
  have h1 : (l.map (DirOp.append (tmpName k))).foldl DirOp.run (some d) = some d1 := h1
  rw [h1]
  refine ⟨?_, trivial⟩
  show GoMap.get d1 (tmpName k) ≠ none
  rw [h2, hc]
  simp

/-- The four files, written to a new directory. -/
theorem data_get {ch : Chunks} {gz : Gzip} {r : Records} {last : Str} (h : ch.Ok gz r last) :
    DirSucceed none (dataOps ch) ∧ ∃ d, (dataOps ch).foldl DirOp.run none = some d ∧ ∀ k ∈ kinds, GoMap.get d k = some (fileContent gz r k) := by
  unfold dataOps
  obtain ⟨d1, e1, g1⟩ := appends_get (ch.loop.map (fun e => (tmpName e.1, e.2))) (kinds.map (fun k => (tmpName k, [])))
  have s1 := appends_succeed (ch.loop.map (fun e => (tmpName e.1, e.2))) (kinds.map (fun k => (tmpName k, []))) (by
    intro e he
    obtain ⟨x, hx, rfl⟩ := List.mem_map.1 he
    have hk := h.kinds x hx
    simp only [kinds, List.mem_cons, List.not_mem_nil, or_false] at hk
    dsimp only
    rcases hk with hk | hk | hk | hk <;> rw [hk] <;> decide)
  rw [List.map_map] at e1 s1
  have e1 : (ch.loop.map (fun e => DirOp.append (tmpName e.1) e.2)).foldl DirOp.run (some (kinds.map (fun k => (tmpName k, [])))) = some d1 := e1
  have s1 : DirSucceed (some (kinds.map (fun k => (tmpName k, [])))) (ch.loop.map (fun e => DirOp.append (tmpName e.1) e.2)) := s1
  have hk : ∀ k ∈ kinds, GoMap.get d1 (tmpName k) = some (pieces ch.loop k) := by
    intro k hk
    rw [g1, pieces_map tmpName (fun _ _ => tmpName_inj)]
    simp only [kinds, List.mem_cons, List.not_mem_nil, or_false] at hk
    rcases hk with rfl | rfl | rfl | rfl <;> simp [GoMap.get, kinds, tmpName]
  have hk2 := hk b!"repo" (by decide)
  obtain ⟨d2, e2, v2, g2⟩ := finish_get (ch.fin b!"repo") hk2
  have hk3 := (g2 (tmpName b!"blames") (by decide) (by decide)).trans (hk b!"blames" (by decide))
  obtain ⟨d3, e3, v3, g3⟩ := finish_get (d := d2) (ch.fin b!"blames") hk3
  have hk4 := (g3 (tmpName b!"lines") (by decide) (by decide)).trans ((g2 _ (by decide) (by decide)).trans (hk b!"lines" (by decide)))
  obtain ⟨d4, e4, v4, g4⟩ := finish_get (d := d3) (ch.fin b!"lines") hk4
  have hk5 := (g4 (tmpName b!"line-data") (by decide) (by decide)).trans
    ((g3 _ (by decide) (by decide)).trans ((g2 _ (by decide) (by decide)).trans (hk b!"line-data" (by decide))))
  obtain ⟨d5, e5, v5, g5⟩ := finish_get (d := d4) (ch.fin b!"line-data") hk5
  have hfin : (kinds.flatMap (fun k => (ch.fin k).map (DirOp.append (tmpName k)) ++ [DirOp.rename (tmpName k) k])) =
      ((ch.fin b!"repo").map (DirOp.append (tmpName b!"repo")) ++ [DirOp.rename (tmpName b!"repo") b!"repo"]) ++
      (((ch.fin b!"blames").map (DirOp.append (tmpName b!"blames")) ++ [DirOp.rename (tmpName b!"blames") b!"blames"]) ++
      (((ch.fin b!"lines").map (DirOp.append (tmpName b!"lines")) ++ [DirOp.rename (tmpName b!"lines") b!"lines"]) ++
      (((ch.fin b!"line-data").map (DirOp.append (tmpName b!"line-data")) ++ [DirOp.rename (tmpName b!"line-data") b!"line-data"]) ++ []))) := rfl
  refine ⟨?_, d5, ?_, ?_⟩
  · rw [List.append_assoc, hfin]
    refine dirSucceed_step ?_ created (dirSucceed_step s1 e1 (dirSucceed_step (finish_succeed _ hk2) e2 (dirSucceed_step (finish_succeed _ hk3) e3
      (dirSucceed_step (finish_succeed _ hk4) e4 (dirSucceed_step (finish_succeed _ hk5) e5 trivial)))))
    refine ⟨trivial, ?_, trivial, ?_, trivial, ?_, trivial, ?_, trivial⟩ <;> simp [DirOp.Succeeds, DirOp.run]
  · rw [List.append_assoc, List.foldl_append, created, List.foldl_append, e1, hfin, List.foldl_append, e2, List.foldl_append, e3, List.foldl_append, e4, List.foldl_append, e5]
    rfl
  · intro k hkk
    have hdata := h.data k hkk
    simp only [kinds, List.mem_cons, List.not_mem_nil, or_false] at hkk
    rcases hkk with rfl | rfl | rfl | rfl
    · rw [g5 _ (by decide) (by decide), g4 _ (by decide) (by decide), g3 _ (by decide) (by decide), v2]
      exact congrArg some hdata
    · rw [g5 _ (by decide) (by decide), g4 _ (by decide) (by decide), v3]
      exact congrArg some hdata
    · rw [g5 _ (by decide) (by decide), v4]
      exact congrArg some hdata
    · rw [v5]
      exact congrArg some hdata

/-- The version file, written to a directory that exists. -/
theorem version_get (ch : Chunks) (d : Dir) : DirSucceed (some d) (versionOps ch) ∧ ∃ d', (versionOps ch).foldl DirOp.run (some d) = some d' ∧
    GoMap.get d' versionFile = some ch.version.flatten ∧ ∀ x, x ≠ versionFile → x ≠ tmpName versionFile → GoMap.get d' x = GoMap.get d x := by
  have hc : GoMap.get (GoMap.set d (tmpName versionFile) []) (tmpName versionFile) = some [] := GoMap.get_set_self _ _ _
  obtain ⟨d6, e6, v6, g6⟩ := finish_get (k := versionFile) ch.version hc
  unfold versionOps
  refine ⟨?_, d6, ?_, v6, ?_⟩
  · rw [List.append_assoc]
    exact ⟨by simp [DirOp.Succeeds], finish_succeed ch.version hc⟩
  · rw [List.append_assoc, List.foldl_append]
    exact e6
  · intro x h1 h2
    rw [g6 x h1 h2, GoMap.get_set_ne _ _ (fun hh => h2 hh.symm)]

/-- **C81 (a single writer).** When nothing else works on the directory, every operation of the writer succeeds, whatever an earlier writer left there. -/
theorem C81_alone_succeeds {gz : Gzip} {r : Records} {last : Str} {s : FS} {t : List FSOp} (h : WriteTrace gz r last s t) : s.AllSucceed t := by
  obtain ⟨ch, rm1, rm2, hch, h1, h2, rfl⟩ := h
  obtain ⟨s1, d, hd, hg⟩ := data_get hch
  obtain ⟨s2, d', hd', _⟩ := version_get ch d
  have hb : (bodyOps ch).foldl DirOp.run none = some d' := by rw [bodyOps_split, List.foldl_append, hd, hd']
  have hx : s.exec ((removeAllOps s.tmp rm1).map .tmp ++ (bodyOps ch).map .tmp) = { s with tmp := some d' } := by
    rw [exec_append, exec_tmp, exec_tmp]
    simp only [removeAll_none h1, hb]
  have hy : s.exec ((removeAllOps s.tmp rm1).map .tmp ++ (bodyOps ch).map .tmp ++ (removeAllOps s.cp rm2).map .cp) = { tmp := some d', cp := none } := by
    rw [exec_append, hx, exec_cp]
    simp only [removeAll_none h2]
  unfold writeOps
  rw [succeed_append, hy, succeed_append, hx, succeed_cp, succeed_append, succeed_tmp, exec_tmp, succeed_tmp]
  refine ⟨⟨⟨removeAll_succeeds h1, ?_⟩, removeAll_succeeds h2⟩, ⟨by simp, Or.inl rfl⟩, trivial⟩
  simp only [removeAll_none h1]
  exact bodyOps_split ch ▸ dirSucceed_step s1 hd s2

/-- **C81 (two writers).** Two processes write checkpoints of any records for any commits to one directory. There is a schedule in which all operations of the first succeed, so that it reports success, and then a strict
read for its commit gives the repository of the other process, without an error; the next operation of the other process fails. -/
theorem C81_two_writers (gz : Gzip) (rA rB : Records) {lastA : Str} (hA : lastA ≠ []) (lastB : Str) (s : FS) :
    ∃ a1 a2 b1 b2, WriteTrace gz rA lastA s (a1 ++ a2) ∧ WriteTrace gz rB lastB (s.exec a1) (b1 ++ b2) ∧
      s.AllSucceed (a1 ++ b1 ++ a2) ∧
      checkpointRead gz (s.exec (a1 ++ b1 ++ a2)).cp lastA = checkpointRead gz (some (checkpointDir gz rB lastB)) [] ∧
      ∃ o b3, b2 = o :: b3 ∧ ¬ o.Succeeds (s.exec (a1 ++ b1 ++ a2)) := by
  let chA : Chunks := { loop := [], fin := fun k => [fileContent gz rA k], version := [lastA] }
  let chB : Chunks := { loop := [], fin := fun k => [fileContent gz rB k], version := [lastB] }
  have okA : chA.Ok gz rA lastA := ⟨by simp [chA], by intro k _; simp [chA], by simp [chA]⟩
  have okB : chB.Ok gz rB lastB := ⟨by simp [chB], by intro k _; simp [chB], by simp [chB]⟩
  obtain ⟨sA, dA, eA, gA⟩ := data_get okA
  obtain ⟨sB, dB, eB, gB⟩ := data_get okB
  obtain ⟨sV, dV, eV, vV, gV⟩ := version_get chA dB
  let a1 := (removeAllOps s.tmp (GoMap.keys (s.tmp.getD []))).map FSOp.tmp ++ (dataOps chA).map FSOp.tmp
  have ha1 : s.exec a1 = { s with tmp := some dA } := by
    simp only [a1]
    rw [exec_append, exec_tmp, exec_tmp]
    simp only [removeAll_none (List.Perm.refl _), eA]
  let s1 : FS := { s with tmp := some dA }
  let b1 := (removeAllOps s1.tmp (GoMap.keys (s1.tmp.getD []))).map FSOp.tmp ++ (dataOps chB).map FSOp.tmp
  have hb1 : s1.exec b1 = { s with tmp := some dB } := by
    simp only [b1]
    rw [exec_append, exec_tmp, exec_tmp]
    simp only [removeAll_none (List.Perm.refl _), eB]
    rfl
  let a2 := (versionOps chA).map FSOp.tmp ++ (removeAllOps s.cp (GoMap.keys (s.cp.getD []))).map FSOp.cp ++ [FSOp.install]
  let s2 : FS := { s with tmp := some dB }
  have ha2 : s2.exec a2 = { tmp := none, cp := some dV } := by
    simp only [a2]
    rw [exec_append, exec_append, exec_tmp, exec_cp]
    simp only [s2, eV, removeAll_none (List.Perm.refl _)]
    rfl
  have hend : s.exec (a1 ++ b1 ++ a2) = { tmp := none, cp := some dV } := by
    rw [exec_append s (a1 ++ b1) a2, exec_append s a1 b1, ha1]
    rw [show s1.exec b1 = s2 from hb1, ha2]
  refine ⟨a1, a2, b1, (versionOps chB).map FSOp.tmp ++ (removeAllOps s.cp (GoMap.keys (s.cp.getD []))).map FSOp.cp ++ [FSOp.install],
    ⟨chA, _, _, okA, .refl _, .refl _, ?_⟩, ⟨chB, GoMap.keys (s1.tmp.getD []), GoMap.keys (s.cp.getD []), okB, ?_, ?_, ?_⟩, ?_, ?_, ?_⟩
  · simp only [a1, a2, writeOps, bodyOps_split, List.map_append, List.append_assoc]
  · rw [ha1]
  · rw [ha1]
  · rw [ha1]
    simp only [b1, s1, writeOps, bodyOps_split, List.map_append, List.append_assoc]
  · rw [succeed_append s (a1 ++ b1) a2, succeed_append s a1 b1, exec_append s a1 b1, ha1, show s1.exec b1 = s2 from hb1]
    refine ⟨⟨?_, ?_⟩, ?_⟩
    · simp only [a1]
      rw [succeed_append, succeed_tmp, exec_tmp, succeed_tmp]
      simp only [removeAll_none (List.Perm.refl _)]
      exact ⟨removeAll_succeeds (.refl _), sA⟩
    · simp only [b1]
      rw [succeed_append, succeed_tmp, exec_tmp, succeed_tmp]
      have hr : (removeAllOps s1.tmp (GoMap.keys (s1.tmp.getD []))).foldl DirOp.run s1.tmp = none := removeAll_none (List.Perm.refl _)
      exact ⟨removeAll_succeeds (.refl _), by
        show DirSucceed ((removeAllOps s1.tmp (GoMap.keys (s1.tmp.getD []))).foldl DirOp.run s1.tmp) (dataOps chB)
        rw [hr]; exact sB⟩
    · simp only [a2]
      rw [succeed_append, succeed_append, succeed_tmp, succeed_cp, exec_append, exec_tmp, exec_cp]
      simp only [s2, eV, removeAll_none (List.Perm.refl _)]
      exact ⟨⟨sV, removeAll_succeeds (.refl _)⟩, ⟨by simp, Or.inl rfl⟩, trivial⟩
  · rw [hend]
    have hv : GoMap.get dV versionFile = some lastA := by rw [vV]; simp [chA]
    have hf : readFiles gz dV = readFiles gz (checkpointDir gz rB lastB) := by
      have hk : ∀ k ∈ kinds, openMsg gz dV k = openMsg gz (checkpointDir gz rB lastB) k := by
        intro k hk
        have h1 : GoMap.get dV k = some (fileContent gz rB k) := by
          rw [gV k, gB k hk]
          · simp only [kinds, List.mem_cons, List.not_mem_nil, or_false] at hk
            rcases hk with rfl | rfl | rfl | rfl <;> decide
          · simp only [kinds, List.mem_cons, List.not_mem_nil, or_false] at hk
            rcases hk with rfl | rfl | rfl | rfl <;> decide
        have h2 : GoMap.get (checkpointDir gz rB lastB) k = some (fileContent gz rB k) := by
          simp only [kinds, List.mem_cons, List.not_mem_nil, or_false] at hk
          rcases hk with rfl | rfl | rfl | rfl <;> rfl
        unfold openMsg
        rw [h1, h2]
      unfold readFiles
      rw [hk _ (by decide), hk _ (by decide), hk _ (by decide), hk _ (by decide)]
    unfold checkpointRead checkVersion
    simp only [Option.getD_some, if_neg hA, hv, if_true, hf]
  · refine ⟨.tmp (.create (tmpName versionFile)), _, rfl, ?_⟩
    rw [hend]
    simp [FSOp.Succeeds, DirOp.Succeeds]

end Ripsrc
