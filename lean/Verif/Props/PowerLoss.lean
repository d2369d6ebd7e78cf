import Verif.Spec.PowerLoss
import Verif.Lib.PowerLoss
import Verif.Lib.StaleGraph
import Verif.Props.ReadBack
import Verif.Props.CheckpointFS
/-!
# C90: a checkpoint after a loss of power
-/
namespace Ripsrc
open Spec

section
variable {hash : Str → UInt64} {mem : Mem} {ord : WrOrder} {P : PRepo}

/-- The writer names every record once. -/
theorem records_named (hP : PRepo.WF P) (ho : WrOrder.Ok ord) (hf : RepoFits mem P) :
    ((writeRecords hash mem ord P).rows.map (fun x : DRow => (x.commit, x.path))).Nodup ∧ ((writeRecords hash mem ord P).blames.map DBlame.pointer).Nodup ∧
    ((writeRecords hash mem ord P).lines.map DLine.pointer).Nodup ∧ ((writeRecords hash mem ord P).lineData.map DLineData.pointer).Nodup := by
  obtain ⟨bs, ls, hw⟩ := writeFiles_inv (visits ord P) (WInv.start (hash := hash) (mem := mem))
  rw [List.nil_append] at hw
  rw [writeRecords_visits]
  generalize (visits ord P).foldl (fun s v => writeFile hash mem v.1 s v.2.1 v.2.2) ({} : WrSt) = s at hw ⊢
  have hbs : ∀ b ∈ bs, b ∈ repoBlames P := by
    intro b hb
    obtain ⟨v, hv, rfl⟩ := hw.bsub b hb
    exact visit_blame ho hv
  have hls : ∀ l ∈ ls, l ∈ repoLines mem P := by
    intro l hl
    obtain ⟨b, hb, hl⟩ := hw.lsub l hl
    exact List.mem_flatMap.2 ⟨b, hbs b hb, hl⟩
  have hbl : bs.length < 2 ^ 64 - 1 := Nat.lt_of_le_of_lt (hw.idx.nodup.length_le_of_subset hbs) hf.blameCount
  have hll : ls.length < 2 ^ 64 - 1 := Nat.lt_of_le_of_lt (hw.line.idx.nodup.length_le_of_subset hls) hf.lineCount
  refine ⟨?_, ?_, ?_, hw.line.uniq⟩
  · rw [hw.rows, List.map_map]
    exact visits_nodup hP ho
  · rw [hw.blames, List.map_map]
    refine List.pairwise_map.2 (hw.idx.nodup.imp_of_mem ?_)
    intro a b ha hbm hab heq
    exact hab (hw.idx.inj hbl ha hbm heq)
  · rw [hw.line.lines, List.map_map]
    refine List.pairwise_map.2 (hw.line.idx.nodup.imp_of_mem ?_)
    intro a b ha hbm hab heq
    exact hab (hw.line.idx.inj hll ha hbm heq)

theorem lastNamed_take {α κ : Type} [DecidableEq κ] {name : α → κ} {l : List α} (h : (l.map name).Nodup) {n : Nat} {k : κ} {a : α} (ha : lastNamed name k (l.take n) = some a) :
    lastNamed name k l = some a := by
  obtain ⟨h1, h2⟩ := lastNamed_mem ha
  have h3 : a ∈ l := List.take_subset _ _ h1
  obtain ⟨b, hb⟩ := Option.isSome_iff_exists.1 ((lastNamed_isSome name k l).2 ⟨a, h3, h2⟩)
  obtain ⟨h4, h5⟩ := lastNamed_mem hb
  rw [hb, nodup_map_inj h h4 h3 (h5.trans h2.symm)]

theorem mapM_mono {α β : Type} {f g : α → Option β} (h : ∀ a b, f a = some b → g a = some b) : ∀ (l : List α) (v : List β), l.mapM f = some v → l.mapM g = some v
  | [], v, hv => by simpa using hv
  | a :: l, v, hv => by
    rw [List.mapM_cons] at hv ⊢
    cases hf : f a with
    | none => rw [hf] at hv; cases hv
    | some b =>
      rw [hf] at hv
      rw [h a b hf]
      cases hl : l.mapM f with
      | none => simp [hl] at hv
      | some w =>
        rw [mapM_mono h l w hl]
        simpa [hl] using hv

/-- A beginning of each of the four lists of records. -/
structure CutOf (r' r : Records) : Prop where
  rows : ∃ n, r'.rows = r.rows.take n
  blames : ∃ n, r'.blames = r.blames.take n
  lines : ∃ n, r'.lines = r.lines.take n
  lineData : ∃ n, r'.lineData = r.lineData.take n

theorem CutOf.file {r' r : Records} (h : CutOf r' r) (n1 : (r.rows.map (fun x : DRow => (x.commit, x.path))).Nodup) (n2 : (r.blames.map DBlame.pointer).Nodup)
    (n3 : (r.lines.map DLine.pointer).Nodup) (n4 : (r.lineData.map DLineData.pointer).Nodup) {c f : Str} {b : Blame} (hb : fileOf r' c f = some b) : fileOf r c f = some b := by
  have line : ∀ k v, lineOf r' k = some v → lineOf r k = some v := by
    intro k v hv
    unfold lineOf at hv ⊢
    obtain ⟨i, hi⟩ := h.lines
    obtain ⟨j, hj⟩ := h.lineData
    cases h1 : lastNamed DLine.pointer k r'.lines with
    | none => rw [h1] at hv; cases hv
    | some l =>
      rw [h1] at hv
      rw [hi] at h1
      rw [lastNamed_take n3 h1]
      simp only [bind, Option.bind] at hv ⊢
      cases h2 : lastNamed DLineData.pointer l.lineDataPointer r'.lineData with
      | none => rw [h2] at hv; cases hv
      | some d =>
        rw [h2] at hv
        rw [hj] at h2
        rw [lastNamed_take n4 h2]
        exact hv
  have blame : ∀ k v, blameOf r' k = some v → blameOf r k = some v := by
    intro k v hv
    unfold blameOf at hv ⊢
    obtain ⟨i, hi⟩ := h.blames
    cases h1 : lastNamed DBlame.pointer k r'.blames with
    | none => rw [h1] at hv; cases hv
    | some l =>
      rw [h1] at hv
      rw [hi] at h1
      rw [lastNamed_take n2 h1]
      simp only [bind, Option.bind] at hv ⊢
      cases h2 : l.linePointers.mapM (lineOf r') with
      | none => rw [h2] at hv; cases hv
      | some d =>
        rw [h2] at hv
        rw [mapM_mono line _ _ h2]
        exact hv
  unfold fileOf at hb ⊢
  obtain ⟨i, hi⟩ := h.rows
  cases h1 : lastNamed (fun x : DRow => (x.commit, x.path)) (c, f) r'.rows with
  | none => rw [h1] at hb; cases hb
  | some l =>
    rw [h1] at hb
    rw [hi] at h1
    rw [lastNamed_take n1 h1]
    exact blame _ _ hb

/-- Of each file at most a beginning. -/
def Cut (d d' : Dir) : Prop := ∀ n x x', GoMap.get d n = some x → GoMap.get d' n = some x' → x' <+: x

theorem open_torn {gz : Gzip} (hz : GzipStream gz) {d d' : Dir} (ht : Cut d d') {k data y : Str} (hk : GoMap.get d k = some (gz.compress data)) (ho : openMsg gz d' k = .ok y) : y <+: data := by
  unfold openMsg at ho
  cases h : GoMap.get d' k with
  | none => rw [h] at ho; cases ho
  | some x' =>
    rw [h] at ho
    simp only at ho
    cases h2 : gz.openFile x' with
    | none => rw [h2] at ho; cases ho
    | some z =>
      rw [h2] at ho
      cases ho
      exact hz.part _ _ _ (ht k _ _ hk h) h2

/-- What is read from a torn checkpoint, compared with what is read from the complete one. -/
theorem torn_part {gz : Gzip} (hz : GzipStream gz) (hP : PRepo.WF P) (ho : WrOrder.Ok ord) (hc : NoCollision hash mem P) (hf : RepoFits mem P) {last : Str} {d : Dir}
    (ht : Cut (checkpointDir gz (writeRecords hash mem ord P) last) d) {e : Str} {R' : Repo} (h : checkpointRead gz (some d) e = .ok R') : ∃ R, SameButEmpty (viewRepo mem P) R ∧ checkpointRead gz (some (checkpointDir gz (writeRecords hash mem ord P) last)) last = .ok R ∧ PartOfRepo R' R := by
  obtain ⟨R, hR, hsame⟩ := C31_round_trip hz.whole hP ho hc hf last last (.inr rfl)
  have hR0 := hR
  rw [read_dir hz.whole _ _ _ (.inr rfl)] at hR
  obtain ⟨s1, s2, s3, s4, _⟩ := records_read hP ho hc hf
  obtain ⟨n1, n2, n3, n4⟩ := records_named (hash := hash) hP ho hf
  generalize writeRecords hash mem ord P = w at *
  unfold checkpointRead at h
  obtain ⟨_, _, h⟩ := bind_ok h
  unfold readFiles at h
  obtain ⟨y1, o1, h⟩ := bind_ok h
  obtain ⟨y2, o2, h⟩ := bind_ok h
  obtain ⟨y3, o3, h⟩ := bind_ok h
  obtain ⟨y4, o4, h⟩ := bind_ok h
  rw [Option.getD_some] at o1 o2 o3 o4
  have p1 := open_torn hz ht (data := w.streams.rows) rfl o1
  have p2 := open_torn hz ht (data := w.streams.blames) rfl o2
  have p3 := open_torn hz ht (data := w.streams.lines) rfl o3
  have p4 := open_torn hz ht (data := w.streams.lineData) rfl o4
  have hcut : CutOf ({ rows := y1, blames := y2, lines := y3, lineData := y4 } : Streams).records w := by
    refine ⟨?_, ?_, ?_, ?_⟩
    · obtain ⟨k, _, hk, _⟩ := C37_rows w.rows s1 y1.length
      rw [← List.prefix_iff_eq_take.1 (show y1 <+: w.rows.flatMap DRow.encode from p1)] at hk
      exact ⟨k, hk⟩
    · obtain ⟨k, _, hk, _⟩ := C37_blames w.blames s2 y2.length
      rw [← List.prefix_iff_eq_take.1 (show y2 <+: w.blames.flatMap DBlame.encode from p2)] at hk
      exact ⟨k, hk⟩
    · obtain ⟨k, _, hk, _⟩ := C37_lines w.lines s3 y3.length
      rw [← List.prefix_iff_eq_take.1 (show y3 <+: w.lines.flatMap DLine.encode from p3)] at hk
      exact ⟨k, hk⟩
    · obtain ⟨k, _, hk, _⟩ := C37_line_data w.lineData s4 y4.length
      rw [← List.prefix_iff_eq_take.1 (show y4 <+: w.lineData.flatMap DLineData.encode from p4)] at hk
      exact ⟨k, hk⟩
  obtain ⟨q1, q2⟩ := C37_read_sound h
  obtain ⟨r1, r2⟩ := C37_read_sound hR
  have hw : w.streams.records = w := by
    unfold Streams.records Records.streams
    rw [C36_rows _ s1, C36_blames _ s2, C36_lines _ s3, C36_line_data _ s4]
  rw [hw] at r1 r2
  refine ⟨R, hsame, hR0, ?_⟩
  intro c fs' hfs'
  have hin : (GoMap.get R c).isSome := by
    rw [r2]
    obtain ⟨x, hx, hxc⟩ := (q2 c).1 (by rw [hfs']; rfl)
    obtain ⟨n, hn⟩ := hcut.rows
    rw [hn] at hx
    exact ⟨x, List.take_subset _ _ hx, hxc⟩
  obtain ⟨fsR, hfsR⟩ := Option.isSome_iff_exists.1 hin
  refine ⟨fsR, hfsR, fun f b hb => ?_⟩
  have h1 := q1 c f
  rw [hfs'] at h1
  have h2 := hcut.file n1 n2 n3 n4 (h1.symm.trans hb)
  have h3 := r1 c f
  rw [hfsR, h2] at h3
  exact h3

/-- **C90 (what is read).** Whatever a loss of power leaves of a checkpoint, reading it fails or returns a part of the repository that was written: files may be missing, but those that are there have their
lines with the right commits. -/
theorem C90_part {gz : Gzip} (hz : GzipStream gz) (hP : PRepo.WF P) (ho : WrOrder.Ok ord) (hc : NoCollision hash mem P) (hf : RepoFits mem P) {last : Str} {d : Dir}
    (ht : Torn (checkpointDir gz (writeRecords hash mem ord P) last) d) {e : Str} {R' : Repo} (h : checkpointRead gz (some d) e = .ok R') : PartOfRepo R' (viewRepo mem P) := by
  obtain ⟨R, hsame, _, hp⟩ := torn_part hz hP ho hc hf (fun n => (ht n).2) h
  intro c fs' hfs'
  obtain ⟨fsR, hfsR, hsub⟩ := hp c fs' hfs'
  obtain ⟨fs, hfs, _⟩ := (hsame.commits c).1 ⟨fsR, hfsR⟩
  refine ⟨fs, hfs, fun f b hb => ?_⟩
  rw [← hsame.files c fs fsR hfs hfsR f]
  exact hsub f b hb

/-- **C90 (the version).** A strict read succeeds only if the version file survived with the expected commit. (But the other files do not have to be there with it.) -/
theorem C90_version {gz : Gzip} {r : Records} {last : Str} {d : Dir} (ht : Torn (checkpointDir gz r last) d) {e : Str} (he : e ≠ []) {R' : Repo} (h : checkpointRead gz (some d) e = .ok R') :
    e <+: last := by
  unfold checkpointRead at h
  obtain ⟨_, hv, _⟩ := bind_ok h
  unfold checkVersion at hv
  rw [if_neg he, Option.getD_some] at hv
  cases hg : GoMap.get d versionFile with
  | none => rw [hg] at hv; cases hv
  | some v =>
    rw [hg] at hv
    simp only at hv
    split at hv
    · rename_i h1
      rw [← h1]
      exact (ht versionFile).2 _ _ rfl hg
    · cases hv

/-- **C90 (not noticed).** Of every checkpoint that was written completely a loss of power can leave a state that is read without an error, also strictly, as the repository without any commit: the names, the version and
the headers of the data files are there. -/
theorem C90_not_noticed {gz : Gzip} (hz : GzipStream gz) (r : Records) (last : Str) : ∃ d, Torn (checkpointDir gz r last) d ∧ ∀ e, e = [] ∨ e = last → checkpointRead gz (some d) e = .ok [] := by
  obtain ⟨x1, p1, o1⟩ := hz.header r.streams.rows
  obtain ⟨x2, p2, o2⟩ := hz.header r.streams.blames
  obtain ⟨x3, p3, o3⟩ := hz.header r.streams.lines
  obtain ⟨x4, p4, o4⟩ := hz.header r.streams.lineData
  refine ⟨[(b!"repo", x1), (b!"blames", x2), (b!"lines", x3), (b!"line-data", x4), (b!"checkpoint-version", last)], ?_, ?_⟩
  · intro n
    have key : ∀ (l l' : Dir), (l.map Prod.fst = l'.map Prod.fst) → (∀ (i : Nat) a b, l[i]? = some a → l'[i]? = some b → b.2 <+: a.2) →
        (GoMap.get l' n = none ↔ GoMap.get l n = none) ∧ ∀ x x', GoMap.get l n = some x → GoMap.get l' n = some x' → x' <+: x := by
      intro l
      induction l with
      | nil =>
        intro l' h _
        cases l' with
        | nil => exact ⟨Iff.rfl, fun x x' h => nomatch h⟩
        | cons a l' => simp at h
      | cons a l ih =>
        intro l' h hp
        cases l' with
        | nil => simp at h
        | cons b l' =>
          simp only [List.map_cons, List.cons.injEq] at h
          obtain ⟨k, v⟩ := a
          obtain ⟨k', v'⟩ := b
          obtain ⟨h1, h2⟩ := h
          simp only at h1
          subst h1
          by_cases hk : k = n
          · subst hk
            have e1 : ∀ (v : Str) (l : Dir), GoMap.get ((k, v) :: l) k = some v := fun v l => if_pos rfl
            rw [e1, e1]
            refine ⟨⟨fun h => (nomatch h), fun h => (nomatch h)⟩, ?_⟩
            rintro _ _ ⟨⟩ ⟨⟩
            exact hp 0 (k, v) (k, v') rfl rfl
          · have e1 : ∀ (v : Str) (l : Dir), GoMap.get ((k, v) :: l) n = GoMap.get l n := fun v l => if_neg hk
            rw [e1, e1]
            exact ih l' h2 (fun i a b ha hb => hp (i + 1) a b (by simpa using ha) (by simpa using hb))
    refine key _ _ rfl ?_
    intro i a b ha hb
    rcases i with _ | _ | _ | _ | _ | i <;> simp [checkpointDir] at ha hb <;> subst ha hb
    · exact p1
    · exact p2
    · exact p3
    · exact p4
    · exact List.prefix_refl _
  · intro e he
    have hv : checkVersion [(b!"repo", x1), (b!"blames", x2), (b!"lines", x3), (b!"line-data", x4), (b!"checkpoint-version", last)] e = .ok () := by
      unfold checkVersion
      rcases he with rfl | rfl
      · rfl
      · split
        · rfl
        · exact if_pos rfl
    have hm : ∀ (d : Dir) k x, GoMap.get d k = some x → gz.openFile x = some [] → openMsg gz d k = .ok [] := by
      intro d k x h1 h2
      unfold openMsg
      rw [h1]; simp only [h2]
    unfold checkpointRead readFiles
    rw [Option.getD_some, hv]
    show (openMsg gz _ b!"repo" >>= fun _ => _) = _
    rw [hm _ b!"repo" x1 rfl o1, hm _ b!"blames" x2 rfl o2, hm _ b!"lines" x3 rfl o3, hm _ b!"line-data" x4 rfl o4]
    have := readStreams_records (r := {}) (by simp) (by simp) (by simp) (by simp)
    exact this

end

/-! ## The next run -/

/-- A change that git prints is definite if it is understood without the old version or needs it. -/
theorem definite_of_change {f : FileChange} (hok : f.Ok) {o n : List Str} (ht : f.body.Takes o n) (h : f.Telling) : Definite f.norm.meaning := by
  obtain ⟨m1, m2, m3⟩ := meaning_norm f
  unfold Definite
  rw [m1, m2, m3]
  by_cases hp : f.kind.prev = []
  · exact .inr (.inr (.inl hp))
  by_cases hn : f.kind.next = []
  · exact .inr (.inl hn)
  rcases h with (h | h | h) | ⟨h, hb⟩ | h
  · exact absurd h hp
  · exact absurd h hn
  · exact .inl (by rw [h]; rfl)
  · exact .inr (.inr (.inr ⟨by rw [m3, hb]; rfl, by rw [m2]; exact hn, by rw [m1]; exact hp, .inl ⟨by rw [m1, m2]; exact h.2.2, mode_hunks hb⟩⟩))
  · have hbin : f.body.isBinary = false := by
      obtain ⟨cut, heads, hb, _⟩ := h
      rw [hb]; rfl
    exact .inr (.inr (.inr ⟨by rw [m3]; exact hbin, by rw [m2]; exact hn, by rw [m1]; exact hp, .inr (showsOld_hunk hok (next_not_delete hok hn) ht h)⟩))

/-- **C90 (linear histories).** A run that continues from a part of what was stored, over a log without merges: each commit that is processed is processed as it would be with the whole. The run fails and writes no checkpoint, with
the results of some of the first commits, or it gives the results of the run that continues from the whole, and writes a part of what that run writes. -/
theorem C90_linear {env : Env} (hsrt : SortsHunks env.srt) (hord : ∀ n k l, (env.order n k l).Perm l) {opts opts' : RunOpts} {read read' : Str → Go Repo} {g : Graph} {log : List LogCommit} {R R' : Repo}
    (hi : initCheckpoints opts read = .ok R) (hi' : initCheckpoints opts' read' = .ok R') (hp : PartOfRepo R' R)
    (hlin : ∀ e ∈ log, (g.parentsOf e.hash).length ≤ 1 ∧ e.hash ∉ g.parentsOf e.hash) (hdef : ∀ e ∈ log, ∀ ch ∈ e.changes, ∀ d, parseDiff ch = .ok d → Definite d) :
    let full := run env opts read g log
    let out := run env opts' read' g log
    (out.fault ≠ none ∧ out.written = none ∧ out.sent <+: full.sent) ∨
      (out.fault = none ∧ full.fault = none ∧ out.sent = full.sent ∧ (∀ W' last, out.written = some (W', last) → ∃ W, full.written = some (W, last) ∧ PartOfRepo W' W)) := by
  have h0 : PartRun ({ graph := g, repo := R' } : Proc) ({ graph := g, repo := R } : Proc) := ⟨rfl, rfl, rfl, rfl, rfl, rfl, rfl, hp⟩
  unfold run
  cases log with
  | nil => exact .inr ⟨rfl, rfl, rfl, fun _ _ h => nomatch h⟩
  | cons e es =>
    simp only [hi, hi']
    rcases h0.loop hsrt hord (e :: es) rfl (fun x hx => ⟨(hlin x hx).1, (hlin x hx).2, hdef x hx⟩) with ⟨t', w, h1, h2⟩ | ⟨t', t, h1, h2, h3⟩
    · rw [h1]
      refine .inl ⟨by simp, rfl, ?_⟩
      refine h2.trans ?_
      cases hl : Proc.loop env ({ graph := g, repo := R } : Proc) (e :: es) with
      | mk t f =>
        cases f with
        | some f => exact List.prefix_refl _
        | none =>
          simp only
          split
          · split
            · exact List.prefix_refl _
            · rename_i u hu
              exact loop_sent_finish hu
          · exact List.prefix_refl _
    · rw [h1, h2]
      simp only [h3.parts', h3.parts, List.length_nil, Nat.lt_irrefl, if_false, gt_iff_lt]
      refine .inr ⟨trivial, trivial, h3.sent, ?_⟩
      rintro W' last ⟨⟩
      exact ⟨_, by rw [h3.last], h3.repo⟩

/-- **C90 on disk.** As C33 on disk, but power was lost after the checkpoint had been written, and the directory `d` is what is left of it. The log of the next run has no merges, and every change in it tells of the old version or does not
need it. Then the run fails and writes no checkpoint, or it gives a result for every commit of its log. In both cases the results it gives are for the first commits of the log, each the result of a single run over the whole history. -/
theorem C90_on_disk {H : History} {G : Str → Str → List Str} {env0 env : Env} {entries : HCommit → List LogEntry} {m0 m : GoMap Str (List Str)}
    {order0 order : List (Str × List Str)} (hfull : Setting env0 H G m0 order0) (hne : H ≠ []) (hent : ∀ c ∈ H, Printed c (entries c))
    {P0 B N : History} {R : Repo} (hchain : Chain H G env0 entries P0 R)
    -- the checkpoint
    {hash : Str → UInt64} {mem : Mem} {ord : WrOrder} {P : PRepo} (hP : PRepo.WF P) (hR : viewRepo mem P = R) (ho : WrOrder.Ok ord)
    (hc : NoCollision hash mem P) (hf : RepoFits mem P) {gz : Gzip} (hz : GzipStream gz) {last : Str} (hl : last ≠ [])
    {s : FS} {t : List FSOp} (ht : WriteTrace gz (writeRecords hash mem ord P) last s t)
    -- the loss of power
    {d0 d : Dir} (hd0 : (s.exec t).cp = some d0) (htorn : Torn d0 d)
    -- the next run
    (hB : ∀ c ∈ B, c ∈ P0) (hN : ∀ c ∈ N, c ∈ H) (hN0 : N ≠ []) (hse : SameEnv env0 env) (hset : Setting env (B ++ N) G m order)
    (hneed : ∀ c ∈ B, HasChildIn N c.hash → ∃ fs, GoMap.get R c.hash = some fs ∧ fs ≠ [])
    (hlin : ∀ c ∈ N, c.parents.length ≤ 1) (htell : ∀ c ∈ N, ∀ cs ∈ c.diffs, ∀ f ∈ cs, f.Telling) (read0 : Str → Go Repo) :
    ∃ fullLog newLog, parseLog (logText (H.flatMap entries)) = .ok fullLog ∧ parseLog (logText (N.flatMap entries)) = .ok newLog ∧
      let full := run env0 {} read0 (Graph.newFromMap m0 order0) fullLog
      let out := run env { commitFromIncl := last } (checkpointRead gz (some d)) (Graph.newFromMap m order) newLog
      full.fault = none ∧ (out.fault ≠ none ∧ out.written = none ∨ out.fault = none ∧ out.sent.length = N.length) ∧ out.sent.map (·.commit) <+: N.map (·.hash) ∧
      ∀ (i j : Nat) c r, N[i]? = some c → H[j]? = some c → out.sent[i]? = some r → ∃ r', full.sent[j]? = some r' ∧ SameResult r' r := by
  obtain ⟨fullLog, newLog, h1, h2, h3, h4, h5, h6⟩ := C33_on_disk hfull hne hent hchain hP hR ho hc hf hz.whole hl ht hB hN hN0 hse hset hneed read0
  refine ⟨fullLog, newLog, h1, h2, ?_⟩
  have hcp : checkpointRead gz (s.exec t).cp = checkpointRead gz (some (checkpointDir gz (writeRecords hash mem ord P) last)) := funext (C35_completed ht)
  rw [hcp] at h4 h5 h6
  have hcut : Cut (checkpointDir gz (writeRecords hash mem ord P) last) d := by
    intro n x x' hx hx'
    obtain ⟨d1, e1, e2⟩ := completed_get ht
    rw [hd0] at e1
    cases e1
    exact (htorn n).2 _ _ (by rw [e2 n ((GoMap.get_isSome_iff _ _).1 (by rw [hx]; rfl))]; exact hx) hx'
  have hlog : LogOf N (N.flatMap entries) := log_of_entries N (fun c hc => hent c (hN c hc))
  have hnew : newLog = (N.flatMap entries).map LogEntry.meaning := by
    have := C11_log_parser _ (logOf_ok hlog)
    rw [h2] at this
    exact Except.ok.inj this
  have hreg : ∀ c ∈ N, NoTypeChange H c := fun c hc => .inl (hlin c hc)
  cases hr : checkpointRead gz (some d) last with
  | error e =>
    have hout : run env { commitFromIncl := last } (checkpointRead gz (some d)) (Graph.newFromMap m order) newLog = { sent := [], fault := some e, written := none } := by
      have hi : initCheckpoints { commitFromIncl := last } (checkpointRead gz (some d)) = .error e := by
        unfold initCheckpoints
        rw [if_neg hl]; exact hr
      have hnn : newLog ≠ [] := by
        rw [hnew]
        intro h0
        exact logOf_ne hlog hN0 (List.map_eq_nil_iff.1 h0)
      unfold run
      split
      · exact absurd rfl hnn
      · rw [hi]
    rw [hout]
    refine ⟨h3, .inl ⟨by simp, rfl⟩, List.nil_prefix, ?_⟩
    intro i j c r _ _ h
    simp at h
  | ok R' =>
    obtain ⟨R0, _, hR0, hpart⟩ := torn_part hz hP ho hc hf hcut hr
    have hi : initCheckpoints { commitFromIncl := last } (checkpointRead gz (some (checkpointDir gz (writeRecords hash mem ord P) last))) = .ok R0 := by
      unfold initCheckpoints
      rw [if_neg hl]; exact hR0
    have hi' : initCheckpoints { commitFromIncl := last } (checkpointRead gz (some d)) = .ok R' := by
      unfold initCheckpoints
      rw [if_neg hl]; exact hr
    have hgood : ∀ e ∈ newLog, ((Graph.newFromMap m order).parentsOf e.hash).length ≤ 1 ∧ e.hash ∉ (Graph.newFromMap m order).parentsOf e.hash ∧
        ∀ ch ∈ e.changes, ∀ x, parseDiff ch = .ok x → Definite x := by
      intro e he
      rw [hnew] at he
      obtain ⟨e', he', rfl⟩ := List.mem_map.1 he
      obtain ⟨c, hcN, hce⟩ := List.mem_flatMap.1 he'
      have hhash : e'.meaning.hash = c.hash := printed_hash (hent c (hN c hcN)) e' hce
      have hpar : (Graph.newFromMap m order).parentsOf e'.meaning.hash = c.parents := by
        unfold Graph.parentsOf
        rw [show (Graph.newFromMap m order).parents = m from rfl, hhash, hset.parents c (by simp [hcN])]
        rfl
      obtain ⟨before, after, hsplit⟩ := List.append_of_mem (hN c hcN)
      have hcok : c.Ok before := history_ok_at (r := after) (hsplit ▸ hfull.history)
      rw [hpar]
      refine ⟨hlin c hcN, ?_, ?_⟩
      · intro hmem
        obtain ⟨x, hx, hxe⟩ := hcok.parentsKnown _ hmem
        exact hcok.new x hx (hxe.trans hhash)
      · obtain ⟨css, l1, l2, l3, _⟩ := printed_lists hcok (hent c (hN c hcN))
        obtain ⟨i, hi⟩ := List.mem_iff_getElem?.1 hce
        have hil : i < css.length := by rw [← l1]; exact (List.getElem?_eq_some_iff.1 hi).1
        obtain ⟨_, hch⟩ := l2 i e' _ hi (List.getElem?_eq_getElem hil)
        intro ch hmem x hx
        obtain ⟨l, k1, k2, k3⟩ := changesOf_pairs hch
        rw [← k1] at hmem
        obtain ⟨y, hy, rfl⟩ := List.mem_map.1 hmem
        have hyx := k3 y hy
        rw [hx] at hyx
        cases hyx
        have hyc : y.2 ∈ css[i] := by rw [← k2]; exact List.mem_map_of_mem hy
        rcases l3 _ (List.getElem_mem hil) with hcs | hcs
        · obtain ⟨t, ht⟩ := diffs_describe hcok hcs
          exact definite_of_change (ht.ok _ hyc) (ht.body _ hyc) (htell c hcN _ hcs _ hyc)
        · rw [hcs] at hyc; cases hyc
    have hpre : ∀ (out full : RunOut), out.sent <+: full.sent → full.sent.map (·.commit) = N.map (·.hash) → out.sent.map (·.commit) <+: N.map (·.hash) := by
      intro out full h h'
      rw [← h']
      exact h.map _
    have hres : ∀ (out whole : RunOut), out.sent <+: whole.sent → ∀ (i : Nat) r, out.sent[i]? = some r → whole.sent[i]? = some r := by
      intro out whole h i r hr
      obtain ⟨u, hu⟩ := h
      rw [← hu, List.getElem?_append_left (List.getElem?_eq_some_iff.1 hr).1]
      exact hr
    have hlast : ∀ (out : RunOut), out.sent <+: (run env { commitFromIncl := last } (checkpointRead gz (some (checkpointDir gz (writeRecords hash mem ord P) last))) (Graph.newFromMap m order) newLog).sent →
        ∀ (i j : Nat) c r, N[i]? = some c → H[j]? = some c → out.sent[i]? = some r →
          ∃ r', (run env0 {} read0 (Graph.newFromMap m0 order0) fullLog).sent[j]? = some r' ∧ SameResult r' r := by
      intro out h i j c r hi hj hr
      obtain ⟨r1, r2, q1, q2, q3⟩ := h6 i j c hi hj (hreg c (List.mem_of_getElem? hi))
      rw [hres _ _ h i r hr] at q1
      cases q1
      exact ⟨r2, q2, q3⟩
    rcases C90_linear hset.sorts hset.orders hi hi' hpart (g := Graph.newFromMap m order) (log := newLog) (fun e he => ⟨(hgood e he).1, (hgood e he).2.1⟩) (fun e he => (hgood e he).2.2) with
      ⟨a1, a2, a3⟩ | ⟨a1, a2, a3, a4⟩
    · exact ⟨h3, .inl ⟨a1, a2⟩, hpre _ _ a3 h5, hlast _ a3⟩
    · refine ⟨h3, .inr ⟨a1, ?_⟩, hpre _ _ (by rw [a3]; exact List.prefix_refl _) h5, hlast _ (by rw [a3]; exact List.prefix_refl _)⟩
      rw [a3]
      have := congrArg List.length h5
      simpa using this

/-! ## Changes of the mode: not noticed -/

/-- What is done for a change of the mode of a file that is not stored for the parent. -/
theorem regAct_mode_lost {env : Env} (hsrt : SortsHunks env.srt) {h p : Str} {repo : Repo} {fs : Files} (hp : GoMap.get repo p = some fs) {f : FileChange} (hok : f.Ok) (hm : f.ModeOnly)
    (hn : f.kind.next ≠ []) (hlost : GoMap.get fs f.kind.next = none) : regAct env h [p] repo f.text = .ok (.both f.kind.next { commit := h, lines := [] }) := by
  have hb : f.body.isBinary = false := by rw [hm.2]; rfl
  have hh : f.meaning.hunks = [] := by
    unfold FileChange.meaning
    simp [hm.2, Body.hunks]
  have happ := apply_script env.srt hsrt ⟨[], []⟩ ⟨trivial, by simp [LinesOk]⟩ { commit := [], lines := [] } rfl rfl f.meaning hb (by rw [hh]; exact .refl _) h
  have hrb : renamedBinary repo [p] f.meaning = .ok none := by
    unfold renamedBinary
    rw [if_neg (fun h => h.2 hm.1)]
  have hpb : parentBlameOf repo [p] f.meaning = .ok none := by
    unfold parentBlameOf
    rw [if_neg (by rw [show f.meaning.pathPrev = f.kind.prev from rfl, hm.1]; exact hn)]
    show repo.getFileOptional p f.kind.prev = _
    unfold Repo.getFileOptional
    rw [hp, hm.1]
    simp only [hlost]
  unfold regAct
  rw [parse_change f hok]
  simp only [bind, Except.bind]
  rw [if_neg (by rw [show f.meaning.isBinary = f.body.isBinary from rfl, hb]; decide), if_neg (show ¬ f.meaning.path = [] from hn), hrb]
  simp only [hpb, newBlame, happ]
  rfl

/-- **C90 (a change of the mode: the loss is not noticed).** Let the checkpoint that is read have other files of the commit `p`, but not the file `f`. A commit on top of `p`, the first of the log, changes the mode of `f`. Then the
run does not fail at this commit, and its result has `f` as an empty text file, whatever its content is. -/
theorem C90_mode_not_noticed {env : Env} (hsrt : SortsHunks env.srt) (hord : ∀ n k l, (env.order n k l).Perm l) {opts : RunOpts} {read : Str → Go Repo} {R' : Repo} (hi : initCheckpoints opts read = .ok R') {g : Graph}
    {e : LogCommit} {p : Str} (hpar : g.parentsOf e.hash = [p]) (hself : p ≠ e.hash) {fs : Files} (hp : GoMap.get R' p = some fs) {f : FileChange} (hok : f.Ok) (hm : f.ModeOnly) (hch : e.changes = [f.text])
    (hlost : GoMap.get fs f.kind.next = none) (rest : List LogCommit) :
    (run env opts read g (e :: rest)).sent[0]? = some { commit := e.hash, files := [(f.kind.next, { commit := e.hash, lines := [] })] } := by
  have hn : f.kind.next ≠ [] := by
    intro h0
    obtain ⟨h1, _⟩ := hm
    have hk : f.kind.Ok := hok.1
    revert h0 h1 hk
    cases f.kind with
    | modify q => intro h0 _ hk; exact (NameOk.ne hk) h0
    | create q _ => intro h0 _ hk; exact (NameOk.ne hk.1) h0
    | delete q _ => intro h0 h1 hk; exact (NameOk.ne hk.1) h1
    | rename q _ => intro h0 _ hk; exact (NameOk.ne (.inl hk.2)) h0
    | copy q _ => intro h0 _ hk; exact (NameOk.ne hk.2.1) h0
  have hadd : GoMap.get (R'.addCommit e.hash) p = some fs := by rw [addCommit_same R' e.hash p hself]; exact hp
  have hput : (R'.addCommit e.hash).put e.hash f.kind.next { commit := e.hash, lines := [] } = .ok (GoMap.set (R'.addCommit e.hash) e.hash [(f.kind.next, { commit := e.hash, lines := [] })]) :=
    put_ok (addCommit_get R' e.hash) _ _
  have hproc : ∃ r, processRegularCommit env 0 R' e.hash [p] e.changes = .ok (r, { commit := e.hash, files := [(f.kind.next, { commit := e.hash, lines := [] })] }) := by
    obtain ⟨r, hr, _⟩ := copy_loop e.hash p hself [(f.kind.next, { commit := e.hash, lines := [] })] fs (env.order 0 0 (GoMap.keys fs))
      (GoMap.set (R'.addCommit e.hash) e.hash [(f.kind.next, { commit := e.hash, lines := [] })]) _ (GoMap.get_set_self _ _ _)
      (by rw [GoMap.get_set_ne _ _ (Ne.symm hself)]; exact hadd) (fun x hx => (hord 0 0 _).mem_iff.1 hx)
    refine ⟨r, ?_⟩
    unfold processRegularCommit
    rw [if_neg (by simp), hch]
    simp only [List.foldlM_cons, List.foldlM_nil, regularChange_eq, regAct_mode_lost hsrt hadd hok hm hn hlost, bind, Except.bind, Act.run, store, hput, pure, Except.pure]
    have hg : Repo.getCommitMust (GoMap.set (R'.addCommit e.hash) e.hash [(f.kind.next, { commit := e.hash, lines := [] })]) p = .ok fs := by
      unfold Repo.getCommitMust
      rw [GoMap.get_set_ne _ _ (Ne.symm hself), hadd]
    rw [hg]
    simp only
    rw [show GoMap.set ([] : Files) f.kind.next { commit := e.hash, lines := [] } = [(f.kind.next, { commit := e.hash, lines := [] })] from rfl, hr]
  obtain ⟨r, hr⟩ := hproc
  have hnew : ∃ s : Proc, ({ graph := g, repo := R' } : Proc).commit env e = (s, none) ∧ s.sent = [{ commit := e.hash, files := [(f.kind.next, { commit := e.hash, lines := [] })] }] := by
    have hpar' : ({ graph := g, repo := R' } : Proc).parents e.hash = [p] := hpar
    unfold Proc.commit
    rw [if_neg (by simp)]
    unfold Proc.newCommit
    rw [hpar', if_neg (by simp)]
    simp only [List.length_nil, hr, bind, Except.bind]
    exact ⟨_, rfl, by rw [(trim_same _ _).sent]; rfl⟩
  obtain ⟨s, hs, hsent⟩ := hnew
  have hpre := loop_sent_prefix (env := env) rest s
  rw [hsent] at hpre
  obtain ⟨u, hu⟩ := hpre
  unfold run
  simp only [hi, Proc.loop, hs]
  cases hl : s.loop env rest with
  | mk t o =>
    rw [hl] at hu
    cases o with
    | some x => simp only; rw [← hu]; rfl
    | none =>
      simp only
      split
      · split
        · rw [← hu]; rfl
        · rename_i v hv
          obtain ⟨w, hw⟩ := loop_sent_finish hv
          rw [← hw, ← hu]; rfl
      · rw [← hu]; rfl

/-- The hypotheses can be met: `d1` has the file `a` and lost `b`; `d2` makes `b` executable. -/
example : (run Ex.env { commitFromIncl := b!"d1" } (fun _ => .ok [(b!"d1", [(b!"a", { commit := b!"d1", lines := [{ line := b!"x", commit := b!"d1" }] })])])
    (Graph.newFromMap [(b!"d1", []), (b!"d2", [b!"d1"])] [(b!"d1", []), (b!"d2", [b!"d1"])]) [{ hash := b!"d2", changes := [(ExMode.chmodF b!"b").text] }]).sent[0]? =
      some { commit := b!"d2", files := [(b!"b", { commit := b!"d2", lines := [] })] } :=
  C90_mode_not_noticed isort_sortsHunks (fun _ _ _ => .refl _) (R' := [(b!"d1", [(b!"a", { commit := b!"d1", lines := [{ line := b!"x", commit := b!"d1" }] })])]) rfl (p := b!"d1") (by decide) (by decide) rfl
    (f := ExMode.chmodF b!"b") (ExMode.okM (.inl rfl)) ⟨rfl, rfl⟩ rfl (by decide) []

/-! ## With merges: not noticed -/

/-- `p1` and `p2` have the same file `f`, created independently, and `p2` has `g`. -/
def exTornMem : Mem where
  blame b := if b = 0 then { commit := b!"p1", lines := [0] } else if b = 1 then { commit := b!"p2", lines := [1] } else { commit := b!"p2", lines := [2] }
  line l := if l = 0 then { line := b!"a", commit := b!"p1" } else if l = 1 then { line := b!"x", commit := b!"p2" } else { line := b!"a", commit := b!"p2" }
def exTornRepo : PRepo := [(b!"p1", [(b!"f", 0)]), (b!"p2", [(b!"g", 1), (b!"f", 2)])]
def exTornOrd : WrOrder := ⟨id, fun _ => id⟩
/-- `m` merges `p1` and `p2`, `c` appends a line to `f`. -/
def exTornGraph : Graph := Graph.newFromMap [(b!"p1", []), (b!"p2", []), (b!"m", [b!"p1", b!"p2"]), (b!"c", [b!"m"])] [(b!"p1", []), (b!"p2", []), (b!"m", [b!"p1", b!"p2"]), (b!"c", [b!"m"])]
def exTornLog : List LogCommit :=
  [{ hash := b!"m", mergeDiffFrom := b!"p1", changes := [b!"diff --git a/g b/g\nnew file mode 100644\nindex 0000000..587be6b\n--- /dev/null\n+++ b/g\n@@ -0,0 +1 @@\n+x\n"] },
   { hash := b!"c", changes := [b!"diff --git a/f b/f\nindex 7898192..422c2b7 100644\n--- a/f\n+++ b/f\n@@ -1 +1,2 @@\n a\n+b\n"] }]
def exTornWritten : Records := writeRecords exHash exTornMem exTornOrd exTornRepo
/-- The last row, for `f` of `p2`, is lost. -/
def exTornDir : Dir := (checkpointDir exGzip exTornWritten b!"p2").map (fun e => if e.1 = b!"repo" then (e.1, (exTornWritten.rows.take 2).flatMap DRow.encode) else e)

theorem exGzip_stream : GzipStream exGzip :=
  ⟨fun _ => rfl, fun d x y h e => by cases e; exact h, fun d => ⟨[], List.nil_prefix, rfl⟩⟩

set_option maxRecDepth 100000 in
/-- **C90 (with merges the loss is not always noticed).** A loss of power that loses the last row of a checkpoint. The next run reads the rest strictly and does not fail, and reports a line of `f` as written in `p1`; with the whole checkpoint it
reports that it was written in `p2`. -/
theorem C90_merge_not_noticed : Torn (checkpointDir exGzip exTornWritten b!"p2") exTornDir ∧
    let whole := run Ex.env { commitFromIncl := b!"p2" } (checkpointRead exGzip (some (checkpointDir exGzip exTornWritten b!"p2"))) exTornGraph exTornLog
    let torn := run Ex.env { commitFromIncl := b!"p2" } (checkpointRead exGzip (some exTornDir)) exTornGraph exTornLog
    whole.fault.isNone ∧ torn.fault.isNone ∧
    whole.sent[1]? = some { commit := b!"c", files := [(b!"f", { commit := b!"c", lines := [{ line := b!"a", commit := b!"p2" }, { line := b!"b", commit := b!"c" }] })] } ∧
    torn.sent[1]? = some { commit := b!"c", files := [(b!"f", { commit := b!"c", lines := [{ line := b!"a", commit := b!"p1" }, { line := b!"b", commit := b!"c" }] })] } := by
  refine ⟨?_, by decide +kernel, by decide +kernel, by decide +kernel, by decide +kernel⟩
  have hk : ∀ n, n ∈ GoMap.keys exTornDir ↔ n ∈ GoMap.keys (checkpointDir exGzip exTornWritten b!"p2") := by
    have : GoMap.keys exTornDir = GoMap.keys (checkpointDir exGzip exTornWritten b!"p2") := by decide +kernel
    intro n; rw [this]
  intro n
  by_cases hn : n ∈ GoMap.keys (checkpointDir exGzip exTornWritten b!"p2")
  · have hall : ∀ n ∈ GoMap.keys (checkpointDir exGzip exTornWritten b!"p2"),
        (GoMap.get exTornDir n).isSome ∧ (GoMap.get (checkpointDir exGzip exTornWritten b!"p2") n).isSome ∧
        (GoMap.get exTornDir n).getD [] <+: (GoMap.get (checkpointDir exGzip exTornWritten b!"p2") n).getD [] := by decide +kernel
    obtain ⟨h1, h2, h3⟩ := hall n hn
    obtain ⟨a, ha⟩ := Option.isSome_iff_exists.1 h1
    obtain ⟨b, hb⟩ := Option.isSome_iff_exists.1 h2
    rw [ha, hb] at h3 ⊢
    refine ⟨⟨fun h => (nomatch h), fun h => (nomatch h)⟩, ?_⟩
    rintro _ _ ⟨⟩ ⟨⟩
    exact h3
  · have h1 : GoMap.get (checkpointDir exGzip exTornWritten b!"p2") n = none := Option.not_isSome_iff_eq_none.1 (fun h => hn ((GoMap.get_isSome_iff _ _).1 h))
    have h2 : GoMap.get exTornDir n = none := Option.not_isSome_iff_eq_none.1 (fun h => hn ((hk n).1 ((GoMap.get_isSome_iff _ _).1 h)))
    rw [h1, h2]
    exact ⟨Iff.rfl, fun x x' h => (nomatch h)⟩

/-! ### Examples -/

/-- The hypotheses of `C90_part` are met by the example, and the torn checkpoint can be read. -/
example : PRepo.WF exTornRepo ∧ WrOrder.Ok exTornOrd ∧ NoCollision exHash exTornMem exTornRepo ∧ RepoFits exTornMem exTornRepo ∧ (checkpointRead exGzip (some exTornDir) b!"p2").toOption.isSome := by
  refine ⟨⟨by decide, ?_⟩, ⟨fun l => .refl l, fun _ l => .refl l⟩, by unfold NoCollision; decide, ⟨?_, by decide, by decide, by decide, by decide⟩, by decide +kernel⟩
  · intro c fs h
    have := GoMap.mem_of_get h
    simp only [exTornRepo, List.mem_cons, List.not_mem_nil, or_false, Prod.mk.injEq] at this
    rcases this with ⟨_, rfl⟩ | ⟨_, rfl⟩ <;> decide
  · intro c fs h
    have := GoMap.mem_of_get h
    simp only [exTornRepo, List.mem_cons, List.not_mem_nil, or_false, Prod.mk.injEq] at this
    rcases this with ⟨rfl, rfl⟩ | ⟨rfl, rfl⟩ <;> decide

/-- The hypotheses of `C90_on_disk` about the next run: a first run over `c1`, `c2` of the history `Ex.H`, the next one over `c2`, `c3`. -/
example : ∃ (P0 B N : History) (R : Repo) (t : List FSOp) (d0 d : Dir), Chain Ex.H Ex.blames Ex.env Ex.entries P0 R ∧ PRepo.WF exDiskRepo ∧
    viewRepo exDiskMem exDiskRepo = R ∧ WrOrder.Ok exOrd ∧ NoCollision exHash exDiskMem exDiskRepo ∧ RepoFits exDiskMem exDiskRepo ∧
    GzipStream exGzip ∧ WriteTrace exGzip (writeRecords exHash exDiskMem exOrd exDiskRepo) b!"c2" {} t ∧ (({} : FS).exec t).cp = some d0 ∧ Torn d0 d ∧
    (∀ c ∈ B, c ∈ P0) ∧ (∀ c ∈ N, c ∈ Ex.H) ∧ N ≠ [] ∧ Setting Ex.env (B ++ N) Ex.blames Ex.parents Ex.parents ∧
    (∀ c ∈ B, HasChildIn N c.hash → ∃ fs, GoMap.get R c.hash = some fs ∧ fs ≠ []) ∧ (∀ c ∈ N, c.parents.length ≤ 1) ∧ (∀ c ∈ N, ∀ cs ∈ c.diffs, ∀ f ∈ cs, f.Telling) ∧
    N = [Ex.c2, Ex.c3] := by
  have hsub : ∀ c ∈ [Ex.c1, Ex.c2], c ∈ Ex.H := by
    intro c hc
    simp only [List.mem_cons, List.not_mem_nil, or_false] at hc
    rcases hc with rfl | rfl <;> simp [Ex.H]
  have hsub3 : ∀ c ∈ [Ex.c1, Ex.c2, Ex.c3], c ∈ Ex.H := by
    intro c hc
    simp only [List.mem_cons, List.not_mem_nil, or_false] at hc
    rcases hc with rfl | rfl | rfl <;> simp [Ex.H]
  have hok : History.Ok [] [Ex.c1, Ex.c2] := ⟨Ex.history_ok.1, Ex.history_ok.2.1, trivial⟩
  have hok3 : History.Ok [] [Ex.c1, Ex.c2, Ex.c3] := ⟨Ex.history_ok.1, Ex.history_ok.2.1, Ex.history_ok.2.2.1, trivial⟩
  have hset : Setting Ex.env [Ex.c1, Ex.c2] Ex.blames Ex.parents Ex.parents :=
    ⟨isort_sortsHunks, fun _ _ _ => .refl _, hok, sub_blameWorks hok Ex.history_ok hsub Ex.blame_works, by decide, .refl _,
      fun c hc => Ex.setting.parents c (hsub c hc)⟩
  have hset3 : Setting Ex.env [Ex.c1, Ex.c2, Ex.c3] Ex.blames Ex.parents Ex.parents :=
    ⟨isort_sortsHunks, fun _ _ _ => .refl _, hok3, sub_blameWorks hok3 Ex.history_ok hsub3 Ex.blame_works, by decide, .refl _,
      fun c hc => Ex.setting.parents c (hsub3 c hc)⟩
  obtain ⟨P0, B, N, R, t, a1, a2, a3, a4, a5, a6, a7, a8, a9, a10, a11, a12, a13, a14⟩ := exDisk_meets
  obtain ⟨d0, hd0, _⟩ := completed_get a8
  refine ⟨[Ex.c1, Ex.c2], [Ex.c1], [Ex.c2, Ex.c3], _, t, d0, d0, .first hsub ⟨rfl, rfl⟩ hset (by simp) exDisk_written, a2, rfl, a4, a5, a6, exGzip_stream, a8, hd0, ?_, by simp, ?_, by simp, hset3, ?_, ?_, ?_, rfl⟩
  · intro n
    refine ⟨Iff.rfl, fun x x' h h' => ?_⟩
    rw [h] at h'
    cases h'
    exact List.prefix_refl _
  · intro c hc
    exact hsub3 c (List.mem_cons_of_mem _ hc)
  · intro c hc _
    simp only [List.mem_singleton] at hc
    subst hc
    exact ⟨_, rfl, by decide⟩
  · intro c hc
    simp only [List.mem_cons, List.not_mem_nil, or_false] at hc
    rcases hc with rfl | rfl <;> decide
  · intro c hc cs hcs f hf
    simp only [List.mem_cons, List.not_mem_nil, or_false] at hc
    rcases hc with rfl | rfl
    · simp only [Ex.c2, List.mem_singleton] at hcs
      subst hcs
      simp only [List.mem_singleton] at hf
      subst hf
      exact .inl (.inl rfl)
    · simp only [Ex.c3, List.mem_singleton] at hcs
      subst hcs
      simp only [List.mem_singleton] at hf
      subst hf
      exact .inr (.inr ⟨_, _, rfl, _, List.mem_singleton.2 rfl, by decide⟩)

end Ripsrc
