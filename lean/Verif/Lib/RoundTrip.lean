import Verif.Lib.Checkpoint
import Verif.Spec.CheckpointFS
/-!
# Writing a checkpoint and reading it back
-/
namespace Ripsrc
open Spec

section
variable {hash : Str → UInt64} {mem : Mem} {ord : WrOrder} {P : PRepo}

/-- The files of a commit. -/
def filesOf (P : PRepo) (c : Str) : GoMap Str Nat := (GoMap.get P c).getD []

/-- The files in the order in which they are visited. -/
def visits (ord : WrOrder) (P : PRepo) : List Visit :=
  (ord.commits (GoMap.keys P)).flatMap (fun c => (ord.files c (GoMap.keys (filesOf P c))).map (fun f => (c, f, (GoMap.get (filesOf P c) f).getD 0)))

theorem writeRecords_visits : writeRecords hash mem ord P = ((visits ord P).foldl (fun s v => writeFile hash mem v.1 s v.2.1 v.2.2) ({} : WrSt)).out := by
  unfold writeRecords visits
  rw [List.foldl_flatMap]
  congr 2
  funext s c
  rw [List.foldl_map]
  rfl

theorem filesOf_wf (hP : PRepo.WF P) (c : Str) : GoMap.WF (filesOf P c) := by
  unfold filesOf
  cases h : GoMap.get P c with
  | none => exact GoMap.wf_nil
  | some fs => exact hP.2 c fs h

theorem visits_nodup (hP : PRepo.WF P) (ho : WrOrder.Ok ord) : ((visits ord P).map (fun v => (v.1, v.2.1))).Nodup := by
  unfold visits
  rw [List.map_flatMap]
  have hn : (ord.commits (GoMap.keys P)).Nodup := (ho.1 _).nodup_iff.2 hP.1
  generalize ord.commits (GoMap.keys P) = cs at hn
  induction cs with
  | nil => simp
  | cons c cs ih =>
    rw [List.nodup_cons] at hn
    rw [List.flatMap_cons]
    refine List.nodup_append.2 ⟨?_, ih hn.2, ?_⟩
    · rw [List.map_map]
      refine List.pairwise_map.2 (((ho.2 c _).nodup_iff.2 (filesOf_wf hP c)).imp ?_)
      intro a b hab heq
      exact hab (Prod.mk.inj heq).2
    · intro a ha b hb heq
      rw [List.map_map] at ha
      obtain ⟨f, _, rfl⟩ := List.mem_map.1 ha
      obtain ⟨c', hc', hb⟩ := List.mem_flatMap.1 hb
      rw [List.map_map] at hb
      obtain ⟨f', _, rfl⟩ := List.mem_map.1 hb
      have := (Prod.mk.inj heq).1
      simp only at this
      subst this
      exact hn.1 hc'

theorem mem_visits (ho : WrOrder.Ok ord) (c f : Str) (b : Nat) : (c, f, b) ∈ visits ord P ↔ ∃ fs, GoMap.get P c = some fs ∧ GoMap.get fs f = some b := by
  unfold visits
  rw [List.mem_flatMap]
  constructor
  · rintro ⟨c', _, hm⟩
    obtain ⟨f', hf', he⟩ := List.mem_map.1 hm
    injection he with e1 he
    injection he with e2 e3
    subst e1; subst e2
    have hf' := (ho.2 c' _).mem_iff.1 hf'
    rw [← GoMap.get_isSome_iff] at hf'
    unfold filesOf at hf' e3
    cases hg : GoMap.get P c' with
    | none => rw [hg] at hf'; simp at hf'
    | some fs =>
      rw [hg] at hf' e3
      obtain ⟨b', hb'⟩ := Option.isSome_iff_exists.1 hf'
      simp only [Option.getD_some] at hb' e3
      rw [hb'] at e3
      simp only [Option.getD_some] at e3
      exact ⟨fs, rfl, by rw [hb', e3]⟩
  · rintro ⟨fs, h1, h2⟩
    refine ⟨c, (ho.1 _).mem_iff.2 ((GoMap.get_isSome_iff _ _).1 (by rw [h1]; rfl)), List.mem_map.2 ⟨f, ?_, ?_⟩⟩
    · refine (ho.2 c _).mem_iff.2 ((GoMap.get_isSome_iff _ _).1 ?_)
      simp [filesOf, h1, h2]
    · simp [filesOf, h1, h2]

theorem visit_blame (ho : WrOrder.Ok ord) {v : Visit} (hv : v ∈ visits ord P) : v.2.2 ∈ repoBlames P := by
  obtain ⟨fs, h1, h2⟩ := (mem_visits ho v.1 v.2.1 v.2.2).1 hv
  exact List.mem_flatMap.2 ⟨_, GoMap.mem_of_get h1, List.mem_map.2 ⟨_, GoMap.mem_of_get h2, rfl⟩⟩

theorem view_get (mem : Mem) (P : PRepo) (c : Str) :
    GoMap.get (viewRepo mem P) c = (GoMap.get P c).map (fun fs => fs.map (fun f => (f.1, viewBlame mem f.2))) := by
  induction P with
  | nil => rfl
  | cons e P ih =>
    by_cases h : e.1 = c
    · simp [GoMap.get, viewRepo, h]
    · simpa [GoMap.get, viewRepo, h] using ih

theorem viewFiles_get (mem : Mem) (fs : GoMap Str Nat) (f : Str) :
    GoMap.get (fs.map (fun f => (f.1, viewBlame mem f.2))) f = (GoMap.get fs f).map (viewBlame mem) := by
  induction fs with
  | nil => rfl
  | cons e P ih =>
    by_cases h : e.1 = f
    · simp [GoMap.get, h]
    · simpa [GoMap.get, h] using ih

/-- What the records of a repository are, and what they are read back as. -/
theorem records_read (hP : PRepo.WF P) (ho : WrOrder.Ok ord) (hc : NoCollision hash mem P) (hf : RepoFits mem P) :
    (∀ r ∈ (writeRecords hash mem ord P).rows, DRow.Small r) ∧ (∀ r ∈ (writeRecords hash mem ord P).blames, DBlame.Small r) ∧
    (∀ r ∈ (writeRecords hash mem ord P).lines, DLine.Small r) ∧ (∀ r ∈ (writeRecords hash mem ord P).lineData, DLineData.Small r) ∧
    ∃ lm bm R', loadLines (loadLineData (writeRecords hash mem ord P).lineData) (writeRecords hash mem ord P).lines = .ok lm ∧
      loadBlames lm (writeRecords hash mem ord P).blames = .ok bm ∧ loadRows bm (writeRecords hash mem ord P).rows = .ok R' ∧
      SameButEmpty (viewRepo mem P) R' := by
  obtain ⟨bs, ls, hw⟩ := writeFiles_inv (visits ord P) (WInv.start (hash := hash) (mem := mem))
  rw [List.nil_append] at hw
  rw [writeRecords_visits]
  generalize (visits ord P).foldl (fun s v => writeFile hash mem v.1 s v.2.1 v.2.2) ({} : WrSt) = s at hw ⊢
  have hbs : ∀ b ∈ bs, b ∈ repoBlames P := by
    intro b hb
    obtain ⟨v, hv, rfl⟩ := hw.bsub b hb
    exact visit_blame ho hv
  have hls : ∀ l ∈ ls, l ∈ repoLines mem P := by
    intro l hl
    obtain ⟨b, hb, hl⟩ := hw.lsub l hl
    exact List.mem_flatMap.2 ⟨b, hbs b hb, hl⟩
  have hbl : bs.length < 2 ^ 64 - 1 := Nat.lt_of_le_of_lt (hw.idx.nodup.length_le_of_subset hbs) hf.blameCount
  have hll : ls.length < 2 ^ 64 - 1 := Nat.lt_of_le_of_lt (hw.line.idx.nodup.length_le_of_subset hls) hf.lineCount
  refine ⟨?_, ?_, ?_, ?_, ?_⟩
  · intro r hr
    rw [hw.rows] at hr
    obtain ⟨v, hv, rfl⟩ := List.mem_map.1 hr
    obtain ⟨fs, h1, h2⟩ := (mem_visits ho v.1 v.2.1 v.2.2).1 hv
    obtain ⟨h3, h4⟩ := hf.commits _ _ h1
    exact ⟨h3, h4 v.2.1 ((GoMap.get_isSome_iff _ _).1 (by rw [h2]; rfl))⟩
  · intro r hr
    rw [hw.blames] at hr
    obtain ⟨b, hb, rfl⟩ := List.mem_map.1 hr
    obtain ⟨h3, h4⟩ := hf.blames b (hbs b hb)
    exact ⟨h3, by simpa [blameRec] using h4⟩
  · intro r hr
    rw [hw.line.lines] at hr
    obtain ⟨l, hl, rfl⟩ := List.mem_map.1 hr
    exact (hf.lines l (hls l hl)).1
  · intro r hr
    obtain ⟨l, hl, rfl⟩ := hw.line.origin r hr
    exact (hf.lines l (hls l hl)).2
  · obtain ⟨lm, e1, g1⟩ := loadLines_ok hw.line hll (fun l hl l' hl' he => hc l (hls l hl) l' (hls l' hl') he)
    obtain ⟨bm, e2, g2⟩ := loadBlames_ok hw hbl g1
    refine ⟨lm, bm, _, e1, e2, loadRows_ok hw g2, ?_⟩
    obtain ⟨p1, p2⟩ := putRows_get (mem := mem) (visits ord P) (visits_nodup hP ho)
    refine ⟨?_, ?_⟩
    · intro c
      rw [view_get]
      constructor
      · rintro ⟨fs', hfs'⟩
        have : ¬ ∀ v ∈ visits ord P, v.1 ≠ c := by rw [← p1 c, hfs']; simp
        obtain ⟨v, hv⟩ := Classical.not_forall.1 this
        obtain ⟨hv, hvc⟩ := Classical.not_imp.1 hv
        have hvc := Classical.not_not.1 hvc
        obtain ⟨fs, h1, h2⟩ := (mem_visits ho v.1 v.2.1 v.2.2).1 hv
        rw [hvc] at h1
        refine ⟨_, by rw [h1]; rfl, ?_⟩
        intro hnil
        rw [List.map_eq_nil_iff.1 hnil] at h2
        cases h2
      · rintro ⟨fs, hfs, hne⟩
        obtain ⟨fs0, h1, rfl⟩ := Option.map_eq_some_iff.1 hfs
        cases fs0 with
        | nil => exact absurd rfl hne
        | cons e fs0 =>
          have hg : GoMap.get (e :: fs0) e.1 = some e.2 := by simp [GoMap.get]
          have hv := (mem_visits ho c e.1 e.2).2 ⟨_, h1, hg⟩
          cases hR : GoMap.get ((visits ord P).foldl (putRow mem) []) c with
          | some fs' => exact ⟨fs', rfl⟩
          | none => exact absurd rfl ((p1 c).1 hR _ hv)
    · intro c fs fs' hfs hfs' f
      rw [view_get] at hfs
      obtain ⟨fs0, h1, rfl⟩ := Option.map_eq_some_iff.1 hfs
      rw [viewFiles_get]
      obtain ⟨q1, q2⟩ := p2 c fs' hfs' f
      cases hg : GoMap.get fs0 f with
      | some b => exact q1 b ((mem_visits ho c f b).2 ⟨_, h1, hg⟩)
      | none =>
        refine q2 (fun b hb => ?_)
        obtain ⟨fs1, h2, h3⟩ := (mem_visits ho c f b).1 hb
        rw [h1] at h2; injection h2 with h2; subst h2
        rw [hg] at h3; cases h3

/-- The streams of small records are read back as the records. -/
theorem readStreams_records (r : Records) (h1 : ∀ x ∈ r.rows, DRow.Small x) (h2 : ∀ x ∈ r.blames, DBlame.Small x) (h3 : ∀ x ∈ r.lines, DLine.Small x)
    (h4 : ∀ x ∈ r.lineData, DLineData.Small x) :
    readStreams r.streams = (do
      let lines ← loadLines (loadLineData r.lineData) r.lines
      let blames ← loadBlames lines r.blames
      let repo ← loadRows blames r.rows
      .ok repo) := by
  unfold readStreams Records.streams
  simp only [row_type.stream _ h1, blame_type.stream _ h2, line_type.stream _ h3, lineData_type.stream _ h4]
  show (loadLines (loadLineData r.lineData) r.lines >>= fun lines => _) = _
  cases loadLines (loadLineData r.lineData) r.lines with
  | error e => rfl
  | ok lm =>
    show (loadBlames lm r.blames >>= fun lines => _) = (loadBlames lm r.blames >>= fun lines => _)
    cases loadBlames lm r.blames with
    | error e => rfl
    | ok bm => rfl

theorem read_dir {gz : Gzip} (hz : ∀ d, gz.openFile (gz.compress d) = some d) (r : Records) (last e : Str) (he : e = [] ∨ e = last) :
    checkpointRead gz (some (checkpointDir gz r last)) e = readStreams r.streams := by
  have hv : checkVersion (checkpointDir gz r last) e = .ok () := by
    unfold checkVersion
    rcases he with he | he
    · rw [if_pos he]
    · split
      · rfl
      · have : GoMap.get (checkpointDir gz r last) versionFile = some last := rfl
        rw [this, he]
        simp
  have ho : ∀ k c, GoMap.get (checkpointDir gz r last) k = some (gz.compress c) → openMsg gz (checkpointDir gz r last) k = .ok c := by
    intro k c hk
    rw [openMsg, hk]
    simp only [hz]
  unfold checkpointRead readFiles
  rw [Option.getD_some, hv]
  show (openMsg gz _ b!"repo" >>= fun _ => _) = _
  rw [ho b!"repo" r.streams.rows rfl, ho b!"blames" r.streams.blames rfl, ho b!"lines" r.streams.lines rfl, ho b!"line-data" r.streams.lineData rfl]
  rfl

end
end Ripsrc
