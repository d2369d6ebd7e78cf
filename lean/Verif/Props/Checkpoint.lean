import Verif.Lib.RoundTrip
import Verif.Lib.CheckpointFS
import Verif.Lib.RunLast
import Verif.Props.Resume
/-!
# C31, C32, C34 – C37: checkpoints
-/
namespace Ripsrc
open Spec

/-! ## C36 -/

/-- **C36.** Reading the concatenation of encoded records gives the records back and ends with `unexpected EOF`, for all records
whose strings and arrays have less than 2^32 elements. -/
theorem C36_rows (l : List DRow) (h : ∀ r ∈ l, DRow.Small r) : readAll DRow.decode (l.flatMap DRow.encode) = (l, true) := row_type.stream l h
theorem C36_blames (l : List DBlame) (h : ∀ r ∈ l, DBlame.Small r) : readAll DBlame.decode (l.flatMap DBlame.encode) = (l, true) := blame_type.stream l h
theorem C36_lines (l : List DLine) (h : ∀ r ∈ l, DLine.Small r) : readAll DLine.decode (l.flatMap DLine.encode) = (l, true) := line_type.stream l h
theorem C36_line_data (l : List DLineData) (h : ∀ r ∈ l, DLineData.Small r) : readAll DLineData.decode (l.flatMap DLineData.encode) = (l, true) :=
  lineData_type.stream l h

/-- Records with numbers of all sizes and a long string. -/
example : (∀ r ∈ [({ commit := b!"c", path := b!"f", blamePointer := 0 } : DRow), { commit := [], path := List.replicate 300 47, blamePointer := 0xffffffffffffffff }],
      DRow.Small r) ∧
    (∀ r ∈ [({ pointer := 300, commit := b!"c", linePointers := [1, 200, 70000, 0x100000000], isBinary := true } : DBlame)], DBlame.Small r) ∧
    (∀ r ∈ [({ pointer := 128, data := [0, 255, 10] } : DLineData)], DLineData.Small r) := by
  refine ⟨?_, ?_, ?_⟩
  · intro r hr
    simp only [List.mem_cons, List.not_mem_nil, or_false] at hr
    rcases hr with rfl | rfl
    · exact ⟨by decide, by decide⟩
    · exact ⟨by decide, by show List.length (List.replicate 300 _) < _; rw [List.length_replicate]; decide⟩
  · simp [DBlame.Small]
  · simp [DLineData.Small]

/-! ## C37 -/

/-- **C37.** A stream cut after any number of bytes is read as the records that are complete, then either silently ends or gives an
error; it is an error exactly if the first missing byte belongs to a value (not to a key or to the header of a record). -/
theorem C37_rows (l : List DRow) (h : ∀ r ∈ l, DRow.Small r) (n : Nat) : CutResult DRow.encode DRow.layout l n (readAll DRow.decode ((l.flatMap DRow.encode).take n)) :=
  row_type.cutResult l h n
theorem C37_blames (l : List DBlame) (h : ∀ r ∈ l, DBlame.Small r) (n : Nat) :
    CutResult DBlame.encode DBlame.layout l n (readAll DBlame.decode ((l.flatMap DBlame.encode).take n)) := blame_type.cutResult l h n
theorem C37_lines (l : List DLine) (h : ∀ r ∈ l, DLine.Small r) (n : Nat) :
    CutResult DLine.encode DLine.layout l n (readAll DLine.decode ((l.flatMap DLine.encode).take n)) := line_type.cutResult l h n
theorem C37_line_data (l : List DLineData) (h : ∀ r ∈ l, DLineData.Small r) (n : Nat) :
    CutResult DLineData.encode DLineData.layout l n (readAll DLineData.decode ((l.flatMap DLineData.encode).take n)) := lineData_type.cutResult l h n

/-- In a row for commit `c` and file `f` these cuts (positions of the first missing byte) are not noticed: before the record and in each of
the three keys. -/
example : ((flags (DRow.layout { commit := b!"c", path := b!"f", blamePointer := 1 })).zipIdx.filter (fun e => !e.1)).map (·.2) = [0, 1, 2, 5, 6, 9, 10, 11] := by
  decide

/-- Truncations are not always detected: when all the rows of a checkpoint but the first `k` are cut off, the checkpoint is read without
an error, with only the first `k` files. -/
theorem C37_truncation_undetected {hash : Str → UInt64} {mem : Mem} {ord : WrOrder} {P : PRepo} (hP : PRepo.WF P) (ho : WrOrder.Ok ord)
    (hc : NoCollision hash mem P) (hf : RepoFits mem P) (k : Nat) :
    ∃ R', readStreams { (writeRecords hash mem ord P).streams with rows := ((writeRecords hash mem ord P).rows.take k).flatMap DRow.encode } = .ok R' ∧
      ∀ c fs f b, GoMap.get R' c = some fs → GoMap.get fs f = some b → ∃ r ∈ (writeRecords hash mem ord P).rows.take k, r.commit = c ∧ r.path = f := by
  obtain ⟨s1, s2, s3, s4, lm, bm, R, e1, e2, e3, _⟩ := records_read hP ho hc hf
  generalize writeRecords hash mem ord P = w at *
  have hst : ({ w.streams with rows := (w.rows.take k).flatMap DRow.encode } : Streams) = ({ w with rows := w.rows.take k } : Records).streams := rfl
  have hall : ∀ r ∈ w.rows, ∃ bl, GoMap.get bm r.blamePointer = some bl := by
    have : ∀ (l : List DRow) (R0 R1 : Repo), l.foldlM (fun repo r => match GoMap.get bm r.blamePointer with
        | none => (.error (.panic "blame") : Go Repo)
        | some bl => .ok (GoMap.set repo r.commit (GoMap.set ((GoMap.get repo r.commit).getD []) r.path bl))) R0 = .ok R1 →
        ∀ r ∈ l, ∃ bl, GoMap.get bm r.blamePointer = some bl := by
      intro l
      induction l with
      | nil => simp
      | cons a l ih =>
        intro R0 R1 h r hr
        rw [List.foldlM_cons] at h
        cases hg : GoMap.get bm a.blamePointer with
        | none => rw [hg] at h; cases h
        | some bl =>
          rw [hg] at h
          rcases List.mem_cons.1 hr with rfl | hr
          · exact ⟨bl, hg⟩
          · exact ih _ _ h r hr
    exact this w.rows _ _ e3
  refine ⟨(w.rows.take k).foldl (fun repo r => GoMap.set repo r.commit (GoMap.set ((GoMap.get repo r.commit).getD []) r.path ((GoMap.get bm r.blamePointer).getD { commit := [], lines := [] }))) [], ?_, ?_⟩
  · refine (congrArg readStreams hst).trans ?_
    rw [readStreams_records { w with rows := w.rows.take k } (fun x hx => s1 x (List.take_subset _ _ hx)) s2 s3 s4]
    simp only [e1]
    show (loadBlames lm w.blames >>= fun blames => _) = _
    rw [e2]
    show (loadRows bm (w.rows.take k) >>= fun repo => _) = _
    have : loadRows bm (w.rows.take k) = _ := foldlM_pure (w.rows.take k) (g := fun repo r => GoMap.set repo r.commit
        (GoMap.set ((GoMap.get repo r.commit).getD []) r.path ((GoMap.get bm r.blamePointer).getD { commit := [], lines := [] }))) (by
      intro r hr R0
      obtain ⟨bl, hbl⟩ := hall r (List.take_subset _ _ hr)
      simp only [hbl, Option.getD_some]) []
    rw [this]
    rfl
  · generalize w.rows.take k = l
    have key : ∀ (l : List DRow) (R0 : Repo) c fs f b, GoMap.get (l.foldl (fun repo r => GoMap.set repo r.commit (GoMap.set ((GoMap.get repo r.commit).getD []) r.path
        ((GoMap.get bm r.blamePointer).getD { commit := [], lines := [] }))) R0) c = some fs → GoMap.get fs f = some b →
        (∃ r ∈ l, r.commit = c ∧ r.path = f) ∨ ∃ fs0, GoMap.get R0 c = some fs0 ∧ GoMap.get fs0 f = some b := by
      intro l
      induction l with
      | nil => intro R0 c fs f b h1 h2; exact Or.inr ⟨fs, h1, h2⟩
      | cons a l ih =>
        intro R0 c fs f b h1 h2
        rw [List.foldl_cons] at h1
        rcases ih _ c fs f b h1 h2 with ⟨r, hr, h⟩ | ⟨fs0, h3, h4⟩
        · exact Or.inl ⟨r, List.mem_cons_of_mem _ hr, h⟩
        · rw [GoMap.get_set] at h3
          by_cases hac : a.commit = c
          · rw [if_pos hac] at h3
            injection h3 with h3
            subst h3
            rw [GoMap.get_set] at h4
            by_cases haf : a.path = f
            · exact Or.inl ⟨a, by simp, hac, haf⟩
            · rw [if_neg haf, hac] at h4
              cases hg : GoMap.get R0 c with
              | none => rw [hg] at h4; simp at h4
              | some fs1 => rw [hg] at h4; exact Or.inr ⟨fs1, rfl, h4⟩
          · rw [if_neg hac] at h3
            exact Or.inr ⟨fs0, h3, h4⟩
    intro c fs f b h1 h2
    rcases key l [] c fs f b h1 h2 with h | ⟨fs0, h3, _⟩
    · exact h
    · cases h3

/-! ## C31 -/

/-- **C31.** Reading back a written checkpoint gives the same commits, but for those without files, with the same paths and the same
blames (commit, binary flag, lines with content and commit), whatever the sharing of blames and lines in memory and whatever the
order in which the writer visits the maps, provided no two different line contents have the same hash. The version is checked if an
expected commit is given. -/
theorem C31_round_trip {hash : Str → UInt64} {mem : Mem} {ord : WrOrder} {P : PRepo} {gz : Gzip} (hz : ∀ d, gz.openFile (gz.compress d) = some d)
    (hP : PRepo.WF P) (ho : WrOrder.Ok ord) (hc : NoCollision hash mem P) (hf : RepoFits mem P) (last e : Str) (he : e = [] ∨ e = last) :
    ∃ R', checkpointRead gz (some (checkpointDir gz (writeRecords hash mem ord P) last)) e = .ok R' ∧ SameButEmpty (viewRepo mem P) R' := by
  obtain ⟨s1, s2, s3, s4, lm, bm, R, e1, e2, e3, h⟩ := records_read hP ho hc hf
  refine ⟨R, ?_, h⟩
  rw [read_dir hz _ _ _ he, readStreams_records _ s1 s2 s3 s4, e1]
  show (loadBlames lm _ >>= fun blames => _) = _
  rw [e2]
  show (loadRows bm _ >>= fun blames => _) = _
  rw [e3]
  rfl

/-- What is read back is what a resumed run needs. -/
theorem Spec.SameButEmpty.restored {R R' : Repo} (h : SameButEmpty R R') : Restored R R' := by
  refine ⟨?_, ?_⟩
  · intro c fs' hc
    obtain ⟨fs, h1, _⟩ := (h.commits c).1 ⟨fs', hc⟩
    exact ⟨fs, h1, h.files c fs fs' h1 hc⟩
  · intro c fs hc hne
    exact (h.commits c).2 ⟨fs, hc, hne⟩

/-- Two commits share a blame, two blames share a line; two lines have the same content; one commit has no files. -/
def exPMem : Mem where
  blame b := if b = 0 then { commit := b!"c1", lines := [0, 1] } else if b = 1 then { commit := b!"c2", lines := [0, 2] } else { commit := b!"c2", lines := [], isBinary := true }
  line l := if l = 0 then { line := b!"a", commit := b!"c1" } else if l = 1 then { line := b!"b", commit := b!"c1" } else { line := b!"b", commit := b!"c2" }
def exPRepo : PRepo := [(b!"c1", [(b!"f", 0)]), (b!"c2", [(b!"f", 0), (b!"g", 1), (b!"h", 2)]), (b!"c3", [])]
/-- A hash that tells the contents apart. -/
def exHash (s : Str) : UInt64 := UInt64.ofNat (beVal s)
def exOrd : WrOrder := ⟨List.reverse, fun _ => id⟩

theorem exPRepo_wf : PRepo.WF exPRepo := by
  refine ⟨by decide, ?_⟩
  intro c fs h
  have := GoMap.mem_of_get h
  simp only [exPRepo, List.mem_cons, List.not_mem_nil, or_false, Prod.mk.injEq] at this
  rcases this with ⟨_, rfl⟩ | ⟨_, rfl⟩ | ⟨_, rfl⟩ <;> decide

theorem exOrd_ok : WrOrder.Ok exOrd := ⟨fun l => List.reverse_perm l, fun _ l => .refl l⟩

theorem exPRepo_fits : RepoFits exPMem exPRepo := by
  refine ⟨?_, by decide, by decide, by decide, by decide⟩
  intro c fs h
  have := GoMap.mem_of_get h
  simp only [exPRepo, List.mem_cons, List.not_mem_nil, or_false, Prod.mk.injEq] at this
  rcases this with ⟨rfl, rfl⟩ | ⟨rfl, rfl⟩ | ⟨rfl, rfl⟩ <;> decide

theorem exPRepo_noCollision : NoCollision exHash exPMem exPRepo := by unfold NoCollision; decide

/-- The hypotheses of C31 and C37 are met by this repository, in which four file entries are written with three blame records, and two lines
with two pieces of line data. -/
example : PRepo.WF exPRepo ∧ WrOrder.Ok exOrd ∧ NoCollision exHash exPMem exPRepo ∧ RepoFits exPMem exPRepo ∧
    (writeRecords exHash exPMem exOrd exPRepo).rows.length = 4 ∧ (writeRecords exHash exPMem exOrd exPRepo).blames.length = 3 ∧
    (writeRecords exHash exPMem exOrd exPRepo).lines.length = 3 ∧ (writeRecords exHash exPMem exOrd exPRepo).lineData.length = 2 :=
  ⟨exPRepo_wf, exOrd_ok, exPRepo_noCollision, exPRepo_fits, by decide, by decide, by decide, by decide⟩

/-! ## C32 -/

/-- **C32.** A commit without files is not in the repository that is read back. -/
theorem C32_empty_commit_lost {hash : Str → UInt64} {mem : Mem} {ord : WrOrder} {P : PRepo} {gz : Gzip} (hz : ∀ d, gz.openFile (gz.compress d) = some d)
    (hP : PRepo.WF P) (ho : WrOrder.Ok ord) (hc : NoCollision hash mem P) (hf : RepoFits mem P) (last : Str) {c : Str}
    (hempty : GoMap.get P c = some []) :
    ∃ R', checkpointRead gz (some (checkpointDir gz (writeRecords hash mem ord P) last)) last = .ok R' ∧ GoMap.get (viewRepo mem P) c = some [] ∧
      GoMap.get R' c = none := by
  obtain ⟨R', h1, h2⟩ := C31_round_trip hz hP ho hc hf last last (Or.inr rfl)
  have hv : GoMap.get (viewRepo mem P) c = some [] := by rw [view_get, hempty]; rfl
  refine ⟨R', h1, hv, ?_⟩
  cases hg : GoMap.get R' c with
  | none => rfl
  | some fs' =>
    obtain ⟨fs, h3, h4⟩ := (h2.commits c).1 ⟨fs', hg⟩
    rw [hv] at h3
    injection h3 with h3
    exact absurd h3.symm h4

theorem store_other {hash : Str} {st st' : Repo × Files} {p : Str} {bl : Blame} (h : store hash st p bl = .ok st') {q : Str} (hq : hash ≠ q) :
    GoMap.get st'.1 q = GoMap.get st.1 q := by
  unfold store Repo.put at h
  cases hg : GoMap.get st.1 hash with
  | none => rw [hg] at h; cases h
  | some fs =>
    rw [hg] at h
    cases h
    exact GoMap.get_set_ne _ _ hq

theorem regularChange_other {env : Env} {hash : Str} {parents : List Str} {st st' : Repo × Files} {ch : Str}
    (h : regularChange env hash parents st ch = .ok st') {q : Str} (hq : hash ≠ q) : GoMap.get st'.1 q = GoMap.get st.1 q := by
  unfold regularChange at h
  cases hd : parseDiff ch with
  | error e => rw [hd] at h; cases h
  | ok diff =>
    rw [hd] at h
    replace h : (if diff.isBinary then
        if diff.path = [] then (.ok (st.1, GoMap.set st.2 diff.pathPrev (blameBinaryFile hash)) : Go (Repo × Files))
        else store hash st diff.path (blameBinaryFile hash)
      else if diff.path = [] then .ok (st.1, GoMap.set st.2 diff.pathPrev { commit := hash, lines := [] })
      else (renamedBinary st.1 parents diff) >>= fun rb => match rb with
        | some pb => store hash st diff.path pb
        | none => (parentBlameOf st.1 parents diff) >>= fun pb => (newBlame env hash pb diff) >>= fun bl => store hash st diff.path bl) = .ok st' := h
    by_cases h1 : diff.isBinary = true
    · rw [if_pos h1] at h
      by_cases h2 : diff.path = []
      · rw [if_pos h2] at h; cases h; rfl
      · rw [if_neg h2] at h; exact store_other h hq
    · rw [if_neg h1] at h
      by_cases h2 : diff.path = []
      · rw [if_pos h2] at h; cases h; rfl
      · rw [if_neg h2] at h
        cases hr : renamedBinary st.1 parents diff with
        | error e => rw [hr] at h; cases h
        | ok rb =>
          rw [hr] at h
          cases rb with
          | some pb => exact store_other h hq
          | none =>
            replace h : ((parentBlameOf st.1 parents diff) >>= fun pb => (newBlame env hash pb diff) >>= fun bl => store hash st diff.path bl) = .ok st' := h
            cases hp : parentBlameOf st.1 parents diff with
            | error e => rw [hp] at h; cases h
            | ok pb =>
              rw [hp] at h
              replace h : ((newBlame env hash pb diff) >>= fun bl => store hash st diff.path bl) = .ok st' := h
              cases hn : newBlame env hash pb diff with
              | error e => rw [hn] at h; cases h
              | ok bl => rw [hn] at h; exact store_other h hq

theorem foldlM_other {env : Env} {hash : Str} {parents : List Str} (chs : List Str) {st st' : Repo × Files}
    (h : chs.foldlM (regularChange env hash parents) st = .ok st') {q : Str} (hq : hash ≠ q) : GoMap.get st'.1 q = GoMap.get st.1 q := by
  induction chs generalizing st with
  | nil => cases h; rfl
  | cons ch chs ih =>
    rw [List.foldlM_cons] at h
    cases hc : regularChange env hash parents st ch with
    | error e => rw [hc] at h; cases h
    | ok st1 =>
      rw [hc] at h
      rw [ih h, regularChange_other hc hq]

/-- A run whose first commit is a child of a commit that was lost fails without a result, whatever the commit changes. -/
theorem C32_child_of_lost_commit_fails {env : Env} {opts : RunOpts} {read : Str → Go Repo} {g : Graph} {e : LogCommit} {es : List LogCommit} {R' : Repo}
    {p : Str} (hinit : initCheckpoints opts read = .ok R') (hlost : GoMap.get R' p = none) (hpar : g.parentsOf e.hash = [p]) (hne : e.hash ≠ p) :
    let out := run env opts read g (e :: es)
    out.sent = [] ∧ (∃ x, out.fault = some x) ∧ out.written = none := by
  intro out
  have hreg : ∃ x, processRegularCommit env 0 R' e.hash [p] e.changes = .error x := by
    unfold processRegularCommit
    rw [if_neg (by simp)]
    cases hf : e.changes.foldlM (regularChange env e.hash [p]) (R'.addCommit e.hash, []) with
    | error x => exact ⟨x, rfl⟩
    | ok st =>
      have h1 := foldlM_other _ hf hne
      refine ⟨.panic "commit not found", ?_⟩
      show (st.1.getCommitMust p >>= fun files => _) = _
      have : st.1.getCommitMust p = .error (.panic "commit not found") := by
        unfold Repo.getCommitMust
        rw [h1, Repo.addCommit, GoMap.get_set_ne _ _ hne, hlost]
      rw [this]
      rfl
  obtain ⟨x, hx⟩ := hreg
  have hp : Proc.parents ({ graph := g, repo := R' } : Proc) e.hash = [p] := hpar
  have hn : Proc.newCommit env ({ graph := g, repo := R' } : Proc) e = .error x := by
    unfold Proc.newCommit
    rw [hp, if_neg (by simp)]
    simp only [List.length_nil, hx]
    rfl
  have hl : Proc.loop env ({ graph := g, repo := R' } : Proc) (e :: es) = ({ graph := g, repo := R' }, some x) := by
    simp only [Proc.loop, Proc.commit, List.length_nil, Nat.lt_irrefl, gt_iff_lt, if_false, hn]
  have ho : out = { sent := [], fault := some x, written := none } := by
    show run env opts read g (e :: es) = _
    simp only [run, hinit, hl]
  rw [ho]
  exact ⟨rfl, ⟨x, rfl⟩, rfl⟩

/-- Steps in writing a file of two lines with the same hash `h`, the first of which is `a`. -/
def collideSt1 (h : UInt64) (a : Str) : WrSt where
  blamePointerC := 1
  blamePointers := [(0, 1)]
  linePointerC := 1
  linePointers := [(0, 1)]
  lineData := [(h, true)]
  out := { lines := [{ pointer := 1, commit := b!"c", lineDataPointer := h }], lineData := [{ pointer := h, data := a }] }
def collideSt2 (h : UInt64) (a : Str) : WrSt where
  blamePointerC := 1
  blamePointers := [(0, 1)]
  linePointerC := 2
  linePointers := [(0, 1), (1, 2)]
  lineData := [(h, true)]
  out := { lines := [{ pointer := 1, commit := b!"c", lineDataPointer := h }, { pointer := 2, commit := b!"c", lineDataPointer := h }], lineData := [{ pointer := h, data := a }] }
def collideRec (h : UInt64) (a : Str) : Records where
  rows := [{ commit := b!"c", path := b!"f", blamePointer := 1 }]
  blames := [{ pointer := 1, commit := b!"c", linePointers := [1, 2] }]
  lines := [{ pointer := 1, commit := b!"c", lineDataPointer := h }, { pointer := 2, commit := b!"c", lineDataPointer := h }]
  lineData := [{ pointer := h, data := a }]

/-- Two lines with the same hash come back with the same content. -/
theorem C32_collision_corrupts {hash : Str → UInt64} {a b : Str} (hab : hash a = hash b) (ha : a.length < 2 ^ 32) (gz : Gzip)
    (hz : ∀ d, gz.openFile (gz.compress d) = some d) (ord : WrOrder) (ho : WrOrder.Ok ord) :
    let mem : Mem := ⟨fun _ => { commit := b!"c", lines := [0, 1] }, fun l => { line := if l = 0 then a else b, commit := b!"c" }⟩
    let P : PRepo := [(b!"c", [(b!"f", 0)])]
    viewRepo mem P = [(b!"c", [(b!"f", { commit := b!"c", lines := [{ line := a, commit := b!"c" }, { line := b, commit := b!"c" }] })])] ∧
    checkpointRead gz (some (checkpointDir gz (writeRecords hash mem ord P) b!"c")) b!"c" =
      .ok [(b!"c", [(b!"f", { commit := b!"c", lines := [{ line := a, commit := b!"c" }, { line := a, commit := b!"c" }] })])] := by
  intro mem P
  refine ⟨rfl, ?_⟩
  have h1 : ord.commits [b!"c"] = [b!"c"] := List.perm_singleton.1 (ho.1 _)
  have h2 : ord.files b!"c" [b!"f"] = [b!"f"] := List.perm_singleton.1 (ho.2 _ _)
  have hw : writeRecords hash mem ord P = collideRec (hash a) a := by
    have hk : GoMap.keys P = [b!"c"] := rfl
    have hk2 : GoMap.keys ([(b!"f", 0)] : GoMap Str Nat) = [b!"f"] := rfl
    have hg : (GoMap.get P b!"c").getD [] = [(b!"f", 0)] := rfl
    unfold writeRecords
    rw [hk, h1]
    simp only [List.foldl_cons, List.foldl_nil, hg, hk2, h2]
    have hg2 : (GoMap.get ([(b!"f", 0)] : GoMap Str Nat) b!"f").getD 0 = 0 := rfl
    rw [hg2]
    have hl : writeLine hash mem { blamePointerC := 1, blamePointers := [(0, 1)] } 0 =
        ((collideSt1 (hash a) a), 1) := rfl
    have hl2 : writeLine hash mem (collideSt1 (hash a) a) 1 =
        ((collideSt2 (hash a) a), 2) := by
      unfold writeLine collideSt1
      have : GoMap.get ([(0, 1)] : GoMap Nat UInt64) 1 = none := rfl
      simp only [this]
      have h1 : (mem.line 1).line = b := rfl
      rw [h1, ← hab]
      simp only [GoMap.get, Option.getD_some, if_true]
      rfl
    unfold writeFile
    have hb : GoMap.get ({} : WrSt).blamePointers 0 = none := rfl
    rw [hb]
    simp only
    have hls : (mem.blame 0).lines = [0, 1] := rfl
    rw [hls]
    have : writeLines hash mem { blamePointerC := 1, blamePointers := [(0, 1)] } [0, 1] =
        ((collideSt2 (hash a) a), [1, 2]) := by
      simp only [writeLines, hl, hl2]
    have e0 : ({ ({} : WrSt) with blamePointerC := ({} : WrSt).blamePointerC + 1, blamePointers := GoMap.set ({} : WrSt).blamePointers 0 (({} : WrSt).blamePointerC + 1) } : WrSt) =
      { blamePointerC := 1, blamePointers := [(0, 1)] } := rfl
    rw [e0, this]
    rfl
  rw [hw, read_dir hz _ _ _ (Or.inr rfl), readStreams_records]
  · show (loadLines [(hash a, a)] _ >>= fun lines => _) = _
    have : loadLines [(hash a, a)] (collideRec (hash a) a).lines =
        .ok [(1, { line := a, commit := b!"c" }), (2, { line := a, commit := b!"c" })] := by
      have hg : GoMap.get ([(hash a, a)] : GoMap UInt64 Str) (hash a) = some a := by simp [GoMap.get]
      unfold loadLines collideRec
      simp only [List.foldlM_cons, List.foldlM_nil, hg]
      rfl
    rw [this]
    rfl
  · simp [collideRec, DRow.Small]
  · simp [collideRec, DBlame.Small]
  · simp [collideRec, DLine.Small]
  · simpa [collideRec, DLineData.Small] using ha

/-- Such a hash and such lines exist: there are only 2^64 hashes. -/
example : ∃ (hash : Str → UInt64) (a b : Str), a ≠ b ∧ hash a = hash b := ⟨fun _ => 0, [], b!"x", by decide, rfl⟩

end Ripsrc
