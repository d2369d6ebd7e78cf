import Verif.Spec.StaleGraph
import Verif.Props.BlameFails
import Verif.Props.Missing
/-!
# Lemmas for C89
-/
namespace Ripsrc
open Spec

/-! ### Changes processed as those of a commit without parents -/

theorem parentBlame_root (repo : Repo) (d : Diff) : parentBlameOf repo [] d = .ok none := by
  unfold parentBlameOf
  split <;> rfl

/-- It fails only with a panic. -/
theorem regAct_root_panics {env : Env} (hsrt : SortsHunks env.srt) {h : Str} {repo : Repo} {ch : Str} {d : Diff} (hd : parseDiff ch = .ok d) : OnlyPanics (regAct env h [] repo ch) := by
  intro e he
  unfold regAct at he
  simp only [hd, bind, Except.bind] at he
  split at he
  · split at he <;> cases he
  · split at he
    · cases he
    · have hrb : renamedBinary repo [] d = .ok none ∨ ∃ w, renamedBinary repo [] d = .error (.panic w) := by
        unfold renamedBinary
        split
        · exact .inr ⟨_, rfl⟩
        · exact .inl rfl
      rcases hrb with hrb | ⟨w, hrb⟩
      · simp only [hrb, parentBlame_root, newBlame] at he
        cases ha : apply env.srt { commit := [], lines := [] } d h with
        | error e' => rw [ha] at he; cases he; exact (C04_apply_rejects _ hsrt _ d h).2 _ ha
        | ok b => rw [ha] at he; cases he
      · simp only [hrb] at he
        cases he
        exact ⟨w, rfl⟩

theorem segHunks_mem {s : List Str × List BodyLine} : ∀ {segs : List (List Str × List BodyLine)} {o n : Nat}, s ∈ segs → ∃ h ∈ segHunks o n segs, h.data = unlines (s.2.map BodyLine.text)
  | (gap, body) :: r, o, n, hs => by
    rcases List.mem_cons.1 hs with rfl | hs
    · exact ⟨_, List.mem_cons_self .., rfl⟩
    · obtain ⟨h, h1, h2⟩ := segHunks_mem (segs := r) (o := o + gap.length + (oldLines (edits body)).length) (n := n + gap.length + (newLines (edits body)).length) hs
      exact ⟨h, List.mem_cons_of_mem _ h1, h2⟩

theorem head_dropCR (b : UInt8) (hb : b ≠ 13) (l : Str) : (dropCR (b :: l)).head? = some b := by
  unfold dropCR
  split
  · rename_i h
    cases l with
    | nil => simp at h; exact absurd h hb
    | cons x l => rfl
  · rfl

theorem old_line_exists : ∀ {body : List BodyLine}, oldLines (edits body) ≠ [] → ∃ b ∈ body, usesOld (dropCR (b.norm.norm).text) = true
  | [], h => absurd rfl h
  | .noNewline :: r, h => by
    obtain ⟨b, hb, h2⟩ := old_line_exists (body := r) h
    exact ⟨b, List.mem_cons_of_mem _ hb, h2⟩
  | .edit (.add l) :: r, h => by
    obtain ⟨b, hb, h2⟩ := old_line_exists (body := r) h
    exact ⟨b, List.mem_cons_of_mem _ hb, h2⟩
  | .edit (.keep l) :: r, _ => by
    refine ⟨_, List.mem_cons_self .., ?_⟩
    unfold usesOld
    rw [show (BodyLine.norm (BodyLine.norm (.edit (.keep l)))).text = 32 :: dropCR (dropCR l) from rfl, head_dropCR _ (by decide)]
    rfl
  | .edit (.del l) :: r, _ => by
    refine ⟨_, List.mem_cons_self .., ?_⟩
    unfold usesOld
    rw [show (BodyLine.norm (BodyLine.norm (.edit (.del l)))).text = 45 :: dropCR (dropCR l) from rfl, head_dropCR _ (by decide)]
    rfl

/-- The patch, as the program reads it, has a line of the old version. -/
theorem showsOld_hunk {f : FileChange} (hok : f.Ok) (hdel : f.kind.isDelete = false) {o n : List Str} (ht : f.body.Takes o n) (hs : f.ShowsOld) :
    ∃ h ∈ f.norm.meaning.hunks, ∃ l ∈ hunkLines h, usesOld l = true := by
  obtain ⟨cut, heads, hbody, s, hs, hold⟩ := hs
  rw [hbody] at ht
  obtain ⟨_, _, h3⟩ := ht
  have hok' : cut.norm.norm.Ok := cut_norm_ok (f := f.norm) (norm_ok hok) (heads := fun o => dropCR (heads o)) (by simp [FileChange.norm, hbody]) (segsOk_norm 0 _ h3)
  have hd' : f.norm.kind.isDelete = false := hdel
  have hh : f.norm.meaning.hunks = cut.norm.norm.hunks := by
    simp only [FileChange.meaning, hd']
    simp [FileChange.norm, hbody, Body.hunks]
  have hmem : (s.1, (s.2.map BodyLine.norm).map BodyLine.norm) ∈ cut.norm.norm.segs := by
    simp only [Cut.norm, List.map_map, List.mem_map]
    exact ⟨s, hs, by simp⟩
  obtain ⟨h, h1, h2⟩ := segHunks_mem (o := 0) (n := 0) hmem
  obtain ⟨b, hb, hu⟩ := old_line_exists hold
  refine ⟨h, by rw [hh]; exact h1, _, ?_, hu⟩
  unfold hunkLines
  rw [h2]
  have := scan_body ((s.2.map BodyLine.norm).map BodyLine.norm) (hok'.2 _ hmem)
  rw [show (100000000 : Nat) = incMaxLine from rfl, this]
  simp only [List.map_map, List.mem_map]
  exact ⟨b, hb, rfl⟩

theorem next_not_delete {f : FileChange} (hok : f.Ok) (hn : f.kind.next ≠ []) : f.kind.isDelete = false := by
  cases h : f.kind.isDelete with
  | false => rfl
  | true => exact absurd ((next_nil_iff hok).2 h) hn

/-- A change that needs the old version cannot be processed. -/
theorem regAct_root_needs {env : Env} (hsrt : SortsHunks env.srt) {h : Str} {repo : Repo} {f : FileChange} (hok : f.Ok) {o n : List Str} (ht : f.body.Takes o n)
    (hneed : f.NeedsOld) {ch : Str} (hch : parseDiff ch = .ok f.norm.meaning) (act : Act) : regAct env h [] repo ch ≠ .ok act := by
  intro ha
  obtain ⟨hn, hb, hr⟩ := hneed
  obtain ⟨m1, m2, m3⟩ := meaning_norm f
  have hbin : f.body.isBinary = false := by cases h : f.body <;> simp_all [Body.isBinary]
  unfold regAct at ha
  simp only [hch, bind, Except.bind, m2, m3, hbin, hn, if_false, Bool.false_eq_true] at ha
  by_cases hren : f.Renames
  · unfold renamedBinary at ha
    rw [m1, m2, if_pos ⟨hren.1, hren.2.2⟩] at ha
    cases ha
  · have hs := hr.resolve_left hren
    have hrb : renamedBinary repo [] f.norm.meaning = .ok none := by
      unfold renamedBinary
      rw [m1, m2, if_neg (fun h => hren ⟨h.1, hn, h.2⟩)]
    simp only [hrb, parentBlame_root, newBlame] at ha
    cases hap : apply env.srt { commit := [], lines := [] } f.norm.meaning h with
    | error e => rw [hap] at ha; cases ha
    | ok b =>
      obtain ⟨x, hx, l, hl, hu⟩ := showsOld_hunk hok (next_not_delete hok hn) ht hs
      rw [apply_empty hsrt hap x hx l hl] at hu
      cases hu

/-- A loop over changes, processed as those of a commit without parents: if one of them cannot be processed, it ends in a panic. -/
theorem fold_root_fails {env : Env} (hsrt : SortsHunks env.srt) {h : Str} : ∀ (changes : List Str) (st : Repo × Files) (fs : Files), GoMap.get st.1 h = some fs →
    (∀ ch ∈ changes, ∃ d, parseDiff ch = .ok d) → (∃ ch ∈ changes, ∀ repo act, regAct env h [] repo ch ≠ .ok act) →
    ∃ w, changes.foldlM (regularChange env h []) st = .error (.panic w)
  | [], _, _, _, _, ⟨_, hc, _⟩ => absurd hc List.not_mem_nil
  | ch :: changes, st, fs, hfs, hp, hx => by
    rw [List.foldlM_cons, regularChange_eq]
    obtain ⟨d, hd⟩ := hp ch (by simp)
    cases ha : regAct env h [] st.1 ch with
    | error e =>
      obtain ⟨w, rfl⟩ := regAct_root_panics hsrt hd e ha
      exact ⟨w, rfl⟩
    | ok a =>
      obtain ⟨st1, h1, h2, _⟩ := act_run hfs a
      simp only [bind, Except.bind, h1]
      refine fold_root_fails hsrt changes st1 _ h2 (fun c hc => hp c (by simp [hc])) ?_
      obtain ⟨c, hc, hno⟩ := hx
      rcases List.mem_cons.1 hc with rfl | hc
      · exact absurd ha (hno _ _)
      · exact ⟨c, hc, hno⟩

/-- As above; if all can be processed, it does not fail. -/
theorem fold_root {env : Env} (hsrt : SortsHunks env.srt) {h : Str} {repo : Repo} {changes : List Str} (hp : ∀ ch ∈ changes, ∃ d, parseDiff ch = .ok d) (n : Nat) :
    (∃ w, processRegularCommit env n repo h [] changes = .error (.panic w)) ∨ ∃ repo' res, processRegularCommit env n repo h [] changes = .ok (repo', res) ∧ res.commit = h := by
  unfold processRegularCommit
  rw [if_neg (by simp)]
  have : ∀ (changes : List Str) (st : Repo × Files) (fs : Files), GoMap.get st.1 h = some fs → (∀ ch ∈ changes, ∃ d, parseDiff ch = .ok d) →
      (∃ w, changes.foldlM (regularChange env h []) st = .error (.panic w)) ∨ ∃ st', changes.foldlM (regularChange env h []) st = .ok st' := by
    intro changes
    induction changes with
    | nil => intro st _ _ _; exact .inr ⟨st, rfl⟩
    | cons ch changes ih =>
      intro st fs hfs hp
      rw [List.foldlM_cons, regularChange_eq]
      obtain ⟨d, hd⟩ := hp ch (by simp)
      cases ha : regAct env h [] st.1 ch with
      | error e =>
        obtain ⟨w, rfl⟩ := regAct_root_panics hsrt hd e ha
        exact .inl ⟨w, rfl⟩
      | ok a =>
        obtain ⟨st1, h1, h2, _⟩ := act_run hfs a
        simp only [bind, Except.bind, h1]
        exact ih st1 _ h2 (fun c hc => hp c (by simp [hc]))
  rcases this changes (repo.addCommit h, []) [] (addCommit_get _ _) hp with ⟨w, hw⟩ | ⟨st, hst⟩
  · exact .inl ⟨w, by rw [hw]; rfl⟩
  · exact .inr ⟨_, _, by rw [hst]; rfl, rfl⟩

/-! ### Entries of a commit that the graph does not know -/

/-- Between commits, the graph not knowing `h`. -/
structure Unknowing (h : Str) (s : Proc) : Prop where
  parts : s.mergeParts = []
  parents : s.parents h = []

theorem newCommit_unknown {env : Env} {s : Proc} {e : LogCommit} (hs : Unknowing e.hash s) : s.newCommit env e = (do
      let x ← processRegularCommit env s.sent.length s.repo e.hash [] e.changes
      .ok { s with repo := x.1, lastProcessed := e.hash, sent := s.sent ++ [x.2] }) := by
  unfold Proc.newCommit
  rw [hs.parents, if_neg (by simp)]
  cases processRegularCommit env s.sent.length s.repo e.hash [] e.changes with
  | error x => rfl
  | ok x =>
    obtain ⟨r, res⟩ := x
    simp only [bind, Except.bind]
    have : ({ s with repo := r, lastProcessed := e.hash } : Proc).trim e.hash = { s with repo := r, lastProcessed := e.hash } := by
      unfold Proc.trim
      have : ({ s with repo := r, lastProcessed := e.hash } : Proc).parents e.hash = [] := hs.parents
      rw [this]
      rfl
    rw [this]

theorem commit_unknown {env : Env} {s : Proc} {e : LogCommit} (hs : Unknowing e.hash s) :
    s.commit env e = match s.newCommit env e with | .error x => (s, some x) | .ok s => (s, none) := by
  unfold Proc.commit
  rw [if_neg (by rw [hs.parts]; simp)]
  rfl

/-- The entry of another commit, after a pending merge is completed. -/
theorem commit_flush {env : Env} {t s : Proc} {e : LogCommit} (hp : t.mergeParts ≠ [] → t.mergePartsCommit ≠ e.hash) (hf : t.flush env = .ok s) (hs : s.mergeParts = []) :
    t.commit env e = s.commit env e := by
  unfold Proc.flush at hf
  have h2 : s.commit env e = match s.newCommit env e with | .error x => (s, some x) | .ok s => (s, none) := by
    unfold Proc.commit
    rw [if_neg (by rw [hs]; simp)]
    rfl
  by_cases hm : t.mergeParts.length > 0
  · rw [if_pos hm] at hf
    rw [h2]
    unfold Proc.commit
    rw [if_pos hm, if_neg (hp (List.length_pos_iff.1 hm)), hf]
    rfl
  · rw [if_neg hm] at hf
    cases hf
    rfl

theorem loop_flush {env : Env} {t s : Proc} {e : LogCommit} (hp : t.mergeParts ≠ [] → t.mergePartsCommit ≠ e.hash) (hf : t.flush env = .ok s) (hs : s.mergeParts = []) (log : List LogCommit) :
    t.loop env (e :: log) = s.loop env (e :: log) := by
  rw [Proc.loop, Proc.loop, commit_flush hp hf hs]

/-- The entries of the commit are processed one by one, and each gives a result, until one fails. -/
theorem entries_unknown {env : Env} (hsrt : SortsHunks env.srt) {h : Str} : ∀ (es : List LogCommit) (s : Proc), (∀ e ∈ es, e.hash = h ∧ ∀ ch ∈ e.changes, ∃ d, parseDiff ch = .ok d) → Unknowing h s →
    ∀ rest, (∃ s' w rs, s.loop env (es ++ rest) = (s', some (.panic w)) ∧ s'.sent = s.sent ++ rs ∧ (∀ r ∈ rs, r.commit = h) ∧ rs.length < es.length) ∨
      ∃ s' rs, s.loop env (es ++ rest) = s'.loop env rest ∧ s'.sent = s.sent ++ rs ∧ (∀ r ∈ rs, r.commit = h) ∧ rs.length = es.length ∧ Unknowing h s' ∧
        (∀ e ∈ es, ∃ n repo x, processRegularCommit env n repo h [] e.changes = .ok x)
  | [], s, _, hs, rest => .inr ⟨s, [], rfl, by simp, by simp, rfl, hs, by simp⟩
  | e :: es, s, he, hs, rest => by
    obtain ⟨h1, h2⟩ := he e (by simp)
    have hs' : Unknowing e.hash s := by rw [h1]; exact hs
    rcases fold_root hsrt h2 (h := e.hash) (repo := s.repo) s.sent.length with ⟨w, hw⟩ | ⟨repo', res, hok, hres⟩
    · refine .inl ⟨s, w, [], ?_, by simp, by simp, by simp⟩
      rw [List.cons_append, Proc.loop, commit_unknown hs', newCommit_unknown hs', hw]
      rfl
    · have hstep : ∀ l, s.loop env (e :: l) = ({ s with repo := repo', lastProcessed := e.hash, sent := s.sent ++ [res] } : Proc).loop env l := by
        intro l
        rw [Proc.loop, commit_unknown hs', newCommit_unknown hs', hok]
        rfl
      have := entries_unknown hsrt es { s with repo := repo', lastProcessed := e.hash, sent := s.sent ++ [res] } (fun x hx => he x (by simp [hx])) ⟨hs.parts, hs.parents⟩ rest
      rw [List.cons_append, hstep]
      rcases this with ⟨s', w, rs, g1, g2, g3, g4⟩ | ⟨s', rs, g1, g2, g3, g4, g5, g6⟩
      · refine .inl ⟨s', w, res :: rs, g1, by rw [g2]; simp, ?_, by simp; exact g4⟩
        intro r hr
        rcases List.mem_cons.1 hr with rfl | hr
        · rw [hres, h1]
        · exact g3 r hr
      · refine .inr ⟨s', res :: rs, g1, by rw [g2]; simp, ?_, by simp; exact g4, g5, ?_⟩
        · intro r hr
          rcases List.mem_cons.1 hr with rfl | hr
          · rw [hres, h1]
          · exact g3 r hr
        · intro x hx
          rcases List.mem_cons.1 hx with rfl | hx
          · exact ⟨_, _, _, by rw [← h1]; exact hok⟩
          · exact g6 x hx

/-! ### The entries of a commit and its changes -/

theorem diffs_describe {before : History} {c : HCommit} (hcok : c.Ok before) {cs : List FileChange} (hcs : cs ∈ c.diffs) : ∃ t, Describes t c.tree cs := by
  by_cases hpar : c.parents = []
  · obtain ⟨cs', g1, g2⟩ := hcok.root hpar
    rw [g1] at hcs
    simp only [List.mem_singleton] at hcs
    subst hcs
    exact ⟨_, g2⟩
  · have hlen := hcok.count hpar
    obtain ⟨i, hi⟩ := List.mem_iff_getElem?.1 hcs
    have hil := (List.getElem?_eq_some_iff.1 hi).1
    refine ⟨_, hcok.diffs (c.parents[i]'(by omega), cs) ?_⟩
    rw [List.mem_iff_getElem?]
    exact ⟨i, by rw [List.getElem?_zip_eq_some]; exact ⟨List.getElem?_eq_getElem (by omega), hi⟩⟩

/-- The entries of a commit that is no root: one after the other, for the lists of changes that are not empty. -/
theorem printed_lists {before : History} {c : HCommit} (hcok : c.Ok before) {ec : List LogEntry} (h : Printed c ec) :
    ∃ css : List (List FileChange), ec.length = css.length ∧ (∀ (i : Nat) e cs, ec[i]? = some e → css[i]? = some cs → e.hash = c.hash ∧ ChangesOf e.meaning.changes cs) ∧
      (∀ cs ∈ css, cs ∈ c.diffs ∨ cs = []) ∧ ∀ cs ∈ c.diffs, cs ≠ [] → cs ∈ css := by
  rcases h with ⟨_, cs, e, h1, h2, rfl⟩ | ⟨hr, h2⟩
  · refine ⟨[cs], rfl, ?_, by simp [h1], by simp [h1]⟩
    intro i e' cs' he hcs'
    cases i with
    | zero =>
      simp only [List.getElem?_cons_zero, Option.some.injEq] at he hcs'
      subst he; subst hcs'
      obtain ⟨t, ht⟩ := diffs_describe hcok (cs := cs) (by rw [h1]; simp)
      exact ⟨h2.2.1, entry_changes h2 ht.ok⟩
    | succ i => simp at he
  · have hpar : c.parents ≠ [] := by
      intro h
      apply hr
      unfold HCommit.Regular
      rw [h]
      simp
    have hlen := hcok.count hpar
    unfold MergeEntries at h2
    simp only at h2
    split at h2
    · rename_i h0
      obtain ⟨e, rfl, he⟩ := h2
      refine ⟨[[]], rfl, ?_, by simp, ?_⟩
      · intro i e' cs' he' hcs'
        cases i with
        | zero =>
          simp only [List.getElem?_cons_zero, Option.some.injEq] at he' hcs'
          subst he'; subst hcs'
          exact ⟨he.2.1, entry_changes he (by simp)⟩
        | succ i => simp at he'
      · intro cs hcs hne
        exfalso
        rw [List.filter_eq_nil_iff] at h0
        obtain ⟨i, hi⟩ := List.mem_iff_getElem?.1 hcs
        have hil := (List.getElem?_eq_some_iff.1 hi).1
        have := h0 (c.parents[i]'(by omega), cs) (by
          rw [List.mem_iff_getElem?]
          exact ⟨i, by rw [List.getElem?_zip_eq_some]; exact ⟨List.getElem?_eq_getElem (by omega), hi⟩⟩)
        simp only [Bool.not_eq_true, Bool.not_eq_false', List.isEmpty_iff] at this
        exact hne this
    · obtain ⟨h3, h4⟩ := h2
      refine ⟨((c.parents.zip c.diffs).filter (fun x => !x.2.isEmpty)).map Prod.snd, by simpa using h3, ?_, ?_, ?_⟩
      · intro i e cs he hcs
        rw [List.getElem?_map, Option.map_eq_some_iff] at hcs
        obtain ⟨x, hx, rfl⟩ := hcs
        have hE := h4 (x, e) (by
          rw [List.mem_iff_getElem?]
          exact ⟨i, by rw [List.getElem?_zip_eq_some]; exact ⟨hx, he⟩⟩)
        have hxm := (List.mem_filter.1 (List.mem_of_getElem? hx)).1
        exact ⟨hE.2.1, entry_changes hE (hcok.diffs x hxm).ok⟩
      · intro cs hcs
        obtain ⟨x, hx, rfl⟩ := List.mem_map.1 hcs
        exact .inl (List.of_mem_zip (List.mem_filter.1 hx).1).2
      · intro cs hcs hne
        obtain ⟨i, hi⟩ := List.mem_iff_getElem?.1 hcs
        have hil := (List.getElem?_eq_some_iff.1 hi).1
        refine List.mem_map.2 ⟨(c.parents[i]'(by omega), cs), List.mem_filter.2 ⟨?_, ?_⟩, rfl⟩
        · rw [List.mem_iff_getElem?]
          exact ⟨i, by rw [List.getElem?_zip_eq_some]; exact ⟨List.getElem?_eq_getElem (by omega), hi⟩⟩
        · simpa using hne

theorem changesOf_parse {changes : List Str} {cs : List FileChange} (h : ChangesOf changes cs) : ∀ ch ∈ changes, ∃ d, parseDiff ch = .ok d := by
  obtain ⟨l, rfl, _, h3⟩ := changesOf_pairs h
  intro ch hch
  obtain ⟨x, hx, rfl⟩ := List.mem_map.1 hch
  exact ⟨_, h3 x hx⟩

theorem changesOf_mem {changes : List Str} {cs : List FileChange} (h : ChangesOf changes cs) {f : FileChange} (hf : f ∈ cs) : ∃ ch ∈ changes, parseDiff ch = .ok f.norm.meaning := by
  obtain ⟨l, rfl, rfl, h3⟩ := changesOf_pairs h
  obtain ⟨x, hx, rfl⟩ := List.mem_map.1 hf
  exact ⟨_, List.mem_map_of_mem hx, h3 x hx⟩

/-- A right result for a part of the history is right for the whole. -/
theorem stale_sub_resultOk {A H : History} (hA : History.Ok [] A) (hH : History.Ok [] H) (hsub : ∀ c ∈ A, c ∈ H) {G : Str → Str → List Str} {c : HCommit} (hc : c ∈ A) {res : Result}
    (h : ResultOk A G c res) : ResultOk H G c res := by
  refine ⟨h.commit, ?_, ?_, ?_⟩
  · intro p
    rw [h.paths p, sub_writes hA hH hsub hc p]
  · intro p hw hd
    obtain ⟨b, n, h1, h2, h3⟩ := h.written p ((sub_writes hA hH hsub hc p).2 hw) hd
    exact ⟨b, n, h1, h2, sub_right hA hH hsub ⟨c, hc, rfl⟩ h3⟩
  · intro p hd hw
    exact h.removed p hd (fun h' => hw ((sub_writes hA hH hsub hc p).1 h'))

/-! ### The run up to the unknown commit -/

/-- The commits before are processed as usual. -/
theorem stale_before {env : Env} {H : History} {G : Str → Str → List Str} {m : GoMap Str (List Str)} {order : List (Str × List Str)} {a r : History} {c : HCommit}
    (h : Stale env H G m order a c r) {es : List LogEntry} (hlog : LogOf H es) :
    ∃ ec er s, Printed c ec ∧ LogOf r er ∧ Unknowing c.hash s ∧ s.sent.length = a.length ∧ (∀ (i : Nat) x res, a[i]? = some x → s.sent[i]? = some res → ResultOk H G x res) ∧
      (∃ ea t, es = ea ++ (ec ++ er) ∧ Proc.loop env { graph := Graph.newFromMap m order, repo := [] } (ea.map LogEntry.meaning) = (t, none) ∧ t.flush env = .ok s ∧
        (t.mergeParts ≠ [] → t.mergePartsCommit ≠ c.hash)) := by
  have hH := h.history
  obtain ⟨ea, ec, er, rfl, l1, l2, l3⟩ := logOf_split (h.split ▸ hlog)
  have hcok : c.Ok a := history_ok_at (r := r) (h.split ▸ hH)
  have hA : History.Ok [] a := (history_ok_append.1 (h.split ▸ hH)).1
  have hsub : ∀ x ∈ a, x ∈ H := fun x hx => by rw [h.split]; simp [hx]
  have hbw := sub_blameWorks hA hH hsub h.blame
  have hg := graphOf_build hA h.wf h.perm h.known
  obtain ⟨s, ⟨t, k1, k2⟩, k3, k4⟩ := loop_ok (r2 := []) h.sorts h.orders hA hg hbw.ancestors l1 hbw.text (s := { graph := Graph.newFromMap m order, repo := [] }) rfl
    (start_inv (g := Graph.newFromMap m order) (B := []) (N := a ++ []) (by simp) (by simp) (by simp)) (Nat.le_refl _)
  rw [List.nil_append] at k4
  have hsent := k4.sentOk
  simp only [List.length_nil, List.drop_zero] at hsent
  refine ⟨ec, er, s, l2, l3, ⟨k3, ?_⟩, k4.sentLen, fun i x res hx hr => stale_sub_resultOk hA hH hsub (List.mem_of_getElem? hx) (hsent i x res hx hr), ea, t, rfl, k1, k2, ?_⟩
  · unfold Proc.parents
    rw [k4.book.graph]
    show Graph.parentsOf (Graph.newFromMap m order) c.hash = []
    unfold Graph.parentsOf
    rw [show (Graph.newFromMap m order).parents = m from rfl, h.unknown]
    rfl
  · have := loop_pendingIn (S := fun h => ∃ x ∈ a, x.hash = h) k1 (fun h => absurd rfl h) (by
      intro x hx
      obtain ⟨y, hy, rfl⟩ := List.mem_map.1 hx
      obtain ⟨z, hz, hh⟩ := logOf_hash l1 y hy
      exact ⟨z, hz, hh.symm⟩)
    intro hm hh
    obtain ⟨x, hx, hxe⟩ := this hm
    exact hcok.new x hx (hxe.trans hh)

theorem printed_ne {c : HCommit} {ec : List LogEntry} (h : Printed c ec) : ec ≠ [] := by
  have : LogOf [c] (ec ++ []) := .cons h .nil
  have := logOf_ne this (by simp)
  simpa using this

/-! ### Changes that can be processed without the old version -/

theorem mode_hunks {f : FileChange} (hb : f.body = .empty) : f.norm.meaning.hunks = [] := by
  unfold FileChange.meaning
  simp [FileChange.norm, hb, Body.hunks]

/-- The file is stored for the only parent as a text file without lines. -/
def EmptyIn (ps : List Str) (repo : Repo) (p : Str) : Prop := ∃ q pb, ps = [q] ∧ repo.getFileOptional q p = .ok (some pb) ∧ pb.isBinary = false ∧ pb.lines = []

/-- What is done for a change that can be processed without the old version: it does not depend on the state. -/
theorem regAct_root_ok {env : Env} (hsrt : SortsHunks env.srt) {h : Str} {f : FileChange} (hok : f.Ok) {o n : List Str} (ht : f.body.Takes o n) (hprev : f.kind.prev = [] → o = [])
    (hs : f.Standalone ∨ f.ModeOnly ∨ f.FromEmpty) {ch : Str} (hch : parseDiff ch = .ok f.norm.meaning) :
    ∃ act, (∀ repo, regAct env h [] repo ch = .ok act) ∧ (∀ ps repo, f.Standalone ∨ f.FromEmpty ∧ EmptyIn ps repo f.kind.prev → regAct env h ps repo ch = .ok act) ∧ (f.kind.next = [] → ∃ b, act = .report f.kind.prev b) ∧
      (f.kind.next ≠ [] → ∃ b, act = .both f.kind.next b ∧ (f.ModeOnly → b = { commit := h, lines := [] }) ∧ (f.FromEmpty → AllNew h n b)) := by
  obtain ⟨m1, m2, m3⟩ := meaning_norm f
  unfold regAct
  simp only [hch, bind, Except.bind, m1, m2, m3]
  by_cases hn : f.kind.next = []
  · simp only [hn, if_true]
    cases f.body.isBinary <;> exact ⟨_, fun _ => rfl, fun _ _ _ => rfl, fun _ => ⟨_, rfl⟩, fun h => absurd rfl h⟩
  · simp only [hn, if_false]
    by_cases hbin : f.body = .binary
    · have hb : f.body.isBinary = true := by rw [hbin]; rfl
      simp only [hb, if_true]
      refine ⟨_, fun _ => rfl, fun _ _ _ => rfl, fun h => h.elim, fun _ => ⟨_, rfl, fun h => ?_, fun h => ?_⟩⟩
      · have := h.2
        rw [hbin] at this; cases this
      · obtain ⟨_, _, _, _, hx, _⟩ := h
        rw [hbin] at hx; cases hx
    · have hb : f.body.isBinary = false := by cases h : f.body <;> simp_all [Body.isBinary]
      simp only [hb, Bool.false_eq_true, if_false]
      have hdel := next_not_delete hok hn
      by_cases hp : f.kind.prev = []
      · have hstand : f.Standalone := .inl hp
        have ho := hprev hp
        subst ho
        obtain ⟨cut, he⟩ := change_effect hok hdel ht hbin
        have hperm : f.norm.meaning.hunks.Perm cut.hunks := by rw [he.hunks]
        have hrb : ∀ ps repo, renamedBinary repo ps f.norm.meaning = .ok none := by
          intro ps repo
          unfold renamedBinary
          rw [if_neg (by rw [m1]; simp [hp])]
        have hpb : ∀ ps repo, parentBlameOf repo ps f.norm.meaning = .ok none := by
          intro ps repo
          unfold parentBlameOf
          rw [if_pos (by rw [m1]; exact hp)]
        have happ := apply_script env.srt hsrt cut he.ok { commit := [], lines := [] } rfl (by rw [he.oldLen]; rfl) f.norm.meaning he.notBin hperm h
        simp only [hrb, hpb, newBlame, happ]
        refine ⟨_, fun _ => rfl, fun _ _ _ => rfl, fun h => h.elim, fun _ => ⟨_, rfl, fun h => ?_, fun h => absurd hp h.1⟩⟩
        exact absurd (h.1.symm.trans hp) hn
      · have hns : ¬ f.Standalone := by
          rintro (h | h | h)
          · exact hp h
          · exact hn h
          · exact hbin h
        have hsame : f.kind.prev = f.kind.next := by
          rcases hs with h | h | h
          · exact absurd h hns
          · exact h.1
          · exact h.2.1
        have hrb : ∀ repo, renamedBinary repo [] f.norm.meaning = .ok none := by
          intro repo
          unfold renamedBinary
          rw [if_neg (by rw [m1, m2]; exact fun h => h.2 hsame)]
        rcases hs.resolve_left hns with hm | hm
        · have happ := apply_script env.srt hsrt ⟨[], []⟩ ⟨trivial, by simp [LinesOk]⟩ { commit := [], lines := [] } rfl rfl f.norm.meaning (by rw [m3, hb])
            (by rw [mode_hunks hm.2]; exact .refl _) h
          simp only [hrb, parentBlame_root, newBlame, happ]
          have hnf : ¬ f.FromEmpty := by
            rintro ⟨_, _, _, _, hx, _⟩
            rw [hm.2] at hx; cases hx
          exact ⟨_, fun _ => rfl, fun _ _ h => (h.elim (fun h => absurd h hns) (fun h => absurd h.1 hnf)), fun h => h.elim, fun _ => ⟨_, rfl, fun _ => rfl, fun h => absurd h hnf⟩⟩
        · obtain ⟨_, _, cut0, heads, hbody, hold⟩ := hm
          have ho : o = [] := by
            rw [hbody] at ht
            rw [← ht.1, hold]
          subst ho
          obtain ⟨cut, he⟩ := change_effect hok hdel ht hbin
          have hperm : f.norm.meaning.hunks.Perm cut.hunks := by rw [he.hunks]
          have hlen0 : ([] : List Line).length = (oldLines cut.script).length := by rw [he.oldLen]; rfl
          have happ := apply_script env.srt hsrt cut he.ok { commit := [], lines := [] } rfl hlen0 f.norm.meaning he.notBin hperm h
          simp only [hrb, parentBlame_root, newBlame, happ]
          refine ⟨_, fun _ => rfl, ?_, fun h => h.elim, fun _ => ⟨_, rfl, fun h => ?_, fun _ => ⟨rfl, rfl, ?_, ?_⟩⟩⟩
          · rintro ps repo (hx | ⟨_, q, pb, rfl, k1, k2, k3⟩)
            · exact absurd hx hns
            · have hrb' : renamedBinary repo [q] f.norm.meaning = .ok none := by
                unfold renamedBinary
                rw [if_neg (by rw [m1, m2]; exact fun h => h.2 hsame)]
              have hpb' : parentBlameOf repo [q] f.norm.meaning = .ok (some pb) := by
                unfold parentBlameOf
                rw [if_neg (by rw [m1]; exact hp), m1]
                exact k1
              have happ' := apply_script env.srt hsrt cut he.ok pb k2 (by rw [k3]; exact hlen0) f.norm.meaning he.notBin hperm h
              simp only [hrb', hpb', newBlame, k2, Bool.false_eq_true, if_false, happ', k3]
          · have := h.2
            rw [hbody] at this; cases this
          · rw [← he.newLen]
            exact blameEdit_length _ _ _ hlen0
          · intro j l hj
            have hjn : j < n.length := by
              rw [← he.newLen, ← blameEdit_length h cut.script [] hlen0]
              exact (List.getElem?_eq_some_iff.1 hj).1
            cases hsrc : f.body.source j with
            | some i =>
              have := (he.kept j hjn i hsrc).2.1
              simp at this
            | none =>
              obtain ⟨⟨t, a, g1, g2, g3⟩, _⟩ := he.added j hjn hsrc h [] rfl
              rw [g1] at hj
              cases hj
              exact ⟨rfl, a, g2, g3⟩

/-- Changes that can be processed without the old versions, processed as those of a commit without parents. -/
theorem process_root_ok {env : Env} (hsrt : SortsHunks env.srt) (h : Str) {old new : Tree} {cs : List FileChange} (hd : Describes old new cs)
    (hall : ∀ f ∈ cs, f.Standalone ∨ f.ModeOnly ∨ f.FromEmpty) {changes : List Str} (hch : ChangesOf changes cs) :
    ∃ (l : List (Str × FileChange)) (act : Str × FileChange → Act), l.map Prod.fst = changes ∧ l.map Prod.snd = cs ∧
      (∀ x ∈ l, (∀ ps repo, x.2.Standalone ∨ x.2.FromEmpty ∧ EmptyIn ps repo x.2.kind.prev → regAct env h ps repo x.1 = .ok (act x)) ∧ (x.2.kind.next = [] → ∃ b, act x = .report x.2.kind.prev b) ∧
        (x.2.kind.next ≠ [] → ∃ b, act x = .both x.2.kind.next b ∧ (x.2.ModeOnly → b = { commit := h, lines := [] }) ∧ (x.2.FromEmpty → AllNew h (content new x.2.kind.next) b))) ∧
      ∀ n repo, ∃ repo', processRegularCommit env n repo h [] changes = .ok (repo', { commit := h, files := putAll [] (l.filterMap (fun x => (act x).reported)) }) ∧
        GoMap.get repo' h = some (putAll [] (l.filterMap (fun x => (act x).kept))) ∧ SameBut h repo repo' := by
  obtain ⟨l, hl1, hl2, hl3⟩ := changesOf_pairs hch
  have hmem : ∀ x ∈ l, x.2 ∈ cs := fun x hx => hl2 ▸ List.mem_map_of_mem hx
  have hact := fun (x : Str × FileChange) (hx : x ∈ l) => regAct_root_ok (env := env) hsrt (h := h) (hd.ok _ (hmem x hx)) (hd.body _ (hmem x hx)) (fun hp => by rw [hp]; rfl) (hall _ (hmem x hx)) (hl3 x hx)
  let act : Str × FileChange → Act := fun x =>
    match regAct env h [] [] x.1 with
    | .ok a => a
    | .error _ => .report [] { commit := [], lines := [] }
  have heq : ∀ x ∈ l, ∀ a, (∀ repo, regAct env h [] repo x.1 = .ok a) → act x = a := by
    intro x _ a ha
    simp only [act, ha]
  refine ⟨l, act, hl1, hl2, ?_, ?_⟩
  · intro x hx
    obtain ⟨a, h1, h2, h3, h4⟩ := hact x hx
    rw [heq x hx a h1]
    exact ⟨h2, h3, h4⟩
  · intro n repo
    obtain ⟨st, s1, s2, s3, s4⟩ := fold_acts h (fun r (x : Str × FileChange) => regAct env h [] r x.1) [] (by simp)
      (fun r r' hr x => regAct_congr env h [] r r' hr x.1) act l (repo.addCommit h, []) [] (addCommit_get _ _) (by
        intro x hx
        obtain ⟨a, h1, _⟩ := hact x hx
        rw [heq x hx a h1]
        exact h1 _)
    have hfold : changes.foldlM (regularChange env h []) (repo.addCommit h, []) = .ok st := by
      rw [← s1, ← hl1, List.foldlM_map]
      congr 1
      funext st x
      exact regularChange_eq _ _ _ _ _
    refine ⟨st.1, ?_, s2, (addCommit_same repo h).trans s3⟩
    unfold processRegularCommit
    rw [if_neg (by simp), hfold]
    simp only [bind, Except.bind, s4]

/-- The right result of a commit whose changes are all standalone is what the program computes without knowing the parents. -/
theorem standalone_result {env : Env} {H : History} {G : Str → Str → List Str} (hsrt : SortsHunks env.srt) (hord : ∀ n k l, (env.order n k l).Perm l) (hH : History.Ok [] H)
    (hbw : BlameWorks H G env.blameOut) {a r : History} {c : HCommit} (hsplit : H = a ++ c :: r) (hreg : c.Regular) {cs : List FileChange} (hcs : c.diffs = [cs])
    {changes : List Str} (hch : ChangesOf changes cs) {es : List LogEntry} (hlog : LogOf a es) {l : List (Str × FileChange)} {act : Str × FileChange → Act} (hl1 : l.map Prod.fst = changes)
    (hact : ∀ x ∈ l, ∀ repo, (∀ q ∈ c.parents, ∃ fs, GoMap.get repo q = some fs ∧ RightFiles H G q fs) → regAct env c.hash c.parents repo x.1 = .ok (act x)) :
    ResultOk H G c { commit := c.hash, files := putAll [] (l.filterMap (fun x => (act x).reported)) } := by
  let m : GoMap Str (List Str) := H.map (fun x => (x.hash, x.parents))
  have hwf : m.WF := by
    show ((H.map (fun x => (x.hash, x.parents))).map Prod.fst).Nodup
    rw [List.map_map]
    exact history_nodup hH
  have hpar : ∀ x ∈ H, GoMap.get m x.hash = some x.parents := by
    intro x hx
    exact GoMap.get_of_mem hwf (List.mem_map.2 ⟨x, hx, rfl⟩)
  have hg := graphOf_build hH hwf (.refl m) hpar
  obtain ⟨s, _, _, k4⟩ := loop_ok (r2 := c :: r) hsrt hord hH hg hbw.ancestors hlog (fun x hx => hbw.text x (by rw [hsplit]; simp [hx])) (s := { graph := Graph.newFromMap m m, repo := [] }) rfl
    (start_inv (g := Graph.newFromMap m m) (B := []) (N := a ++ c :: r) hsplit (by simp) (by simp)) (Nat.le_refl _)
  rw [List.nil_append] at k4
  have hcok : c.Ok a := history_ok_at (r := r) (hsplit ▸ hH)
  have hself : c.hash ∉ c.parents := by
    intro h
    obtain ⟨x, hx, he⟩ := hcok.parentsKnown _ h
    exact hcok.new x hx he
  obtain ⟨repo', res, h1, h2, _⟩ := regular_ok hsrt hord hH hsplit hreg hcs hch (k4.parents hH) (hbw.text c (by rw [hsplit]; simp)) 0
  have hknown : ∀ q ∈ c.parents, ∃ fs, GoMap.get (s.repo.addCommit c.hash) q = some fs ∧ RightFiles H G q fs := by
    intro q hq
    obtain ⟨fs, g1, g2⟩ := k4.parents hH q hq
    refine ⟨fs, ?_, g2⟩
    rw [← g1]
    exact addCommit_same s.repo c.hash q (fun h => hself (h ▸ hq))
  obtain ⟨st, s1, s2, s3, s4⟩ := fold_acts c.hash (fun r (x : Str × FileChange) => regAct env c.hash c.parents r x.1) c.parents hself
    (fun r r' hr x => regAct_congr env c.hash c.parents r r' hr x.1) act l (s.repo.addCommit c.hash, []) [] (addCommit_get _ _) (fun x hx => hact x hx _ hknown)
  have hfold : changes.foldlM (regularChange env c.hash c.parents) (s.repo.addCommit c.hash, []) = .ok st := by
    rw [← s1, ← hl1, List.foldlM_map]
    congr 1
    funext st x
    exact regularChange_eq _ _ _ _ _
  have hres : res = { commit := c.hash, files := putAll [] (l.filterMap (fun x => (act x).reported)) } := by
    unfold processRegularCommit at h1
    rw [if_neg (by unfold HCommit.Regular at hreg; omega), hfold] at h1
    simp only [bind, Except.bind] at h1
    split at h1
    · cases h1; rw [s4]
    · cases hm : st.1.getCommitMust _ with
      | error e => rw [hm] at h1; cases h1
      | ok fs =>
        rw [hm] at h1
        simp only at h1
        split at h1
        · cases h1
        · cases h1; rw [s4]
  rw [← hres]
  exact h2.result hH hsplit

end Ripsrc
