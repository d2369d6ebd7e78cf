import Verif.Props.ProcessState
import Verif.Spec.Resume
/-!
# C33, C34: incremental runs
-/
namespace Ripsrc
open Spec

theorem Spec.Restored.look {R R' : Repo} (h : Restored R R') {q : Str} {fs' : Files} (hq : GoMap.get R' q = some fs') :
    (∃ fs, GoMap.get R q = some fs ∧ ∀ p, GoMap.get fs' p = GoMap.get fs p) ∧ ∀ p, R'.getFileOptional q p = R.getFileOptional q p := by
  obtain ⟨fs, h1, h2⟩ := h.sound q fs' hq
  refine ⟨⟨fs, h1, h2⟩, fun p => ?_⟩
  rw [files_of_optional hq, files_of_optional h1, h2]

section
variable {H : History} {G : Str → Str → List Str} {env0 : Env} {entries : HCommit → List LogEntry}

/-- What the state written by a sequence of runs is like. -/
structure Kept (H : History) (G : Str → Str → List Str) (Ri : Repo) (P : History) (R : Repo) : Prop where
  sub : ∀ c ∈ P, c ∈ H
  right : ∀ c ∈ P, ∀ fs, GoMap.get R c.hash = some fs → RightFiles H G c.hash fs
  look : ∀ c ∈ P, ∀ fs, GoMap.get R c.hash = some fs → ∀ p, R.getFileOptional c.hash p = Ri.getFileOptional c.hash p

theorem Kept.restored {Ri : Repo} {P : History} {R R' : Repo} (h : Kept H G Ri P R) (hr : Restored R R') : Kept H G Ri P R' := by
  refine ⟨h.sub, ?_, ?_⟩
  · intro c hc fs' hfs
    obtain ⟨⟨fs, k1, k2⟩, _⟩ := hr.look hfs
    intro p n hn
    obtain ⟨b, b1, b2⟩ := h.right c hc fs k1 p n hn
    exact ⟨b, by rw [k2]; exact b1, b2⟩
  · intro c hc fs' hfs p
    obtain ⟨⟨fs, k1, _⟩, k3⟩ := hr.look hfs
    rw [k3, h.look c hc fs k1 p]

/-- One resumed run. -/
theorem resumed_run (hH : History.Ok [] H) (hbw : BlameWorks H G env0.blameOut) (hent : ∀ c ∈ H, Printed c (entries c)) {Ri : Repo}
    {res : HCommit → Result} (hid : IdealOn H G env0 entries H Ri res) {env : Env} {m : GoMap Str (List Str)} {order : List (Str × List Str)}
    {P B N : History} {R' : Repo} (hK : Kept H G Ri P R') (h : Resumes H G env0 env m order P B N R') {opts : RunOpts} {read : Str → Go Repo}
    (hinit : initCheckpoints opts read = .ok R') :
    ∃ s : Proc, run env opts read (Graph.newFromMap m order) ((N.flatMap entries).map LogEntry.meaning) =
        { sent := s.sent, fault := none, written := some (s.repo, s.lastProcessed) } ∧
      s.sent.length = N.length ∧ (∀ (i : Nat) c r, N[i]? = some c → s.sent[i]? = some r → r.commit = c.hash ∧ (NoTypeChange H c → SameResult (res c) r)) ∧
      Kept H G Ri (P ++ N) s.repo := by
  have hBH : ∀ c ∈ B, c ∈ H := fun c hc => hK.sub c (h.before c hc)
  have hA : ∀ c ∈ B ++ N, c ∈ H := by
    intro c hc
    rcases List.mem_append.1 hc with hc | hc
    · exact hBH c hc
    · exact h.new c hc
  obtain ⟨s, a1, a2, a3⟩ := run_core_agree h.same hH (h.same.2 ▸ hbw) hA h.setting (B := B) (N1 := N) (N2 := []) (by simp) h.nonempty hent hid
    (opts := opts) (read := read) (R := R') hinit
    (fun c hc fs hfs => rightFiles_sub h.setting.history hH hA ⟨c, by simp [hc], rfl⟩ (hK.right c (h.before c hc) fs hfs))
    (fun c hc => hK.look c (h.before c hc))
    (by simpa using h.needed)
  have hdrop : (B ++ N).drop B.length = N := List.drop_left
  refine ⟨s, a1, ?_, ?_, ?_⟩
  · have := a2.sentLen
    rw [hdrop] at this
    exact this
  · intro i c r hc hr
    exact ⟨(a2.sentOk i c r (by rw [hdrop]; exact hc) hr).commit, a3.sent i c r (by rw [hdrop]; exact hc) hr⟩
  · have hlog : LogOf N (N.flatMap entries) := log_of_entries N (fun c hc => hent c (h.new c hc))
    have hsub : ∀ c ∈ P ++ N, c ∈ H := by
      intro c hc
      rcases List.mem_append.1 hc with hc | hc
      · exact hK.sub c hc
      · exact h.new c hc
    have hcase : ∀ c ∈ P ++ N, c ∈ B ++ N ∨ (c ∈ P ∧ GoMap.get s.repo c.hash = GoMap.get R' c.hash) := by
      intro c hc
      by_cases hx : ∃ x ∈ B ++ N, x.hash = c.hash
      · obtain ⟨x, hx, he⟩ := hx
        rw [hash_inj hH (hsub c hc) (hA x hx) he.symm]
        exact Or.inl hx
      · refine Or.inr ⟨?_, run_frame hinit (by rw [a1]) (log_untouched h.setting hlog (fun c hc => by simp [hc]) (fun x hx' he => hx ⟨x, hx', he⟩))⟩
        rcases List.mem_append.1 hc with hc | hc
        · exact hc
        · exact absurd ⟨c, by simp [hc], rfl⟩ hx
    refine ⟨hsub, ?_, ?_⟩
    · intro c hc fs hfs
      rcases hcase c hc with h' | ⟨h1, h2⟩
      · exact sub_rightFiles h.setting.history hH hA ⟨c, h', rfl⟩ (a2.stored c (by simpa using h') fs hfs)
      · exact hK.right c h1 fs (h2 ▸ hfs)
    · intro c hc fs hfs p
      rcases hcase c hc with h' | ⟨h1, h2⟩
      · exact a3.look c (by simpa using h') fs hfs p
      · rw [optional_congr h2]
        exact hK.look c h1 fs (h2 ▸ hfs) p

theorem chain_kept (hH : History.Ok [] H) (hbw : BlameWorks H G env0.blameOut) (hent : ∀ c ∈ H, Printed c (entries c)) {Ri : Repo}
    {res : HCommit → Result} (hid : IdealOn H G env0 entries H Ri res) {P : History} {R : Repo} (h : Chain H G env0 entries P R) :
    Kept H G Ri P R := by
  induction h with
  | @first env m order P read R last hsub hse hset hne hw =>
    obtain ⟨s, h1, _, _, h4⟩ := resumed_run (P := []) (B := []) (R' := []) (opts := {}) (read := read) hH hbw hent hid ⟨by simp, by simp, by simp⟩
      ⟨by simp, hsub, hse, by simpa using hset, hne, by simp⟩ rfl
    rw [h1] at hw
    cases hw
    simpa using h4
  | next _ hr hres hinit hw ih =>
    obtain ⟨s, h1, _, _, h4⟩ := resumed_run hH hbw hent hid (ih.restored hr) hres hinit
    rw [h1] at hw
    cases hw
    exact h4

/-- **C33.** After any sequence of runs, the next run gives for each commit in its log the result a single run over the whole history
gives for it, and does not fail, provided the parents it needs can be found in the checkpoint. The log may begin anywhere and may
contain commits that were processed before (with the default options the first is the last commit of the run before). The order in
which maps are iterated may be different in each run. Excluded are, as in C30, merges that delete and write the same path. -/
theorem C33_incremental_equals_full {m0 m : GoMap Str (List Str)} {order0 order : List (Str × List Str)} (hfull : Setting env0 H G m0 order0)
    (hne : H ≠ []) (hent : ∀ c ∈ H, Printed c (entries c)) {P : History} {R R' : Repo} (hchain : Chain H G env0 entries P R)
    (hrest : Restored R R') {env : Env} {B N : History} (h : Resumes H G env0 env m order P B N R') {opts : RunOpts} {read : Str → Go Repo}
    (hinit : initCheckpoints opts read = .ok R') (read0 : Str → Go Repo) :
    ∃ fullLog newLog, parseLog (logText (H.flatMap entries)) = .ok fullLog ∧ parseLog (logText (N.flatMap entries)) = .ok newLog ∧
      let full := run env0 {} read0 (Graph.newFromMap m0 order0) fullLog
      let out := run env opts read (Graph.newFromMap m order) newLog
      full.fault = none ∧ out.fault = none ∧ out.sent.map (·.commit) = N.map (·.hash) ∧
      ∀ (i j : Nat) c, N[i]? = some c → H[j]? = some c → NoTypeChange H c →
        ∃ r r', out.sent[i]? = some r ∧ full.sent[j]? = some r' ∧ SameResult r' r := by
  obtain ⟨Ri, res, hid⟩ := ideal_exists hfull.sorts hfull.orders hfull.history hfull.blame hent
  obtain ⟨s, a1, a2, a3⟩ := run_core_agree (env := env0) (env' := env0) ⟨rfl, rfl⟩ hfull.history hfull.blame (fun _ hc => hc) hfull (B := []) (N1 := H)
    (N2 := []) (by simp) hne hent hid (opts := {}) (read := read0) (R := []) rfl (by simp) (by simp) (by simp)
  obtain ⟨t, b1, b2, b3, _⟩ := resumed_run hfull.history hfull.blame hent hid ((chain_kept hfull.history hfull.blame hent hid hchain).restored hrest) h hinit
  refine ⟨_, _, C11_log_parser _ (logOf_ok (log_of_entries H hent)),
    C11_log_parser _ (logOf_ok (log_of_entries N (fun c hc => hent c (h.new c hc)))), by rw [a1], by rw [b1], ?_, ?_⟩
  · rw [b1]
    apply List.ext_getElem?
    intro i
    rw [List.getElem?_map, List.getElem?_map]
    cases hi : t.sent[i]? with
    | none =>
      rw [List.getElem?_eq_none_iff] at hi
      rw [List.getElem?_eq_none (by omega)]
      rfl
    | some r =>
      have hlt := (List.getElem?_eq_some_iff.1 hi).1
      have hc : N[i]? = some (N[i]'(by omega)) := List.getElem?_eq_getElem _
      rw [hc]
      simp only [Option.map_some, Option.some.injEq]
      exact (b3 i _ r hc hi).1
  · rw [a1, b1]
    intro i j c hi hj ht
    have l1 : i < t.sent.length := by rw [b2]; exact (List.getElem?_eq_some_iff.1 hi).1
    have hlen : s.sent.length = H.length := by simpa using a2.sentLen
    have l2 : j < s.sent.length := by rw [hlen]; exact (List.getElem?_eq_some_iff.1 hj).1
    refine ⟨t.sent[i], s.sent[j], List.getElem?_eq_getElem _, List.getElem?_eq_getElem _, ?_⟩
    exact (a3.sent j c _ (by simpa using hj) (List.getElem?_eq_getElem _) ht).symm.trans ((b3 i c _ hi (List.getElem?_eq_getElem _)).2 ht)

/-- When the needed parents can be found: if the runs before were a single run over at most 1000 commits and the needed parents have
files. -/
theorem C33_parents_found {env env2 : Env} {m m2 : GoMap Str (List Str)} {order order2 : List (Str × List Str)} {P B N : History} {R R' : Repo} {last : Str}
    {read : Str → Go Repo} (hent : ∀ c ∈ P, Printed c (entries c)) (hset : Setting env P G m order) (hne : P ≠ []) (hlen : P.length ≤ 1000)
    (hw : (run env {} read (Graph.newFromMap m order) ((P.flatMap entries).map LogEntry.meaning)).written = some (R, last))
    (hrest : Restored R R') (hB : ∀ c ∈ B, c ∈ P) (hfiles : ∀ c ∈ B, HasChildIn N c.hash → ∃ p n, c.tree p = some n)
    (hN : ∀ c ∈ N, c ∈ H) (hN0 : N ≠ []) (hse : SameEnv env0 env2) (hset2 : Setting env2 (B ++ N) G m2 order2) :
    Resumes H G env0 env2 m2 order2 P B N R' := by
  refine ⟨hB, hN, hse, hset2, hN0, ?_⟩
  intro c hc hch
  obtain ⟨s, a1, a2⟩ := run_core hset (B := []) (N1 := P) (N2 := []) (by simp) (log_of_entries P hent) hne (opts := {}) (read := read) (R := []) rfl (by simp) (by simp)
  rw [a1] at hw
  cases hw
  obtain ⟨fs, hfs⟩ := a2.heads c (by simpa using hB c hc) (Or.inr hlen)
  obtain ⟨p, n, hp⟩ := hfiles c hc hch
  have hmem : c ∈ [] ++ P := by simpa using hB c hc
  obtain ⟨b, hb, _⟩ := a2.stored c hmem fs hfs p n (by rw [treeOf_of_mem hset.history (hB c hc)]; exact hp)
  exact hrest.complete c.hash fs hfs (by rintro rfl; simp [GoMap.get] at hb)

/-- What a resumed run leaves in the checkpoint: the commits of its log that have no child in its history; its last commits and their
parents, going back as far as these parents are at most 1000; and, unchanged, all commits that are not in its history. -/
theorem C33_recent_kept {m0 m : GoMap Str (List Str)} {order0 order : List (Str × List Str)} (hfull : Setting env0 H G m0 order0)
    (hent : ∀ c ∈ H, Printed c (entries c)) {P : History} {R R' R2 : Repo} (hchain : Chain H G env0 entries P R)
    (hrest : Restored R R') {env : Env} {B N : History} (h : Resumes H G env0 env m order P B N R') {opts : RunOpts} {read : Str → Go Repo}
    (hinit : initCheckpoints opts read = .ok R') {last : Str}
    (hw : (run env opts read (Graph.newFromMap m order) ((N.flatMap entries).map LogEntry.meaning)).written = some (R2, last)) :
    (∀ c ∈ N, ¬ HasChildIn (B ++ N) c.hash → ∃ fs, GoMap.get R2 c.hash = some fs) ∧
    (∀ N1 N2 : History, N = N1 ++ N2 → (∀ l : List Str, l.Nodup → (∀ q ∈ l, HasChildIn N2 q) → l.length ≤ 1000) →
      ∀ c ∈ B ++ N, c ∈ N2 ∨ HasChildIn N2 c.hash → ∃ fs, GoMap.get R2 c.hash = some fs) ∧
    ∀ q, (∀ c ∈ B ++ N, c.hash ≠ q) → GoMap.get R2 q = GoMap.get R' q := by
  obtain ⟨Ri, res, hid⟩ := ideal_exists hfull.sorts hfull.orders hfull.history hfull.blame hent
  have hK := (chain_kept hfull.history hfull.blame hent hid hchain).restored hrest
  have hA : ∀ c ∈ B ++ N, c ∈ H := by
    intro c hc
    rcases List.mem_append.1 hc with hc | hc
    · exact hK.sub c (h.before c hc)
    · exact h.new c hc
  have hlog := log_of_entries N (fun c hc => hent c (h.new c hc))
  obtain ⟨s, a1, a2⟩ := run_core h.setting (B := B) (N1 := N) (N2 := []) (by simp) hlog
    h.nonempty (opts := opts) (read := read) (R := R') hinit
    (fun c hc fs hfs => rightFiles_sub h.setting.history hfull.history hA ⟨c, by simp [hc], rfl⟩ (hK.right c (h.before c hc) fs hfs))
    (by simpa using h.needed)
  have hfr : ∀ q, (∀ c ∈ B ++ N, c.hash ≠ q) → GoMap.get R2 q = GoMap.get R' q :=
    fun q hq => run_frame hinit hw (log_untouched h.setting hlog (fun c hc => by simp [hc]) hq)
  rw [a1] at hw
  cases hw
  have hdrop : (B ++ N).drop B.length = N := List.drop_left
  refine ⟨?_, ?_, hfr⟩
  · intro c hc hno
    refine a2.heads c (by rw [hdrop]; exact hc) (Or.inl ?_)
    apply Classical.byContradiction
    exact fun hn => hno (nc_pos hn)
  · intro N1 N2 hN hfew c hc hor
    exact (a2.recent N1 N2 (by rw [hdrop]; exact hN) hfew c hc hor).1

/-- When the needed parents can be found, for a single run before of any length: each is without a child in that run, or is among its last
commits and their parents, going back as far as these parents are at most 1000. -/
theorem C33_recent_parents_found {env env2 : Env} {m m2 : GoMap Str (List Str)} {order order2 : List (Str × List Str)} {P B N : History} {R R' : Repo} {last : Str}
    {read : Str → Go Repo} (hent : ∀ c ∈ P, Printed c (entries c)) (hset : Setting env P G m order) (hne : P ≠ []) {P1 P2 : History} (hP : P = P1 ++ P2)
    (hfew : ∀ l : List Str, l.Nodup → (∀ q ∈ l, HasChildIn P2 q) → l.length ≤ 1000)
    (hw : (run env {} read (Graph.newFromMap m order) ((P.flatMap entries).map LogEntry.meaning)).written = some (R, last))
    (hrest : Restored R R') (hB : ∀ c ∈ B, c ∈ P)
    (hneed : ∀ c ∈ B, HasChildIn N c.hash → ¬ HasChildIn P c.hash ∨ c ∈ P2 ∨ HasChildIn P2 c.hash)
    (hfiles : ∀ c ∈ B, HasChildIn N c.hash → ∃ p n, c.tree p = some n)
    (hN : ∀ c ∈ N, c ∈ H) (hN0 : N ≠ []) (hse : SameEnv env0 env2) (hset2 : Setting env2 (B ++ N) G m2 order2) :
    Resumes H G env0 env2 m2 order2 P B N R' := by
  refine ⟨hB, hN, hse, hset2, hN0, ?_⟩
  intro c hc hch
  obtain ⟨s, a1, a2⟩ := run_core hset (B := []) (N1 := P) (N2 := []) (by simp) (log_of_entries P hent) hne (opts := {}) (read := read) (R := []) rfl (by simp) (by simp)
  rw [a1] at hw
  cases hw
  have hfound : ∃ fs, GoMap.get s.repo c.hash = some fs := by
    rcases hneed c hc hch with hno | hor
    · refine a2.heads c (by simpa using hB c hc) (Or.inl ?_)
      apply Classical.byContradiction
      exact fun hn => hno (nc_pos hn)
    · exact (a2.recent P1 P2 (by simpa using hP) hfew c (by simpa using hB c hc) hor).1
  obtain ⟨fs, hfs⟩ := hfound
  obtain ⟨p, n, hp⟩ := hfiles c hc hch
  have hmem : c ∈ [] ++ P := by simpa using hB c hc
  obtain ⟨b, hb, _⟩ := a2.stored c hmem fs hfs p n (by rw [treeOf_of_mem hset.history (hB c hc)]; exact hp)
  exact hrest.complete c.hash fs hfs (by rintro rfl; simp [GoMap.get] at hb)

end

/-- The example split after `c2`, where the second run begins again with `c2`. -/
theorem ex_resume : ∃ R R2 : Repo, Restored R R ∧ Chain Ex.H Ex.blames Ex.env Ex.entries [Ex.c1, Ex.c2] R ∧
    Resumes Ex.H Ex.blames Ex.env Ex.env Ex.parents Ex.parents [Ex.c1, Ex.c2] [Ex.c1] [Ex.c2, Ex.c3, Ex.c4, Ex.c5] R ∧
    Chain Ex.H Ex.blames Ex.env Ex.entries ([Ex.c1, Ex.c2] ++ [Ex.c2, Ex.c3, Ex.c4, Ex.c5]) R2 := by
  have hsub : ∀ c ∈ [Ex.c1, Ex.c2], c ∈ Ex.H := by
    intro c hc
    simp only [List.mem_cons, List.not_mem_nil, or_false] at hc
    rcases hc with rfl | rfl <;> simp [Ex.H]
  have hok : History.Ok [] [Ex.c1, Ex.c2] := ⟨Ex.history_ok.1, Ex.history_ok.2.1, trivial⟩
  have hset : Setting Ex.env [Ex.c1, Ex.c2] Ex.blames Ex.parents Ex.parents :=
    ⟨isort_sortsHunks, fun _ _ _ => .refl _, hok, sub_blameWorks hok Ex.history_ok hsub Ex.blame_works, by decide, .refl _,
      fun c hc => Ex.setting.parents c (hsub c hc)⟩
  have hent : ∀ c ∈ [Ex.c1, Ex.c2], Printed c (Ex.entries c) := fun c hc => Ex.printed c (hsub c hc)
  obtain ⟨s, a1, _⟩ := run_core hset (B := []) (N1 := [Ex.c1, Ex.c2]) (N2 := []) (by simp) (log_of_entries _ hent) (by simp) (opts := {})
    (read := fun _ => .ok []) (R := []) rfl (by simp) (by simp)
  have hw : (run Ex.env {} (fun _ => .ok []) (Graph.newFromMap Ex.parents Ex.parents) (([Ex.c1, Ex.c2].flatMap Ex.entries).map LogEntry.meaning)).written =
    some (s.repo, s.lastProcessed) := by rw [a1]
  have hch : Chain Ex.H Ex.blames Ex.env Ex.entries [Ex.c1, Ex.c2] s.repo := .first hsub ⟨rfl, rfl⟩ hset (by simp) hw
  have hr : Restored s.repo s.repo := ⟨fun h fs hfs => ⟨fs, hfs, fun _ => rfl⟩, fun h fs hfs _ => ⟨fs, hfs⟩⟩
  have hN : ∀ c ∈ [Ex.c2, Ex.c3, Ex.c4, Ex.c5], c ∈ Ex.H := by
    intro c hc
    exact List.mem_cons_of_mem _ hc
  have hres := C33_parents_found (H := Ex.H) (env0 := Ex.env) (env2 := Ex.env) (m2 := Ex.parents) (order2 := Ex.parents) (B := [Ex.c1])
    (N := [Ex.c2, Ex.c3, Ex.c4, Ex.c5]) hent hset (by simp) (by simp) hw hr (by simp)
    (by
      intro c hc _
      simp only [List.mem_singleton] at hc
      subst hc
      exact ⟨b!"f", _, rfl⟩) hN (by simp) ⟨rfl, rfl⟩ Ex.setting
  obtain ⟨Ri, res, hid⟩ := ideal_exists Ex.setting.sorts Ex.setting.orders Ex.history_ok Ex.blame_works Ex.printed
  obtain ⟨t, b1, _⟩ := resumed_run Ex.history_ok Ex.blame_works Ex.printed hid ((chain_kept Ex.history_ok Ex.blame_works Ex.printed hid hch).restored hr) hres
    (opts := { commitFromIncl := b!"c2" }) (read := fun _ => .ok s.repo) rfl
  exact ⟨s.repo, t.repo, hr, hch, hres, .next hch hr hres (opts := { commitFromIncl := b!"c2" }) (read := fun _ => .ok s.repo) rfl (by rw [b1])⟩

/-- The same example with `C33_recent_parents_found`: `c1` is the parent of the last commit. The second part is about what the
second run leaves. -/
example : ∃ R R2 : Repo, ∃ last : Str, Resumes Ex.H Ex.blames Ex.env Ex.env Ex.parents Ex.parents [Ex.c1, Ex.c2] [Ex.c1] [Ex.c2, Ex.c3, Ex.c4, Ex.c5] R ∧
    (run Ex.env { commitFromIncl := b!"c2" } (fun _ => .ok R) (Graph.newFromMap Ex.parents Ex.parents)
      (([Ex.c2, Ex.c3, Ex.c4, Ex.c5].flatMap Ex.entries).map LogEntry.meaning)).written = some (R2, last) ∧
    (∃ fs, GoMap.get R2 Ex.c5.hash = some fs) ∧ (∃ fs, GoMap.get R2 Ex.c4.hash = some fs) ∧ ∃ fs, GoMap.get R2 Ex.c1.hash = some fs := by
  have hsub : ∀ c ∈ [Ex.c1, Ex.c2], c ∈ Ex.H := by
    intro c hc
    simp only [List.mem_cons, List.not_mem_nil, or_false] at hc
    rcases hc with rfl | rfl <;> simp [Ex.H]
  have hok : History.Ok [] [Ex.c1, Ex.c2] := ⟨Ex.history_ok.1, Ex.history_ok.2.1, trivial⟩
  have hset : Setting Ex.env [Ex.c1, Ex.c2] Ex.blames Ex.parents Ex.parents :=
    ⟨isort_sortsHunks, fun _ _ _ => .refl _, hok, sub_blameWorks hok Ex.history_ok hsub Ex.blame_works, by decide, .refl _,
      fun c hc => Ex.setting.parents c (hsub c hc)⟩
  have hent : ∀ c ∈ [Ex.c1, Ex.c2], Printed c (Ex.entries c) := fun c hc => Ex.printed c (hsub c hc)
  obtain ⟨s, a1, _⟩ := run_core hset (B := []) (N1 := [Ex.c1, Ex.c2]) (N2 := []) (by simp) (log_of_entries _ hent) (by simp) (opts := {})
    (read := fun _ => .ok []) (R := []) rfl (by simp) (by simp)
  have hw : (run Ex.env {} (fun _ => .ok []) (Graph.newFromMap Ex.parents Ex.parents) (([Ex.c1, Ex.c2].flatMap Ex.entries).map LogEntry.meaning)).written =
    some (s.repo, s.lastProcessed) := by rw [a1]
  have hch : Chain Ex.H Ex.blames Ex.env Ex.entries [Ex.c1, Ex.c2] s.repo := .first hsub ⟨rfl, rfl⟩ hset (by simp) hw
  have hr : Restored s.repo s.repo := ⟨fun h fs hfs => ⟨fs, hfs, fun _ => rfl⟩, fun h fs hfs _ => ⟨fs, hfs⟩⟩
  have hN : ∀ c ∈ [Ex.c2, Ex.c3, Ex.c4, Ex.c5], c ∈ Ex.H := fun c hc => List.mem_cons_of_mem _ hc
  have hall : ∀ (A : History) (l : List Str), (∀ d ∈ A, ∀ q ∈ d.parents, q ∈ [b!"c1", b!"c2", b!"c3", b!"c4", b!"c5"]) → l.Nodup →
      (∀ q ∈ l, HasChildIn A q) → l.length ≤ 1000 := by
    intro A l hA hnd hl
    have := (List.subperm_of_subset hnd (l₂ := [b!"c1", b!"c2", b!"c3", b!"c4", b!"c5"])
      (fun q hq => by obtain ⟨d, h1, h2⟩ := hl q hq; exact hA d h1 q h2)).length_le
    simp only [List.length_cons, List.length_nil] at this
    omega
  have hres := C33_recent_parents_found (H := Ex.H) (env0 := Ex.env) (env2 := Ex.env) (m2 := Ex.parents) (order2 := Ex.parents) (B := [Ex.c1])
    (N := [Ex.c2, Ex.c3, Ex.c4, Ex.c5]) hent hset (by simp) (P1 := [Ex.c1]) (P2 := [Ex.c2]) rfl
    (fun l => hall _ l (by decide)) hw hr (by simp)
    (by
      intro c hc _
      simp only [List.mem_singleton] at hc
      subst hc
      exact Or.inr (Or.inr ⟨Ex.c2, by simp, by decide⟩))
    (by
      intro c hc _
      simp only [List.mem_singleton] at hc
      subst hc
      exact ⟨b!"f", _, rfl⟩) hN (by simp) ⟨rfl, rfl⟩ Ex.setting
  obtain ⟨Ri, res, hid⟩ := ideal_exists Ex.setting.sorts Ex.setting.orders Ex.history_ok Ex.blame_works Ex.printed
  obtain ⟨t, b1, _⟩ := resumed_run Ex.history_ok Ex.blame_works Ex.printed hid ((chain_kept Ex.history_ok Ex.blame_works Ex.printed hid hch).restored hr) hres
    (opts := { commitFromIncl := b!"c2" }) (read := fun _ => .ok s.repo) rfl
  have hw2 : (run Ex.env { commitFromIncl := b!"c2" } (fun _ => .ok s.repo) (Graph.newFromMap Ex.parents Ex.parents)
      (([Ex.c2, Ex.c3, Ex.c4, Ex.c5].flatMap Ex.entries).map LogEntry.meaning)).written = some (t.repo, t.lastProcessed) := by rw [b1]
  obtain ⟨k1, k2, _⟩ := C33_recent_kept Ex.setting Ex.printed hch hr hres rfl hw2
  have k3 := k2 [] _ rfl (fun l => hall _ l (by decide))
  exact ⟨s.repo, t.repo, _, hres, hw2, k1 _ (by simp) (by rintro ⟨d, h1, h2⟩; revert h1 h2; revert d; decide),
    k3 _ (by simp) (Or.inl (by simp)), k3 _ (by simp) (Or.inr ⟨Ex.c2, by simp, by decide⟩)⟩

end Ripsrc
