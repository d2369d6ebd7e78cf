import Verif.Lib.Run
import Verif.Lib.Sub
import Verif.Spec.Run
/-!
# The results do not depend on the run

For a given history and log there is one ideal state with the files of all commits, and one ideal result per commit. Every run,
whatever the iteration order of maps, whatever part of the log it processes and whatever is unloaded, agrees with them.
-/
namespace Ripsrc
open Spec

theorem Spec.SameResult.symm {r r' : Result} (h : SameResult r r') : SameResult r' r := ⟨h.1.symm, fun p => (h.2 p).symm⟩
theorem Spec.SameResult.trans {a b c : Result} (h : SameResult a b) (h' : SameResult b c) : SameResult a c :=
  ⟨h'.1.trans h.1, fun p => (h'.2 p).trans (h.2 p)⟩

theorem files_of_optional {r : Repo} {h : Str} {fs : Files} (hf : GoMap.get r h = some fs) (p : Str) :
    r.getFileOptional h p = .ok (GoMap.get fs p) := by
  unfold Repo.getFileOptional
  rw [hf]

theorem optional_congr {a b : Repo} {h : Str} (hab : GoMap.get a h = GoMap.get b h) (p : Str) : a.getFileOptional h p = b.getFileOptional h p := by
  unfold Repo.getFileOptional
  rw [hab]

/-- The same files of the parents give the same stored files. -/
theorem stored_same {env env' : Env} (he : SameEnv env env') {before : History} {c : HCommit} (hcok : c.Ok before)
    {ec : List LogEntry} {r r' q q' : Repo}
    (g1 : StoredBy env c ec r q) (g2 : StoredBy env' c ec r' q') (hl : LookEq c.parents r r') :
    ∀ p, q'.getFileOptional c.hash p = q.getFileOptional c.hash p := by
  intro p
  rcases g1 with ⟨a1, e, rfl, a3⟩ | ⟨a1, D, a2, a3⟩
  · rcases g2 with ⟨b1, e', b2, b3⟩ | ⟨b1, _⟩
    · cases b2
      rw [a3, b3, regStored_look he c _ r r' hl]
    · exact absurd a1 b1
  · rcases g2 with ⟨b1, _⟩ | ⟨b1, D', b2, b3⟩
    · exact absurd b1 a1
    · rw [a3, b3, mergeStored_look he c D D' (collected_unique hcok a1 (by
        intro h; apply a1; unfold HCommit.Regular; rw [h]; simp) a2 b2) r r' hl]

/-- The same stored files give the same result. -/
theorem result_same {H : History} {G : Str → Str → List Str} {c : HCommit}
    (ht : NoTypeChange H c) {r r' q q' : Repo} {res res' : Result} (h1 : CommitOk H G c r q res) (h2 : CommitOk H G c r' q' res')
    (hst : ∀ p, q'.getFileOptional c.hash p = q.getFileOptional c.hash p) : SameResult res res' := by
  refine ⟨by rw [h1.commit, h2.commit], ?_⟩
  intro p
  by_cases hw : c.Writes H p
  · have hd : c.Regular ∨ ¬ c.Deletes p := by
      rcases ht with h | h
      · exact Or.inl h
      · exact Or.inr (fun hd => h p ⟨hd, hw⟩)
    obtain ⟨fs, k1, _, k3⟩ := h1.files
    obtain ⟨fs', k1', _, k3'⟩ := h2.files
    rw [k3 p hw hd, k3' p hw hd]
    have := hst p
    rw [files_of_optional k1, files_of_optional k1'] at this
    simpa using this
  · by_cases hd : c.Deletes p
    · obtain ⟨b, b1, b2, b3, b4⟩ := h1.removed p hd hw
      obtain ⟨b', b1', b2', b3', b4'⟩ := h2.removed p hd hw
      rw [b1, b1']
      congr 1
      cases b with
      | mk bc bl bb =>
        cases b' with
        | mk bc' bl' bb' =>
          simp only at b2 b3 b4 b2' b3' b4'
          subst b2 b3 b2' b3'
          have : bb' = bb := by
            rw [Bool.eq_iff_iff, b4, b4']
          rw [this]
    · have e1 : GoMap.get res.files p = none := by
        have : ¬ (GoMap.has res.files p = true) := fun h => ((h1.paths p).1 h).elim hw hd
        unfold GoMap.has at this
        simpa using this
      have e2 : GoMap.get res'.files p = none := by
        have : ¬ (GoMap.has res'.files p = true) := fun h => ((h2.paths p).1 h).elim hw hd
        unfold GoMap.has at this
        simpa using this
      rw [e1, e2]

/-- Ideal files and results for the commits `done`. -/
structure IdealOn (H : History) (G : Str → Str → List Str) (env : Env) (entries : HCommit → List LogEntry) (done : History) (R : Repo)
    (res : HCommit → Result) : Prop where
  ok : ∀ c ∈ done, CommitOk H G c R R (res c)
  stored : ∀ c ∈ done, StoredBy env c (entries c) R R

theorem printed_changes {before : History} {c : HCommit} (hcok : c.Ok before) {cs : List FileChange} (hcs : c.diffs = [cs]) : ∀ f ∈ cs, f.Ok := by
  by_cases hroot : c.parents = []
  · obtain ⟨cs', g1, g2⟩ := hcok.root hroot
    rw [g1] at hcs
    cases hcs
    exact g2.ok
  · have hl := hcok.count hroot
    rw [hcs] at hl
    obtain ⟨q, hq⟩ := List.length_eq_one_iff.1 hl.symm
    exact (hcok.diffs (q, cs) (by rw [hq, hcs]; simp)).ok

/-- A commit can be processed if its parents are stored. -/
theorem process_ok {env : Env} (hsrt : SortsHunks env.srt) (horder : ∀ n k l, (env.order n k l).Perm l)
    {H : History} {G : Str → Str → List Str} (hH : History.Ok [] H) (hbw : BlameWorks H G env.blameOut)
    {a r : History} {c : HCommit} (hsplit : H = a ++ c :: r) {ec : List LogEntry} (hp : Printed c ec) {repo : Repo}
    (hrepo : ∀ q ∈ c.parents, ∃ fs, GoMap.get repo q = some fs ∧ RightFiles H G q fs) :
    ∃ repo' res, CommitOk H G c repo repo' res ∧ StoredBy env c ec repo repo' := by
  have hcok : c.Ok a := history_ok_at (r := r) (hsplit ▸ hH)
  rcases hp with ⟨hreg, cs, e, hcs, he, rfl⟩ | ⟨hreg, hms⟩
  · obtain ⟨repo', res, _, m2, m3⟩ := regular_ok hsrt horder hH hsplit hreg hcs (entry_changes he (printed_changes hcok hcs)) hrepo (hbw.text c (by rw [hsplit]; simp)) 0
    exact ⟨repo', res, m2, Or.inl ⟨hreg, e, rfl, m3⟩⟩
  · have hpne : c.parents ≠ [] := by intro h; apply hreg; unfold HCommit.Regular; rw [h]; simp
    obtain ⟨repo', res, _, m2, D, m3, m4⟩ := merge_ok hsrt horder hH hsplit hreg (partsOf_entries hcok hpne hms).1 hrepo hbw.ancestors 0
    exact ⟨repo', res, m2, Or.inr ⟨hreg, D, m3, m4⟩⟩

theorem stored_congr {env : Env} {c : HCommit} {ec : List LogEntry} {r r' q q' : Repo}
    (h : StoredBy env c ec r q) (hl : LookEq c.parents r r') (hq : GoMap.get q' c.hash = GoMap.get q c.hash) : StoredBy env c ec r' q' := by
  rcases h with ⟨a1, e, a2, a3⟩ | ⟨a1, D, a2, a3⟩
  · refine Or.inl ⟨a1, e, a2, fun p => ?_⟩
    rw [optional_congr hq, a3, regStored_look ⟨rfl, rfl⟩ c _ r r' hl]
  · refine Or.inr ⟨a1, D, a2, fun p => ?_⟩
    rw [optional_congr hq, a3, mergeStored_look ⟨rfl, rfl⟩ c D D (fun _ => rfl) r r' hl]

theorem ideal_exists {env : Env} (hsrt : SortsHunks env.srt) (horder : ∀ n k l, (env.order n k l).Perm l)
    {H : History} {G : Str → Str → List Str} (hH : History.Ok [] H) (hbw : BlameWorks H G env.blameOut)
    {entries : HCommit → List LogEntry} (hent : ∀ c ∈ H, Printed c (entries c)) :
    ∃ R res, IdealOn H G env entries H R res := by
  have key : ∀ (rest done : History) (R : Repo) (res : HCommit → Result), H = done ++ rest → IdealOn H G env entries done R res →
      ∃ R res, IdealOn H G env entries H R res := by
    intro rest
    induction rest with
    | nil =>
      intro done R res hs h
      rw [List.append_nil] at hs
      exact ⟨R, res, hs ▸ h⟩
    | cons c rest ih =>
      intro done R res hs h
      have hcok : c.Ok done := history_ok_at (r := rest) (hs ▸ hH)
      have hold : ∀ x ∈ done, x.hash ≠ c.hash := hcok.new
      obtain ⟨repo', r', m1, m2⟩ := process_ok hsrt horder hH hbw hs (hent c (by rw [hs]; simp)) (repo := R) (by
        intro q hq
        obtain ⟨x, hx, rfl⟩ := hcok.parentsKnown q hq
        obtain ⟨fs, k1, k2, _⟩ := (h.ok x hx).files
        exact ⟨fs, k1, k2⟩)
      have hlook : ∀ (x : HCommit), x ∈ done ∨ x = c → LookEq x.parents R repo' := by
        intro x hx
        refine LookEq.of_get (fun q hq => m1.same q ?_)
        rcases hx with hx | rfl
        · obtain ⟨y, hy, rfl⟩ := parent_before hH hs ⟨x, hx, rfl⟩ ⟨x, by rw [hs]; simp [hx], rfl, hq⟩
          exact hold y hy
        · obtain ⟨y, hy, rfl⟩ := hcok.parentsKnown q hq
          exact hold y hy
      refine ih (done ++ [c]) repo' (fun x => if x.hash = c.hash then r' else res x) (by rw [hs]; simp) ⟨?_, ?_⟩
      · intro x hx
        rcases List.mem_append.1 hx with hx | hx
        · simp only [hold x hx, if_false]
          have hx' := h.ok x hx
          refine ⟨hx'.commit, fun _ _ => rfl, ?_, hx'.paths, hx'.removed⟩
          rw [m1.same _ (hold x hx)]
          exact hx'.files
        · simp only [List.mem_singleton] at hx
          subst hx
          simp only [if_true]
          exact ⟨m1.commit, fun _ _ => rfl, m1.files, m1.paths, m1.removed⟩
      · intro x hx
        rcases List.mem_append.1 hx with hx | hx
        · exact stored_congr (h.stored x hx) (hlook x (Or.inl hx)) (m1.same _ (hold x hx))
        · simp only [List.mem_singleton] at hx
          subst hx
          exact stored_congr m2 (hlook x (Or.inr rfl)) rfl
  exact key H [] [] (fun _ => { commit := [], files := [] }) rfl ⟨by simp, by simp⟩

/-- A run that stores no files, only the commits: its bookkeeping is that of any run. -/
def shadow (s : Proc) (l : History) : Proc :=
  l.foldl (fun s c => ({ s with repo := GoMap.set s.repo c.hash [] } : Proc).trim c.hash) s

theorem shadow_congr {a b : Proc} (h : BookEq a b) (l : History) : BookEq (shadow a l) (shadow b l) := by
  unfold shadow
  induction l generalizing a b with
  | nil => exact h
  | cons c l ih =>
    refine ih (BookEq.trim (a := { a with repo := GoMap.set a.repo c.hash [] }) (b := { b with repo := GoMap.set b.repo c.hash [] })
      ⟨h.parents, h.children, h.cp, h.list, fun q => ?_⟩ c.hash)
    simp only [GoMap.get_set]
    split
    · rfl
    · exact h.stored q

/-- The state of a run that began with `s0` agrees with the ideal. -/
structure Agree (H : History) (R : Repo) (res : HCommit → Result) (s0 : Proc) (k : Nat) (done : History) (s : Proc) : Prop where
  book : BookEq (shadow s0 (done.drop k)) s
  look : ∀ c ∈ done, ∀ fs, GoMap.get s.repo c.hash = some fs → ∀ p, s.repo.getFileOptional c.hash p = R.getFileOptional c.hash p
  sent : ∀ (i : Nat) c r, (done.drop k)[i]? = some c → s.sent[i]? = some r → NoTypeChange H c → SameResult (res c) r

theorem log_of_entries {entries : HCommit → List LogEntry} (r : History) (h : ∀ c ∈ r, Printed c (entries c)) : LogOf r (r.flatMap entries) := by
  induction r with
  | nil => exact .nil
  | cons c r ih =>
    rw [List.flatMap_cons]
    exact .cons (h c (by simp)) (ih (fun x hx => h x (by simp [hx])))

/-- A run over the history `A`, part of `H`. -/
theorem loop_agree {env env' : Env} (he : SameEnv env env') (hsrt : SortsHunks env'.srt)
    (horder : ∀ n k l, (env'.order n k l).Perm l) {H A : History} {G : Str → Str → List Str} (hH : History.Ok [] H)
    (hA : History.Ok [] A) (hsub : ∀ c ∈ A, c ∈ H) {g : Graph} (hg : GraphOf g A) (hbw : BlameWorks H G env'.blameOut)
    {entries : HCommit → List LogEntry} (hent : ∀ c ∈ H, Printed c (entries c)) {R : Repo} {res : HCommit → Result}
    (hideal : IdealOn H G env entries H R res) :
    ∀ (r1 : History) {s0 : Proc} {k : Nat} {done r2 : History} {s : Proc}, s.mergeParts = [] → PInv A G g k done (r1 ++ r2) s → k ≤ done.length →
    Agree H R res s0 k done s →
    ∃ s', s.LoopF env' ((r1.flatMap entries).map LogEntry.meaning) s' ∧ s'.mergeParts = [] ∧ PInv A G g k (done ++ r1) r2 s' ∧
      Agree H R res s0 k (done ++ r1) s' := by
  have hbwA := sub_blameWorks hA hH hsub hbw
  intro r1
  induction r1 with
  | nil =>
    intro s0 k done r2 s h0 h hk hag
    exact ⟨s, ⟨s, rfl, flush_idle h0⟩, h0, by simpa using h, by simpa using hag⟩
  | cons c r1 ih =>
    intro s0 k done r2 s h0 h hk hag
    have hcA : c ∈ A := by rw [h.split]; simp
    have hcok : c.Ok done := history_ok_at (r := r1 ++ r2) (h.split ▸ hA)
    obtain ⟨t, s1, l1, l2, l3, l4, l5, l6⟩ := commit_ok hsrt horder hA hg hbwA.ancestors h0 h hk (hbwA.text c hcA) (hent c (hsub c hcA))
    obtain ⟨repo', rs, a1, a2, a3, a4, z0, z1, z2, z3, z4, z5⟩ := l6
    have hl : LookEq c.parents R s.repo := by
      intro x hx p
      obtain ⟨d, hd, rfl⟩ := hcok.parentsKnown x hx
      obtain ⟨fs, hfs⟩ := h.kept d hd (nc_of_mem (d := c) (by simp) hx)
      exact hag.look d hd fs hfs p
    have hst := stored_same he hcok (hideal.stored c (hsub c hcA)) a2 hl
    have hag1 : Agree H R res s0 k (done ++ [c]) s1 := by
      constructor
      · rw [List.drop_append_of_le_length hk]
        unfold shadow
        rw [List.foldl_append]
        refine BookEq.trans (BookEq.trim ?_ c.hash) z5
        have hb := hag.book
        unfold shadow at hb
        refine ⟨?_, ?_, ?_, ?_, ?_⟩
        · intro x
          unfold Proc.parents
          rw [z2]
          exact hb.parents x
        · intro x
          rw [z2]
          exact hb.children x
        · intro x
          rw [z3]
          exact hb.cp x
        · rw [z4]
          exact hb.list
        · intro q
          rw [z1]
          simp only [GoMap.get_set]
          obtain ⟨fs, w1, _⟩ := a1.files
          split
          · rename_i hq
            rw [← hq, w1]
            rfl
          · rename_i hq
            rw [a1.same q (fun h => hq h.symm)]
            exact hb.stored q
      · intro d hd fs hfs p
        have hd4 : GoMap.get s1.repo d.hash = GoMap.get repo' d.hash := by
          rcases a4 d.hash with h | h
          · exact h
          · rw [h] at hfs; cases hfs
        rw [optional_congr hd4]
        rcases List.mem_append.1 hd with hd | hd
        · have hne : d.hash ≠ c.hash := hcok.new d hd
          rw [optional_congr (a1.same d.hash hne)]
          exact hag.look d hd fs (by rw [← a1.same d.hash hne, ← hd4]; exact hfs) p
        · simp only [List.mem_singleton] at hd
          subst hd
          exact hst p
      · intro i d r hd hr hn
        rw [List.drop_append_of_le_length hk, List.getElem?_append] at hd
        rw [a3, List.getElem?_append] at hr
        split at hd
        · rename_i hlt
          rw [if_pos (by rw [h.sentLen]; exact hlt)] at hr
          exact hag.sent i d r hd hr hn
        · rename_i hlt
          rw [if_neg (by rw [h.sentLen]; exact hlt), h.sentLen] at hr
          cases hi : i - (done.drop k).length with
          | zero =>
            rw [hi] at hd hr
            simp only [List.getElem?_cons_zero, Option.some.injEq] at hd hr
            subst hd hr
            exact result_same hn (hideal.ok c (hsub c hcA)) (sub_commitOk hA hH hsub hcA a1) hst
          | succ m => rw [hi] at hd; simp at hd
    obtain ⟨s2, m1, m2, m3, m4⟩ := ih l4 l5 (by simp; omega) hag1
    have hne := log_head_ne (log_of_entries r1 (fun x hx => hent x (hsub x (by rw [h.split]; simp [hx])))) (H := A) (done := done) (r2 := r2) (c := c)
      (by rw [h.split]; simp) hA
    obtain ⟨u, h1, h2⟩ := loopF_flush l2 l3 l4 hne m1
    refine ⟨s2, ⟨u, ?_, h2⟩, m2, by simpa using m3, by simpa using m4⟩
    rw [List.flatMap_cons, List.map_append, loop_append env' s _ _ l1, h1]

end Ripsrc
