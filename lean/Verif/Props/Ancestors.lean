import Verif.Props.WholeResume
import Verif.Props.AnyLog
/-!
# C82: what is reported for a commit depends only on the commit and its ancestors
-/
namespace Ripsrc
open Spec Conc

/-! ## The part of a history that a commit can see -/

open Classical in
/-- A commit and its ancestors, in the order of the history. -/
noncomputable def Spec.ancestors (H : History) (c : Str) : History := H.filter (fun x => decide (H.Reach c x.hash))

theorem mem_ancestors {H : History} {c : Str} {x : HCommit} : x ∈ ancestors H c ↔ x ∈ H ∧ H.Reach c x.hash := by
  simp [ancestors]

theorem filter_treeOf {before : History} {p : HCommit → Bool} {q : Str} (h : ∀ y ∈ before, y.hash = q → p y = true) : History.treeOf (before.filter p) q = before.treeOf q := by
  unfold History.treeOf History.commit?
  rw [List.find?_filter]
  have : before.find? (fun x => decide (p x = true ∧ decide (x.hash = q) = true)) = before.find? (fun x => decide (x.hash = q)) := by
    induction before with
    | nil => rfl
    | cons y ys ih =>
      have ih := ih (fun z hz => h z (List.mem_cons_of_mem _ hz))
      by_cases hy : y.hash = q
      · have hp := h y List.mem_cons_self hy
        rw [List.find?_cons_of_pos (by simp [hy, hp]), List.find?_cons_of_pos (by simp [hy])]
      · rw [List.find?_cons_of_neg (by simp [hy]), List.find?_cons_of_neg (by simp [hy]), ih]
  rw [this]

/-- A part of a history that contains the parents of its commits is a history. -/
theorem filter_ok {p : HCommit → Bool} : ∀ (H before : History), History.Ok before H →
    (∀ x ∈ H, p x = true → ∀ q ∈ x.parents, ∀ y ∈ before ++ H, y.hash = q → p y = true) → History.Ok (before.filter p) (H.filter p)
  | [], _, _, _ => trivial
  | c :: H, before, h, hcl => by
    have hrec := filter_ok H (before ++ [c]) h.2 (by
      intro x hx hpx q hq y hy
      refine hcl x (List.mem_cons_of_mem _ hx) hpx q hq y ?_
      simpa using hy)
    by_cases hc : p c = true
    · rw [List.filter_cons_of_pos hc]
      refine ⟨?_, ?_⟩
      · have hk := h.1
        have hpar : ∀ q ∈ c.parents, ∀ y ∈ before, y.hash = q → p y = true := fun q hq y hy he => hcl c List.mem_cons_self hc q hq y (by simp [hy]) he
        refine ⟨fun x hx => hk.new x (List.mem_of_mem_filter hx), ?_, hk.parentsOnce, hk.paths, hk.root, hk.count, ?_⟩
        · intro q hq
          obtain ⟨x, hx, he⟩ := hk.parentsKnown q hq
          exact ⟨x, List.mem_filter.2 ⟨hx, hpar q hq x hx he⟩, he⟩
        · intro x hx
          rw [filter_treeOf (hpar x.1 (List.of_mem_zip hx).1)]
          exact hk.diffs x hx
      · rw [List.filter_append] at hrec
        simpa [hc] using hrec
    · rw [List.filter_cons_of_neg hc]
      rw [List.filter_append] at hrec
      simpa [hc] using hrec

theorem ancestors_ok {H : History} (hH : History.Ok [] H) (c : Str) : History.Ok [] (ancestors H c) := by
  unfold ancestors
  refine filter_ok H [] hH ?_
  intro x hx hpx q hq y hy he
  simp only [decide_eq_true_eq] at hpx ⊢
  rw [he]
  exact hpx.tail ⟨x, hx, rfl, hq⟩

section
variable {G : Str → Str → List Str} {entries : HCommit → List LogEntry}

theorem ancestors_setting {H : History} {env : Env} {m : GoMap Str (List Str)} {order : List (Str × List Str)} (h : Setting env H G m order) (c : Str) :
    Setting env (ancestors H c) G m order :=
  ⟨h.sorts, h.orders, ancestors_ok h.history c,
    sub_blameWorks (ancestors_ok h.history c) h.history (fun _ hx => (mem_ancestors.1 hx).1) h.blame, h.wf, h.perm,
    fun x hx => h.parents x (mem_ancestors.1 hx).1⟩

/-- A run over a part of a history gives the results of the whole history. -/
theorem part_results {H N : History} {env0 env : Env} {m : GoMap Str (List Str)} {order : List (Str × List Str)} (hsrt : SortsHunks env0.srt)
    (hord : ∀ n k l, (env0.order n k l).Perm l) (hH : History.Ok [] H) (hbw : BlameWorks H G env0.blameOut) (hent : ∀ c ∈ H, Printed c (entries c))
    (hsub : ∀ c ∈ N, c ∈ H) (he : SameEnv env0 env) (hset : Setting env N G m order) (hne : N ≠ []) {Ri : Repo} {res : HCommit → Result}
    (hid : IdealOn H G env0 entries H Ri res) (read : Str → Go Repo) :
    ∃ s : Proc, run env {} read (Graph.newFromMap m order) ((N.flatMap entries).map LogEntry.meaning) =
        { sent := s.sent, fault := none, written := some (s.repo, s.lastProcessed) } ∧ s.sent.length = N.length ∧
      ∀ (i : Nat) c r, N[i]? = some c → s.sent[i]? = some r → r.commit = c.hash ∧ (NoTypeChange H c → SameResult (res c) r) := by
  obtain ⟨s, h1, h2, h3, _⟩ := resumed_run (P := []) (B := []) (R' := []) (opts := {}) (read := read) hH hbw hent hid ⟨by simp, by simp, by simp⟩
    ⟨by simp, hsub, he, by simpa using hset, hne, by simp⟩ rfl
  exact ⟨s, h1, h2, h3⟩

theorem sameResult_symm {a b : Result} (h : SameResult a b) : SameResult b a := ⟨h.1.symm, fun p => (h.2 p).symm⟩

theorem sub_noTypeChange {A H : History} (hA : History.Ok [] A) (hH : History.Ok [] H) (hsub : ∀ c ∈ A, c ∈ H) {c : HCommit} (hc : c ∈ A) :
    NoTypeChange A c ↔ NoTypeChange H c := by
  unfold NoTypeChange
  refine or_congr Iff.rfl (forall_congr' (fun p => ?_))
  rw [sub_writes hA hH hsub hc p]

/-- **C82.** Two runs over two histories (two clones, or a repository at two times; in any order of the log, with any other commits) report the same for a commit that is in both, if both contain the same ancestors of this commit: the
same files with the same lines and the same originating commits, all of which are the commit itself or its ancestors. Excluded are, as in C30, merges that delete and write the same path. -/
theorem C82_only_ancestors_matter {H1 H2 : History} {env1 env2 : Env} {m1 m2 : GoMap Str (List Str)} {order1 order2 : List (Str × List Str)}
    (h1 : Setting env1 H1 G m1 order1) (h2 : Setting env2 H2 G m2 order2) (he : SameEnv env1 env2)
    (hent1 : ∀ c ∈ H1, Printed c (entries c)) (hent2 : ∀ c ∈ H2, Printed c (entries c)) {c : HCommit} {i j : Nat} (hi : H1[i]? = some c) (hj : H2[j]? = some c)
    (hanc : ∀ x ∈ H1, H1.Reach c.hash x.hash → x ∈ H2) (ht : NoTypeChange H1 c) (read1 read2 : Str → Go Repo) :
    ∃ log1 log2 r1 r2, parseLog (logText (H1.flatMap entries)) = .ok log1 ∧ parseLog (logText (H2.flatMap entries)) = .ok log2 ∧
      (run env1 {} read1 (Graph.newFromMap m1 order1) log1).sent[i]? = some r1 ∧ (run env2 {} read2 (Graph.newFromMap m2 order2) log2).sent[j]? = some r2 ∧
      SameResult r1 r2 ∧ ∀ p b, GoMap.get r1.files p = some b → ∀ l ∈ b.lines, H1.Reach c.hash l.commit := by
  have hc1 := List.mem_of_getElem? hi
  have hc2 := List.mem_of_getElem? hj
  have hcA : c ∈ ancestors H1 c.hash := mem_ancestors.2 ⟨hc1, .refl⟩
  have hA := ancestors_ok h1.history c.hash
  have hs1 : ∀ x ∈ ancestors H1 c.hash, x ∈ H1 := fun x hx => (mem_ancestors.1 hx).1
  have hs2 : ∀ x ∈ ancestors H1 c.hash, x ∈ H2 := fun x hx => hanc x (mem_ancestors.1 hx).1 (mem_ancestors.1 hx).2
  have ht2 : NoTypeChange H2 c := (sub_noTypeChange hA h2.history hs2 hcA).1 ((sub_noTypeChange hA h1.history hs1 hcA).2 ht)
  obtain ⟨Ri1, res1, id1⟩ := ideal_exists h1.sorts h1.orders h1.history h1.blame hent1
  obtain ⟨Ri2, res2, id2⟩ := ideal_exists h2.sorts h2.orders h2.history h2.blame hent2
  have he' : SameEnv env2 env1 := ⟨he.1.symm, he.2.symm⟩
  obtain ⟨a, ha⟩ := List.getElem?_of_mem hcA
  -- the two runs, and a run over the ancestors only
  obtain ⟨s1, e1, l1, k1⟩ := part_results h1.sorts h1.orders h1.history h1.blame hent1 (fun _ h => h) ⟨rfl, rfl⟩ h1 (List.ne_nil_of_mem hc1) id1 read1
  obtain ⟨s2, e2, l2, k2⟩ := part_results h2.sorts h2.orders h2.history h2.blame hent2 (fun _ h => h) ⟨rfl, rfl⟩ h2 (List.ne_nil_of_mem hc2) id2 read2
  obtain ⟨s3, e3, l3, k3⟩ := part_results h1.sorts h1.orders h1.history h1.blame hent1 hs1 ⟨rfl, rfl⟩ (ancestors_setting h1 c.hash) (List.ne_nil_of_mem hcA) id1 read1
  obtain ⟨s4, e4, l4, k4⟩ := part_results h2.sorts h2.orders h2.history h2.blame hent2 hs2 he' (ancestors_setting h1 c.hash) (List.ne_nil_of_mem hcA) id2 read1
  rw [e3] at e4
  have e4 : s3.sent = s4.sent := congrArg RunOut.sent e4
  have g1 : s1.sent[i]? = some (s1.sent[i]'(by rw [l1]; exact (List.getElem?_eq_some_iff.1 hi).1)) := List.getElem?_eq_getElem _
  have g2 : s2.sent[j]? = some (s2.sent[j]'(by rw [l2]; exact (List.getElem?_eq_some_iff.1 hj).1)) := List.getElem?_eq_getElem _
  have g3 : s3.sent[a]? = some (s3.sent[a]'(by rw [l3]; exact (List.getElem?_eq_some_iff.1 ha).1)) := List.getElem?_eq_getElem _
  refine ⟨_, _, _, _, C11_log_parser _ (logOf_ok (log_of_entries H1 hent1)), C11_log_parser _ (logOf_ok (log_of_entries H2 hent2)), by rw [e1]; exact g1, by rw [e2]; exact g2, ?_, ?_⟩
  · have r1 := (k1 i c _ hi g1).2 ht
    have r2 := (k2 j c _ hj g2).2 ht2
    have r3 := (k3 a c _ ha g3).2 ht
    have r4 := (k4 a c _ ha (by rw [← e4]; exact g3)).2 ht2
    exact (sameResult_symm r1).trans (r3.trans ((sameResult_symm r4).trans r2))
  · intro p b hb l hl
    obtain ⟨log, s, q1, q2, q3⟩ := history_run_all h1 (log_of_entries H1 hent1) (List.ne_nil_of_mem hc1) read1
    rw [C11_log_parser _ (logOf_ok (log_of_entries H1 hent1))] at q1
    injection q1 with q1
    rw [← q1, e1] at q2
    have hss : s1.sent = s.sent := congrArg RunOut.sent q2
    have hok := q3.sentOk i c _ hi (by rw [← hss]; exact g1)
    have hbin := (C25_binary_without_lines env1 {} read1 (Graph.newFromMap m1 order1) ((H1.flatMap entries).map LogEntry.meaning) (fun e R hne => absurd rfl hne)).1
    rw [e1] at hbin
    have hnb : b.isBinary = false := by
      cases hbb : b.isBinary with
      | false => rfl
      | true =>
        have := hbin _ (List.getElem_mem _) p b hb hbb
        rw [this] at hl; cases hl
    have hpath := (hok.paths p).1 (by rw [GoMap.has, hb]; rfl)
    by_cases hw : c.Writes H1 p
    · have hnd : c.Regular ∨ ¬ c.Deletes p := ht.imp id (fun h hd => h p ⟨hd, hw⟩)
      obtain ⟨b', n, hb', _, hr⟩ := hok.written p hw hnd
      rw [hb] at hb'; injection hb' with hb'; subst hb'
      obtain ⟨x, hx⟩ := List.getElem?_of_mem hl
      exact origin_reach h1.blame.ancestors (hr.line hnb x l hx).2
    · obtain ⟨b', hb', _, hnil, _⟩ := hok.removed p (hpath.resolve_left hw) hw
      rw [hb] at hb'; injection hb' with hb'; subst hb'
      rw [hnil] at hl; cases hl

/-- A whole call of `CodeSlice` over a history, with what is known about each of its results. -/
theorem whole_call {τ : Type} {env : Env} {m : GoMap Str (List Str)} {order : List (Str × List Str)} {H : History}
    (h : Setting env H G m order) (hent : ∀ c ∈ H, Printed c (entries c)) (hne : H ≠ []) (read : Str → Go Repo)
    {cl : Classifier} (hl : Lawful cl) (hlic : ∀ path content, LicenseName path → cl.licenseDb path content ≠ .failed)
    (scc : Str → Str → Str → SccRun) (orders : Nat → Files → Files) (horder : ∀ n fs, (orders n fs).Perm fs)
    (metas : GoMap Str (MetaCommit τ)) (hm : MetasOf H metas) :
    let p : Pipe τ := { env := env, opts := {}, read := read, graph := Graph.newFromMap m order, text := logText (H.flatMap entries), cl := cl, scc := scc, orders := orders, metas := metas }
    ∃ (w : Repo × Str) (out : List (MetaCommit τ × List (CodeRecord τ))), AlwaysReturns p (some w) none (out.flatMap (·.2)) ∧ out.length = H.length ∧
      ∀ (i : Nat) (c : HCommit) (r : Result), H[i]? = some c → (run env {} read (Graph.newFromMap m order) ((H.flatMap entries).map LogEntry.meaning)).sent[i]? = some r →
        ∃ mc recs, out[i]? = some (mc, recs) ∧ RecordsOf H G metas c mc recs ∧ GoMap.get metas c.hash = some mc ∧ GoMap.WF r.files ∧
          (recs.map (·.filename)).Perm ((GoMap.keys r.files).filter (fun p => decide (p ≠ []) && GoMap.has mc.files p)) ∧
          ∀ rec ∈ recs, ∃ b f, GoMap.get r.files rec.filename = some b ∧ GoMap.get mc.files rec.filename = some f ∧ CodeOf cl scc metas mc b f rec := by
  intro p
  obtain ⟨log, s, g1, g2, g3⟩ := history_run_all h (log_of_entries H hent) hne read
  have hp : parseLog (logText (H.flatMap entries)) = .ok ((H.flatMap entries).map LogEntry.meaning) := C11_log_parser _ (logOf_ok (log_of_entries H hent))
  rw [hp] at g1; injection g1 with g1; subst g1
  have hwf := run_wf env {} read (Graph.newFromMap m order) ((H.flatMap entries).map LogEntry.meaning)
  rw [g2] at hwf
  have hlen : s.sent.length = H.length := g3.sentLen
  obtain ⟨out, hout, hol⟩ := records_of_results hl hlic scc orders horder hm.known hm.renames hwf hlen (fun i c r hc hr => g3.sentOk i c r hc hr)
  have hrun : run p.env p.opts p.read p.graph ((H.flatMap entries).map LogEntry.meaning) = { sent := s.sent, fault := none, written := some (s.repo, s.lastProcessed) } := g2
  have hret := C50_pipeline p rfl rfl (log := (H.flatMap entries).map LogEntry.meaning) hp (by rw [hrun]) (out := out) (by rw [hrun]; exact hout)
  rw [hrun, show p.writeErr = none from rfl, Option.map_none, ite_self] at hret
  refine ⟨_, out, hret, hol, ?_⟩
  intro i c r hc hr
  rw [g2] at hr
  have hi : i < out.length := by rw [hol]; exact (List.getElem?_eq_some_iff.1 hc).1
  obtain ⟨k1, k2, k3⟩ := (C42_code_records hl scc orders horder metas s.sent hwf hout).2 i r out[i].1 out[i].2 hr (List.getElem?_eq_getElem hi)
  rw [(g3.sentOk i c r hc hr).commit] at k1
  exact ⟨_, _, List.getElem?_eq_getElem hi, recordsOf_results h.history h.blame.ancestors hl scc orders horder hm hwf hlen (fun i c r hc hr => g3.sentOk i c r hc hr) hout
    i c _ _ hc (List.getElem?_eq_getElem hi), k1, hwf r (List.mem_of_getElem? hr), k2, k3⟩

/-- **C82 (records).** Two calls of `CodeSlice` for two histories which both contain the commit `c` and the same ancestors of `c` deliver the same records for `c`: the same files with the same status, language, skip reason, size and
counts, and the same lines with the same class, originating commit, author and date. Only the ordinal number of the commit may differ, and the name of a licence between names of equal confidence (C45). -/
theorem C82_same_records {τ : Type} {H1 H2 : History} {env1 env2 : Env} {m1 m2 : GoMap Str (List Str)} {order1 order2 : List (Str × List Str)}
    (h1 : Setting env1 H1 G m1 order1) (h2 : Setting env2 H2 G m2 order2) (he : SameEnv env1 env2)
    (hent1 : ∀ c ∈ H1, Printed c (entries c)) (hent2 : ∀ c ∈ H2, Printed c (entries c)) {c : HCommit} {i j : Nat} (hi : H1[i]? = some c) (hj : H2[j]? = some c)
    (hanc : ∀ x ∈ H1, H1.Reach c.hash x.hash → x ∈ H2) (ht : NoTypeChange H1 c) (read1 read2 : Str → Go Repo)
    {cl : Classifier} (hl : Lawful cl) (hlic : ∀ path content, LicenseName path → cl.licenseDb path content ≠ .failed)
    (scc : Str → Str → Str → SccRun) (orders1 orders2 : Nat → Files → Files) (ho1 : ∀ n fs, (orders1 n fs).Perm fs) (ho2 : ∀ n fs, (orders2 n fs).Perm fs)
    (metas1 metas2 : GoMap Str (MetaCommit τ)) (hm1 : MetasOf H1 metas1) (hm2 : MetasOf H2 metas2)
    (hmeta : ∀ x ∈ H1, H1.Reach c.hash x.hash → ∀ mc1 mc2, GoMap.get metas1 x.hash = some mc1 → GoMap.get metas2 x.hash = some mc2 → mc1 = { mc2 with ordinal := mc1.ordinal }) :
    let p1 : Pipe τ := { env := env1, opts := {}, read := read1, graph := Graph.newFromMap m1 order1, text := logText (H1.flatMap entries), cl := cl, scc := scc,
                         orders := orders1, metas := metas1 }
    let p2 : Pipe τ := { env := env2, opts := {}, read := read2, graph := Graph.newFromMap m2 order2, text := logText (H2.flatMap entries), cl := cl, scc := scc,
                         orders := orders2, metas := metas2 }
    ∃ (w1 w2 : Repo × Str) (out1 out2 : List (MetaCommit τ × List (CodeRecord τ))) (mc1 mc2 : MetaCommit τ) (recs1 recs2 : List (CodeRecord τ)),
      AlwaysReturns p1 (some w1) none (out1.flatMap (·.2)) ∧ AlwaysReturns p2 (some w2) none (out2.flatMap (·.2)) ∧
      out1.length = H1.length ∧ out2.length = H2.length ∧ out1[i]? = some (mc1, recs1) ∧ out2[j]? = some (mc2, recs2) ∧
      RecordsOf H1 G metas1 c mc1 recs1 ∧ (recs1.map (·.filename)).Perm (recs2.map (·.filename)) ∧ (recs1.map (·.filename)).Nodup ∧
      ∀ rec1 ∈ recs1, ∀ rec2 ∈ recs2, rec1.filename = rec2.filename → SameRecordBy (fun x1 x2 => x1 = x2) rec1 rec2 := by
  intro p1 p2
  have hc1 := List.mem_of_getElem? hi
  have hc2 := List.mem_of_getElem? hj
  obtain ⟨log1, log2, r1, r2, q1, q2, hr1, hr2, hsr, hreach⟩ := C82_only_ancestors_matter h1 h2 he hent1 hent2 hi hj hanc ht read1 read2
  rw [C11_log_parser _ (logOf_ok (log_of_entries H1 hent1))] at q1
  rw [C11_log_parser _ (logOf_ok (log_of_entries H2 hent2))] at q2
  injection q1 with q1; subst q1
  injection q2 with q2; subst q2
  obtain ⟨w1, out1, ret1, len1, spec1⟩ := whole_call h1 hent1 (List.ne_nil_of_mem hc1) read1 hl hlic scc orders1 ho1 metas1 hm1
  obtain ⟨w2, out2, ret2, len2, spec2⟩ := whole_call h2 hent2 (List.ne_nil_of_mem hc2) read2 hl hlic scc orders2 ho2 metas2 hm2
  obtain ⟨mc1, recs1, o1, ro1, g1, wf1, k1, k1'⟩ := spec1 i c r1 hi hr1
  obtain ⟨mc2, recs2, o2, _, g2, wf2, k2, k2'⟩ := spec2 j c r2 hj hr2
  have hmc := hmeta c hc1 .refl mc1 mc2 g1 g2
  have hfiles : mc1.files = mc2.files := by rw [hmc]
  have n1 : (recs1.map (·.filename)).Nodup := k1.nodup_iff.2 (List.Nodup.sublist List.filter_sublist wf1)
  have n2 : (recs2.map (·.filename)).Nodup := k2.nodup_iff.2 (List.Nodup.sublist List.filter_sublist wf2)
  refine ⟨w1, w2, out1, out2, mc1, mc2, recs1, recs2, ret1, ret2, len1, len2, o1, o2, ro1, ?_, n1, ?_⟩
  · refine (List.perm_ext_iff_of_nodup n1 n2).2 (fun path => ?_)
    rw [k1.mem_iff, k2.mem_iff, List.mem_filter, List.mem_filter, ← GoMap.get_isSome_iff, ← GoMap.get_isSome_iff, hsr.2 path, hfiles]
  · intro rec1 hrec1 rec2 hrec2 hfn
    obtain ⟨b, f, b1, b2, b3⟩ := k1' rec1 hrec1
    obtain ⟨b', f', d1, d2, d3⟩ := k2' rec2 hrec2
    rw [← hfn, hsr.2 rec1.filename, b1] at d1
    injection d1 with d1; subst d1
    rw [← hfiles, ← hfn, b2] at d2
    injection d2 with d2; subst d2
    refine (codeOf_core hmc hfn.symm d3 b3).imp ?_
    rintro x1 x2 ⟨l, hlm, e2, e1, ⟨t1, t2, t3⟩, a2, a1, _⟩
    have hre := hreach _ _ b1 l hlm
    obtain ⟨y, hy, hye⟩ := reach_mem h1.history ⟨c, hc1, rfl⟩ hre
    obtain ⟨n1, hn1⟩ := hm1.known y hy
    obtain ⟨n2, hn2⟩ := hm2.known y (hanc y hy (hye ▸ hre))
    have hmm := hmeta y hy (hye ▸ hre) n1 n2 hn1 hn2
    rw [hye] at hn1 hn2
    obtain ⟨u1, u2, u3⟩ := a1 n1 hn1
    obtain ⟨v1, v2, v3⟩ := a2 n2 hn2
    rw [hmm] at u1 u2 u3
    cases x1; cases x2
    simp only at *
    simp only [CodeLine.mk.injEq]
    refine ⟨?_, ?_, ?_, ?_, ?_, ?_, ?_⟩ <;> first | exact u1.trans v1.symm | exact u2.trans v2.symm | exact u3.trans v3.symm | exact e1.trans e2.symm | exact t1.symm | exact t2.symm | exact t3.symm

end

/-! ### Example -/

/-- Another clone of the example: it has the first commit and the branch of `c3` only, its maps are iterated in another order. -/
def exClone : History := [Ex.c1, Ex.c3]

def exCloneEnv : Env := { Ex.env with order := fun _ _ l => l.reverse }

def exCloneParents : GoMap Str (List Str) := [(b!"c3", [b!"c1"]), (b!"c1", [])]

theorem exClone_sub : ∀ c ∈ exClone, c ∈ Ex.H := by
  intro c hc
  simp only [exClone, List.mem_cons, List.not_mem_nil, or_false] at hc
  rcases hc with rfl | rfl <;> simp [Ex.H]

theorem exClone_setting : Setting exCloneEnv exClone Ex.blames exCloneParents exCloneParents := by
  have hok : History.Ok [] exClone := by
    refine ⟨Ex.history_ok.1, ⟨by decide, by decide, by decide, Ex.pathsOk rfl (by decide), fun h => absurd h (by decide), fun _ => rfl, ?_⟩, trivial⟩
    intro x hx
    simp only [Ex.c3, List.zip_cons_cons, List.zip_nil_right, List.mem_singleton] at hx
    subst hx
    exact Ex.d3
  exact ⟨isort_sortsHunks, fun _ _ l => List.reverse_perm l, hok, sub_blameWorks hok Ex.history_ok exClone_sub Ex.blame_works, by decide, .refl _, by decide⟩

theorem exClone_ancestors : ∀ x ∈ Ex.H, History.Reach Ex.H Ex.c3.hash x.hash → x ∈ exClone := by
  have key : ∀ h, History.Reach Ex.H Ex.c3.hash h → h = b!"c3" ∨ h = b!"c1" := by
    intro h hr
    induction hr with
    | refl => exact .inl rfl
    | tail _ hp ih =>
      obtain ⟨y, hy, he, hq⟩ := hp
      simp only [Ex.H, List.mem_cons, List.not_mem_nil, or_false] at hy
      rcases ih with rfl | rfl <;> rcases hy with rfl | rfl | rfl | rfl | rfl <;> revert he hq <;> simp +contextual [Ex.c1, Ex.c2, Ex.c3, Ex.c4, Ex.c5]
  intro x hx hr
  have := key _ hr
  simp only [Ex.H, List.mem_cons, List.not_mem_nil, or_false] at hx
  rcases hx with rfl | rfl | rfl | rfl | rfl <;> revert this <;> simp [exClone, Ex.c1, Ex.c2, Ex.c3, Ex.c4, Ex.c5]

theorem exClone_metas : MetasOf exClone exWholeMetas := by
  refine ⟨fun c hc => exWholeMetas_of.known c (exClone_sub c hc), fun c hc mc hmc e he hr => ?_⟩
  exfalso
  simp only [exClone, List.mem_cons, List.not_mem_nil, or_false] at hc
  rcases hc with rfl | rfl <;> cases hmc <;> simp [exCodeMeta] at he <;> subst he <;> cases hr

/-- Third commit of the one call, second of the other: the same records, and there is one, for `f`. -/
example : ∃ (w1 w2 : Repo × Str) (out1 out2 : List (MetaCommit Nat × List (CodeRecord Nat))) (mc1 mc2 : MetaCommit Nat) (recs1 recs2 : List (CodeRecord Nat)),
    AlwaysReturns exPipe (some w1) none (out1.flatMap (·.2)) ∧
    AlwaysReturns { exPipe with env := exCloneEnv, graph := Graph.newFromMap exCloneParents exCloneParents, text := logText (exClone.flatMap Ex.entries) }
      (some w2) none (out2.flatMap (·.2)) ∧
    out1.length = 5 ∧ out2.length = 2 ∧ out1[2]? = some (mc1, recs1) ∧ out2[1]? = some (mc2, recs2) ∧
    (recs1.map (·.filename)).Perm (recs2.map (·.filename)) ∧ b!"f" ∈ recs1.map (·.filename) ∧
    ∀ rec1 ∈ recs1, ∀ rec2 ∈ recs2, rec1.filename = rec2.filename → SameRecordBy (fun x1 x2 => x1 = x2) rec1 rec2 := by
  obtain ⟨w1, w2, out1, out2, mc1, mc2, recs1, recs2, a1, a2, a3, a4, a5, a6, a6', a7, _, a9⟩ :=
    C82_same_records (τ := Nat) Ex.setting exClone_setting ⟨rfl, rfl⟩ Ex.printed (fun c hc => Ex.printed c (exClone_sub c hc)) (c := Ex.c3) (i := 2) (j := 1) rfl rfl
      exClone_ancestors (.inl (by simp [HCommit.Regular, Ex.c3])) (fun _ => .ok []) (fun _ => .ok []) (exCl_lawful false) (fun p c _ => exCl_license p c) exScc
      (fun _ fs => fs) (fun _ fs => fs) (fun _ _ => .refl _) (fun _ _ => .refl _) exWholeMetas exWholeMetas exWholeMetas_of exClone_metas
      (fun x _ _ m1 m2 h1 h2 => by rw [h1] at h2; injection h2 with h2; rw [h2])
  refine ⟨w1, w2, out1, out2, mc1, mc2, recs1, recs2, a1, a2, a3, a4, a5, a6, a7, ?_, a9⟩
  exact (a6'.paths _).2 ⟨by decide, .inl ⟨by decide, ⟨_, List.mem_cons_self, by decide⟩, .inl (by simp [HCommit.Regular, Ex.c3])⟩, by have := a6'.commit.1; cases this; decide⟩

end Ripsrc
