import Verif.Props.Process
import Verif.Lib.RunAll
import Verif.Props.PipelinePanic
/-!
# C84: `git blame` cannot answer

The program asks `git blame` about a file that was binary in the parent and whose diff does not say that it is binary any more: typically because a commit only changes
the mode of the file (`chmod +x` of a program). It then reports the file as a text file. If git cannot answer, the run panics at this commit.
-/
namespace Ripsrc
open Spec

section
variable {env : Env} {H : History} {G : Str → Str → List Str}
  {c : HCommit} (hc : c ∈ H) (hreg : c.Regular) {cs : List FileChange} (hcs : c.diffs = [cs])
  (hd : Describes (oldTree H c) c.tree cs) {repo : Repo}
  (hrepo : ∀ q ∈ c.parents, ∃ fs, GoMap.get repo q = some fs ∧ RightFiles H G q fs)
include hc hreg hcs hd hrepo

/-- The change for which `git blame` is asked fails. -/
theorem regAct_fails {f : FileChange} (hf : f ∈ cs) {ch : Str} (hch : parseDiff ch = .ok f.norm.meaning) (hask : c.AsksBlame H f.kind.next)
    (hnone : env.blameOut c.hash f.kind.next = none) :
    regAct env c.hash c.parents repo ch = .error (.panic "git blame failed") := by
  obtain ⟨hn, q, cs', f', hq, hcs', hco, hprev, hqbin, hnb⟩ := hask
  rw [hcs] at hcs'
  cases hcs'
  rw [changeOf_of_mem hd.once hf hn] at hco
  cases hco
  have hco : changeOf cs f.kind.next = some f := changeOf_of_mem hd.once hf hn
  have hok := hd.ok f hf
  obtain ⟨m1, m2, m3⟩ := meaning_norm f
  have hdel : f.kind.isDelete = false := by
    cases h : f.kind.isDelete with
    | false => rfl
    | true => exact absurd ((next_nil_iff hok).2 h) hn
  have hb : f.body.isBinary = false := by
    cases h : f.body.isBinary with
    | false => rfl
    | true =>
      have hbin : f.body = .binary := by cases h' : f.body <;> simp_all [Body.isBinary]
      exact absurd (.change hc hreg hcs hn hco hbin) hnb
  obtain ⟨o, hold⟩ := Option.isSome_iff_exists.1 (hd.prev f hf hprev)
  have hot : oldTree H c = H.treeOf q := by simp [oldTree, hq]
  rw [hot] at hold
  obtain ⟨pf, hpf, hright⟩ := hrepo q (by rw [hq]; simp)
  obtain ⟨pb, hpb, hr⟩ := hright _ _ hold
  have hmust : repo.getFileMust q f.kind.prev = .ok pb := by unfold Repo.getFileMust; rw [hpf]; simp only; rw [hpb]
  have hopt : repo.getFileOptional q f.kind.prev = .ok (some pb) := by unfold Repo.getFileOptional; rw [hpf]; simp only; rw [hpb]
  have hpbin : pb.isBinary = true := hr.binary.2 hqbin
  have hpbo : parentBlameOf repo c.parents f.norm.meaning = .ok (some pb) := by
    unfold parentBlameOf
    rw [if_neg (by rw [m1]; exact hprev), hq]
    rw [m1]
    exact hopt
  have hrb : renamedBinary repo c.parents f.norm.meaning = .ok none := by
    unfold renamedBinary
    rw [m1, m2, hq]
    by_cases h1 : f.kind.prev ≠ f.kind.next
    · rw [if_pos ⟨hprev, h1⟩]
      simp only
      by_cases h2 : f.body.noPatch = true
      · exact absurd (.moved hc hq hcs hn hco hprev h1 h2 hqbin) hnb
      · rw [if_neg (fun h => h2 ((noPatch_hunks hdel).1 h))]
    · rw [if_neg (fun h => h1 h.2)]
  unfold regAct
  simp only [hch, bind, Except.bind, m1, m2, m3, hn, if_false, hb, Bool.false_eq_true, hrb, hpbo, newBlame, hpbin, if_true, slowGitBlame, hnone]

end

/-- A loop over acts in which one fails. -/
theorem fold_acts_fails {α : Type} (hash : Str) (step : Repo → α → Go Act) (parents : List Str) (hself : hash ∉ parents)
    (hloc : ∀ r r', (∀ q ∈ parents, GoMap.get r' q = GoMap.get r q) → ∀ x, step r' x = step r x) (e : Fault)
    (xs : List α) (st : Repo × Files) (fs : Files) (h : GoMap.get st.1 hash = some fs)
    (hf : ∀ x ∈ xs, (∃ a, step st.1 x = .ok a) ∨ step st.1 x = .error e) (hx : ∃ x ∈ xs, step st.1 x = .error e) :
    xs.foldlM (fun st x => do
        let a ← step st.1 x
        a.run hash st) st = .error e := by
  induction xs generalizing st fs with
  | nil => obtain ⟨x, hx, _⟩ := hx; cases hx
  | cons x xs ih =>
    rw [List.foldlM_cons]
    rcases hf x (by simp) with ⟨a, ha⟩ | ha
    · obtain ⟨st1, h1, h2, h3, h4⟩ := act_run h a
      have hst : ∀ y, step st1.1 y = step st.1 y := fun y => hloc st.1 st1.1 (fun q hq => h3 q (by rintro rfl; exact hself hq)) y
      simp only [ha, h1, bind, Except.bind]
      refine ih st1 _ h2 (fun y hy => ?_) ?_
      · rw [hst]; exact hf y (by simp [hy])
      · obtain ⟨y, hy, hye⟩ := hx
        rcases List.mem_cons.1 hy with rfl | hy
        · rw [ha] at hye; cases hye
        · exact ⟨y, hy, by rw [hst]; exact hye⟩
    · simp only [ha, bind, Except.bind]

/-- `git blame` answers what it is asked about the commit `c`, or fails. -/
def Spec.HCommit.AnsweredOrFails (H : History) (G : Str → Str → List Str) (out : Str → Str → Option Str) (c : HCommit) : Prop :=
  ∀ p n, c.tree p = some n → c.AsksBlame H p → BlameAnswers G out c.hash p n ∨ out c.hash p = none

theorem regular_fails {env : Env} (hsrt : SortsHunks env.srt)
    {H : History} {G : Str → Str → List Str} (hH : History.Ok [] H)
    {a r : History} {c : HCommit} (hsplit : H = a ++ c :: r)
    {cs : List FileChange} (hcs : c.diffs = [cs]) {changes : List Str} (hch : ChangesOf changes cs) {repo : Repo}
    (hrepo : ∀ q ∈ c.parents, ∃ fs, GoMap.get repo q = some fs ∧ RightFiles H G q fs)
    (hbw : c.AnsweredOrFails H G env.blameOut) {p : Str} (hask : c.AsksBlame H p) (hnone : env.blameOut c.hash p = none) (n : Nat) :
    processRegularCommit env n repo c.hash c.parents changes = .error (.panic "git blame failed") := by
  have hc : c ∈ H := by rw [hsplit]; simp
  have hcok : c.Ok a := history_ok_at (r := r) (hsplit ▸ hH)
  obtain ⟨hp0, q, cs', f0, hq, hcs', hco, _⟩ := id hask
  rw [hcs] at hcs'
  cases hcs'
  have hreg : c.Regular := by unfold HCommit.Regular; rw [hq]; simp
  have hself : c.hash ∉ c.parents := by
    intro h
    obtain ⟨x, hx, he⟩ := hcok.parentsKnown _ h
    exact hcok.new x hx he
  have hd : Describes (oldTree H c) c.tree cs := by
    unfold oldTree
    rw [hq]
    have := hcok.diffs (q, cs) (by rw [hq, hcs]; simp)
    simp only at this
    rw [treeOf_prefix hH hsplit (hcok.parentsKnown q (by rw [hq]; simp))] at this
    exact this
  obtain ⟨l, hl1, hl2, hl3⟩ := changesOf_pairs hch
  have hmem : ∀ x ∈ l, x.2 ∈ cs := fun x hx => hl2 ▸ List.mem_map_of_mem hx
  have hrepo0 : ∀ q ∈ c.parents, ∃ fs, GoMap.get (repo.addCommit c.hash) q = some fs ∧ RightFiles H G q fs := by
    intro q hq
    rw [addCommit_same repo c.hash q (by rintro rfl; exact hself hq)]
    exact hrepo q hq
  have hfail := fun (x : Str × FileChange) (hx : x ∈ l) => regAct_fails (env := env) hc hreg hcs hd hrepo0 (hmem x hx) (hl3 x hx)
  have hfold : changes.foldlM (regularChange env c.hash c.parents) (repo.addCommit c.hash, []) = .error (.panic "git blame failed") := by
    have := fold_acts_fails c.hash (fun r (x : Str × FileChange) => regAct env c.hash c.parents r x.1) c.parents hself
      (fun r r' h x => regAct_congr env c.hash c.parents r r' h x.1) (.panic "git blame failed") l (repo.addCommit c.hash, []) [] (addCommit_get _ _) ?_ ?_
    · rw [← this, ← hl1, List.foldlM_map]
      congr 1
      funext st x
      exact regularChange_eq _ _ _ _ _
    · intro x hx
      by_cases hb : c.AsksBlame H x.2.kind.next ∧ env.blameOut c.hash x.2.kind.next = none
      · exact .inr (hfail x hx hb.1 hb.2)
      · left
        obtain ⟨b, hb', _⟩ := regAct_ok hsrt hH hc hreg hcs hd hrepo0 (hmem x hx) (hl3 x hx) (fun n hn ha => by
          rcases hbw _ n hn ha with h | h
          · exact h
          · exact absurd ⟨ha, h⟩ hb)
        exact ⟨b, hb'⟩
    · obtain ⟨h1, h2⟩ := changeOf_some hco
      obtain ⟨x, hx, rfl⟩ := List.mem_map.1 (hl2 ▸ h1)
      exact ⟨x, hx, hfail x hx (by rw [h2]; exact hask) (by rw [h2]; exact hnone)⟩
  unfold processRegularCommit
  rw [if_neg (by rw [hq]; simp), hfold]
  rfl

theorem logOf_split {a r : History} {c : HCommit} {es : List LogEntry} (h : LogOf (a ++ c :: r) es) :
    ∃ ea ec er, es = ea ++ (ec ++ er) ∧ LogOf a ea ∧ Printed c ec ∧ LogOf r er := by
  induction a generalizing es with
  | nil =>
    cases h with
    | cons hp hl => exact ⟨[], _, _, rfl, .nil, hp, hl⟩
  | cons x a ih =>
    cases h with
    | cons hp hl =>
      obtain ⟨ea, ec, er, rfl, h1, h2, h3⟩ := ih hl
      exact ⟨_, ec, er, (List.append_assoc ..).symm, .cons hp h1, h2, h3⟩

/-- The first entry of another commit fails after a pending merge is completed. -/
theorem commit_fails {env : Env} {t s : Proc} {h : Str} (hp : t.mergeParts ≠ [] → t.mergePartsCommit ≠ h) (hf : t.flush env = .ok s) (hs : s.mergeParts = []) {e : LogCommit}
    (he : e.hash = h) {x : Fault} (hn : s.newCommit env e = .error x) (log : List LogCommit) : t.loop env (e :: log) = (s, some x) := by
  have : t.commit env e = (s, some x) := by
    unfold Proc.commit
    unfold Proc.flush at hf
    by_cases hm : t.mergeParts.length > 0
    · rw [if_pos hm] at hf
      rw [if_pos hm, if_neg (by rw [he]; exact hp (List.length_pos_iff.1 hm)), hf]
      simp only [hn]
    · rw [if_neg hm] at hf
      cases hf
      rw [if_neg hm]
      simp only [hn]
  rw [Proc.loop, this]

/-- A pending merge is one of the commits seen. -/
def PendingIn (S : Str → Prop) (s : Proc) : Prop := s.mergeParts ≠ [] → S s.mergePartsCommit

theorem newCommit_pendingIn {env : Env} {s t : Proc} {e : LogCommit} {S : Str → Prop} (he : S e.hash) (hs : PendingIn S s) (h : s.newCommit env e = .ok t) : PendingIn S t := by
  unfold Proc.newCommit at h
  split at h
  · cases h
    exact fun _ => he
  · cases hp : processRegularCommit env s.sent.length s.repo e.hash (s.parents e.hash) e.changes with
    | error x => rw [hp] at h; cases h
    | ok v =>
      rw [hp] at h
      simp only [bind, Except.bind] at h
      cases h
      unfold PendingIn
      simp only [(trim_same _ _).parts, (trim_same _ _).partsCommit]
      exact hs

theorem loop_pendingIn {env : Env} {S : Str → Prop} : ∀ {log : List LogCommit} {s t : Proc}, s.loop env log = (t, none) → PendingIn S s → (∀ e ∈ log, S e.hash) → PendingIn S t := by
  intro log
  induction log with
  | nil =>
    intro s t h hs _
    simp only [Proc.loop, Prod.mk.injEq, and_true] at h
    exact h ▸ hs
  | cons e log ih =>
    intro s t h hs he
    rw [Proc.loop] at h
    cases hc : s.commit env e with
    | mk s1 x =>
      rw [hc] at h
      cases x with
      | some x => simp at h
      | none =>
        refine ih h ?_ (fun y hy => he y (by simp [hy]))
        unfold Proc.commit at hc
        split at hc
        · rename_i hl
          split at hc
          · cases hc
            exact fun _ => hs (List.length_pos_iff.1 hl)
          · cases hf : s.finishMerge env with
            | error y => rw [hf] at hc; cases hc
            | ok s2 =>
              rw [hf] at hc
              simp only at hc
              have h2 : PendingIn S s2 := by
                unfold Proc.finishMerge at hf
                split at hf
                · cases hf
                · cases hf
                  exact fun h => absurd rfl h
              cases hn : s2.newCommit env e with
              | error y => rw [hn] at hc; cases hc
              | ok s3 =>
                rw [hn] at hc
                cases hc
                exact newCommit_pendingIn (he e (by simp)) h2 hn
        · cases hn : s.newCommit env e with
          | error y => rw [hn] at hc; cases hc
          | ok s3 =>
            rw [hn] at hc
            cases hc
            exact newCommit_pendingIn (he e (by simp)) hs hn

/-- **C84.** Let a history be processed in which `git blame` answers for all commits before `c`, and let `c` change a binary file, with a
diff that does not say that it is binary, for which `git blame` fails. Then the run panics at `c`,
whatever follows: the results of exactly the commits before `c` were sent, they are right, and no checkpoint is written. -/
theorem C84_blame_fails {env : Env} {G : Str → Str → List Str} {m : GoMap Str (List Str)} {order : List (Str × List Str)} {H a r : History} {c : HCommit}
    (hsort : SortsHunks env.srt) (hord : ∀ n k l, (env.order n k l).Perm l) (hH : History.Ok [] H) (hwf : m.WF) (hperm : order.Perm m)
    (hpar : ∀ c ∈ H, GoMap.get m c.hash = some c.parents) (hsplit : H = a ++ c :: r) (hanc : ∀ x ∈ H, ∀ p, ∀ o ∈ G x.hash p, H.Reach x.hash o)
    (hbefore : ∀ x ∈ a, x.Answered H G env.blameOut) (hbw : c.AnsweredOrFails H G env.blameOut) {p : Str} (hask : c.AsksBlame H p) (hnone : env.blameOut c.hash p = none)
    {es : List LogEntry} (hlog : LogOf H es) (read : Str → Go Repo) :
    ∃ log, parseLog (logText es) = .ok log ∧
      let out := run env {} read (Graph.newFromMap m order) log
      out.fault = some (.panic "git blame failed") ∧ out.written = none ∧ out.sent.map (·.commit) = a.map (·.hash) ∧
        ∀ (i : Nat) x res, a[i]? = some x → out.sent[i]? = some res → ResultOk H G x res := by
  refine ⟨_, C11_log_parser es (logOf_ok hlog), ?_⟩
  have hg := graphOf_build hH hwf hperm hpar
  have hlog' := hsplit ▸ hlog
  obtain ⟨ea, ec, er, rfl, l1, l2, l3⟩ := logOf_split hlog'
  have hcok : c.Ok a := history_ok_at (r := r) (hsplit ▸ hH)
  obtain ⟨hp0, q, cs, f0, hq, hcs, hco, _⟩ := id hask
  have hreg : c.Regular := by unfold HCommit.Regular; rw [hq]; simp
  obtain ⟨cs', e, hcs', he, rfl⟩ : ∃ cs' e, c.diffs = [cs'] ∧ EntryFor c none cs' e ∧ ec = [e] := by
    rcases l2 with ⟨_, h⟩ | ⟨h, _⟩
    · exact h
    · exact absurd hreg h
  rw [hcs] at hcs'
  cases hcs'
  have hcsok : ∀ f ∈ cs, f.Ok := (hcok.diffs (q, cs) (by rw [hq, hcs]; simp)).ok
  obtain ⟨s, ⟨t, k1, k2⟩, k3, k4⟩ := loop_ok hsort hord hH hg hanc l1 hbefore (s := { graph := Graph.newFromMap m order, repo := [] }) rfl
    (start_inv (g := Graph.newFromMap m order) (B := []) (N := a ++ c :: r) hsplit (by simp) (by simp)) (Nat.le_refl _)
  rw [List.nil_append] at k4
  have hnew : s.newCommit env e.meaning = .error (.panic "git blame failed") := by
    unfold Proc.newCommit
    have hpar' : s.parents c.hash = c.parents := by
      unfold Proc.parents
      rw [k4.book.graph, hg.parents c (by rw [hsplit]; simp)]
      rfl
    have hhash : e.meaning.hash = c.hash := he.2.1
    rw [hhash, hpar', if_neg (by rw [hq]; simp),
      regular_fails hsort hH hsplit hcs (entry_changes he hcsok) (k4.parents hH) hbw hask hnone]
    rfl
  have hloop : Proc.loop env { graph := Graph.newFromMap m order, repo := [] } ((ea ++ ([e] ++ er)).map LogEntry.meaning) = (s, some (.panic "git blame failed")) := by
    rw [List.map_append, loop_append env _ _ _ k1]
    refine commit_fails (h := c.hash) ?_ k2 k3 he.2.1 hnew _
    have := loop_pendingIn (S := fun h => ∃ x ∈ a, x.hash = h) k1 (fun h => absurd rfl h) (by
      intro x hx
      obtain ⟨y, hy, rfl⟩ := List.mem_map.1 hx
      obtain ⟨z, hz, hh⟩ := logOf_hash l1 y hy
      exact ⟨z, hz, hh.symm⟩)
    intro hm hh
    obtain ⟨x, hx, hxe⟩ := this hm
    exact hcok.new x hx (hxe.trans hh)
  have hrun : run env {} read (Graph.newFromMap m order) ((ea ++ ([e] ++ er)).map LogEntry.meaning) =
      { sent := s.sent, fault := some (.panic "git blame failed"), written := none } := by
    unfold run
    split
    · rename_i h0
      simp at h0
    · simp only [initCheckpoints, if_true, hloop]
  simp only [hrun]
  have hlen : s.sent.length = a.length := k4.sentLen
  have hsent := k4.sentOk
  simp only [List.length_nil, List.drop_zero] at hsent
  refine ⟨trivial, trivial, ?_, hsent⟩
  apply List.ext_getElem?
  intro i
  rw [List.getElem?_map, List.getElem?_map]
  cases hi : s.sent[i]? with
  | none =>
    rw [List.getElem?_eq_none_iff] at hi
    rw [List.getElem?_eq_none (by omega)]
    rfl
  | some r =>
    have hlt := (List.getElem?_eq_some_iff.1 hi).1
    have hc : a[i]? = some (a[i]'(by omega)) := List.getElem?_eq_getElem _
    rw [hc]
    simp only [Option.map_some, Option.some.injEq]
    exact (hsent i _ r hc hi).commit

/-- **C84 (the call).** In such a repository `Code` never returns, in no schedule: the program ends in a panic, and what was delivered before is a prefix of the records
of results of the commits before `c`. -/
theorem C84_crash {τ : Type} (p : Pipe τ) (hpre : p.pre = none) (hopen : p.openErr = none) (hopts : p.opts = {}) {G : Str → Str → List Str} {m : GoMap Str (List Str)}
    {order : List (Str × List Str)} (hgraph : p.graph = Graph.newFromMap m order) {H a r : History} {c : HCommit}
    (hsort : SortsHunks p.env.srt) (hord : ∀ n k l, (p.env.order n k l).Perm l) (hH : History.Ok [] H) (hwf : m.WF) (hperm : order.Perm m)
    (hpar : ∀ c ∈ H, GoMap.get m c.hash = some c.parents) (hsplit : H = a ++ c :: r) (hanc : ∀ x ∈ H, ∀ p, ∀ o ∈ G x.hash p, H.Reach x.hash o)
    (hbefore : ∀ x ∈ a, x.Answered H G p.env.blameOut) (hbw : c.AnsweredOrFails H G p.env.blameOut) {f : Str} (hask : c.AsksBlame H f) (hnone : p.env.blameOut c.hash f = none)
    {es : List LogEntry} (hlog : LogOf H es) (htext : p.text = logText es) :
    ∃ rs out, rs.map (·.commit) <+: a.map (·.hash) ∧ codeByCommit p.cl p.scc p.orders p.metas 0 [] rs = .ok out ∧
      ∀ n u, Conc.Steps p.act n Pipe.init u →
        (∀ w e res, u.procs .caller ≠ some (.returned w e res)) ∧ (∃ v, Conc.Reach p.act u v ∧ Conc.Crashed p.act v) ∧ (Conc.Stuck p.act u → Conc.Crashed p.act u) ∧
        delivered u <+: out.flatMap (·.2) := by
  obtain ⟨log, h1, h2, _, h4, _⟩ := C84_blame_fails hsort hord hH hwf hperm hpar hsplit hanc hbefore hbw hask hnone hlog p.read
  rw [← htext] at h1
  obtain ⟨k, out, ho, hall⟩ := C55_panic p hpre hopen ((parseSent_ok _ _).1 h1) (.inl ⟨_, by rw [hopts, hgraph]; exact h2⟩)
  refine ⟨_, out, ?_, ho, hall⟩
  rw [hopts, hgraph, ← h4, List.map_take]
  exact List.take_prefix ..

/-- **C84 (change of the mode).** A commit that only changes the mode of a file that was binary makes the program ask `git blame` for the file. -/
theorem C84_mode_change_asks {H : History} (hH : History.Ok [] H) {c : HCommit} (hc : c ∈ H) {q : Str} (hq : c.parents = [q]) {cs : List FileChange}
    (hcs : c.diffs = [cs]) {f : FileChange} {p : Str} (hf : f ∈ cs) (hk : f.kind = .modify p) (hb : f.body = .empty) (hbin : IsBin H q p) :
    c.AsksBlame H p ∧ ¬ IsBin H c.hash p := by
  have hreg : c.Regular := by unfold HCommit.Regular; rw [hq]; simp
  obtain ⟨a, r, hsplit⟩ := List.append_of_mem hc
  have hcok : c.Ok a := history_ok_at (r := r) (hsplit ▸ hH)
  have hd := hcok.diffs (q, cs) (by rw [hq, hcs]; simp)
  have hnext : f.kind.next = p := by rw [hk]; rfl
  have hprev : f.kind.prev = p := by rw [hk]; rfl
  have hp : p ≠ [] := by
    have := (hd.ok f hf).1
    rw [hk] at this
    exact Spec.NameOk.ne this
  have hco : changeOf cs p = some f := by
    have := changeOf_of_mem hd.once hf (by rw [hnext]; exact hp)
    rwa [hnext] at this
  have hnb : ¬ IsBin H c.hash p := by
    intro h
    rcases isBin_regular hH hc hreg hcs h with ⟨g, hg, h | ⟨q', h0, h1, h2, h3, h4⟩⟩ | ⟨h, _⟩
    · rw [hco] at hg; cases hg; rw [hb] at h; cases h
    · rw [hco] at hg; cases hg; exact h2 hprev
    · rw [hco] at h; cases h
  exact ⟨⟨hp, q, cs, f, hq, hcs, hco, by rw [hprev]; exact hp, by rw [hprev]; exact hbin, hnb⟩, hnb⟩

/-- **C84 (change of the mode).** If `git blame` works, the result of a commit that only changes the mode of a binary file has the file as a *text* file, with all its
lines. -/
theorem C84_mode_change_is_text {env : Env} {G : Str → Str → List Str} {m : GoMap Str (List Str)} {order : List (Str × List Str)} {H : History}
    (h : Setting env H G m order) {es : List LogEntry} (hlog : LogOf H es) (read : Str → Go Repo) {c : HCommit} (hc : c ∈ H) {q : Str} (hq : c.parents = [q])
    {cs : List FileChange} (hcs : c.diffs = [cs]) {f : FileChange} {p : Str} (hf : f ∈ cs) (hk : f.kind = .modify p) (hb : f.body = .empty) (hbin : IsBin H q p) :
    ∃ log, parseLog (logText es) = .ok log ∧
      ∃ res ∈ (run env {} read (Graph.newFromMap m order) log).sent, ∃ b n, res.commit = c.hash ∧ GoMap.get res.files p = some b ∧ c.tree p = some n ∧
        b.isBinary = false ∧ HasContent b n := by
  obtain ⟨hask, hnb⟩ := C84_mode_change_asks h.history hc hq hcs hf hk hb hbin
  obtain ⟨log, s, h1, h2, h3⟩ := history_run_all h hlog (List.ne_nil_of_mem hc) read
  refine ⟨log, h1, ?_⟩
  rw [h2]
  obtain ⟨i, hi⟩ := List.mem_iff_getElem?.1 hc
  have hlen : s.sent.length = H.length := h3.sentLen
  have hlt := (List.getElem?_eq_some_iff.1 hi).1
  have hr : s.sent[i]? = some (s.sent[i]'(by omega)) := List.getElem?_eq_getElem _
  have hsent := h3.sentOk
  simp only [List.length_nil, List.drop_zero] at hsent
  have hres := hsent i c _ hi hr
  have hreg : c.Regular := by unfold HCommit.Regular; rw [hq]; simp
  obtain ⟨hp, q', cs', f', hq', hcs', hco, _⟩ := id hask
  have hw : c.Writes H p := ⟨hp, ⟨cs', by rw [hcs']; simp, by rw [hco]; simp⟩, .inl hreg⟩
  obtain ⟨b, n, hb1, hn, hright⟩ := hres.written p hw (.inl hreg)
  have hbb : b.isBinary = false := by
    cases hb' : b.isBinary with
    | false => rfl
    | true => exact absurd (hright.binary.1 hb') hnb
  exact ⟨_, List.getElem_mem _, b, n, hres.commit, hb1, hn, hbb, hright.length hbb, fun j l hj => (hright.line hbb j l hj).1⟩

/-! ### Example: `d1` creates the binary file `p`, `d2` makes it executable -/

namespace ExMode

def binF (p : Str) : FileChange where
  kind := .create p b!"100644"
  before := []
  after := [b!"index 0000000..7898192"]
  body := .binary

def chmodF (p : Str) : FileChange where
  kind := .modify p
  before := [b!"old mode 100644", b!"new mode 100755"]
  after := []
  body := .empty

def tr (p : Str) : List (Str × List Str) := [(p, [b!"\x00\x01", b!"\x02"])]

def x1 (p : Str) : HCommit where
  hash := b!"d1"
  parents := []
  tree := Ex.assocTree (tr p)
  diffs := [[binF p]]

def x2 (p : Str) : HCommit where
  hash := b!"d2"
  parents := [b!"d1"]
  tree := Ex.assocTree (tr p)
  diffs := [[chmodF p]]

def hist (p : Str) : History := [x1 p, x2 p]

/-- The two names of the examples: `b`, and one that git quotes. -/
def Name (p : Str) : Prop := p = b!"b" ∨ p = b!"\\303\\244"

theorem okB {p : Str} (hp : Name p) : (binF p).Ok := by
  refine ⟨⟨?_, by decide, by decide⟩, by simp [binF], by simpa [binF] using Ex.other1, trivial, ?_⟩
  · rcases hp with rfl | rfl <;> decide
  · rcases hp with rfl | rfl <;> decide

theorem okM {p : Str} (hp : Name p) : (chmodF p).Ok := by
  refine ⟨?_, ?_, by simp [chmodF], trivial, ?_⟩
  · show NameOk p; rcases hp with rfl | rfl <;> decide
  · intro l hl
    simp only [chmodF, List.mem_cons, List.not_mem_nil, or_false] at hl
    rcases hl with rfl | rfl
    · exact ⟨by decide, .inr (.inl ⟨_, rfl⟩)⟩
    · exact ⟨by decide, .inr (.inr (.inl ⟨_, rfl⟩))⟩
  · rcases hp with rfl | rfl <;> decide

theorem dB {p : Str} (hp : Name p) : Describes emptyTree (Ex.assocTree (tr p)) [binF p] := by
  refine Ex.describes_assoc (o := []) (by simpa using okB hp) (by simp [binF, Kind.prev]) ?_ (by simp [binF, Body.Takes]) (by simp)
    (by simp [binF, Kind.next]; rcases hp with rfl | rfl <;> decide) (by simp) ?_
  · rcases hp with rfl | rfl <;> decide
  · rcases hp with rfl | rfl <;> decide

theorem dM {p : Str} (hp : Name p) : Describes (Ex.assocTree (tr p)) (Ex.assocTree (tr p)) [chmodF p] := by
  refine Ex.describes_assoc (by simpa using okM hp) ?_ ?_ (by simp [chmodF, Body.Takes, Kind.prev, Kind.next]) (by simp) ?_ (by simp) (by simp)
  · rcases hp with rfl | rfl <;> decide
  · rcases hp with rfl | rfl <;> decide
  · rcases hp with rfl | rfl <;> decide

theorem history_ok {p : Str} (hp : Name p) : History.Ok [] (hist p) := by
  refine ⟨⟨by simp, by simp [x1], by simp [x1], Ex.pathsOk rfl ?_, fun _ => ⟨_, rfl, dB hp⟩, fun h => absurd rfl h, by simp [x1]⟩, ?_⟩
  · rcases hp with rfl | rfl <;> decide
  refine ⟨⟨by simp [x1, x2], by simp [x1, x2], by simp [x1, x2], Ex.pathsOk rfl ?_, fun h => absurd h (by simp [x2]), fun _ => rfl, ?_⟩, trivial⟩
  · rcases hp with rfl | rfl <;> decide
  · intro x hx
    simp only [x2, List.zip_cons_cons, List.zip_nil_right, List.mem_singleton] at hx
    subst hx
    exact dM hp

/-- Its log. -/
theorem log_ok {p : Str} (hp : Name p) : LogOf (hist p) [Ex.entryOf b!"d1" none [binF p], Ex.entryOf b!"d2" none [chmodF p]] := by
  have e1 : EntryFor (x1 p) none [binF p] (Ex.entryOf b!"d1" none [binF p]) :=
    ⟨Ex.entryOf_ok (hash := b!"d1") (by decide) (by simp) (show 7 + 2 < logMaxLine by decide) (by simpa using okB hp), rfl, rfl, rfl⟩
  have e2 : EntryFor (x2 p) none [chmodF p] (Ex.entryOf b!"d2" none [chmodF p]) :=
    ⟨Ex.entryOf_ok (hash := b!"d2") (by decide) (by simp) (show 7 + 2 < logMaxLine by decide) (by simpa using okM hp), rfl, rfl, rfl⟩
  exact .cons (c := x1 p) (.inl ⟨by simp [HCommit.Regular, x1], _, _, rfl, e1, rfl⟩)
    (.cons (c := x2 p) (.inl ⟨by simp [HCommit.Regular, x2], _, _, rfl, e2, rfl⟩) .nil)

/-- `git blame`, which fails if `ok` is false. -/
def env (ok : Bool) (p : Str) : Env where
  srt := isort hunkLe
  order := fun _ _ l => l
  blameOut := fun c _ => if ok then some (blameText (((hist p).treeOf c p).getD [] |>.map (fun l => { hash := c, content := l }))) else none

def blames (p c f : Str) : List Str := (((hist p).treeOf c f).getD []).map (fun _ => c)

def parents : GoMap Str (List Str) := [(b!"d1", []), (b!"d2", [b!"d1"])]

theorem isBin {p : Str} (hp : Name p) : IsBin (hist p) b!"d1" p := by
  refine .change (c := x1 p) (cs := [binF p]) (f := binF p) (by simp [hist]) (by simp [HCommit.Regular, x1]) rfl ?_ ?_ rfl
  · rcases hp with rfl | rfl <;> decide
  · rcases hp with rfl | rfl <;> rfl

theorem asks {p : Str} (hp : Name p) : (x2 p).AsksBlame (hist p) p :=
  (C84_mode_change_asks (history_ok hp) (by simp [hist]) rfl rfl (f := chmodF p) (by simp) rfl rfl (isBin hp)).1

theorem not_asks {p : Str} : ∀ f, ¬ (x1 p).AsksBlame (hist p) f := by
  rintro f ⟨_, q, _, _, h, _⟩
  cases h

theorem setting {p : Str} (hp : Name p) : Setting (env true p) (hist p) (blames p) parents parents := by
  refine ⟨isort_sortsHunks, fun _ _ _ => .refl _, history_ok hp, ⟨?_, ?_⟩, by decide, .refl _, by simp [hist, x1, x2, parents, GoMap.get]⟩
  · intro c hc f n hn ha
    rcases List.mem_cons.1 hc with rfl | hc
    · exact absurd ha (not_asks f)
    · rw [List.mem_singleton] at hc
      subst hc
      have hfp : f = p := by
        have := Ex.assocTree_mem hn
        simp only [tr, List.mem_singleton, Prod.mk.injEq] at this
        exact this.1
      subst hfp
      have ht : (hist f).treeOf (x2 f).hash f = some n := by rw [treeOf_of_mem (history_ok hp) (by simp [hist]), hn]
      refine ⟨n.map (fun l => { hash := b!"d2", content := l }), ?_, ?_, ?_, ?_⟩
      · intro e he
        obtain ⟨l, hl, rfl⟩ := List.mem_map.1 he
        refine ⟨(by decide : b!"d2" ≠ [] ∧ NoNL b!"d2" ∧ (32 : UInt8) ∉ b!"d2"), ⟨by show NoNL []; decide, Or.inl rfl⟩, by simp, ?_⟩
        have := Ex.assocTree_mem hn
        simp only [tr, List.mem_singleton, Prod.mk.injEq] at this
        rw [this.2] at hl
        simp only [List.mem_cons, List.not_mem_nil, or_false] at hl
        rcases hl with rfl | rfl <;> decide
      · simp only [env, if_true, ht, Option.getD_some]
        rfl
      · simp [List.map_map, Function.comp_def]
      · simp only [blames, ht, List.map_map, Function.comp_def, Option.getD_some]
        rfl
  · intro c _ f o ho
    obtain ⟨_, _, rfl⟩ := List.mem_map.1 ho
    exact .refl

/-- The hypotheses of `C84_mode_change_is_text` are met: in the result of `d2` the binary file `b` is a text file with two lines. -/
example : ∃ log, parseLog (logText [Ex.entryOf b!"d1" none [binF b!"b"], Ex.entryOf b!"d2" none [chmodF b!"b"]]) = .ok log ∧
    ∃ res ∈ (run (env true b!"b") {} (fun _ => .ok []) (Graph.newFromMap parents parents) log).sent, ∃ b n, res.commit = b!"d2" ∧ GoMap.get res.files b!"b" = some b ∧
      (x2 b!"b").tree b!"b" = some n ∧ b.isBinary = false ∧ HasContent b n :=
  C84_mode_change_is_text (setting (.inl rfl)) (log_ok (.inl rfl)) _ (c := x2 b!"b") (by simp [hist]) rfl rfl (f := chmodF b!"b") (by simp) rfl rfl (isBin (.inl rfl))

/-- And those of `C84_blame_fails`: only the result of `d1` is sent. -/
example : ∃ log, parseLog (logText [Ex.entryOf b!"d1" none [binF b!"b"], Ex.entryOf b!"d2" none [chmodF b!"b"]]) = .ok log ∧
    let out := run (env false b!"b") {} (fun _ => .ok []) (Graph.newFromMap parents parents) log
    out.fault = some (.panic "git blame failed") ∧ out.written = none ∧ out.sent.map (·.commit) = [b!"d1"] := by
  obtain ⟨log, h1, h2, h3, h4, _⟩ := C84_blame_fails (env := env false b!"b") (G := blames b!"b") (m := parents) (order := parents) (H := hist b!"b") (a := [x1 b!"b"]) (c := x2 b!"b") (r := [])
    isort_sortsHunks (fun _ _ _ => .refl _) (history_ok (.inl rfl)) (by decide) (.refl _) (setting (.inl rfl)).parents rfl (setting (.inl rfl)).blame.ancestors
    (fun x hx f n _ ha => by rw [List.mem_singleton] at hx; subst hx; exact absurd ha (not_asks f)) (fun f n _ _ => .inr rfl) (asks (.inl rfl)) rfl (log_ok (.inl rfl)) (fun _ => .ok [])
  exact ⟨log, h1, h2, h3, h4⟩

end ExMode

end Ripsrc
