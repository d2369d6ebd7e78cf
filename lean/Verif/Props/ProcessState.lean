import Verif.Props.Process
/-!
# C27 – C30: reported files, retained commits, independence from map order
-/
namespace Ripsrc
open Spec

/-! ## C27 -/

/-- **C27.** The result of a commit lists exactly the paths written (created, modified, renamed to; for a merge: which differ from every
parent, or are binary) and the deleted paths. A path that is only deleted is reported without lines, for a regular commit with
the binary mark of git. -/
theorem C27_reported_files {env : Env} {G : Str → Str → List Str} {m : GoMap Str (List Str)} {order : List (Str × List Str)} {H : History}
    (h : Setting env H G m order) {es : List LogEntry} (hlog : LogOf H es) (hne : H ≠ []) (read : Str → Go Repo) :
    ∃ log, parseLog (logText es) = .ok log ∧
      let out := run env {} read (Graph.newFromMap m order) log
      ∀ (i : Nat) c res, H[i]? = some c → out.sent[i]? = some res →
        (∀ p, GoMap.has res.files p = true ↔ c.Writes H p ∨ c.Deletes p) ∧
        (∀ p, c.Deletes p → ¬ c.Writes H p → ∃ b, GoMap.get res.files p = some b ∧ b.commit = c.hash ∧ b.lines = [] ∧
          (b.isBinary = true ↔ c.Regular ∧ c.DeletesBinary p)) := by
  obtain ⟨log, s, h1, h2, h3⟩ := history_run_all h hlog hne read
  refine ⟨log, h1, ?_⟩
  rw [h2]
  intro _ i c res hc hr
  have := h3.sentOk i c res hc hr
  exact ⟨this.paths, this.removed⟩

/-- In a history without binary changes no file is binary. -/
theorem no_binary {H : History} (hno : ∀ c ∈ H, ∀ cs ∈ c.diffs, ∀ f ∈ cs, f.body.isBinary = false) (h p : Str) : ¬ IsBin H h p := by
  intro hb
  induction hb with
  | change a b c d e f =>
    have := hno _ a _ (by rw [c]; exact List.mem_singleton.2 rfl) _ (List.mem_of_find?_eq_some e)
    rw [f] at this
    cases this
  | moved _ _ _ _ _ _ _ _ _ ih => exact ih
  | untouched _ _ _ _ _ ih => exact ih
  | mergeChange a b c d e =>
    obtain ⟨y, hy, he⟩ := List.mem_map.1 d
    rw [Prod.mk.injEq] at he
    have := hno _ a _ (List.of_mem_zip hy).2 _ (List.mem_of_find?_eq_some he.2)
    rw [e] at this
    cases this
  | mergeParent _ _ _ _ _ _ ih => exact ih
  | mergeSame _ _ _ _ _ ih => exact ih
  | mergeUntouched _ _ _ _ _ ih => exact ih

theorem ex_no_binary (h p : Str) : ¬ IsBin Ex.H h p := by
  refine no_binary ?_ h p
  intro c hc
  simp only [Ex.H, List.mem_cons, List.not_mem_nil, or_false] at hc
  rcases hc with rfl | rfl | rfl | rfl | rfl <;> decide

/-- In the example the merge `c4` reports `g`, which differs from both parents, and not `f`, which is the same in `c3`. -/
example : Ex.c4.Writes Ex.H b!"g" ∧ ¬ Ex.c4.Writes Ex.H b!"f" ∧ Ex.c5.Deletes b!"f" := by
  refine ⟨⟨by decide, by decide, Or.inr (Or.inl (by decide))⟩, ?_, ⟨_, List.mem_cons_self .., _, List.mem_cons_self .., rfl, rfl⟩⟩
  rintro ⟨_, _, h | h | ⟨q, f, hm, h | h⟩⟩
  · exact absurd h (by decide)
  · exact absurd h (by decide)
  · obtain ⟨y, hy, he⟩ := List.mem_map.1 hm
    rw [Prod.mk.injEq] at he
    have key : ∀ cs ∈ Ex.c4.diffs, ∀ f ∈ cs, f.body.isBinary = false := by decide
    have := key _ (List.of_mem_zip hy).2 _ (List.mem_of_find?_eq_some he.2)
    rw [h] at this
    cases this
  · exact ex_no_binary _ _ h.2

/-! ## C28 -/

/-- **C28.** A commit is retained as long as a commit of the history that has it as a parent is still to be processed: after the
commits `done` of the history `done ++ rest` it is stored. -/
theorem C28_parents_retained {env : Env} {G : Str → Str → List Str} {m : GoMap Str (List Str)} {order : List (Str × List Str)}
    {done rest : History} (h : Setting env (done ++ rest) G m order) {es : List LogEntry} (hlog : LogOf done es) (hne : done ≠ [])
    (read : Str → Go Repo) :
    ∃ log R last, parseLog (logText es) = .ok log ∧
      let out := run env {} read (Graph.newFromMap m order) log
      out.fault = none ∧ out.written = some (R, last) ∧
      (∀ c ∈ done, HasChildIn rest c.hash → ∃ fs, GoMap.get R c.hash = some fs) ∧
      (∀ c ∈ done, ¬ HasChildIn (done ++ rest) c.hash → ∃ fs, GoMap.get R c.hash = some fs) ∧
      ((done ++ rest).length ≤ 1000 → ∀ c ∈ done, ∃ fs, GoMap.get R c.hash = some fs) := by
  obtain ⟨log, s, h1, h2, h3⟩ := history_run h hlog hne read
  refine ⟨log, s.repo, s.lastProcessed, h1, by rw [h2], by rw [h2], ?_, ?_, ?_⟩
  · intro c hc ⟨d, hd, hp⟩
    exact h3.kept c hc (nc_of_mem hd hp)
  · intro c hc hn
    refine h3.heads c hc (Or.inl ?_)
    apply Classical.byContradiction
    intro hne
    exact hn (nc_pos hne)
  · intro hl c hc
    exact h3.heads c hc (Or.inr hl)

example : HasChildIn [Ex.c3, Ex.c4, Ex.c5] Ex.c2.hash ∧ [Ex.c1, Ex.c2] ++ [Ex.c3, Ex.c4, Ex.c5] = Ex.H ∧
    LogOf [Ex.c1, Ex.c2] ([Ex.c1, Ex.c2].flatMap Ex.entries) :=
  ⟨⟨Ex.c4, by simp, by decide⟩, rfl, log_of_entries _ (fun c hc => Ex.printed c (by
    simp only [List.mem_cons, List.not_mem_nil, or_false] at hc
    rcases hc with rfl | rfl <;> simp [Ex.H]))⟩

/-! ## C29 -/

/-- **C29.** After a run from scratch at most 1000 of the retained commits have children all of which are processed. (Commits without
children are never unloaded.) -/
theorem C29_retained_bound {env : Env} {G : Str → Str → List Str} {m : GoMap Str (List Str)} {order : List (Str × List Str)} {H : History}
    (h : Setting env H G m order) {es : List LogEntry} (hlog : LogOf H es) (hne : H ≠ []) (read : Str → Go Repo) :
    ∃ log R last, parseLog (logText es) = .ok log ∧
      (run env {} read (Graph.newFromMap m order) log).written = some (R, last) ∧
      ∀ l : List Str, l.Nodup → (∀ x ∈ l, GoMap.get R x ≠ none) →
        (∀ x ∈ l, (∃ d, (Graph.newFromMap m order).Parent d x) ∧ ∀ d, (Graph.newFromMap m order).Parent d x → ∃ c ∈ H, c.hash = d) →
        l.length ≤ 1000 := by
  obtain ⟨log, s, h1, h2, h3⟩ := history_run_all h hlog hne read
  refine ⟨log, s.repo, s.lastProcessed, h1, by rw [h2], ?_⟩
  intro l hnd hst hch
  have hsub : ∀ x ∈ l, x ∈ s.toUnload := by
    intro x hx
    obtain ⟨⟨d, hd⟩, hall⟩ := hch x hx
    have hlen := childLen_build h.history h.wf h.perm h.parents x hall
    have hnz : nc H x ≠ 0 := by
      obtain ⟨c, hc, rfl⟩ := hall d hd
      have hp : x ∈ c.parents := by
        unfold Graph.Parent Graph.parentsOf at hd
        rw [show (Graph.newFromMap m order).parents = m from rfl, h.parents c hc] at hd
        exact hd
      exact nc_of_mem hc hp
    rcases h3.book.gone x hnz hlen.symm with h' | h'
    · exact h'
    · exact absurd h' (hst x hx)
  have := (List.subperm_of_subset hnd hsub).length_le
  have := h3.book.len
  omega

/-- Calls of `Unload`, one after the other. -/
def unloadAll (r : Repo) : List Str → Repo × List Str := fun cs => cs.foldl (fun st c => unload st.1 st.2 c) (r, [])

/-- **C29, order.** Whatever the sequence of calls, the unloader keeps the last 1000 commits given to it and has removed exactly the
earlier ones, oldest first. -/
theorem C29_unloader_fifo (r : Repo) (cs : List Str) :
    unloadAll r cs = ((cs.take (cs.length - 1000)).foldl GoMap.del r, (cs.drop (cs.length - 1000)).reverse) := by
  have snoc : ∀ (cs : List Str) (c : Str), unloadAll r (cs ++ [c]) = unload (unloadAll r cs).1 (unloadAll r cs).2 c := by
    intro cs c
    simp [unloadAll]
  induction hn : cs.length generalizing cs with
  | zero =>
    rw [List.length_eq_zero_iff.1 hn]
    rfl
  | succ n ih =>
    have hne : cs ≠ [] := by intro h; rw [h] at hn; cases hn
    have hcs : cs = cs.dropLast ++ [cs.getLast hne] := (List.dropLast_append_getLast hne).symm
    generalize cs.getLast hne = c at hcs
    generalize cs.dropLast = ds at hcs
    subst hcs
    have hl : ds.length = n := by simpa using hn
    rw [snoc, ih ds hl]
    unfold unload maxCommitsInCheckpoint
    simp only [List.length_cons, List.length_reverse, List.length_drop]
    by_cases hbig : n ≥ 1000
    · rw [if_pos (by omega)]
      have hd : ds.drop (n - 1000) ≠ [] := by
        intro h
        have := congrArg List.length h
        rw [List.length_drop] at this
        simp at this
        omega
      obtain ⟨x, t, hx⟩ : ∃ x t, ds.drop (n - 1000) = x :: t := List.exists_cons_of_ne_nil hd
      have hds : ds = ds.take (n - 1000) ++ x :: t := by rw [← hx]; exact (List.take_append_drop _ _).symm
      have hxt : t.length = 999 := by
        have := congrArg List.length hx
        rw [List.length_drop, List.length_cons] at this
        omega
      have hp : (ds.take (n - 1000)).length = n - 1000 := by rw [List.length_take]; omega
      have e1 : (c :: (x :: t).reverse).getLast? = some x := by simp [List.getLast?_cons]
      have e2 : (c :: (x :: t).reverse).dropLast = c :: t.reverse := by
        rw [List.reverse_cons, ← List.cons_append, List.dropLast_concat]
      rw [hx, e1]
      simp only [e2]
      have hidx : n + 1 - 1000 = (n - 1000) + 1 := by omega
      rw [hidx]
      generalize ds.take (n - 1000) = pre at hds hp
      subst hds
      have e5 : pre ++ x :: t ++ [c] = (pre ++ [x]) ++ (t ++ [c]) := by simp
      have e6 : (pre ++ [x]).length = n - 1000 + 1 := by rw [List.length_append, hp]; rfl
      have e3 : (pre ++ x :: t ++ [c]).take (n - 1000 + 1) = pre ++ [x] := by rw [e5, List.take_left' e6]
      have e4 : (pre ++ x :: t ++ [c]).drop (n - 1000 + 1) = t ++ [c] := by rw [e5, List.drop_left' e6]
      rw [e3, e4]
      simp [List.foldl_append]
    · have e1 : n - 1000 = 0 := Nat.sub_eq_zero_of_le (by omega)
      have e2 : n + 1 - 1000 = 0 := Nat.sub_eq_zero_of_le (by omega)
      rw [e1, e2, if_neg (by omega)]
      simp

/-- **C29 does not hold across resumed runs.** The list of the unloader starts empty in each run: what is in the checkpoint a run starts
with and is neither in its log nor a parent of a commit of its log is never unloaded, however much it is. -/
theorem C29_not_across_resumes {env : Env} {opts : RunOpts} {read : Str → Go Repo} {g : Graph} {log : List LogCommit} {R R' : Repo} {last : Str}
    (hinit : initCheckpoints opts read = .ok R) (h : (run env opts read g log).written = some (R', last)) (l : List Str)
    (hst : ∀ x ∈ l, GoMap.get R x ≠ none) (hl : ∀ x ∈ l, ∀ e ∈ log, x ≠ e.hash ∧ x ∉ g.parentsOf e.hash) :
    ∀ x ∈ l, GoMap.get R' x = GoMap.get R x ∧ GoMap.get R' x ≠ none := by
  intro x hx
  have := run_frame hinit h (q := x) (fun e he => hl x hx e he)
  exact ⟨this, by rw [this]; exact hst x hx⟩

/-- The hypotheses can be met by any number of commits: a run that finds `n` unrelated commits ends with all of them. -/
example (n : Nat) : ∃ (R R' : Repo) (log : List LogCommit) (last : Str) (l : List Str), l.length = n ∧ l.Nodup ∧
    initCheckpoints { commitFromIncl := b!"c1" } (fun _ => .ok R) = .ok R ∧
    (run Ex.env { commitFromIncl := b!"c1" } (fun _ => .ok R) (Graph.newFromMap [] []) log).written = some (R', last) ∧
    ∀ x ∈ l, GoMap.get R' x ≠ none := by
  have hinj : ∀ i j : Nat, (List.replicate i (120 : UInt8)) = List.replicate j 120 → i = j := by
    intro i j h
    have := congrArg List.length h
    simpa using this
  let l := (List.range n).map (fun i => List.replicate i (120 : UInt8))
  let R : Repo := l.map (fun h => (h, []))
  let log : List LogCommit := [{ hash := b!"c1" }]
  have hR : ∀ x ∈ l, GoMap.get R x ≠ none := by
    intro x hx
    have : GoMap.has R x = true := (GoMap.has_iff R x).2 (by simpa [R, GoMap.keys] using hx)
    unfold GoMap.has at this
    intro h
    rw [h] at this
    cases this
  have hw : (run Ex.env { commitFromIncl := b!"c1" } (fun _ => .ok R) (Graph.newFromMap [] []) log).written =
      some (GoMap.set R b!"c1" [], b!"c1") := rfl
  refine ⟨R, _, log, _, l, by simp [l], ?_, rfl, hw, fun x hx => (C29_not_across_resumes rfl hw l hR ?_ x hx).2⟩
  · refine List.pairwise_map.2 (List.Pairwise.imp ?_ (List.nodup_range (n := n)))
    intro a b hab h
    exact hab (hinj a b h)
  · intro x hx e he
    have hc : e = { hash := b!"c1" } := by simpa [log] using he
    subst hc
    refine ⟨?_, by simp [Graph.parentsOf, Graph.newFromMap]⟩
    rintro rfl
    obtain ⟨i, _, hi⟩ := List.mem_map.1 hx
    have : (99 : UInt8) ∈ List.replicate i (120 : UInt8) := by rw [hi]; simp
    rw [List.mem_replicate] at this
    exact absurd this.2 (by decide)

/-! ## C30 -/

/-- **C30.** Two runs over the same log that differ only in the order in which maps are iterated send the same results — for every
commit that does not, as a merge, both delete and write the same path — and end with the same stored state: the same commits with
the same files. -/
theorem C30_map_order {env env' : Env} (he : SameEnv env env') {G : Str → Str → List Str} {m : GoMap Str (List Str)}
    {order order' : List (Str × List Str)} {H : History} (h : Setting env H G m order) (h' : Setting env' H G m order')
    {es : List LogEntry} (hlog : LogOf H es) (hne : H ≠ []) (read : Str → Go Repo) :
    ∃ log R R' last, parseLog (logText es) = .ok log ∧
      let out := run env {} read (Graph.newFromMap m order) log
      let out' := run env' {} read (Graph.newFromMap m order') log
      out.fault = none ∧ out'.fault = none ∧ out.sent.length = H.length ∧ out'.sent.length = H.length ∧
      (∀ (i : Nat) c r r', H[i]? = some c → NoTypeChange H c → out.sent[i]? = some r → out'.sent[i]? = some r' → SameResult r r') ∧
      out.written = some (R, last) ∧ out'.written = some (R', last) ∧
      ∀ q p, R'.getFileOptional q p = R.getFileOptional q p := by
  obtain ⟨entries, rfl, hent⟩ := logOf_entries hlog h.history
  obtain ⟨Ri, res, hid⟩ := ideal_exists h.sorts h.orders h.history h.blame hent
  obtain ⟨s, a1, a2, a3⟩ := run_core_agree (env := env) (env' := env) ⟨rfl, rfl⟩ h.history h.blame (fun _ hc => hc) h (B := []) (N1 := H) (N2 := []) (by simp) hne
    hent hid (opts := {}) (read := read) (R := []) rfl (by simp) (by simp) (by simp)
  obtain ⟨s', b1, b2, b3⟩ := run_core_agree he h.history h'.blame (fun _ hc => hc) h' (B := []) (N1 := H) (N2 := []) (by simp) hne
    hent hid (opts := {}) (read := read) (R := []) rfl (by simp) (by simp) (by simp)
  have hok := C11_log_parser _ (logOf_ok hlog)
  have hlast : s'.lastProcessed = s.lastProcessed := by
    have k1 := a2.last
    have k2 := b2.last
    have l1 : s.sent ≠ [] := by
      intro hs
      have := a2.sentLen
      rw [hs] at this
      exact hne (List.length_eq_zero_iff.1 (by simpa using this.symm))
    have l2 : s'.sent ≠ [] := by
      intro hs
      have := b2.sentLen
      rw [hs] at this
      exact hne (List.length_eq_zero_iff.1 (by simpa using this.symm))
    rw [if_neg l1] at k1
    rw [if_neg l2] at k2
    rw [k1] at k2
    exact (Option.some.inj k2).symm
  refine ⟨_, s.repo, s'.repo, s.lastProcessed, hok, by rw [a1], by rw [b1], ?_, ?_, ?_, by rw [a1], by rw [b1, hlast], ?_⟩
  · rw [a1]; simpa using a2.sentLen
  · rw [b1]; simpa using b2.sentLen
  · rw [a1, b1]
    intro i c r r' hc ht hr hr'
    exact (a3.sent i c r (by simpa using hc) hr ht).symm.trans (b3.sent i c r' (by simpa using hc) hr' ht)
  · intro q p
    have hstored : (GoMap.get s'.repo q).isSome = (GoMap.get s.repo q).isSome := by
      have hs : BookEq ({ graph := Graph.newFromMap m order, repo := [] } : Proc) { graph := Graph.newFromMap m order', repo := [] } := by
        refine ⟨fun _ => rfl, fun p => ?_, fun _ => rfl, rfl, fun _ => rfl⟩
        unfold childLen
        rw [show (Graph.newFromMap m order').children = _ from rfl]
        have := (C13_children_inverse m h.wf order h.perm).1
        have h2 := (C13_children_inverse m h.wf order' h'.perm).1
        have hp : ((Graph.newFromMap m order').childrenOf p).Perm ((Graph.newFromMap m order).childrenOf p) :=
          List.perm_iff_count.2 (fun c => by rw [this, h2]; rfl)
        exact hp.length_eq
      exact (a3.book.symm.trans ((shadow_congr hs _).trans b3.book)).stored q
    cases hq : GoMap.get s.repo q with
    | none =>
      rw [hq] at hstored
      have : GoMap.get s'.repo q = none := by simpa using hstored
      unfold Repo.getFileOptional
      rw [hq, this]
    | some fs =>
      rw [hq] at hstored
      obtain ⟨fs', hq'⟩ := Option.isSome_iff_exists.1 hstored
      by_cases hc : ∃ c ∈ H, c.hash = q
      · obtain ⟨c, hc, rfl⟩ := hc
        rw [a3.look c (by simpa using hc) fs hq p, b3.look c (by simpa using hc) fs' hq' p]
      · exfalso
        have hn := run_frame (q := q) (R := []) (opts := {}) (read := read) (env := env) (g := Graph.newFromMap m order) rfl
          (by rw [a1]) (log_untouched h hlog (fun _ hc => hc) (fun c hc' he => hc ⟨c, hc', he⟩))
        rw [hq] at hn
        cases hn

theorem Ex.noTypeChange : ∀ c ∈ Ex.H, NoTypeChange Ex.H c := by
  intro c hc
  simp only [Ex.H, List.mem_cons, List.not_mem_nil, or_false] at hc
  rcases hc with rfl | rfl | rfl | rfl | rfl
  · exact Or.inl (by decide)
  · exact Or.inl (by decide)
  · exact Or.inl (by decide)
  · refine Or.inr (fun p hp => ?_)
    obtain ⟨⟨cs, h1, f, h2, h3, _⟩, _⟩ := hp
    have key : ∀ cs ∈ Ex.c4.diffs, ∀ f ∈ cs, f.kind.next ≠ [] := by decide
    exact key cs h1 f h2 h3
  · exact Or.inl (by decide)

/-- The example with the other iteration order meets the hypotheses. -/
example : SameEnv Ex.env { Ex.env with order := fun _ _ l => l.reverse } ∧
    Setting { Ex.env with order := fun _ _ l => l.reverse } Ex.H Ex.blames Ex.parents Ex.parents.reverse ∧ ∀ c ∈ Ex.H, NoTypeChange Ex.H c := by
  refine ⟨⟨rfl, rfl⟩, ⟨isort_sortsHunks, fun _ _ l => List.reverse_perm l, Ex.history_ok, Ex.blame_works, by decide, List.reverse_perm _, by decide⟩, Ex.noTypeChange⟩

/-! Counter-example with a change of type: in a merge the file `x` of the first parent is deleted and created again. -/

def exDelete : Str := b!"diff --git a/x b/x\ndeleted file mode 100644\nindex 7898192..0000000\n--- a/x\n+++ /dev/null\n@@ -1 +0,0 @@\n-a\n"
def exCreate : Str := b!"diff --git a/x b/x\nnew file mode 120000\nindex 0000000..422c2b7\n--- /dev/null\n+++ b/x\n@@ -0,0 +1 @@\n+y\n"
def exParts : GoMap Str LogCommit :=
  [(b!"p", { hash := b!"m", mergeDiffFrom := b!"p", changes := [exDelete, exCreate] }),
   (b!"q", { hash := b!"m", mergeDiffFrom := b!"q", changes := [exCreate] })]
def exRepo : Repo := [(b!"p", [(b!"x", { commit := b!"p", lines := [{ line := b!"a", commit := b!"p" }] })]), (b!"q", [])]

/-- What is reported for file `x` by the merge. -/
def exReported (order : Nat → Nat → List Str → List Str) : Option (Option Blame) :=
  ((processMergeCommit { Ex.env with order := order } 0 exRepo b!"m" [b!"p", b!"q"] exParts).toOption).map (fun x => GoMap.get x.2.files b!"x")

/-- **C30 fails for a change of type in a merge**: with one iteration order the result has the new content of the file, with the other
an empty blame. -/
theorem C30_type_change_depends_on_order :
    exReported (fun _ _ l => l) = some (some { commit := b!"m", lines := [{ line := b!"y", commit := b!"m" }] }) ∧
    exReported (fun _ k l => if k = 1 then l.reverse else l) = some (some { commit := b!"m", lines := [] }) := by
  constructor <;> decide

end Ripsrc
