import Verif.Props.Missing
import Verif.Lib.MergeAll
import Verif.Lib.Ran
import Verif.Props.Stored
/-!
# C65: a merge needs a file that the stored state of a parent does not have
-/
namespace Ripsrc
open Spec

/-- After an element that establishes `P` the fold keeps it. -/
theorem foldlM_reaches {α ι : Type} {P : α → Prop} {f : α → ι → Go α} {x0 : ι} (hest : ∀ a b, f a x0 = .ok b → P b) : ∀ (l : List ι) (a b : α),
    (∀ x ∈ l, ∀ a b, P a → f a x = .ok b → P b) → (x0 ∈ l ∨ P a) → l.foldlM f a = .ok b → P b
  | [], a, b, _, h, hf => by
    cases hf
    rcases h with h | h
    · cases h
    · exact h
  | x :: l, a, b, hk, h, hf => by
    rw [List.foldlM_cons] at hf
    obtain ⟨a1, h1, h2⟩ := bind_ok hf
    refine foldlM_reaches hest l a1 b (fun y hy => hk y (List.mem_cons_of_mem _ hy)) ?_ h2
    rcases h with h | h
    · rcases List.mem_cons.1 h with rfl | h
      · exact .inr (hest _ _ h1)
      · exact .inl h
    · exact .inr (hk x List.mem_cons_self _ _ h h1)

/-- Under the key `k`, the diff against parent number `i` is `d`. -/
def HasDiff (i : Nat) (k : Str) (d : Diff) (D : DiffsByKey) : Prop := ∃ v, GoMap.get D k = some v ∧ v[i]? = some (some d)

theorem addDiff_establishes {ps : List Str} (hn : ps.Nodup) {i : Nat} {p : Str} (hi : ps[i]? = some p) {ch : Str} {d : Diff} (hd : parseDiff ch = .ok d) (hdp : d.path ≠ [])
    {D D' : DiffsByKey} (h : addDiff ps p D ch = .ok D') : HasDiff i d.path d D' := by
  unfold addDiff at h
  rw [hd] at h
  simp only [bind, Except.bind, hashToParOrd_get hn hi, Option.getD_some, mergeKey, if_pos hdp] at h
  split at h
  · rename_i hlt
    cases h
    exact ⟨_, GoMap.get_set_self _ _ _, by rw [List.getElem?_set_self hlt]⟩
  · cases h

/-- A change of parent number `j` under the same key is for another parent or the same change. -/
theorem addDiff_keeps {ps : List Str} (hn : ps.Nodup) {i j : Nat} {q : Str} (hj : ps[j]? = some q) {ch : Str} {k : Str} {d : Diff}
    (hsame : i = j → ∀ d', parseDiff ch = .ok d' → mergeKey d' = k → d' = d) {D D' : DiffsByKey} (hD : HasDiff i k d D) (h : addDiff ps q D ch = .ok D') : HasDiff i k d D' := by
  obtain ⟨v, hv, hvi⟩ := hD
  unfold addDiff at h
  obtain ⟨d', hd', h⟩ := bind_ok h
  simp only [hashToParOrd_get hn hj, Option.getD_some] at h
  split at h
  · cases h
    by_cases hk : mergeKey d' = k
    · subst hk
      refine ⟨_, GoMap.get_set_self _ _ _, ?_⟩
      rw [hv, Option.getD_some, List.getElem?_set]
      by_cases hij : j = i
      · rw [if_pos hij, if_pos (by subst hij; exact (List.getElem?_eq_some_iff.1 hvi).1), hsame hij.symm d' hd' rfl]
      · rw [if_neg hij]; exact hvi
    · exact ⟨v, by rw [GoMap.get_set_ne _ _ hk]; exact hv, hvi⟩
  · cases h

theorem isDelete_false {ds : List (Option Diff)} {i : Nat} {d : Diff} (h : ds[i]? = some (some d)) (hd : d.path ≠ []) : isDelete ds = false := by
  unfold isDelete
  rw [List.all_eq_false]
  exact ⟨some d, List.mem_of_getElem? h, by simp [hd]⟩

theorem anyBinaryParent_lacks {r : Repo} {p : Str} {d : Diff} (hp : d.pathPrev ≠ []) (hl : Lacks r p d.pathPrev) : ∀ (l : List (Str × Option Diff)) (b : Bool), (p, some d) ∈ l →
    anyBinaryParent r l ≠ .ok b
  | (q, none) :: l, b, h, he => by
    have h : (p, some d) ∈ l := by
      rcases List.mem_cons.1 h with h | h
      · cases h
      · exact h
    exact anyBinaryParent_lacks hp hl l b h he
  | (q, some d') :: l, b, h, he => by
    unfold anyBinaryParent at he
    rcases List.mem_cons.1 h with h | h
    · cases h
      rw [if_neg hp] at he
      obtain ⟨pb, h1, _⟩ := bind_ok he
      exact hl.must h1
    · split at he
      · exact anyBinaryParent_lacks hp hl l b h he
      · obtain ⟨pb, _, he⟩ := bind_ok he
        obtain ⟨rr, h2, _⟩ := bind_ok he
        exact anyBinaryParent_lacks hp hl l rr h h2

/-- The merge cannot be processed: a file of a parent is missing. -/
theorem merge_lacks {env : Env} (horder : ∀ n k l, (env.order n k l).Perm l) {n : Nat} {repo r : Repo} {hash p : Str} {ps : List Str} (hn : ps.Nodup) (hp : p ∈ ps) (hne : p ≠ hash)
    {parts : GoMap Str LogCommit} (hkeys : ∀ q ∈ GoMap.keys parts, q ∈ ps) {e : LogCommit} (he : GoMap.get parts p = some e) {ch : Str} (hch : ch ∈ e.changes) {d : Diff}
    (hd : parseDiff ch = .ok d) (hdp : d.path ≠ []) (hdq : d.pathPrev ≠ []) (hmark : ¬ deletedPrefix <+: d.path)
    (honce : ∀ x ∈ e.changes, ∀ d', parseDiff x = .ok d' → d'.path = d.path → d' = d) (hl : Lacks repo p d.pathPrev) {res : Result} :
    processMergeCommit env n repo hash ps parts ≠ .ok (r, res) := by
  intro h
  unfold processMergeCommit at h
  obtain ⟨diffs, hdiffs, h⟩ := bind_ok h
  obtain ⟨st, hst, _⟩ := bind_ok h
  obtain ⟨i, hi⟩ := List.mem_iff_getElem?.1 hp
  have hkey : ∀ x ∈ e.changes, ∀ d', parseDiff x = .ok d' → mergeKey d' = d.path → d' = d := by
    intro x hx d' hd' hk
    unfold mergeKey at hk
    split at hk
    · exact honce x hx d' hd' hk
    · exact absurd (hk ▸ List.prefix_append _ _) hmark
  have hD : HasDiff i d.path d diffs := by
    refine foldlM_reaches (P := HasDiff i d.path d) (x0 := p) ?_ _ _ _ ?_ (.inl ((horder n 0 _).mem_iff.2 ((GoMap.get_isSome_iff _ _).1 (by rw [he]; rfl)))) hdiffs
    · intro D D' h
      unfold addPart at h
      rw [he, Option.getD_some] at h
      exact foldlM_reaches (P := HasDiff i d.path d) (x0 := ch) (fun a b h => addDiff_establishes hn hi hd hdp h) _ _ _
        (fun x hx a b ha hab => addDiff_keeps hn hi (fun _ d' hd' hk => hkey x hx d' hd' hk) ha hab) (.inl hch) h
    · intro q hq D D' hD h
      obtain ⟨j, hj⟩ := List.mem_iff_getElem?.1 (hkeys q ((horder n 0 _).mem_iff.1 hq))
      unfold addPart at h
      have hstep : ∀ x ∈ ((GoMap.get parts q).getD {}).changes, ∀ a b, HasDiff i d.path d a → addDiff ps q a x = .ok b → HasDiff i d.path d b := by
        intro x hx a b ha hab
        refine addDiff_keeps hn hj ?_ ha hab
        rintro rfl d' hd' hk
        rw [hi] at hj
        cases hj
        rw [he, Option.getD_some] at hx
        exact hkey x hx d' hd' hk
      revert hD h
      generalize ((GoMap.get parts q).getD {}).changes = l at hstep
      induction l generalizing D with
      | nil => intro hD h; cases h; exact hD
      | cons x l ih =>
        intro hD h
        rw [List.foldlM_cons] at h
        obtain ⟨D1, h1, h2⟩ := bind_ok h
        exact ih D1 (fun y hy => hstep y (List.mem_cons_of_mem _ hy)) (hstep x List.mem_cons_self _ _ hD h1) h2
  obtain ⟨v, hv, hvi⟩ := hD
  have hfail : ∀ (s s' : Repo × Files), Lacks s.1 p d.pathPrev → mergeFile env hash ps diffs s d.path ≠ .ok s' := by
    intro s s' hs hm
    unfold mergeFile at hm
    simp only [hv, Option.getD_some, isDelete_false hvi hdp, Bool.false_eq_true, if_false] at hm
    obtain ⟨bp, h1, _⟩ := bind_ok hm
    refine anyBinaryParent_lacks hdq hs _ bp ?_ h1
    refine List.mem_iff_getElem?.2 ⟨i, ?_⟩
    rw [List.getElem?_zip_eq_some]
    exact ⟨hi, hvi⟩
  have key : ∀ (l : List Str) (s s' : Repo × Files), d.path ∈ l → Lacks s.1 p d.pathPrev → l.foldlM (mergeFile env hash ps diffs) s ≠ .ok s' := by
    intro l
    induction l with
    | nil => intro s s' h; cases h
    | cons x l ih =>
      intro s s' hx hs hfold
      rw [List.foldlM_cons] at hfold
      obtain ⟨s1, h1, h2⟩ := bind_ok hfold
      by_cases hxc : x = d.path
      · subst hxc
        exact hfail _ _ hs h1
      · have : d.path ∈ l := by
          rcases List.mem_cons.1 hx with h | h
          · exact absurd h.symm hxc
          · exact h
        exact ih s1 s' this (hs.same (mergeFile_same h1) hne) h2
  exact key _ _ st ((horder n 1 _).mem_iff.2 ((GoMap.get_isSome_iff _ _).1 (by rw [hv]; rfl))) (hl.same (sameBut_set _ _ _) hne) hst

/-- A merge that cannot be processed, from the first of its entries that are left. -/
theorem loop_merge_fails {env : Env} {m p f : Str} {ps : List Str} {e : LogCommit} (hep : e.mergeDiffFrom = p)
    (fails : ∀ s : Proc, s.mergePartsCommit = m → s.parents m = ps → Lacks s.repo p f → (∀ q ∈ GoMap.keys s.mergeParts, q ∈ ps) → GoMap.get s.mergeParts p = some e →
      ∃ e', s.finishMerge env = .error e') {b : List LogCommit} (hb : ∀ x, b.head? = some x → x.hash ≠ m) : ∀ (rest : List LogCommit) (s s' : Proc) (err : Option Fault),
    (∀ x ∈ rest, x.hash = m ∧ x.mergeDiffFrom ∈ ps) → s.mergeParts.length > 0 → s.mergePartsCommit = m → s.parents m = ps → Lacks s.repo p f →
    (∀ q ∈ GoMap.keys s.mergeParts, q ∈ ps) → ((GoMap.get s.mergeParts p = some e ∧ ∀ x ∈ rest, x.mergeDiffFrom ≠ p) ∨ (e ∈ rest ∧ (rest.map (·.mergeDiffFrom)).Nodup)) →
    s.loop env (rest ++ b) = (s', err) → s'.sent = s.sent ∧ (err = none → s'.mergeParts.length > 0 ∧ ∃ e', s'.finishMerge env = .error e')
  | [], s, s', err, _, hlen, hm, hps, hl, hk, hg, h => by
    have hg : GoMap.get s.mergeParts p = some e := by
      rcases hg with h | h
      · exact h.1
      · cases h.1
    obtain ⟨e', he'⟩ := fails s hm hps hl hk hg
    cases b with
    | nil => cases h; exact ⟨rfl, fun _ => ⟨hlen, e', he'⟩⟩
    | cons x b =>
      simp only [List.nil_append] at h
      unfold Proc.loop Proc.commit at h
      rw [if_pos hlen, if_neg (by rw [hm]; exact fun h => hb x rfl h.symm), he'] at h
      cases h
      exact ⟨rfl, by simp⟩
  | x :: rest, s, s', err, hr, hlen, hm, hps, hl, hk, hg, h => by
    obtain ⟨hx1, hx2⟩ := hr x List.mem_cons_self
    simp only [List.cons_append] at h
    unfold Proc.loop Proc.commit at h
    rw [if_pos hlen, if_pos (by rw [hm, hx1])] at h
    refine loop_merge_fails hep fails hb rest { s with mergeParts := GoMap.set s.mergeParts x.mergeDiffFrom x } s' err (fun y hy => hr y (List.mem_cons_of_mem _ hy)) ?_ hm hps hl ?_ ?_ h
    · have hg : GoMap.get (GoMap.set s.mergeParts x.mergeDiffFrom x) x.mergeDiffFrom = some x := GoMap.get_set_self _ _ _
      cases hx : GoMap.set s.mergeParts x.mergeDiffFrom x with
      | nil => rw [hx] at hg; simp at hg
      | cons _ _ => simp
    · intro q hq
      rcases (GoMap.mem_keys_set _ _ _ _).1 hq with rfl | hq
      · exact hx2
      · exact hk q hq
    · rcases hg with ⟨h1, h2⟩ | ⟨h1, h2⟩
      · exact .inl ⟨by rw [GoMap.get_set_ne _ _ (h2 x List.mem_cons_self)]; exact h1, fun y hy => h2 y (List.mem_cons_of_mem _ hy)⟩
      · simp only [List.map_cons, List.nodup_cons, List.mem_map, not_exists, not_and] at h2
        rcases List.mem_cons.1 h1 with rfl | h1
        · exact .inl ⟨by simp only [hep]; exact GoMap.get_set_self _ _ _, fun y hy => by rw [← hep]; exact h2.1 y hy⟩
        · exact .inr ⟨h1, h2.2⟩

/-- **C65 (missing file, merge).** If the run comes to a merge whose diff against one of its parents changes or renames a file which the stored state does not have for that parent, the run fails:
no result for the merge or a later commit, no checkpoint. (The log has at most one entry for each parent of the merge, one after the other, as git prints it, and the diff against a parent names
each new path once.) -/
theorem C65_missing_file_merge {env : Env} (horder : ∀ n k l, (env.order n k l).Perm l) {opts : RunOpts} {read : Str → Go Repo} {g : Graph} {a parts b : List LogCommit} {R : Repo}
    (hinit : initCheckpoints opts read = .ok R) {m : Str} (hn : (g.parentsOf m).Nodup) (hmerge : 1 < (g.parentsOf m).length) (ha : ∀ x ∈ a, x.hash ≠ m)
    (hparts : ∀ x ∈ parts, x.hash = m ∧ x.mergeDiffFrom ∈ g.parentsOf m) (honce : (parts.map (·.mergeDiffFrom)).Nodup) (hb : ∀ x, b.head? = some x → x.hash ≠ m)
    {e : LogCommit} (he : e ∈ parts) (hne : e.mergeDiffFrom ≠ m) (hap : ∀ x ∈ a, e.mergeDiffFrom ≠ x.hash) {ch : Str} (hch : ch ∈ e.changes) {d : Diff} (hd : parseDiff ch = .ok d)
    (hdp : d.path ≠ []) (hdq : d.pathPrev ≠ []) (hmark : ¬ deletedPrefix <+: d.path) (hpath : ∀ x ∈ e.changes, ∀ d', parseDiff x = .ok d' → d'.path = d.path → d' = d)
    (hR : Lacks R e.mergeDiffFrom d.pathPrev) : FailsAfter a (run env opts read g (a ++ parts ++ b)) := by
  obtain ⟨c, rest, rfl⟩ : ∃ c rest, parts = c :: rest := by
    cases parts with
    | nil => cases he
    | cons c rest => exact ⟨c, rest, rfl⟩
  have fails : ∀ s : Proc, s.mergePartsCommit = m → s.parents m = g.parentsOf m → Lacks s.repo e.mergeDiffFrom d.pathPrev → (∀ q ∈ GoMap.keys s.mergeParts, q ∈ g.parentsOf m) →
      GoMap.get s.mergeParts e.mergeDiffFrom = some e → ∃ e', s.finishMerge env = .error e' := by
    intro s hm hps hl hk hg
    unfold Proc.finishMerge
    rw [hm, hps]
    cases hx : processMergeCommit env s.sent.length s.repo m (g.parentsOf m) s.mergeParts with
    | error e => exact ⟨_, rfl⟩
    | ok x =>
      obtain ⟨r, res⟩ := x
      exact absurd hx (merge_lacks horder hn (hparts e he).2 hne hk hg hch hd hdp hdq hmark hpath hl)
  obtain ⟨hc1, hc2⟩ := hparts c List.mem_cons_self
  rw [List.append_assoc, List.cons_append]
  cases hl : Proc.loop env { graph := g, repo := R } (a ++ c :: (rest ++ b)) with
  | mk s err =>
    rcases loop_until (Q := fun o => ∀ fs, o = some fs → GoMap.get fs d.pathPrev = none) (by simp) hR hap hl with ⟨hex, hbf⟩ | ⟨t, hbf, ht⟩
    · exact fails_of_loop hinit hl hbf.sent (fun h => absurd h hex)
    · have atNew : ∀ (t0 : Proc), Before g (fun h => ∃ e ∈ a, h = e.hash) e.mergeDiffFrom (fun o => ∀ fs, o = some fs → GoMap.get fs d.pathPrev = none) t0 →
          (match (match t0.newCommit env c with | .error e => (t0, some e) | .ok s => (s, none)) with
            | (s, some e) => (s, some e)
            | (s, none) => s.loop env (rest ++ b)) = (s, err) →
          (∀ r ∈ s.sent, ∃ e ∈ a, r.commit = e.hash) ∧ (err = none → s.mergeParts.length > 0 ∧ ∃ e', s.finishMerge env = .error e') := by
        intro t0 hb0 h
        have hpar : t0.parents c.hash = g.parentsOf m := by simp only [Proc.parents, hb0.graph, hc1]; rfl
        have hnc : t0.newCommit env c = .ok { t0 with mergePartsCommit := c.hash, mergeParts := [(c.mergeDiffFrom, c)] } := by
          unfold Proc.newCommit
          rw [hpar, if_pos hmerge]
        rw [hnc] at h
        simp only at h
        obtain ⟨h1, h2⟩ := loop_merge_fails rfl fails hb rest { t0 with mergePartsCommit := c.hash, mergeParts := [(c.mergeDiffFrom, c)] } s err
          (fun y hy => hparts y (List.mem_cons_of_mem _ hy)) (by simp) hc1 (by rw [← hc1]; exact hpar.trans (by rw [hc1])) hb0.lacks
          (by intro q hq; simp only [GoMap.keys, List.map_cons, List.map_nil, List.mem_singleton] at hq; rw [hq]; exact hc2) (by
            simp only [List.map_cons, List.nodup_cons, List.mem_map, not_exists, not_and] at honce
            rcases List.mem_cons.1 he with rfl | he
            · exact .inl ⟨by simp [GoMap.get], fun y hy => honce.1 y hy⟩
            · exact .inr ⟨he, honce.2⟩) h
        exact ⟨by rw [h1]; exact hb0.sent, h2⟩
      have key : (∀ r ∈ s.sent, ∃ e ∈ a, r.commit = e.hash) ∧ (err = none → s.mergeParts.length > 0 ∧ ∃ e', s.finishMerge env = .error e') := by
        unfold Proc.loop Proc.commit at ht
        by_cases hlen : t.mergeParts.length > 0
        · obtain ⟨x, hx, hxe⟩ := (hbf.pending hlen).1
          rw [if_pos hlen, if_neg (by rw [hxe, hc1]; exact ha x hx)] at ht
          cases hf : t.finishMerge env with
          | error e1 => rw [hf] at ht; cases ht; exact ⟨hbf.sent, by simp⟩
          | ok t1 =>
            rw [hf] at ht
            obtain ⟨b1, b2⟩ := finishMerge_before (Q := fun o => ∀ fs, o = some fs → GoMap.get fs d.pathPrev = none) (by simp) hbf hlen (by rw [hxe]; exact hap x hx) hf
            exact atNew t1 b1 ht
        · rw [if_neg hlen] at ht
          exact atNew t hbf ht
      exact fails_of_loop hinit hl key.1 key.2

/-- **C65 (source, merge).** For every log: if a run from the beginning does not fail, then each file that the diff of a merge against one of its parents changes or renames was the new name in a
diff of an entry of that parent or of one of its ancestors. -/
theorem C65_source_merge {env : Env} (horder : ∀ n k l, (env.order n k l).Perm l) {opts : RunOpts} (hopts : opts.commitFromIncl = []) {read : Str → Go Repo}
    {g : Graph} (hself : ∀ h, h ∉ g.parentsOf h) {log : List LogCommit} (h : (run env opts read g log).fault = none) {e : LogCommit} (he : e ∈ log)
    (hn : (g.parentsOf e.hash).Nodup) (hmerge : 1 < (g.parentsOf e.hash).length) (hparts : ∀ x ∈ log, x.hash = e.hash → x.mergeDiffFrom ∈ g.parentsOf e.hash)
    (honce : ∀ x ∈ log, x.hash = e.hash → x.mergeDiffFrom = e.mergeDiffFrom → x = e) {ch : Str} (hch : ch ∈ e.changes) {d : Diff} (hd : parseDiff ch = .ok d)
    (hdp : d.path ≠ []) (hdq : d.pathPrev ≠ []) (hmark : ¬ deletedPrefix <+: d.path) (hpath : ∀ x ∈ e.changes, ∀ d', parseDiff x = .ok d' → d'.path = d.path → d' = d) :
    ∃ a, g.Reach e.mergeDiffFrom a ∧ ∃ e' ∈ log, e'.hash = a ∧ WritesPath e' d.pathPrev := by
  have hinit : initCheckpoints opts read = .ok [] := by simp [initCheckpoints, hopts]
  obtain ⟨n, repo, parts, r, res, e2, hI, hp, he2, hm, _⟩ := run_ran (I := FromAncestor g log) (fun h f fs hfs => by cases hfs) (fromAncestor_reg horder hself)
    (fromAncestor_mer horder hself) hinit (fun h f fs hfs => by cases hfs) h e he hmerge
  obtain ⟨a1, a2, a3⟩ := hp _ _ he2
  have hee : e2 = e := honce e2 a1 a2 a3
  rw [hee] at he2
  have hpp := hparts e he rfl
  apply Classical.byContradiction
  intro hc
  refine merge_lacks horder hn hpp (fun hx => hself e.hash (by rw [hx] at hpp; exact hpp)) ?_ he2 hch hd hdp hdq hmark hpath ?_ hm
  · intro q hq
    cases hg : GoMap.get parts q with
    | none => exact absurd hq ((GoMap.get_eq_none_iff _ _).1 hg)
    | some x =>
      obtain ⟨b1, b2, b3⟩ := hp q x hg
      rw [← b3]
      exact hparts x b1 b2
  · intro fs hfs
    cases hf : GoMap.get fs d.pathPrev with
    | none => rfl
    | some b => exact absurd (hI _ _ fs hfs ((GoMap.get_isSome_iff _ _).1 (by rw [hf]; rfl))) hc

/-! ### Example: the merge `c4` after a resume from a checkpoint in which `c3` does not have `f`; the diff against `c2` is empty, the one against `c3` renames `f` to `h` -/

example : FailsAfter [] (run Ex.env { commitFromIncl := b!"c3" } (fun _ => .ok [(b!"c2", [(b!"h", { commit := b!"c1", lines := [] })]), (b!"c3", [])]) (Graph.newFromMap Ex.parents Ex.parents)
    ([] ++ [{ hash := b!"c4", mergeDiffFrom := b!"c2" }, { hash := b!"c4", mergeDiffFrom := b!"c3", changes := [exRenameChange] }] ++ [])) := by
  have hd : parseDiff exRenameChange = .ok { pathPrev := b!"f", path := b!"h" } := by decide
  refine C65_missing_file_merge (m := b!"c4") (e := { hash := b!"c4", mergeDiffFrom := b!"c3", changes := [exRenameChange] }) (fun _ _ _ => .refl _) rfl (by decide) (by decide) (by simp)
    (by decide) (by decide) (by simp) (by simp) (by decide) (by simp) (List.mem_singleton.2 rfl) hd (by decide) (by decide) (by decide) ?_ ?_
  · intro x hx d' hd' _
    rw [List.mem_singleton] at hx
    rw [hx, hd] at hd'
    cases hd'
    rfl
  · intro fs h
    simp [GoMap.get] at h
    subst h
    rfl

/-- In the run of the example history the diff of the merge `c4` against `c2` changes `f`, which `c2` or an ancestor (here `c1`) wrote. -/
example : ∃ a, (Graph.newFromMap Ex.parents Ex.parents).Reach b!"c2" a ∧ ∃ e' ∈ (Ex.H.flatMap Ex.entries).map LogEntry.meaning, e'.hash = a ∧ WritesPath e' b!"f" := by
  obtain ⟨log, h1, h2, _⟩ := C24_history Ex.setting (log_of_entries Ex.H Ex.printed) (by decide) (fun _ => .ok [])
  rw [C11_log_parser _ (logOf_ok (log_of_entries Ex.H Ex.printed))] at h1
  cases h1
  have hd : parseDiff (unlines (Ex.appendF b!"f" b!"a" [b!"b"]).lines) = .ok (Ex.appendF b!"f" b!"a" [b!"b"]).meaning := parse_change _ Ex.ok3
  have hd2 : parseDiff (unlines (Ex.appendF b!"g" b!"x" [b!"y"]).lines) = .ok (Ex.appendF b!"g" b!"x" [b!"y"]).meaning := parse_change _ Ex.ok4
  have hc4 : (Ex.entryOf b!"c4" (some b!"c2") [Ex.appendF b!"f" b!"a" [b!"b"], Ex.appendF b!"g" b!"x" [b!"y"]]).meaning =
      { hash := b!"c4", mergeDiffFrom := b!"c2", changes := [unlines (Ex.appendF b!"f" b!"a" [b!"b"]).lines, unlines (Ex.appendF b!"g" b!"x" [b!"y"]).lines] } := by decide +kernel
  refine C65_source_merge (opts := {}) (env := Ex.env) (e := (Ex.entryOf b!"c4" (some b!"c2") [Ex.appendF b!"f" b!"a" [b!"b"], Ex.appendF b!"g" b!"x" [b!"y"]]).meaning) (fun _ _ _ => .refl _) rfl ?_ h2
    (by decide +kernel) (by decide +kernel) (by decide +kernel) (by decide +kernel) (by decide +kernel) (ch := unlines (Ex.appendF b!"f" b!"a" [b!"b"]).lines)
    (by rw [hc4]; exact List.mem_cons_self) hd (by decide) (by decide) (by decide) ?_
  · intro h hc
    have hp : ∀ e ∈ (Graph.newFromMap Ex.parents Ex.parents).parents, e.1 ∉ e.2 := by decide +kernel
    unfold Graph.parentsOf at hc
    cases hg : GoMap.get (Graph.newFromMap Ex.parents Ex.parents).parents h with
    | none => rw [hg] at hc; cases hc
    | some ps => rw [hg] at hc; exact hp _ (GoMap.mem_of_get hg) hc
  · intro x hx d' hd' hpath
    rw [hc4] at hx
    simp only [List.mem_cons, List.not_mem_nil, or_false] at hx
    rcases hx with rfl | rfl
    · rw [hd] at hd'
      cases hd'
      rfl
    · rw [hd2] at hd'
      cases hd'
      exact absurd hpath (by decide)

end Ripsrc
