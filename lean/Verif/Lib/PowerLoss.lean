import Verif.Spec.PowerLoss
import Verif.Spec.Graph
import Verif.Lib.Missing
import Verif.Lib.Run
/-!
# Two runs, one from a part of the stored state
-/
namespace Ripsrc
open Spec

theorem Spec.PartOfRepo.must {r' r : Repo} (h : PartOfRepo r' r) {c f : Str} {b : Blame} (hb : r'.getFileMust c f = .ok b) : r.getFileMust c f = .ok b := by
  unfold Repo.getFileMust at hb ⊢
  cases h1 : GoMap.get r' c with
  | none => rw [h1] at hb; cases hb
  | some fs' =>
    obtain ⟨fs, h2, h3⟩ := h c fs' h1
    rw [h1] at hb
    rw [h2]
    simp only at hb ⊢
    cases h4 : GoMap.get fs' f with
    | none => rw [h4] at hb; cases hb
    | some x => rw [h4] at hb; rw [h3 f x h4]; exact hb

theorem Spec.PartOfRepo.optional {r' r : Repo} (h : PartOfRepo r' r) {c f : Str} {b : Blame} (hb : r'.getFileOptional c f = .ok (some b)) : r.getFileOptional c f = .ok (some b) := by
  unfold Repo.getFileOptional at hb ⊢
  cases h1 : GoMap.get r' c with
  | none => rw [h1] at hb; cases hb
  | some fs' =>
    obtain ⟨fs, h2, h3⟩ := h c fs' h1
    rw [h1] at hb
    rw [h2]
    simp only [Except.ok.injEq] at hb ⊢
    exact h3 f b hb

/-- A change that is processed with the part is processed in the same way with the whole. -/
theorem regAct_part {env : Env} (hsrt : SortsHunks env.srt) {h : Str} {parents : List Str} (hp : parents.length ≤ 1) {r' r : Repo} (hr : PartOfRepo r' r) {ch : Str}
    (hd : ∀ d, parseDiff ch = .ok d → Definite d) {a : Act} (ha : regAct env h parents r' ch = .ok a) : regAct env h parents r ch = .ok a := by
  match parents, hp with
  | [], _ => rw [← ha]; exact regAct_congr env h [] r' r (by simp) ch
  | [p], _ =>
    unfold regAct at ha ⊢
    obtain ⟨d, h1, ha⟩ := bind_ok ha
    rw [h1]
    simp only [bind, Except.bind] at ha ⊢
    have hdd := hd d h1
    split
    · rename_i hb; rw [if_pos hb] at ha; exact ha
    · rename_i hb
      rw [if_neg hb] at ha
      split
      · rename_i hpp; rw [if_pos hpp] at ha; exact ha
      · rename_i hpp
        rw [if_neg hpp] at ha
        have hrb : ∀ x, renamedBinary r' [p] d = .ok x → renamedBinary r [p] d = .ok x := by
          intro x hx
          unfold renamedBinary at hx ⊢
          split
          · rename_i hc
            rw [if_pos hc] at hx
            simp only at hx ⊢
            split
            · rename_i h0
              rw [if_pos h0] at hx
              obtain ⟨pb, hm, hx⟩ := bind_ok hx
              rw [hr.must hm]; exact hx
            · rename_i h0
              rw [if_neg h0] at hx; exact hx
          · rename_i hc
            rw [if_neg hc] at hx; exact hx
        cases hx : renamedBinary r' [p] d with
        | error e => rw [hx] at ha; cases ha
        | ok x =>
          rw [hrb x hx]
          rw [hx] at ha
          cases x with
          | some pb => exact ha
          | none =>
            simp only at ha ⊢
            by_cases hprev : d.pathPrev = []
            · have e : ∀ q : Repo, parentBlameOf q [p] d = .ok none := fun q => by unfold parentBlameOf; rw [if_pos hprev]
              rw [e] at ha ⊢
              exact ha
            · have e : ∀ q : Repo, parentBlameOf q [p] d = q.getFileOptional p d.pathPrev := fun q => by unfold parentBlameOf; rw [if_neg hprev]
              rw [e] at ha ⊢
              have hn : NeedsFile d := by
                rcases hdd with h | h | h | h
                · exact absurd h hb
                · exact absurd h hpp
                · exact absurd h hprev
                · exact h
              cases ho : r'.getFileOptional p d.pathPrev with
              | error e => rw [ho] at ha; cases ha
              | ok o =>
                cases o with
                | some pb => rw [hr.optional ho]; rw [ho] at ha; exact ha
                | none =>
                  exfalso
                  rw [ho] at ha
                  simp only [newBlame] at ha
                  cases hap : apply env.srt { commit := [], lines := [] } d h with
                  | error e => rw [hap] at ha; cases ha
                  | ok b =>
                    rcases hn.2.2.2 with ⟨h1, h2⟩ | ⟨x, hx1, l, hl1, hl2⟩
                    · unfold renamedBinary at hx
                      rw [if_pos ⟨hprev, h1⟩] at hx
                      simp only [h2, List.length_nil, if_true] at hx
                      obtain ⟨pb, hm, _⟩ := bind_ok hx
                      unfold Repo.getFileMust at hm
                      unfold Repo.getFileOptional at ho
                      cases h3 : GoMap.get r' p with
                      | none => rw [h3] at hm; cases hm
                      | some fs =>
                        rw [h3] at hm ho
                        simp only [Except.ok.injEq] at ho hm
                        rw [ho] at hm; cases hm
                    · rw [apply_empty hsrt hap x hx1 l hl1] at hl2; cases hl2
  | _ :: _ :: _, hp => simp at hp

theorem PartOfRepo.set {r' r : Repo} (h : PartOfRepo r' r) (c : Str) {fs' fs : Files} (hf : ∀ f b, GoMap.get fs' f = some b → GoMap.get fs f = some b) :
    PartOfRepo (GoMap.set r' c fs') (GoMap.set r c fs) := by
  intro q x hx
  by_cases hq : c = q
  · subst hq
    rw [GoMap.get_set_self] at hx
    cases hx
    exact ⟨fs, GoMap.get_set_self _ _ _, hf⟩
  · rw [GoMap.get_set_ne _ _ hq] at hx ⊢
    exact h q x hx

/-- The loop over the changes, with the part and with the whole. -/
theorem changes_part {env : Env} (hsrt : SortsHunks env.srt) {h : Str} {parents : List Str} (hp : parents.length ≤ 1) : ∀ (changes : List Str) (st' st : Repo × Files) (s' : Repo × Files),
    (∀ ch ∈ changes, ∀ d, parseDiff ch = .ok d → Definite d) → PartOfRepo st'.1 st.1 → st'.2 = st.2 →
    (∃ fs' fs, GoMap.get st'.1 h = some fs' ∧ GoMap.get st.1 h = some fs ∧ ∀ f, GoMap.get fs' f ≠ none → GoMap.has st.2 f = true) →
    changes.foldlM (regularChange env h parents) st' = .ok s' → ∃ s, changes.foldlM (regularChange env h parents) st = .ok s ∧ PartOfRepo s'.1 s.1 ∧ s'.2 = s.2 ∧
      ∃ fs' fs, GoMap.get s'.1 h = some fs' ∧ GoMap.get s.1 h = some fs ∧ ∀ f, GoMap.get fs' f ≠ none → GoMap.has s.2 f = true
  | [], st', st, s', _, h1, h2, h3, hf => by cases hf; exact ⟨st, rfl, h1, h2, h3⟩
  | ch :: cs, st', st, s', hd, h1, h2, h3, hf => by
    rw [List.foldlM_cons] at hf ⊢
    obtain ⟨m', hm', hf⟩ := bind_ok hf
    rw [regularChange_eq] at hm' ⊢
    obtain ⟨a, ha, hm'⟩ := bind_ok hm'
    rw [regAct_part hsrt hp h1 (hd ch (by simp)) ha]
    obtain ⟨fs', fs, g1, g2, g3⟩ := h3
    obtain ⟨x', y1, y2, y3, y4⟩ := act_run g1 a
    obtain ⟨x, z1, z2, z3, z4⟩ := act_run g2 a
    rw [y1] at hm'
    cases hm'
    simp only [bind, Except.bind, z1]
    have hhas : ∀ (m : Files) k, GoMap.has m k = true ↔ GoMap.get m k ≠ none := by
      intro m k
      unfold GoMap.has
      cases GoMap.get m k <;> simp
    refine changes_part hsrt hp cs m' x s' (fun c hc => hd c (by simp [hc])) ?_ (by rw [y4, z4, h2]) ⟨_, _, y2, z2, ?_⟩ hf
    · intro q w hw
      by_cases hq : q = h
      · subst hq
        rw [y2] at hw
        cases hw
        refine ⟨_, z2, ?_⟩
        intro f b hb
        obtain ⟨_, e1, e2⟩ := h1 q fs' g1
        rw [g2] at e1
        cases e1
        by_cases hk : f ∈ a.kept.toList.map Prod.fst
        · cases hak : a.kept with
          | none => rw [hak] at hk; simp at hk
          | some kv =>
            rw [hak] at hk hb
            simp only [Option.toList, List.map_cons, List.map_nil, List.mem_singleton] at hk hb ⊢
            subst hk
            simp only [putAll, List.foldl_cons, List.foldl_nil, GoMap.get_set_self] at hb ⊢
            exact hb
        · rw [putAll_not_mem _ _ _ hk] at hb ⊢
          exact e2 f b hb
      · rw [y3 q hq] at hw
        rw [z3 q hq]
        exact h1 q w hw
    · intro f hf
      rw [hhas, z4]
      by_cases hk : f ∈ a.kept.toList.map Prod.fst
      · have hr : f ∈ a.reported.toList.map Prod.fst := by
          revert ha
          cases a with
          | report p b => simp [Act.kept] at hk
          | keep p b =>
            intro ha
            exfalso
            unfold regAct at ha
            obtain ⟨d, _, ha⟩ := bind_ok ha
            split at ha
            · split at ha <;> cases ha
            · split at ha
              · cases ha
              · obtain ⟨rb, _, ha⟩ := bind_ok ha
                cases rb with
                | some pb => cases ha
                | none =>
                  obtain ⟨pb, _, ha⟩ := bind_ok ha
                  obtain ⟨bl, _, ha⟩ := bind_ok ha
                  cases ha
          | both p b => intro _; exact hk
        obtain ⟨v, _, hv⟩ := putAll_mem st.2 _ f hr
        rw [hv]; exact Option.some_ne_none _
      · rw [putAll_not_mem _ _ _ hk] at hf
        have := (hhas _ _).1 (g3 f hf)
        intro hnone
        by_cases hr : f ∈ a.reported.toList.map Prod.fst
        · obtain ⟨v, _, hv⟩ := putAll_mem st.2 _ f hr
          rw [hv] at hnone; cases hnone
        · rw [putAll_not_mem _ _ _ hr] at hnone
          exact this hnone

/-- What the copying loop leaves. -/
theorem copied_get {res pf fs : Files} {l : List Str} (hl : l.Perm (GoMap.keys pf)) (f : Str) :
    GoMap.get (putAll fs (l.filterMap (fun x => if GoMap.has res x then none else (GoMap.get pf x).map (fun b => (x, b))))) f =
      if GoMap.has res f = false ∧ f ∈ GoMap.keys pf then GoMap.get pf f else GoMap.get fs f := by
  split
  · rename_i h
    obtain ⟨b, hb⟩ := Option.isSome_iff_exists.1 ((GoMap.get_isSome_iff pf f).2 h.2)
    have hm : f ∈ (l.filterMap (fun x => if GoMap.has res x then none else (GoMap.get pf x).map (fun b => (x, b)))).map Prod.fst := by
      refine List.mem_map.2 ⟨(f, b), List.mem_filterMap.2 ⟨f, hl.mem_iff.2 h.2, ?_⟩, rfl⟩
      rw [h.1, hb]; rfl
    obtain ⟨v, h1, h2⟩ := putAll_mem fs _ f hm
    rw [h2]
    obtain ⟨y, _, hy⟩ := List.mem_filterMap.1 h1
    split at hy
    · cases hy
    · cases hg : GoMap.get pf y with
      | none => rw [hg] at hy; cases hy
      | some w =>
        rw [hg] at hy
        cases hy
        exact hg.symm
  · rename_i h
    refine putAll_not_mem _ _ _ ?_
    intro hm
    obtain ⟨e, he, rfl⟩ := List.mem_map.1 hm
    obtain ⟨y, hy, he⟩ := List.mem_filterMap.1 he
    split at he
    · cases he
    · rename_i hh
      cases hg : GoMap.get pf y with
      | none => rw [hg] at he; cases he
      | some w =>
        rw [hg] at he
        cases he
        exact h ⟨by simpa using hh, hl.mem_iff.1 hy⟩

/-- A commit that is processed with the part is processed with the whole, with the same result. -/
theorem regular_part {env : Env} (hsrt : SortsHunks env.srt) (hord : ∀ n k l, (env.order n k l).Perm l) {n : Nat} {h : Str} {parents changes : List Str} (hself : h ∉ parents)
    (hd : ∀ ch ∈ changes, ∀ d, parseDiff ch = .ok d → Definite d) {r' r x' : Repo} (hr : PartOfRepo r' r) {res : Result}
    (hx : processRegularCommit env n r' h parents changes = .ok (x', res)) : ∃ x, processRegularCommit env n r h parents changes = .ok (x, res) ∧ PartOfRepo x' x := by
  unfold processRegularCommit at hx ⊢
  split at hx
  · cases hx
  · rename_i hlen
    rw [if_neg hlen]
    obtain ⟨st', h1, hx⟩ := bind_ok hx
    obtain ⟨st, g1, g2, g3, fs', fs, g4, g5, g6⟩ := changes_part hsrt (by omega) changes (r'.addCommit h, []) (r.addCommit h, []) st' hd (PartOfRepo.set hr h (fun _ _ h => h)) rfl
      ⟨[], [], GoMap.get_set_self _ _ _, GoMap.get_set_self _ _ _, fun f hf => absurd rfl hf⟩ h1
    simp only [bind, Except.bind, g1]
    match parents, hself, hlen with
    | [], _, _ => cases hx; rw [g3]; exact ⟨_, rfl, g2⟩
    | p :: ps, hself, _ =>
      simp only at hx ⊢
      obtain ⟨pf', hp', hx⟩ := bind_ok hx
      obtain ⟨w', hw', hx⟩ := bind_ok hx
      cases hx
      have hpne : p ≠ h := fun e => hself (by simp [e])
      have hpf' : GoMap.get st'.1 p = some pf' := by
        unfold Repo.getCommitMust at hp'
        split at hp'
        · cases hp'
        · rename_i z hz; cases hp'; exact hz
      obtain ⟨pf, hpf, hpp⟩ := g2 p pf' hpf'
      have : st.1.getCommitMust p = .ok pf := by unfold Repo.getCommitMust; rw [hpf]
      rw [this]
      simp only
      obtain ⟨y', a1, a2, a3⟩ := copy_loop h p hpne st'.2 pf' (env.order n 0 (GoMap.keys pf')) st'.1 fs' g4 hpf' (fun x hx => (hord _ _ _).mem_iff.1 hx)
      obtain ⟨y, b1, b2, b3⟩ := copy_loop h p hpne st.2 pf (env.order n 0 (GoMap.keys pf)) st.1 fs g5 hpf (fun x hx => (hord _ _ _).mem_iff.1 hx)
      rw [a1] at hw'
      cases hw'
      rw [b1]
      refine ⟨y, by rw [g3], ?_⟩
      intro q w hw
      by_cases hq : q = h
      · subst hq
        rw [a2] at hw
        cases hw
        refine ⟨_, b2, ?_⟩
        intro f b hb
        rw [copied_get (hord _ _ _)] at hb ⊢
        have hkeys : f ∈ GoMap.keys pf' → f ∈ GoMap.keys pf := by
          intro hk
          obtain ⟨v, hv⟩ := Option.isSome_iff_exists.1 ((GoMap.get_isSome_iff pf' f).2 hk)
          exact (GoMap.get_isSome_iff pf f).1 (by rw [hpp f v hv]; rfl)
        rw [g3] at hb
        by_cases hc : GoMap.has st.2 f = false ∧ f ∈ GoMap.keys pf'
        · rw [if_pos hc] at hb
          rw [if_pos ⟨hc.1, hkeys hc.2⟩]
          exact hpp f b hb
        · rw [if_neg hc] at hb
          have := g6 f (by rw [hb]; simp)
          rw [if_neg (by rw [this]; simp)]
          obtain ⟨_, e1, e2⟩ := g2 q fs' g4
          rw [g5] at e1
          cases e1
          exact e2 f b hb
      · rw [a3 q hq] at hw
        rw [b3 q hq]
        exact g2 q w hw

/-- The states of the two runs. -/
structure PartRun (s' s : Proc) : Prop where
  graph : s'.graph = s.graph
  cp : s'.childrenProcessed = s.childrenProcessed
  list : s'.toUnload = s.toUnload
  sent : s'.sent = s.sent
  last : s'.lastProcessed = s.lastProcessed
  parts' : s'.mergeParts = []
  parts : s.mergeParts = []
  repo : PartOfRepo s'.repo s.repo

theorem PartRun.trimParent {s' s : Proc} (h : PartRun s' s) (p : Str) : PartRun (s'.trimParent p) (s.trimParent p) := by
  unfold Proc.trimParent
  simp only [h.cp, h.graph]
  split
  · unfold unload
    simp only [h.list]
    split
    · split
      · refine ⟨rfl, rfl, rfl, h.sent, h.last, h.parts', h.parts, ?_⟩
        intro q w hw
        simp only [GoMap.get_del] at hw ⊢
        split at hw
        · cases hw
        · rename_i hq
          rw [if_neg hq]
          exact h.repo q w hw
      · exact ⟨rfl, rfl, rfl, h.sent, h.last, h.parts', h.parts, h.repo⟩
    · exact ⟨rfl, rfl, rfl, h.sent, h.last, h.parts', h.parts, h.repo⟩
  · exact ⟨rfl, rfl, h.list, h.sent, h.last, h.parts', h.parts, h.repo⟩

theorem PartRun.trim {s' s : Proc} (h : PartRun s' s) (c : Str) : PartRun (s'.trim c) (s.trim c) := by
  have : s'.parents c = s.parents c := by unfold Proc.parents; rw [h.graph]
  unfold Proc.trim
  rw [this]
  generalize s.parents c = ps
  induction ps generalizing s' s with
  | nil => exact h
  | cons p ps ih => exact ih (h.trimParent p) (by unfold Proc.parents; rw [(h.trimParent p).graph])

/-- One commit of the log. -/
theorem PartRun.commit {env : Env} (hsrt : SortsHunks env.srt) (hord : ∀ n k l, (env.order n k l).Perm l) {s' s : Proc} (h : PartRun s' s) {e : LogCommit}
    (hp : (s.graph.parentsOf e.hash).length ≤ 1) (hself : e.hash ∉ s.graph.parentsOf e.hash) (hd : ∀ ch ∈ e.changes, ∀ d, parseDiff ch = .ok d → Definite d) :
    (∃ w, s'.commit env e = (s', some w)) ∨ ∃ t' t, s'.commit env e = (t', none) ∧ s.commit env e = (t, none) ∧ PartRun t' t ∧ t.graph = s.graph := by
  have hpar' : s'.parents e.hash = s.graph.parentsOf e.hash := by unfold Proc.parents Graph.parentsOf; rw [h.graph]
  have hpar : s.parents e.hash = s.graph.parentsOf e.hash := rfl
  have hnew : ∀ u : Proc, u.mergeParts = [] → u.parents e.hash = s.graph.parentsOf e.hash → u.commit env e =
      match processRegularCommit env u.sent.length u.repo e.hash (s.graph.parentsOf e.hash) e.changes with
      | .error w => (u, some w)
      | .ok (r, res) => ({ ({ u with repo := r, lastProcessed := e.hash } : Proc).trim e.hash with sent := (({ u with repo := r, lastProcessed := e.hash } : Proc).trim e.hash).sent ++ [res] }, none) := by
    intro u hu hup
    unfold Proc.commit
    rw [if_neg (by rw [hu]; simp)]
    unfold Proc.newCommit
    rw [hup, if_neg (by omega)]
    cases processRegularCommit env u.sent.length u.repo e.hash (s.graph.parentsOf e.hash) e.changes with
    | error w => rfl
    | ok x => rfl
  rw [hnew s' h.parts' hpar', hnew s h.parts hpar]
  cases hx : processRegularCommit env s'.sent.length s'.repo e.hash (s.graph.parentsOf e.hash) e.changes with
  | error w => exact .inl ⟨w, rfl⟩
  | ok x =>
    obtain ⟨r', res⟩ := x
    rw [h.sent] at hx
    obtain ⟨r, hr, hpo⟩ := regular_part hsrt hord hself hd h.repo hx
    rw [hr]
    have h1 : PartRun ({ s' with repo := r', lastProcessed := e.hash } : Proc) ({ s with repo := r, lastProcessed := e.hash } : Proc) :=
      ⟨h.graph, h.cp, h.list, h.sent, rfl, h.parts', h.parts, hpo⟩
    have h2 := h1.trim e.hash
    refine .inr ⟨_, _, rfl, rfl, ?_⟩
    have e0 : ∀ {x' x : Proc} (y : List Result), PartRun x' x → PartRun ({ x' with sent := x'.sent ++ y } : Proc) ({ x with sent := x.sent ++ y } : Proc) := fun y h => ⟨h.graph, h.cp, h.list, by simp only [h.sent], h.last, h.parts', h.parts, h.repo⟩
    have h3 := e0 [res] h2
    exact ⟨h3, (trim_same _ _).graph⟩

theorem loop_sent_finish {env : Env} {s t : Proc} (h : s.finishMerge env = .ok t) : s.sent <+: t.sent := by
  unfold Proc.finishMerge at h
  split at h
  · cases h
  · cases h
    rw [(trim_same _ _).sent]
    exact List.prefix_append _ _

theorem loop_sent_prefix {env : Env} : ∀ (log : List LogCommit) (s : Proc), s.sent <+: (s.loop env log).1.sent := by
  have hfin : ∀ s t : Proc, s.finishMerge env = .ok t → s.sent <+: t.sent := by
    intro s t h
    exact loop_sent_finish h
  have hnew : ∀ (s t : Proc) c, s.newCommit env c = .ok t → s.sent <+: t.sent := by
    intro s t c h
    unfold Proc.newCommit at h
    split at h
    · cases h; exact List.prefix_refl _
    · obtain ⟨⟨r, res⟩, _, h⟩ := bind_ok h
      cases h
      rw [(trim_same _ _).sent]
      exact List.prefix_append _ _
  intro log
  induction log with
  | nil => intro s; exact List.prefix_refl _
  | cons c cs ih =>
    intro s
    have hc : s.sent <+: (s.commit env c).1.sent := by
      unfold Proc.commit
      split
      · split
        · exact List.prefix_refl _
        · split
          · exact List.prefix_refl _
          · rename_i t ht
            split
            · exact hfin _ _ ht
            · rename_i u hu
              exact (hfin _ _ ht).trans (hnew _ _ _ hu)
      · split
        · exact List.prefix_refl _
        · rename_i u hu
          exact hnew _ _ _ hu
    unfold Proc.loop
    cases h : s.commit env c with
    | mk t e =>
      rw [h] at hc
      cases e with
      | some e => exact hc
      | none => exact hc.trans (ih t)

/-- All commits of the log. -/
theorem PartRun.loop {env : Env} (hsrt : SortsHunks env.srt) (hord : ∀ n k l, (env.order n k l).Perm l) {g : Graph} : ∀ (log : List LogCommit) {s' s : Proc}, PartRun s' s → s.graph = g →
    (∀ e ∈ log, (g.parentsOf e.hash).length ≤ 1 ∧ e.hash ∉ g.parentsOf e.hash ∧ ∀ ch ∈ e.changes, ∀ d, parseDiff ch = .ok d → Definite d) →
    (∃ t' w, s'.loop env log = (t', some w) ∧ t'.sent <+: (s.loop env log).1.sent) ∨ ∃ t' t, s'.loop env log = (t', none) ∧ s.loop env log = (t, none) ∧ PartRun t' t
  | [], s', s, h, _, _ => .inr ⟨s', s, rfl, rfl, h⟩
  | e :: log, s', s, h, hg, hl => by
    obtain ⟨h1, h2, h3⟩ := hl e (by simp)
    rcases h.commit hsrt hord (hg ▸ h1) (hg ▸ h2) h3 with ⟨w, hw⟩ | ⟨t', t, a1, a2, a3, a4⟩
    · refine .inl ⟨s', w, by simp only [Proc.loop, hw], ?_⟩
      rw [h.sent]
      exact loop_sent_prefix _ _
    · have ht : t.graph = g := a4.trans hg
      simp only [Proc.loop, a1, a2]
      exact PartRun.loop hsrt hord log a3 ht (fun x hx => hl x (by simp [hx]))

end Ripsrc
