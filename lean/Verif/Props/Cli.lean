import Verif.Spec.Cli
import Verif.Props.IterDir
/-!
# C60: the commands
-/
namespace Ripsrc
open Spec

/-- An error of the search comes right after a callback that failed. -/
def ErrFromCb (cb : List RelPath → RelPath → Bool) (out : Search) : Prop :=
  out.2 ≠ none → ∃ pre q, out.1 = pre ++ [q] ∧ cb pre q = false

theorem ErrFromCb.call {cb : List RelPath → RelPath → Bool} (calls : List RelPath) (p : RelPath) : ErrFromCb cb (callCb cb calls p) := by
  intro h
  refine ⟨calls, p, rfl, ?_⟩
  cases hc : cb calls p with
  | false => rfl
  | true => simp [callCb, hc] at h

theorem ErrFromCb.none {cb : List RelPath → RelPath → Bool} (calls : List RelPath) : ErrFromCb cb (calls, .none) := fun h => absurd rfl h

theorem ErrFromCb.andThen {cb : List RelPath → RelPath → Bool} {s : Search} {f : List RelPath → Search} (h1 : ErrFromCb cb s)
    (h2 : ErrFromCb cb (f s.1)) : ErrFromCb cb (s.andThen f) := by
  unfold Search.andThen
  cases hs : s.2 with
  | some e => intro _; exact h1 (by simp [hs])
  | none => exact h2

mutual
theorem iterDir_err (cb : List RelPath → RelPath → Bool) (n : Node) : ∀ (name : Str) (path : RelPath) (max : Int)
    (calls : List RelPath), Readable n → (∃ a b c, n = .dir a b c) → ErrFromCb cb (iterDir cb name path max calls n) := by
  intro name path max calls hr hdir
  match n with
  | .file => obtain ⟨_, _, _, h⟩ := hdir; cases h
  | .link to => obtain ⟨_, _, _, h⟩ := hdir; cases h
  | .dir lookup list es =>
    cases hr with
    | dir hes =>
      simp only [iterDir]
      obtain ⟨b, hb⟩ := contains_ok hes b!".git"
      obtain ⟨b2, hb2⟩ := contains_ok hes b!"objects"
      rw [hb, hb2]
      cases b with
      | true => exact ErrFromCb.call _ _
      | false =>
        simp only
        apply ErrFromCb.andThen
        · split
          · cases b2 with
            | true => exact ErrFromCb.call _ _
            | false => exact ErrFromCb.none _
          · exact ErrFromCb.none _
        · split
          · exact ErrFromCb.none _
          · rw [if_neg (by simp)]
            exact iterSubs_err cb es path max _ hes
theorem iterSubs_err (cb : List RelPath → RelPath → Bool) (es : Entries) : ∀ (path : RelPath) (max : Int)
    (calls : List RelPath), (∀ e ∈ es.toList, Readable e.2) → ErrFromCb cb (iterSubs cb path max calls es) := by
  intro path max calls hr
  match es with
  | .nil => exact ErrFromCb.none _
  | .cons x (.dir l r es') rest =>
    simp only [iterSubs]
    exact ErrFromCb.andThen
      (iterDir_err cb (.dir l r es') x (path ++ [x]) (max - 1) calls (hr (x, .dir l r es') (by simp [Entries.toList])) ⟨l, r, es', rfl⟩)
      (iterSubs_err cb rest path max _ (fun e he => hr e (by simp [Entries.toList, he])))
  | .cons x .file rest =>
    simp only [iterSubs]
    exact iterSubs_err cb rest path max _ (fun e he => hr e (by simp [Entries.toList, he]))
  | .cons x (.link to) rest =>
    simp only [iterSubs]
    exact iterSubs_err cb rest path max _ (fun e he => hr e (by simp [Entries.toList, he]))
end

/-! ### The fold over the repositories -/

/-- What is printed for one repository. -/
def repoEvents {α : Type} (env : RelPath → RepoRun α) (p : RelPath) : List (CliEvent α) :=
  .starting p :: (if hasHeadCommit (env p).revParse = false then [.emptyRepo p]
    else (env p).records.map (CliEvent.record p) ++ (match (env p).fin with
      | .crash => []
      | .ok => [.completed p]
      | .err m => [.completedErr p m]))

/-- The error of one repository. -/
def repoErr {α : Type} (env : RelPath → RepoRun α) (p : RelPath) : Option (RelPath × Str) :=
  if hasHeadCommit (env p).revParse = false then none
  else match (env p).fin with
    | .err m => some (p, m)
    | _ => none

/-- The entries of one repository. -/
def repoEntries {α : Type} (env : RelPath → RepoRun α) (p : RelPath) : Nat :=
  if hasHeadCommit (env p).revParse = false then 0 else (env p).records.length

theorem cliRepo_eq {α : Type} (env : RelPath → RepoRun α) (s : CliState α) (p : RelPath) :
    (cliRepo env s p).events = s.events ++ repoEvents env p ∧ (cliRepo env s p).errs = s.errs ++ (repoErr env p).toList ∧
    ((env p).crashes = false → (cliRepo env s p).repos = s.repos + 1 ∧ (cliRepo env s p).entries = s.entries + repoEntries env p ∧
      (cliRepo env s p).skipped = s.skipped + (if hasHeadCommit (env p).revParse = false then 1 else 0)) := by
  unfold cliRepo repoEvents repoErr repoEntries RepoRun.crashes CliState.emit
  cases hh : hasHeadCommit (env p).revParse with
  | false => simp [hh]
  | true =>
    cases hf : (env p).fin with
    | ok => simp [hh, hf]
    | err m => simp [hh, hf]
    | crash => simp [hh, hf]

theorem cliFold_eq {α : Type} (env : RelPath → RepoRun α) (ps : List RelPath) (s : CliState α) :
    (ps.foldl (cliRepo env) s).events = s.events ++ ps.flatMap (repoEvents env) ∧
    (ps.foldl (cliRepo env) s).errs = s.errs ++ ps.filterMap (repoErr env) ∧
    ((∀ p ∈ ps, (env p).crashes = false) → (ps.foldl (cliRepo env) s).repos = s.repos + ps.length ∧
      (ps.foldl (cliRepo env) s).entries = s.entries + (ps.map (repoEntries env)).sum ∧
      (ps.foldl (cliRepo env) s).skipped = s.skipped + (ps.filter (fun p => !hasHeadCommit (env p).revParse)).length) := by
  induction ps generalizing s with
  | nil => simp
  | cons p ps ih =>
    obtain ⟨h1, h2, h3⟩ := cliRepo_eq env s p
    obtain ⟨i1, i2, i3⟩ := ih (cliRepo env s p)
    rw [List.foldl_cons]
    refine ⟨by rw [i1, h1]; simp, ?_, ?_⟩
    · rw [i2, h2, List.filterMap_cons]
      cases repoErr env p <;> simp
    · intro h
      obtain ⟨h3a, h3b, h3c⟩ := h3 (h p (by simp))
      obtain ⟨j1, j2, j3⟩ := i3 (fun q hq => h q (by simp [hq]))
      refine ⟨by rw [j1, h3a, List.length_cons]; omega, by rw [j2, h3b, List.map_cons, List.sum_cons]; omega, ?_⟩
      rw [j3, h3c, List.filter_cons]
      cases hasHeadCommit (env p).revParse <;> simp <;> omega

/-! ### The specification of the single repositories -/

instance {α : Type} (q : RepoRun α) : Decidable (Spec.RepoRun.Empty q) := inferInstanceAs (Decidable ((trimSpace q.revParse).length ≠ 40))

theorem empty_iff {α : Type} (q : RepoRun α) : Spec.RepoRun.Empty q ↔ hasHeadCommit q.revParse = false := by
  unfold Spec.RepoRun.Empty hasHeadCommit
  simp

theorem panics_iff {α : Type} (q : RepoRun α) : Spec.RepoRun.Panics q ↔ q.crashes = true := by
  unfold Spec.RepoRun.Panics Ripsrc.RepoRun.crashes
  rw [empty_iff]
  simp

theorem fails_iff {α : Type} (env : RelPath → RepoRun α) (p : RelPath) : Spec.RepoRun.Fails (env p) ↔ ∃ m, repoErr env p = some (p, m) := by
  unfold Spec.RepoRun.Fails repoErr
  rw [empty_iff]
  cases hasHeadCommit (env p).revParse <;> cases (env p).fin <;> simp

theorem repoErr_fst {α : Type} {env : RelPath → RepoRun α} {p : RelPath} {e : RelPath × Str} (h : repoErr env p = some e) :
    e.1 = p ∧ Spec.RepoRun.Fails (env p) ∧ (env p).fin = .err e.2 := by
  have h0 := h
  unfold repoErr at h
  split at h
  · cases h
  · split at h
    · rename_i m hm
      cases h
      exact ⟨rfl, (fails_iff env p).2 ⟨_, h0⟩, hm⟩
    · cases h

/-- The search of the command on a readable tree: without crash it finds exactly the repositories; with one it stops there. -/
theorem cli_found {α : Type} (env : RelPath → RepoRun α) (name : Str) (lookup list : Bool) (es : Entries) (hnd : NamesDistinct (.dir lookup list es))
    (hr : Readable (.dir lookup list es)) {l : List RelPath} (hl : ReposAtTop (.dir lookup list es) name l) :
    let out := iterDir (fun _ p => !(env p).crashes) name [] 1 [] (.dir lookup list es)
    (∀ q ∈ out.1, q ∈ l) ∧ out.1.Nodup ∧
    ((∀ q ∈ l, (env q).crashes = false) → out.2 = none ∧ out.1.Perm l) ∧
    ((∃ q ∈ l, (env q).crashes = true) → ∃ pre q, out.1 = pre ++ [q] ∧ (env q).crashes = true ∧ ∀ p ∈ pre, (env p).crashes = false) := by
  intro out
  obtain ⟨h1, h2, h3, h4⟩ := C49_discovery (fun _ p => !(env p).crashes) (.dir lookup list es) name 1 hnd
  have he := iterDir_err (fun _ p => !(env p).crashes) (.dir lookup list es) name [] 1 [] hr ⟨_, _, _, rfl⟩
  have hin : ∀ q : RelPath, InDepth 1 q ↔ q.length ≤ 1 := by intro q; unfold InDepth; omega
  have hsub : ∀ q ∈ out.1, q ∈ l := by
    intro q hq
    obtain ⟨m, nm, a, b, c⟩ := h1 q hq
    exact (hl.2 q).2 ⟨m, nm, a, b, (hin q).1 c⟩
  have hall : out.2 = none → ∀ q ∈ l, q ∈ out.1 := by
    intro hn q hq
    obtain ⟨m, nm, a, b, c⟩ := (hl.2 q).1 hq
    exact h3 hn q m nm a b ((hin q).2 c)
  refine ⟨hsub, h2, ?_, ?_⟩
  · intro hc
    have hn : out.2 = none := by
      cases ho : out.2 with
      | none => rfl
      | some e =>
        obtain ⟨pre, q, hq, hcb⟩ := he (by rw [show (iterDir _ name [] 1 [] _).2 = out.2 from rfl, ho]; simp)
        have := hc q (hsub q (by rw [show out.1 = pre ++ [q] from hq]; simp))
        simp [this] at hcb
    exact ⟨hn, (List.perm_ext_iff_of_nodup h2 hl.1).2 (fun q => ⟨hsub q, hall hn q⟩)⟩
  · rintro ⟨q, hq, hqc⟩
    have hne : out.2 ≠ none := by
      intro hn
      have hmem := hall hn q hq
      obtain ⟨pre, post, hs⟩ := List.append_of_mem hmem
      exact (h4 pre q post hs (by simp [hqc])).2 hn
    obtain ⟨pre, q', hs, hcb⟩ := he hne
    refine ⟨pre, q', hs, by simpa using hcb, ?_⟩
    intro p hp
    cases hpc : (env p).crashes with
    | false => rfl
    | true =>
      obtain ⟨a, b, hab⟩ := List.append_of_mem hp
      have := (h4 a p (b ++ [q']) (by rw [hs, hab]; simp) (by simp [hpc])).1
      simp at this

/-- The lines after the repositories. -/
def tailEvents {α : Type} (found : Option Fault) (errs : List (RelPath × Str)) (repos skipped entries : Nat) : List (CliEvent α) :=
  found.toList.map CliEvent.failedSearch ++
  (if errs.length = 0 then [] else (exitWithErrs errs).1) ++
  (if 2 ≤ errs.length then [] else
    (if repos = 0 then [.failedNoRepos] else []) ++ (if skipped ≠ 0 then [.warnEmpty skipped] else []) ++ [.finished repos entries])

/-- The whole output when nothing crashes. -/
theorem cliRun_eq {α : Type} (env : RelPath → RepoRun α) (name : Str) (root : Node)
    (hc : ∀ p ∈ (iterDir (fun _ p => !(env p).crashes) name [] 1 [] root).1, (env p).crashes = false) :
    let found := iterDir (fun _ p => !(env p).crashes) name [] 1 [] root
    let errs := found.1.filterMap (repoErr env)
    (cliRun env name root).exit = (if 2 ≤ errs.length then 1 else 0) ∧
    (cliRun env name root).events = found.1.flatMap (repoEvents env) ++
      tailEvents found.2 errs found.1.length (found.1.filter (fun p => !hasHeadCommit (env p).revParse)).length (found.1.map (repoEntries env)).sum := by
  intro found errs
  obtain ⟨h1, h2, h3⟩ := cliFold_eq env found.1 {}
  obtain ⟨h3, h4, h5⟩ := h3 hc
  simp only [List.nil_append, Nat.zero_add] at h1 h2 h3 h4 h5
  have hany : (found.1.any fun p => (env p).crashes) = false := by
    rw [List.any_eq_false]
    intro p hp
    simp [hc p hp]
  unfold cliRun
  simp only [show iterDir (fun _ p => !(env p).crashes) name [] 1 [] root = found from rfl, hany, h1, h2, h3, h4, h5]
  unfold tailEvents
  rw [show found.1.filterMap (repoErr env) = errs from rfl]
  rcases errs with _ | ⟨e, _ | ⟨e', es⟩⟩
  · by_cases hr : found.1.length = 0 <;> by_cases hk : (found.1.filter (fun p => !hasHeadCommit (env p).revParse)).length = 0 <;>
      simp [hr, hk]
  · by_cases hr : found.1.length = 0 <;> by_cases hk : (found.1.filter (fun p => !hasHeadCommit (env p).revParse)).length = 0 <;>
      simp [hr, hk, exitWithErrs]
  · simp [exitWithErrs]

/-- **C60, exit status.** In a readable directory where no repository makes the program panic, the exit status of `ripsrc code` and `ripsrc branches` is 1 if and
only if at least two different repositories fail; otherwise it is 0. -/
theorem C60_exit_status {α : Type} (env : RelPath → RepoRun α) (name : Str) (lookup list : Bool) (es : Entries)
    (hnd : NamesDistinct (.dir lookup list es)) (hr : Readable (.dir lookup list es)) {l : List RelPath}
    (hl : ReposAtTop (.dir lookup list es) name l) (hnp0 : ∀ q ∈ l, ¬ Spec.RepoRun.Panics (env q)) :
    let out := cliRun env name (.dir lookup list es)
    (out.exit = 1 ↔ ∃ a ∈ l, ∃ b ∈ l, a ≠ b ∧ Spec.RepoRun.Fails (env a) ∧ Spec.RepoRun.Fails (env b)) ∧ (out.exit = 0 ∨ out.exit = 1) := by
  intro out
  have hnp : ∀ q ∈ l, (env q).crashes = false := fun q hq => by
    have := hnp0 q hq; rw [panics_iff] at this; simpa using this
  obtain ⟨f1, f2, f3, _⟩ := cli_found env name lookup list es hnd hr hl
  obtain ⟨_, f4⟩ := f3 hnp
  obtain ⟨e1, _⟩ := cliRun_eq env name (.dir lookup list es) (fun p hp => hnp p (f1 p hp))
  refine ⟨?_, by rw [show out.exit = _ from e1]; split <;> simp⟩
  rw [show out.exit = _ from e1]
  rw [(f4.filterMap (repoErr env)).length_eq]
  constructor
  · intro h
    have h2 : 2 ≤ (l.filterMap (repoErr env)).length := by
      by_cases h2 : 2 ≤ (l.filterMap (repoErr env)).length
      · exact h2
      · rw [if_neg h2] at h; cases h
    have hnodup := hl.1
    clear h
    have key : ∀ l : List RelPath, l.Nodup → 2 ≤ (l.filterMap (repoErr env)).length →
        ∃ a ∈ l, ∃ b ∈ l, a ≠ b ∧ Spec.RepoRun.Fails (env a) ∧ Spec.RepoRun.Fails (env b) := by
     intro l hnodup h2
     induction l with
     | nil => simp at h2
     | cons p l ih =>
       obtain ⟨hp, hnodup⟩ := List.nodup_cons.1 hnodup
       rw [List.filterMap_cons] at h2
       cases hpe : repoErr env p with
       | none =>
         rw [hpe] at h2
         obtain ⟨a, ha, b, hb, hh⟩ := ih hnodup h2
         exact ⟨a, by simp [ha], b, by simp [hb], hh⟩
       | some e =>
         rw [hpe] at h2
         simp only [List.length_cons] at h2
         cases hq : l.filterMap (repoErr env) with
         | nil => rw [hq] at h2; simp at h2
         | cons e' _ =>
           have : e' ∈ l.filterMap (repoErr env) := by rw [hq]; simp
           obtain ⟨b, hb, hbe⟩ := List.mem_filterMap.1 this
           exact ⟨p, by simp, b, by simp [hb], fun h => hp (h ▸ hb), (repoErr_fst hpe).2.1, (repoErr_fst hbe).2.1⟩
    exact key l hnodup h2
  · rintro ⟨a, ha, b, hb, hne, hfa, hfb⟩
    have h2 : 2 ≤ (l.filterMap (repoErr env)).length := by
      obtain ⟨m, hm⟩ := (fails_iff env a).1 hfa
      obtain ⟨k, hk⟩ := (fails_iff env b).1 hfb
      have hma : (a, m) ∈ l.filterMap (repoErr env) := List.mem_filterMap.2 ⟨a, ha, hm⟩
      have hmb : (b, k) ∈ l.filterMap (repoErr env) := List.mem_filterMap.2 ⟨b, hb, hk⟩
      rcases hq : l.filterMap (repoErr env) with _ | ⟨x, _ | ⟨y, r⟩⟩
      · rw [hq] at hma; cases hma
      · rw [hq] at hma hmb
        simp only [List.mem_singleton] at hma hmb
        rw [← hmb] at hma
        exact absurd (congrArg Prod.fst hma) hne
      · simp
    rw [if_pos h2]

theorem startOf_repo {α : Type} (env : RelPath → RepoRun α) (p : RelPath) : (repoEvents env p).filterMap startOf = [p] := by
  unfold repoEvents
  simp only [List.filterMap_cons, startOf]
  split
  · simp [startOf]
  · rw [List.filterMap_append]
    have : ((env p).records.map (CliEvent.record p)).filterMap startOf = [] := by
      rw [List.filterMap_map]; simp [startOf, Function.comp_def]
    rw [this]
    cases (env p).fin <;> simp [startOf]

theorem recordOf_repo {α : Type} (env : RelPath → RepoRun α) (p q : RelPath) :
    (repoEvents env p).filterMap (recordOf q) = if p = q ∧ ¬ Spec.RepoRun.Empty (env p) then (env p).records else [] := by
  simp only [empty_iff]
  unfold repoEvents
  simp only [List.filterMap_cons, recordOf]
  split
  · rename_i h; simp [recordOf, h]
  · rename_i h
    rw [List.filterMap_append]
    have h2 : ((match (env p).fin with | .crash => [] | .ok => [.completed p] | .err m => [.completedErr p m]) : List (CliEvent α)).filterMap (recordOf q) = [] := by
      cases (env p).fin <;> simp [recordOf]
    rw [h2, List.append_nil, List.filterMap_map]
    simp only [h, not_false_iff, and_true]
    by_cases hpq : p = q
    · simp [recordOf, Function.comp_def, hpq]
    · simp [recordOf, Function.comp_def, hpq]

theorem tail_filterMap {α β : Type} (g : CliEvent α → Option β) (h1 : ∀ f, g (.failedSearch f) = none) (h2 : ∀ p m, g (.failedRepo p m) = none)
    (h3 : ∀ p m, g (.errLine p m) = none) (h4 : g .failed = none) (h5 : g .failedNoRepos = none) (h6 : ∀ n, g (.warnEmpty n) = none)
    (h7 : ∀ n m, g (.finished n m) = none) (f : Option Fault) (errs : List (RelPath × Str)) (a b c : Nat) :
    (tailEvents f errs a b c).filterMap g = [] := by
  rw [List.filterMap_eq_nil_iff]
  intro e he
  unfold tailEvents at he
  simp only [List.mem_append] at he
  rcases he with (he | he) | he
  · cases f <;> simp at he; subst he; exact h1 _
  · split at he
    · cases he
    · unfold exitWithErrs at he
      split at he
      · simp at he; subst he; exact h2 _ _
      · simp only [List.mem_append, List.mem_map, List.mem_singleton] at he
        rcases he with ⟨x, _, rfl⟩ | rfl
        · exact h3 _ _
        · exact h4
  · split at he
    · cases he
    · simp only [List.mem_append, List.mem_singleton] at he
      rcases he with (he | he) | he
      · split at he <;> simp at he; subst he; exact h5
      · split at he <;> simp at he; subst he; exact h6 _
      · subst he; exact h7 _ _

/-- **C60, every repository is processed.** If no repository makes the program panic, processing is started exactly once for each repository in the directory and one
level below and for nothing else, whether or not others fail; and for every repository that has a head commit the lines printed are its records, in the order
delivered, also if it fails in the end. -/
theorem C60_all_processed {α : Type} (env : RelPath → RepoRun α) (name : Str) (lookup list : Bool) (es : Entries)
    (hnd : NamesDistinct (.dir lookup list es)) (hr : Readable (.dir lookup list es)) {l : List RelPath}
    (hl : ReposAtTop (.dir lookup list es) name l) (hnp0 : ∀ q ∈ l, ¬ Spec.RepoRun.Panics (env q)) :
    let out := cliRun env name (.dir lookup list es)
    (out.events.filterMap startOf).Perm l ∧
    (∀ q ∈ l, ¬ Spec.RepoRun.Empty (env q) → out.events.filterMap (recordOf q) = (env q).records) ∧
    (∀ q, (q ∉ l ∨ Spec.RepoRun.Empty (env q)) → out.events.filterMap (recordOf q) = []) := by
  intro out
  have hnp : ∀ q ∈ l, (env q).crashes = false := fun q hq => by
    have := hnp0 q hq; rw [panics_iff] at this; simpa using this
  obtain ⟨f1, f2, f3, _⟩ := cli_found env name lookup list es hnd hr hl
  obtain ⟨_, f4⟩ := f3 hnp
  obtain ⟨_, e2⟩ := cliRun_eq env name (.dir lookup list es) (fun p hp => hnp p (f1 p hp))
  generalize hps : (iterDir (fun _ p => !(env p).crashes) name [] 1 [] (.dir lookup list es)).1 = ps at e2 f4 f2 f1
  have hout : out.events = _ := e2
  have hstart : out.events.filterMap startOf = ps := by
    rw [hout, List.filterMap_append, tail_filterMap _ (by simp [startOf]) (by simp [startOf]) (by simp [startOf]) (by simp [startOf]) (by simp [startOf])
      (by simp [startOf]) (by simp [startOf]), List.append_nil, List.filterMap_flatMap]
    simp only [startOf_repo]
    induction ps with
    | nil => rfl
    | cons a b _ => simp
  have hrec : ∀ q, out.events.filterMap (recordOf q) = ps.flatMap (fun p => if p = q ∧ ¬ Spec.RepoRun.Empty (env p) then (env p).records else []) := by
    intro q
    rw [hout, List.filterMap_append, tail_filterMap _ (by simp [recordOf]) (by simp [recordOf]) (by simp [recordOf]) (by simp [recordOf]) (by simp [recordOf])
      (by simp [recordOf]) (by simp [recordOf]), List.append_nil, List.filterMap_flatMap]
    simp only [recordOf_repo]
  have hzero : ∀ q (qs : List RelPath), (q ∉ qs ∨ Spec.RepoRun.Empty (env q)) →
      qs.flatMap (fun p => if p = q ∧ ¬ Spec.RepoRun.Empty (env p) then (env p).records else []) = [] := by
    intro q qs h
    rw [List.flatMap_eq_nil_iff]
    intro p hp
    rw [if_neg]
    rintro ⟨rfl, hne⟩
    rcases h with h | h
    · exact h hp
    · exact hne h
  refine ⟨by rw [hstart]; exact f4, ?_, ?_⟩
  · intro q hq hne
    rw [hrec]
    have hq : q ∈ ps := f4.mem_iff.2 hq
    obtain ⟨a, b, hab⟩ := List.append_of_mem hq
    rw [hab] at f2 ⊢
    rw [List.nodup_append] at f2
    obtain ⟨_, f2b, f2c⟩ := f2
    have hqb := (List.nodup_cons.1 f2b).1
    have hqa : q ∉ a := fun h => f2c q h q (by simp) rfl
    rw [List.flatMap_append, List.flatMap_cons, hzero q a (Or.inl hqa), hzero q b (Or.inl hqb), if_pos ⟨rfl, hne⟩]
    simp
  · intro q h
    rw [hrec]
    apply hzero
    rcases h with h | h
    · exact Or.inl (fun hq => h (f4.mem_iff.1 hq))
    · exact Or.inr h

/-- The number of lines printed for records of `q`. -/
def Spec.recordLines {α : Type} (env : RelPath → RepoRun α) (q : RelPath) : Nat := if Spec.RepoRun.Empty (env q) then 0 else (env q).records.length

theorem tail_last_finished {α : Type} (f : Option Fault) {errs : List (RelPath × Str)} (h : ¬ 2 ≤ errs.length) (a b c : Nat) :
    (tailEvents f errs a b c : List (CliEvent α)).getLast? = some (.finished a c) := by
  unfold tailEvents
  rw [if_neg h]
  simp [List.getLast?_append]

/-- **C60, summary line.** With exit status 0 the last line is "Finished processing" with the number of repositories and of records printed, and there is a warning with
the number of empty repositories if there are some; with exit status 1 there is a line with the error of each repository that failed. -/
theorem C60_summary {α : Type} (env : RelPath → RepoRun α) (name : Str) (lookup list : Bool) (es : Entries)
    (hnd : NamesDistinct (.dir lookup list es)) (hr : Readable (.dir lookup list es)) {l : List RelPath}
    (hl : ReposAtTop (.dir lookup list es) name l) (hnp0 : ∀ q ∈ l, ¬ Spec.RepoRun.Panics (env q)) :
    let out := cliRun env name (.dir lookup list es)
    (out.exit = 0 → out.events.getLast? = some (.finished l.length (l.map (Spec.recordLines env)).sum) ∧
      ∀ n, .warnEmpty n ∈ out.events ↔ n = (l.filter (fun q => decide (Spec.RepoRun.Empty (env q)))).length ∧ n ≠ 0) ∧
    (out.exit = 1 → out.events.getLast? = some .failed ∧ ∀ q ∈ l, ¬ Spec.RepoRun.Empty (env q) → ∀ m, (env q).fin = .err m → .errLine q m ∈ out.events) := by
  intro out
  have hnp : ∀ q ∈ l, (env q).crashes = false := fun q hq => by
    have := hnp0 q hq; rw [panics_iff] at this; simpa using this
  obtain ⟨f1, f2, f3, _⟩ := cli_found env name lookup list es hnd hr hl
  obtain ⟨f5, f4⟩ := f3 hnp
  obtain ⟨e1, e2⟩ := cliRun_eq env name (.dir lookup list es) (fun p hp => hnp p (f1 p hp))
  rw [f5] at e2
  generalize hps : (iterDir (fun _ p => !(env p).crashes) name [] 1 [] (.dir lookup list es)).1 = ps at e1 e2 f4 f2 f1
  have hout : out.events = _ := e2
  have hexit : out.exit = _ := e1
  have hent : (ps.map (repoEntries env)).sum = (l.map (Spec.recordLines env)).sum := by
    rw [(f4.map (repoEntries env)).sum_nat]
    congr 1
    apply List.map_congr_left
    intro p _
    unfold repoEntries Spec.recordLines
    by_cases h : hasHeadCommit (env p).revParse = false
    · rw [if_pos h, if_pos ((empty_iff _).2 h)]
    · rw [if_neg h, if_neg (fun h' => h ((empty_iff _).1 h'))]
  have hsk : (ps.filter (fun p => !hasHeadCommit (env p).revParse)).length = (l.filter (fun q => decide (Spec.RepoRun.Empty (env q)))).length := by
    rw [(f4.filter _).length_eq]
    congr 1
    apply List.filter_congr
    intro p _
    by_cases h : hasHeadCommit (env p).revParse = false
    · simp [h, (empty_iff _).2 h]
    · have h' : ¬ Spec.RepoRun.Empty (env p) := fun h' => h ((empty_iff _).1 h')
      simp only [h', decide_false]
      simpa using h
  rw [hsk, hent, f4.length_eq] at hout
  have hwarn : ∀ n, (CliEvent.warnEmpty n : CliEvent α) ∉ ps.flatMap (repoEvents env) := by
    intro n hn
    obtain ⟨p, _, hp⟩ := List.mem_flatMap.1 hn
    unfold repoEvents at hp
    split at hp
    · simp at hp
    · cases hf : (env p).fin <;> simp [hf] at hp
  constructor
  · intro h0
    have h2 : ¬ 2 ≤ (ps.filterMap (repoErr env)).length := by
      intro h2; rw [hexit, if_pos h2] at h0; cases h0
    refine ⟨?_, ?_⟩
    · rw [hout, List.getLast?_append, tail_last_finished _ h2]; rfl
    · intro n
      rw [hout, List.mem_append]
      constructor
      · rintro (h | h)
        · exact absurd h (hwarn n)
        · unfold tailEvents at h
          rw [if_neg h2] at h
          simp only [List.mem_append, Option.toList_none, List.map_nil, List.not_mem_nil, false_or] at h
          rcases h with h | (h | h) | h
          · exfalso
            split at h
            · cases h
            · unfold exitWithErrs at h
              split at h <;> simp at h
          · split at h <;> simp at h
          · split at h
            · simp at h; subst h; rename_i hh; exact ⟨rfl, hh⟩
            · cases h
          · simp at h
      · rintro ⟨rfl, hn⟩
        right
        unfold tailEvents
        rw [if_neg h2, if_pos hn]
        simp
  · intro h1
    have h2 : 2 ≤ (ps.filterMap (repoErr env)).length := by
      by_cases h2 : 2 ≤ (ps.filterMap (repoErr env)).length
      · exact h2
      · rw [hexit, if_neg h2] at h1; cases h1
    have hx : (exitWithErrs (ps.filterMap (repoErr env)) : List (CliEvent α) × Bool).1 =
        (ps.filterMap (repoErr env)).map (fun e => CliEvent.errLine e.1 e.2) ++ [.failed] := by
      rcases hq : ps.filterMap (repoErr env) with _ | ⟨x, _ | ⟨y, r⟩⟩
      · rfl
      · rw [hq] at h2; simp at h2
      · rfl
    refine ⟨?_, ?_⟩
    · rw [hout]
      unfold tailEvents
      rw [if_pos h2, if_neg (by omega), hx]
      simp [List.getLast?_append]
    · intro q hq hne m hm
      have hq' : q ∈ ps := f4.mem_iff.2 hq
      have : (q, m) ∈ ps.filterMap (repoErr env) := by
        refine List.mem_filterMap.2 ⟨q, hq', ?_⟩
        unfold repoErr
        rw [if_neg (fun h => hne ((empty_iff _).2 h)), hm]
      rw [hout]
      unfold tailEvents
      rw [if_neg (by omega : ¬ (ps.filterMap (repoErr env)).length = 0), hx]
      have : (CliEvent.errLine q m : CliEvent α) ∈ (ps.filterMap (repoErr env)).map (fun e => CliEvent.errLine e.1 e.2) :=
        List.mem_map.2 ⟨(q, m), this, rfl⟩
      simp only [List.mem_append]
      exact Or.inr (Or.inl (Or.inr (Or.inl this)))

/-- **C60 (finding), one failing repository looks like success.** If exactly one repository fails, its error is printed, but then the program goes on: it prints "Finished
processing" with all repositories and exits with status 0. -/
theorem C60_single_failure {α : Type} (env : RelPath → RepoRun α) (name : Str) (lookup list : Bool) (es : Entries)
    (hnd : NamesDistinct (.dir lookup list es)) (hr : Readable (.dir lookup list es)) {l : List RelPath}
    (hl : ReposAtTop (.dir lookup list es) name l) (hnp0 : ∀ q ∈ l, ¬ Spec.RepoRun.Panics (env q))
    {q : RelPath} (hq : q ∈ l) (hne : ¬ Spec.RepoRun.Empty (env q)) {m : Str} (hm : (env q).fin = .err m)
    (hone : ∀ p ∈ l, Spec.RepoRun.Fails (env p) → p = q) :
    let out := cliRun env name (.dir lookup list es)
    out.exit = 0 ∧ .failedRepo q m ∈ out.events ∧ ∃ n, out.events.getLast? = some (.finished l.length n) := by
  intro out
  obtain ⟨h1, h2⟩ := C60_exit_status env name lookup list es hnd hr hl hnp0
  have h0 : out.exit = 0 := by
    rcases h2 with h2 | h2
    · exact h2
    · obtain ⟨a, ha, b, hb, hab, hfa, hfb⟩ := h1.1 h2
      exact absurd ((hone a ha hfa).trans (hone b hb hfb).symm) hab
  refine ⟨h0, ?_, _, ((C60_summary env name lookup list es hnd hr hl hnp0).1 h0).1⟩
  have hnp : ∀ q ∈ l, (env q).crashes = false := fun q hq => by
    have := hnp0 q hq; rw [panics_iff] at this; simpa using this
  obtain ⟨f1, f2, f3, _⟩ := cli_found env name lookup list es hnd hr hl
  obtain ⟨f5, f4⟩ := f3 hnp
  obtain ⟨e1, e2⟩ := cliRun_eq env name (.dir lookup list es) (fun p hp => hnp p (f1 p hp))
  generalize hps : (iterDir (fun _ p => !(env p).crashes) name [] 1 [] (.dir lookup list es)).1 = ps at e1 e2 f4 f2 f1
  have hq' : q ∈ ps := f4.mem_iff.2 hq
  have hmem : (q, m) ∈ ps.filterMap (repoErr env) := by
    refine List.mem_filterMap.2 ⟨q, hq', ?_⟩
    unfold repoErr
    rw [if_neg (fun h => hne ((empty_iff _).2 h)), hm]
  have hex : out.exit = _ := e1
  have hlt : ¬ 2 ≤ (ps.filterMap (repoErr env)).length := by
    intro h; rw [hex, if_pos h] at h0; cases h0
  have heq : ps.filterMap (repoErr env) = [(q, m)] := by
    rcases hh : ps.filterMap (repoErr env) with _ | ⟨x, _ | ⟨y, r⟩⟩
    · rw [hh] at hmem; cases hmem
    · rw [hh] at hmem; simp at hmem; rw [hmem]
    · rw [hh] at hlt; simp at hlt
  rw [show out.events = _ from e2, heq]
  unfold tailEvents exitWithErrs
  simp

/-- **C60 (finding), a search that fails looks like success.** If the directory is a file or cannot be read, the errors are printed, then "Finished processing" with 0
repositories, and the exit status is 0. -/
theorem C60_unreadable {α : Type} (env : RelPath → RepoRun α) (name : Str) (root : Node)
    (h : root = .file ∨ (∃ list es, root = .dir false list es) ∨ ∃ es, root = .dir true false es ∧ ext name ≠ b!".git" ∧ es.find b!".git" = none) :
    ∃ f, cliRun env name root = { events := [.failedSearch f, .failedNoRepos, .finished 0 0], exit := 0 } := by
  rcases h with rfl | ⟨list, es, rfl⟩ | ⟨es, rfl, hn, hf⟩
  · exact ⟨_, rfl⟩
  · exact ⟨_, rfl⟩
  · refine ⟨.error "can't read passed dir", ?_⟩
    unfold cliRun
    simp [iterDir, dirContainsDir, hf, hn, Search.andThen]

/-- **C60, a panic stops everything.** If some repository makes the program panic, the exit status is 2, there is no summary, and no repository is started after the first
one that panics. -/
theorem C60_panic {α : Type} (env : RelPath → RepoRun α) (name : Str) (lookup list : Bool) (es : Entries)
    (hnd : NamesDistinct (.dir lookup list es)) (hr : Readable (.dir lookup list es)) {l : List RelPath}
    (hl : ReposAtTop (.dir lookup list es) name l) (hp : ∃ q ∈ l, Spec.RepoRun.Panics (env q)) :
    let out := cliRun env name (.dir lookup list es)
    out.exit = 2 ∧ (∀ n k, .finished n k ∉ out.events) ∧
    ∃ pre q, out.events.filterMap startOf = pre ++ [q] ∧ Spec.RepoRun.Panics (env q) ∧ ∀ p ∈ pre, ¬ Spec.RepoRun.Panics (env p) := by
  intro out
  obtain ⟨f1, f2, _, f3⟩ := cli_found env name lookup list es hnd hr hl
  obtain ⟨pre, q, hs, hq, hpre⟩ := f3 (by obtain ⟨q, h1, h2⟩ := hp; exact ⟨q, h1, (panics_iff _).1 h2⟩)
  have hev : out = { events := (pre ++ [q]).flatMap (repoEvents env), exit := 2 } := by
    show cliRun env name (.dir lookup list es) = _
    unfold cliRun
    have hany : ((iterDir (fun _ p => !(env p).crashes) name [] 1 [] (.dir lookup list es)).1.any fun p => (env p).crashes) = true := by
      rw [hs]; simp [hq]
    rw [hs] at hany
    simp only [hs, hany, if_true, (cliFold_eq env (pre ++ [q]) {}).1, List.nil_append]
  rw [hev]
  refine ⟨rfl, ?_, pre, q, ?_, (panics_iff _).2 hq, fun p hp h => ?_⟩
  · intro n k hn
    obtain ⟨p, _, hp⟩ := List.mem_flatMap.1 hn
    unfold repoEvents at hp
    split at hp
    · simp at hp
    · cases hf : (env p).fin <;> simp [hf] at hp
  · show ((pre ++ [q]).flatMap (repoEvents env)).filterMap startOf = _
    rw [List.filterMap_flatMap]
    simp only [startOf_repo]
    generalize pre ++ [q] = ps
    induction ps with
    | nil => rfl
    | cons a b ih => simp
  · have := hpre p hp
    rw [(panics_iff _).1 h] at this; cases this

/-- **C60 (finding), the printed line.** All fields of the line of `ripsrc code` are those of the record, except that `blanks=` shows the number of comment lines. -/
theorem C60_code_line {τ : Type} (b : CodeRecord τ) (h : 8 ≤ b.commit.sha.length) : ∃ r, printCode b = .ok r ∧
    r.sha8 = b.commit.sha.take 8 ∧ r.filename = b.filename ∧ r.language = b.language ∧ r.license = b.license ∧ r.loc = b.totals.lines ∧
    r.sloc = b.totals.code ∧ r.comments = b.totals.comment ∧ r.complexity = b.totals.complexity ∧ r.skipped = b.skipped ∧
    (b.commit.authorName ≠ [] → r.author = b.commit.authorName) ∧ (b.commit.authorName = [] → r.author = b.commit.authorEmail) ∧
    (∀ f, GoMap.get b.commit.files b.filename = some f → r.status = some f.status) ∧
    (r.blanks = b.totals.blank ↔ b.totals.blank = b.totals.comment) := by
  unfold printCode
  rw [if_neg (by omega)]
  exact ⟨_, rfl, rfl, rfl, rfl, rfl, rfl, rfl, rfl, rfl, rfl, fun h => by simp [MetaCommit.author, h], fun h => by simp [MetaCommit.author, h],
    fun f h => by simp [h], eq_comm⟩

/-- **C60 (finding), other object formats.** A repository whose head is printed as a line of `n` characters counts as having a head commit if and only if `n = 40`; so a
repository with SHA-256 object names (64 characters) is reported as empty. -/
theorem C60_head_commit (h : Str) (hs : Trimmed h) : hasHeadCommit (h ++ [10]) = true ↔ h.length = 40 := by
  have ht : trimSpace (h ++ [10]) = h := trimSpace_line hs
  unfold hasHeadCommit
  rw [ht]
  simp

theorem readable_dir_iff (es : Entries) : Readable (.dir true true es) ↔ ∀ e ∈ es.toList, Readable e.2 :=
  ⟨fun h => by cases h; assumption, Readable.dir⟩

theorem exTree_readable : Readable exTree := by
  have hl : Readable (.link .dir) := Readable.link (by decide)
  simp [exTree, readable_dir_iff, Entries.toList, hl]

theorem exTree_distinct : NamesDistinct exTree := by simp [exTree, NamesDistinct, EntriesDistinct, Entries.toList]

/-- The hypotheses are met by `exTree`: two repositories at the top. -/
theorem exTree_repos : ReposAtTop exTree b!"root" [[b!"a"], [b!"m.git"]] := by
  obtain ⟨_, h1, h2⟩ := C49_exactly_the_repositories (fun _ _ => true) (fun _ _ => rfl) true true _ b!"root" 1 exTree_distinct exTree_readable
  refine ⟨h1, fun q => (h2 q).trans ?_⟩
  have : ∀ q : RelPath, InDepth 1 q ↔ q.length ≤ 1 := by intro q; unfold InDepth; omega
  simp only [this]
  rfl

/-- The first of them fails after a record, the second is empty. -/
def exCliEnv (p : RelPath) : RepoRun Nat :=
  if p = [b!"a"] then { revParse := List.replicate 40 97 ++ [10], records := [7], fin := .err b!"bad" } else { revParse := b!"HEAD\n", records := [], fin := .ok }

example : Spec.RepoRun.Fails (exCliEnv [b!"a"]) ∧ Spec.RepoRun.Empty (exCliEnv [b!"m.git"]) ∧
    (∀ q ∈ [[b!"a"], [b!"m.git"]], ¬ Spec.RepoRun.Panics (exCliEnv q)) := by
  refine ⟨⟨by decide, b!"bad", by decide⟩, by decide, ?_⟩
  intro q _ h
  unfold Spec.RepoRun.Panics exCliEnv at h
  split at h <;> exact absurd h.2 (by simp)

example : (cliRun exCliEnv b!"root" exTree).events = [.starting [b!"a"], .record [b!"a"] 7, .completedErr [b!"a"] b!"bad", .starting [b!"m.git"], .emptyRepo [b!"m.git"],
    .failedRepo [b!"a"] b!"bad", .warnEmpty 1, .finished 2 1] ∧ (cliRun exCliEnv b!"root" exTree).exit = 0 := by
  decide

/-- Both fail: status 1. -/
example : (cliRun (fun _ => exCliEnv [b!"a"]) b!"root" exTree).exit = 1 := by decide
/-- The first one panics: status 2, the second one is not started. -/
example : (cliRun (fun _ => { exCliEnv [b!"a"] with fin := .crash }) b!"root" exTree).events = [.starting [b!"a"], .record [b!"a"] 7] := by decide
/-- An object name of 64 characters. -/
example : hasHeadCommit (List.replicate 64 97 ++ [10]) = false := by decide

end Ripsrc
