import Verif.Model.Revs
import Verif.Spec.Revs
/-!
# C61: which commits a call processes
-/
namespace Ripsrc
open Spec Relation

namespace Spec.RevRepo
variable {r : RevRepo}

theorem argument_option {s : Str} (h : startsWith s b!"-" = true) (hn : s ≠ b!"--all") : r.argument s = some ([], []) := by
  unfold argument
  rw [if_neg hn, if_pos h]

theorem arguments_options {opts : List Str} (h : ∀ s ∈ opts, startsWith s b!"-" = true ∧ s ≠ b!"--all") (rest : List Str) :
    r.arguments (opts ++ rest) = r.arguments rest := by
  induction opts with
  | nil => rfl
  | cons s opts ih =>
    obtain ⟨h1, h2⟩ := h s (by simp)
    rw [List.cons_append, arguments, argument_option h1 h2, ih (fun x hx => h x (by simp [hx]))]
    cases r.arguments rest with
    | none => rfl
    | some x => obtain ⟨a, b⟩ := x; rfl

/-- What is selected by the revisions at the end of a command. -/
theorem revisions_of {cmd opts rest : List Str} (hcmd : afterLog cmd = opts ++ rest)
    (h : ∀ s ∈ opts, startsWith s b!"-" = true ∧ s ≠ b!"--all") :
    r.revisions cmd = r.orHead (r.arguments rest) := by
  unfold revisions
  rw [hcmd, arguments_options h]

end Spec.RevRepo

/-- The arguments that select, common to the two commands. -/
def revArgs (o : LogOpts) : List Str :=
  if o.commitFromIncl ≠ [] then
    (if o.allBranches then o.wantedBranchRefs else []) ++
      [o.commitFromIncl ++ (if o.commitFromMakeNonIncl then b!"..HEAD" else b!"^..HEAD")]
  else if o.allBranches then [b!"--all"] else []

theorem ne_log {tmp : Str} : (b!"core.attributesFile=" ++ tmp) ≠ b!"log" := by
  simp

theorem patches_afterLog (tmp : Str) (o : LogOpts) : RevRepo.afterLog (gitLogPatchesArgs tmp o) =
    [b!"-p", b!"-m", b!"--date-order", b!"--reverse", b!"--no-abbrev-commit", b!"--pretty=short"] ++ revArgs o := by
  unfold gitLogPatchesArgs revArgs
  simp [RevRepo.afterLog]

theorem meta_afterLog (tmp : Str) (o : LogOpts) : RevRepo.afterLog (gitLogMetaArgs tmp o) =
    [b!"-c", b!"--raw", b!"--reverse", b!"--numstat",
     b!"--pretty=format:!SHA: %H%n!Parents: %P%n!Committer: %ce%n!CName: %cn%n!Author: %ae%n!AName: %an%n!Date: %aI%n!Message: %s%n"] ++ revArgs o := by
  unfold gitLogMetaArgs revArgs
  simp [RevRepo.afterLog]

theorem revisions_patches (r : RevRepo) (tmp : Str) (o : LogOpts) : r.revisions (gitLogPatchesArgs tmp o) =
    r.orHead (r.arguments (revArgs o)) :=
  RevRepo.revisions_of (patches_afterLog tmp o) (by decide)

set_option maxRecDepth 8000 in
theorem revisions_meta (r : RevRepo) (tmp : Str) (o : LogOpts) : r.revisions (gitLogMetaArgs tmp o) =
    r.orHead (r.arguments (revArgs o)) :=
  RevRepo.revisions_of (meta_afterLog tmp o) (by decide)

/-- **C61.** For every repository and all options, the log with the patches and the log with the metadata are accepted or refused
together and print the same commits: no commit of the patch log is missing in the metadata. -/
theorem C61_same_commits (r : RevRepo) (u : RevOpts) (tmp tmp' : Str) :
    (r.Refuses (patchCommand tmp u) ↔ r.Refuses (metaCommand tmp' u)) ∧
      ∀ c, r.Prints (patchCommand tmp u) c ↔ r.Prints (metaCommand tmp' u) c := by
  have h : r.revisions (patchCommand tmp u) = r.revisions (metaCommand tmp' u) := by
    unfold patchCommand metaCommand
    rw [revisions_patches, revisions_meta]
    rfl
  unfold RevRepo.Refuses RevRepo.Prints
  rw [h]
  simp

theorem revisions_graph (r : RevRepo) (u : RevOpts) : r.revisions (graphCommand u) =
    some (if u.allBranches then r.head :: r.tips else [r.head], []) := by
  unfold graphCommand gitLogParentsArgs
  have h : RevRepo.afterLog ([b!"log", b!"-m", b!"--reverse", b!"--no-abbrev-commit", b!"--pretty=format:%H@%P"] ++
      if u.allBranches then [b!"--all"] else []) =
      [b!"-m", b!"--reverse", b!"--no-abbrev-commit", b!"--pretty=format:%H@%P"] ++ if u.allBranches then [b!"--all"] else [] := by
    simp [RevRepo.afterLog]
  rw [RevRepo.revisions_of h (by decide)]
  cases u.allBranches with
  | false => rfl
  | true =>
    have : r.argument b!"--all" = some (r.head :: r.tips, []) := by unfold RevRepo.argument; rw [if_pos rfl]
    simp only [if_true, RevRepo.arguments, this]
    simp [RevRepo.orHead]

theorem prints_graph (r : RevRepo) (u : RevOpts) (c : Str) : r.Prints (graphCommand u) c ↔
    r.Reach r.head c ∨ (u.allBranches = true ∧ ∃ t ∈ r.tips, r.Reach t c) := by
  unfold RevRepo.Prints
  rw [revisions_graph]
  cases u.allBranches with
  | false =>
    constructor
    · rintro ⟨f, e, h, ⟨s, hs, hr⟩, _⟩
      simp only [Bool.false_eq_true, if_false, Option.some.injEq, Prod.mk.injEq] at h
      obtain ⟨rfl, rfl⟩ := h
      simp only [List.mem_singleton] at hs
      exact Or.inl (hs ▸ hr)
    · rintro (h | ⟨h, _⟩)
      · exact ⟨_, _, rfl, ⟨_, by simp, h⟩, by simp⟩
      · cases h
  | true =>
    constructor
    · rintro ⟨f, e, h, ⟨s, hs, hr⟩, _⟩
      simp only [if_true, Option.some.injEq, Prod.mk.injEq] at h
      obtain ⟨rfl, rfl⟩ := h
      rcases List.mem_cons.1 hs with rfl | hs
      · exact Or.inl hr
      · exact Or.inr ⟨rfl, s, hs, hr⟩
    · rintro (h | ⟨_, t, ht, h⟩)
      · exact ⟨_, _, rfl, ⟨r.head, by simp, h⟩, by simp⟩
      · exact ⟨_, _, rfl, ⟨t, by simp [ht], h⟩, by simp⟩

/-- **C61.** Without a starting commit: everything reachable from HEAD, and with `AllBranches` from any ref. The command is not refused. -/
theorem C61_full (r : RevRepo) (u : RevOpts) (tmp : Str) (h : u.commitFromIncl = []) :
    ¬ r.Refuses (patchCommand tmp u) ∧
    ∀ c, r.Prints (patchCommand tmp u) c ↔ r.Reach r.head c ∨ (u.allBranches = true ∧ ∃ t ∈ r.tips, r.Reach t c) := by
  have : r.revisions (patchCommand tmp u) = r.revisions (graphCommand u) := by
    rw [revisions_graph]
    unfold patchCommand
    rw [revisions_patches]
    have : revArgs (processLogOpts u) = if u.allBranches then [b!"--all"] else [] := by simp [revArgs, processLogOpts, h]
    rw [this]
    cases u.allBranches with
    | false => rfl
    | true =>
      have : r.argument b!"--all" = some (r.head :: r.tips, []) := by unfold RevRepo.argument; rw [if_pos rfl]
      simp only [if_true, RevRepo.arguments, this]
      simp [RevRepo.orHead]
  refine ⟨?_, fun c => ?_⟩
  · unfold RevRepo.Refuses
    rw [this, revisions_graph]
    simp
  · rw [← prints_graph]
    unfold RevRepo.Prints
    rw [this]

/-! ### With a starting commit -/

/-- A hash: lower-case hexadecimal digits. -/
def Spec.HexId (x : Str) : Prop := x ≠ [] ∧ ∀ b ∈ x, (48 ≤ b ∧ b ≤ 57) ∨ (97 ≤ b ∧ b ≤ 102)

instance (x : Str) : Decidable (Spec.HexId x) := inferInstanceAs (Decidable (_ ∧ _))

theorem hexId_ne {x : Str} (h : HexId x) {b : UInt8} (hb : b ∈ x) : b ≠ 45 ∧ b ≠ 46 ∧ b ≠ 94 ∧ b ≠ 72 := by
  have := h.2 b hb
  refine ⟨?_, ?_, ?_, ?_⟩ <;> (rintro rfl; revert this; decide)

theorem commitOf_hex {r : RevRepo} {x : Str} (h : HexId x) : r.commitOf x.reverse = r.named x := by
  have hne : x.reverse ≠ [] := by simpa using h.1
  have hH : x ≠ b!"HEAD" := by
    rintro rfl
    exact absurd (hexId_ne h (b := 72) (by decide)).2.2.2 (by simp)
  cases hr : x.reverse with
  | nil => exact absurd hr hne
  | cons b t =>
    have hb : b ∈ x := by rw [← List.mem_reverse, hr]; simp
    have h94 := (hexId_ne h hb).2.2.1
    have hx : (b :: t).reverse = x := by rw [← hr, List.reverse_reverse]
    unfold RevRepo.commitOf
    split
    · rename_i t' heq
      cases heq
      exact absurd rfl h94
    · rw [hx, if_neg (by simp [hH])]

theorem revisions_from {r : RevRepo} {u : RevOpts} (tmp : Str) (h : HexId u.commitFromIncl) :
    r.revisions (patchCommand tmp u) =
      ((r.named u.commitFromIncl).bind (fun c => if u.commitFromMakeNonIncl then some c else r.firstParent c)).map
        (fun b => ([r.head], [b])) := by
  obtain ⟨b, t, hx⟩ : ∃ b t, u.commitFromIncl = b :: t := by
    cases hx : u.commitFromIncl with
    | nil => exact absurd hx h.1
    | cons b t => exact ⟨b, t, rfl⟩
  have hhead : r.commitOf (b!"HEAD").reverse = some r.head := rfl
  unfold patchCommand
  rw [revisions_patches]
  have hargs : revArgs (processLogOpts u) =
      [u.commitFromIncl ++ (if u.commitFromMakeNonIncl then b!"..HEAD" else b!"^..HEAD")] := by
    unfold revArgs processLogOpts
    simp [h.1]
  rw [hargs]
  have hno : ∀ s, startsWith (u.commitFromIncl ++ s) b!"-" = false := by
    intro s
    rw [hx]
    have hb := (hexId_ne h (b := b) (by simp [hx])).1
    cases hs : startsWith (b :: t ++ s) b!"-" with
    | false => rfl
    | true =>
      obtain ⟨q, hq⟩ := startsWith_iff.1 hs
      simp only [List.cons_append, List.nil_append, List.cons.injEq] at hq
      exact absurd hq.1 hb
  have hnall : ∀ s, u.commitFromIncl ++ s ≠ b!"--all" := by
    intro s hc
    have := hno s
    rw [hc] at this
    exact absurd this (by decide)
  have key : ∀ pre : Str, (46 : UInt8) ∉ pre → r.argument (u.commitFromIncl ++ (pre ++ b!"..HEAD")) =
      (r.commitOf (pre.reverse ++ u.commitFromIncl.reverse)).map (fun b => ([r.head], [b])) := by
    intro pre hpre
    have hf : FirstAt b!".." (u.commitFromIncl ++ pre) := firstAt_of_not_mem (c := 46) rfl (by
      intro hc
      rcases List.mem_append.1 hc with hc | hc
      · exact (hexId_ne h hc).2.1 rfl
      · exact hpre hc)
    have hcut := cut_append b!".." (u.commitFromIncl ++ pre) b!"HEAD" hf
    unfold RevRepo.argument
    rw [if_neg (hnall _), hno, if_neg (by simp)]
    rw [show u.commitFromIncl ++ (pre ++ b!"..HEAD") = (u.commitFromIncl ++ pre) ++ (b!".." ++ b!"HEAD") by simp, hcut]
    simp only [List.reverse_append, hhead]
    cases r.commitOf (pre.reverse ++ u.commitFromIncl.reverse) <;> rfl
  have fin : ∀ (o : Option Str) (s : Str), r.argument s = o.map (fun b => ([r.head], [b])) →
      r.orHead (r.arguments [s]) = o.map (fun b => ([r.head], [b])) := by
    intro o s hs
    simp only [RevRepo.arguments, hs]
    cases o <;> rfl
  cases u.commitFromMakeNonIncl with
  | true =>
    rw [if_pos rfl]
    refine fin _ _ ?_
    rw [show b!"..HEAD" = [] ++ b!"..HEAD" from rfl, key [] (by simp)]
    simp only [List.reverse_nil, List.nil_append, commitOf_hex h]
    cases r.named u.commitFromIncl <;> rfl
  | false =>
    rw [if_neg (by simp)]
    refine fin _ _ ?_
    rw [show b!"^..HEAD" = b!"^" ++ b!"..HEAD" from rfl, key b!"^" (by decide)]
    rw [show (b!"^").reverse ++ u.commitFromIncl.reverse = 94 :: u.commitFromIncl.reverse from rfl, RevRepo.commitOf, commitOf_hex h]
    simp

theorem prints_from {r : RevRepo} {u : RevOpts} (tmp : Str) (h : HexId u.commitFromIncl) {b : Str}
    (hb : (r.named u.commitFromIncl).bind (fun c => if u.commitFromMakeNonIncl then some c else r.firstParent c) = some b) (c : Str) :
    r.Prints (patchCommand tmp u) c ↔ r.Reach r.head c ∧ ¬ r.Reach b c := by
  unfold RevRepo.Prints
  rw [revisions_from tmp h, hb]
  constructor
  · rintro ⟨f, e, he, ⟨s, hs, hr⟩, hx⟩
    simp only [Option.map_some, Option.some.injEq, Prod.mk.injEq] at he
    obtain ⟨rfl, rfl⟩ := he
    simp only [List.mem_singleton] at hs
    exact ⟨hs ▸ hr, hx b (by simp)⟩
  · rintro ⟨h1, h2⟩
    refine ⟨_, _, rfl, ⟨r.head, by simp, h1⟩, ?_⟩
    intro e he
    simp only [List.mem_singleton] at he
    exact he ▸ h2

theorem firstParent_eq {r : RevRepo} (hr : r.Ok) {x p : Str} {ps : List Str} (h : (x, p :: ps) ∈ r.commits) :
    r.firstParent x = some p := by
  have : r.commits.find? (fun e => decide (e.1 = x)) = some (x, p :: ps) := by
    have hn := hr.once
    generalize r.commits = l at h hn
    induction l with
    | nil => cases h
    | cons e l ih =>
      simp only [List.map_cons, List.nodup_cons] at hn
      rcases List.mem_cons.1 h with rfl | h
      · simp
      · have : e.1 ≠ x := by
          rintro rfl
          exact hn.1 (List.mem_map.2 ⟨_, h, rfl⟩)
        rw [List.find?_cons_of_neg (by simpa using this)]
        exact ih h hn.2
  unfold RevRepo.firstParent
  rw [this]

theorem firstParent_root {r : RevRepo} (hr : r.Ok) {x : Str} (h : (x, []) ∈ r.commits) : r.firstParent x = none := by
  unfold RevRepo.firstParent
  split
  · rename_i y p ps heq
    have h1 := List.mem_of_find?_eq_some heq
    have h2 : y = x := by simpa using List.find?_some heq
    subst h2
    exfalso
    have hn := hr.once
    generalize r.commits = l at h h1 hn
    clear heq
    induction l with
    | nil => cases h
    | cons e l ih =>
      simp only [List.map_cons, List.nodup_cons] at hn
      rcases List.mem_cons.1 h with rfl | h
      · rcases List.mem_cons.1 h1 with h1 | h1
        · cases h1
        · exact hn.1 (List.mem_map.2 ⟨_, h1, rfl⟩)
      · rcases List.mem_cons.1 h1 with h1 | h1
        · subst h1
          exact hn.1 (List.mem_map.2 ⟨(y, []), by assumption, rfl⟩)
        · exact ih (by assumption) h1 hn.2
  · rfl

theorem RevOk.hexId {r : RevRepo} (hr : r.Ok) {x : Str} {ps : List Str} (h : (x, ps) ∈ r.commits) : HexId x :=
  ⟨(hr.hash _ h).2.1, (hr.hash _ h).1⟩

theorem reach_first {r : RevRepo} {x p : Str} {ps : List Str} (h : (x, p :: ps) ∈ r.commits) : r.Parent x p :=
  ⟨_, h, by simp⟩

theorem not_reach_of_parent {r : RevRepo} (hr : r.Ok) {x p : Str} (h : r.Parent x p) {d : Str} (hd : r.Reach d x) :
    ¬ r.Reach p d := fun hp =>
  hr.acyclic x (TransGen.head' h (hp.trans hd))

/-- **C61.** Inclusive start `x`, a commit with first parent `p`: what HEAD reaches and `p` does not reach. -/
theorem C61_inclusive {r : RevRepo} (hr : r.Ok) {u : RevOpts} (tmp : Str) {p : Str} {ps : List Str}
    (hx : (u.commitFromIncl, p :: ps) ∈ r.commits) (hn : u.commitFromMakeNonIncl = false) :
    ¬ r.Refuses (patchCommand tmp u) ∧ ∀ c, r.Prints (patchCommand tmp u) c ↔ r.Reach r.head c ∧ ¬ r.Reach p c := by
  have hb : (r.named u.commitFromIncl).bind (fun c => if u.commitFromMakeNonIncl then some c else r.firstParent c) = some p := by
    rw [(hr.hash _ hx).2.2, hn]
    simp [firstParent_eq hr hx]
  refine ⟨?_, prints_from tmp (RevOk.hexId hr hx) hb⟩
  unfold RevRepo.Refuses
  rw [revisions_from tmp (RevOk.hexId hr hx), hb]
  simp

/-- **C61.** Exclusive start `x`: what HEAD reaches and `x` does not reach. -/
theorem C61_exclusive {r : RevRepo} (hr : r.Ok) {u : RevOpts} (tmp : Str) {ps : List Str}
    (hx : (u.commitFromIncl, ps) ∈ r.commits) (hn : u.commitFromMakeNonIncl = true) :
    ¬ r.Refuses (patchCommand tmp u) ∧
    ∀ c, r.Prints (patchCommand tmp u) c ↔ r.Reach r.head c ∧ ¬ r.Reach u.commitFromIncl c := by
  have hb : (r.named u.commitFromIncl).bind (fun c => if u.commitFromMakeNonIncl then some c else r.firstParent c) =
      some u.commitFromIncl := by
    rw [(hr.hash _ hx).2.2, hn]
    simp
  refine ⟨?_, prints_from tmp (RevOk.hexId hr hx) hb⟩
  unfold RevRepo.Refuses
  rw [revisions_from tmp (RevOk.hexId hr hx), hb]
  simp

/-- **C61.** git refuses the commands exactly if the start is no commit of the repository, or it is inclusive and a root commit.
So a run cannot be started inclusively from the first commit of a repository. -/
theorem C61_refused {r : RevRepo} (hr : r.Ok) {u : RevOpts} (tmp : Str) (h : HexId u.commitFromIncl)
    (hid : ∀ c, r.named u.commitFromIncl = some c → c = u.commitFromIncl ∧ ∃ ps, (c, ps) ∈ r.commits) :
    r.Refuses (patchCommand tmp u) ↔ (∀ ps, (u.commitFromIncl, ps) ∉ r.commits) ∨
      (u.commitFromMakeNonIncl = false ∧ (u.commitFromIncl, []) ∈ r.commits) := by
  by_cases hx : ∃ ps, (u.commitFromIncl, ps) ∈ r.commits
  · obtain ⟨ps, hx⟩ := hx
    cases hn : u.commitFromMakeNonIncl with
    | true =>
      refine ⟨fun hr' => absurd hr' (C61_exclusive hr tmp hx hn).1, ?_⟩
      rintro (h1 | ⟨h1, _⟩)
      · exact absurd hx (h1 ps)
      · cases h1
    | false =>
      cases ps with
      | cons p ps =>
        refine ⟨fun hr' => absurd hr' (C61_inclusive hr tmp hx hn).1, ?_⟩
        rintro (h1 | ⟨_, h1⟩)
        · exact absurd hx (h1 _)
        · have a := firstParent_eq hr hx
          rw [firstParent_root hr h1] at a
          cases a
      | nil =>
        refine ⟨fun _ => Or.inr ⟨rfl, hx⟩, fun _ => ?_⟩
        unfold RevRepo.Refuses
        rw [revisions_from tmp h, (hr.hash _ hx).2.2, hn]
        simp [firstParent_root hr hx]
  · refine ⟨fun _ => Or.inl (fun ps hps => hx ⟨ps, hps⟩), fun _ => ?_⟩
    unfold RevRepo.Refuses
    rw [revisions_from tmp h]
    cases hnm : r.named u.commitFromIncl with
    | none => rfl
    | some c =>
      obtain ⟨rfl, ps, hps⟩ := hid c hnm
      exact absurd ⟨ps, hps⟩ hx

/-- **C61.** The starting commit itself is processed exactly if HEAD reaches it, every commit of HEAD built on it is processed, and none of
its own first-parent ancestors is. Exclusively it never is. -/
theorem C61_start {r : RevRepo} (hr : r.Ok) {u : RevOpts} (tmp : Str) {p : Str} {ps : List Str}
    (hx : (u.commitFromIncl, p :: ps) ∈ r.commits) :
    (u.commitFromMakeNonIncl = false →
      (r.Prints (patchCommand tmp u) u.commitFromIncl ↔ r.Reach r.head u.commitFromIncl) ∧
      (∀ d, r.Reach r.head d → r.Reach d u.commitFromIncl → r.Prints (patchCommand tmp u) d) ∧
      ∀ a, r.Reach p a → ¬ r.Prints (patchCommand tmp u) a) ∧
    (u.commitFromMakeNonIncl = true →
      (∀ a, r.Reach u.commitFromIncl a → ¬ r.Prints (patchCommand tmp u) a) ∧
      ∀ d, r.Reach r.head d → r.Reach d u.commitFromIncl → d ≠ u.commitFromIncl → r.Prints (patchCommand tmp u) d) := by
  refine ⟨fun hn => ?_, fun hn => ?_⟩
  · obtain ⟨_, hp⟩ := C61_inclusive hr tmp hx hn
    refine ⟨?_, ?_, ?_⟩
    · rw [hp]
      exact ⟨And.left, fun h => ⟨h, not_reach_of_parent hr (reach_first hx) ReflTransGen.refl⟩⟩
    · intro d h1 h2
      exact (hp d).2 ⟨h1, not_reach_of_parent hr (reach_first hx) h2⟩
    · intro a ha hc
      exact ((hp a).1 hc).2 ha
  · obtain ⟨_, hp⟩ := C61_exclusive hr tmp hx hn
    refine ⟨fun a ha hc => ((hp a).1 hc).2 ha, fun d h1 h2 hne => (hp d).2 ⟨h1, fun h3 => ?_⟩⟩
    rcases ReflTransGen.cases_head h2 with h2 | ⟨e, he, h2⟩
    · exact hne h2
    · exact hr.acyclic d (TransGen.head' he (h2.trans h3))

/-- **C61.** Two runs, the first up to `x`, the second from `x` (the usual incremental use): together they process exactly
what a full run at the new HEAD processes, if HEAD still reaches `x`. Processed twice are exactly the commits `x` has in addition to
its first parent; with the exclusive start nothing is processed twice. -/
theorem C61_incremental {r : RevRepo} (hr : r.Ok) {u : RevOpts} (tmp : Str) {p : Str} {ps : List Str}
    (hx : (u.commitFromIncl, p :: ps) ∈ r.commits) (hh : r.Reach r.head u.commitFromIncl) :
    let old : RevRepo := { r with head := u.commitFromIncl }
    (∀ c, (old.Prints (patchCommand tmp {}) c ∨ r.Prints (patchCommand tmp u) c) ↔ r.Prints (patchCommand tmp {}) c) ∧
    ∀ c, (old.Prints (patchCommand tmp {}) c ∧ r.Prints (patchCommand tmp u) c) ↔
      (u.commitFromMakeNonIncl = false ∧ r.Reach u.commitFromIncl c ∧ ¬ r.Reach p c) := by
  intro old
  have hold : ∀ c, old.Prints (patchCommand tmp {}) c ↔ r.Reach u.commitFromIncl c := by
    intro c
    rw [(C61_full old {} tmp rfl).2]
    exact ⟨fun h => h.elim id (fun h => absurd h.1 (by simp)), Or.inl⟩
  have hnew : ∀ c, r.Prints (patchCommand tmp {}) c ↔ r.Reach r.head c := by
    intro c
    rw [(C61_full r {} tmp rfl).2]
    exact ⟨fun h => h.elim id (fun h => absurd h.1 (by simp)), Or.inl⟩
  have hpx : ∀ c, r.Reach p c → r.Reach u.commitFromIncl c := fun c hc => ReflTransGen.head (reach_first hx) hc
  cases hn : u.commitFromMakeNonIncl with
  | false =>
    obtain ⟨_, hp⟩ := C61_inclusive hr tmp hx hn
    refine ⟨fun c => ?_, fun c => ?_⟩
    · rw [hold, hnew, hp]
      constructor
      · rintro (h | h)
        · exact hh.trans h
        · exact h.1
      · intro h
        by_cases hc : r.Reach p c
        · exact Or.inl (hpx c hc)
        · exact Or.inr ⟨h, hc⟩
    · rw [hold, hp]
      exact ⟨fun ⟨h1, _, h3⟩ => ⟨rfl, h1, h3⟩, fun ⟨_, h1, h3⟩ => ⟨h1, hh.trans h1, h3⟩⟩
  | true =>
    obtain ⟨_, hp⟩ := C61_exclusive hr tmp hx hn
    refine ⟨fun c => ?_, fun c => ?_⟩
    · rw [hold, hnew, hp]
      constructor
      · rintro (h | h)
        · exact hh.trans h
        · exact h.1
      · intro h
        by_cases hc : r.Reach u.commitFromIncl c
        · exact Or.inl hc
        · exact Or.inr ⟨h, hc⟩
    · rw [hold, hp]
      exact ⟨fun ⟨h1, _, h3⟩ => absurd h1 h3, fun ⟨h, _⟩ => absurd h (by simp)⟩

/-- **C61.** A starting commit with one parent is the only commit that an inclusive incremental run processes again. -/
theorem C61_overlap_one {r : RevRepo} {x p : Str} (hr : r.Ok) (hx : (x, [p]) ∈ r.commits) (c : Str) :
    (r.Reach x c ∧ ¬ r.Reach p c) ↔ c = x := by
  constructor
  · rintro ⟨h1, h2⟩
    rcases ReflTransGen.cases_head h1 with h | ⟨e, ⟨qs, hq, he⟩, h1⟩
    · exact h.symm
    · exfalso
      have : qs = [p] := by
        have hn := hr.once
        generalize r.commits = l at hx hq hn
        induction l with
        | nil => cases hx
        | cons y l ih =>
          simp only [List.map_cons, List.nodup_cons] at hn
          rcases List.mem_cons.1 hx with rfl | hx'
          · rcases List.mem_cons.1 hq with hq | hq
            · cases hq; rfl
            · exact absurd (List.mem_map.2 ⟨_, hq, rfl⟩) hn.1
          · rcases List.mem_cons.1 hq with rfl | hq
            · exact absurd (List.mem_map.2 ⟨_, hx', rfl⟩) hn.1
            · exact ih hx' hq hn.2
      subst this
      simp only [List.mem_singleton] at he
      exact h2 (he ▸ h1)
  · rintro rfl
    exact ⟨ReflTransGen.refl, not_reach_of_parent hr ⟨_, hx, by simp⟩ ReflTransGen.refl⟩

theorem linear_reach {r : RevRepo} (hl : r.Linear) {x : Str} (hx : r.Reach r.head x) : ∀ {c : Str}, r.Reach r.head c →
    r.Reach c x ∨ r.Reach x c := by
  intro c hc
  induction hc with
  | refl => exact Or.inl hx
  | @tail b c hb hbc ih =>
    rcases ih with h | h
    · rcases ReflTransGen.cases_head h with rfl | ⟨e, he, h⟩
      · exact Or.inr (ReflTransGen.single hbc)
      · have := hl b hb _ _ he hbc
        exact Or.inl (this ▸ h)
    · exact Or.inr (h.tail hbc)

/-- **C61.** In a history without merges an inclusive start processes exactly the starting commit and the commits built on it. -/
theorem C61_linear {r : RevRepo} (hr : r.Ok) (hl : r.Linear) {u : RevOpts} (tmp : Str) {p : Str} {ps : List Str}
    (hx : (u.commitFromIncl, p :: ps) ∈ r.commits) (hn : u.commitFromMakeNonIncl = false) (hh : r.Reach r.head u.commitFromIncl) (c : Str) :
    r.Prints (patchCommand tmp u) c ↔ r.Reach r.head c ∧ r.Reach c u.commitFromIncl := by
  obtain ⟨_, hp⟩ := C61_inclusive hr tmp hx hn
  rw [hp]
  constructor
  · rintro ⟨h1, h2⟩
    refine ⟨h1, ?_⟩
    rcases linear_reach hl hh h1 with h | h
    · exact h
    · rcases ReflTransGen.cases_head h with rfl | ⟨e, he, h⟩
      · exact ReflTransGen.refl
      · have := hl _ hh _ _ he (reach_first hx)
        exact absurd (this ▸ h) h2
  · rintro ⟨h1, h2⟩
    exact ⟨h1, not_reach_of_parent hr (reach_first hx) h2⟩

/-- **C61.** Whatever the options, every commit that is processed is in the commit graph, and so are all its ancestors. -/
theorem C61_graph_knows {r : RevRepo} (u : RevOpts) (tmp : Str) (hu : u.commitFromIncl = [] ∨ HexId u.commitFromIncl) (c a : Str)
    (hc : r.Prints (patchCommand tmp u) c) (ha : r.Reach c a) : r.Prints (graphCommand u) a := by
  rw [prints_graph]
  rcases hu with hu | hu
  · rw [(C61_full r u tmp hu).2] at hc
    rcases hc with h | ⟨h, t, ht, h2⟩
    · exact Or.inl (h.trans ha)
    · exact Or.inr ⟨h, t, ht, h2.trans ha⟩
  · obtain ⟨f, e, he, ⟨s, hs, hs2⟩, _⟩ := hc
    rw [revisions_from tmp hu] at he
    cases hb : (r.named u.commitFromIncl).bind (fun c => if u.commitFromMakeNonIncl then some c else r.firstParent c) with
    | none => rw [hb] at he; cases he
    | some b =>
      rw [hb] at he
      simp only [Option.map_some, Option.some.injEq, Prod.mk.injEq] at he
      obtain ⟨rfl, rfl⟩ := he
      simp only [List.mem_singleton] at hs
      subst hs
      exact Or.inl (hs2.trans ha)

/-- **C61.** With a starting commit `AllBranches` has no effect on what is processed (as the documentation of the option admits). -/
theorem C61_all_branches_ignored (r : RevRepo) (u : RevOpts) (tmp : Str) (h : u.commitFromIncl ≠ []) :
    r.revisions (patchCommand tmp u) = r.revisions (patchCommand tmp { u with allBranches := false }) := by
  unfold patchCommand
  rw [revisions_patches, revisions_patches]
  obtain ⟨x, n, a⟩ := u
  have h' : x ≠ [] := h
  cases a <;> cases n <;> simp [revArgs, processLogOpts, h']

/-! ### Examples -/

/-- `a1` root, `a2` and `b2` on it, merge `c3`, then `d4` on the current branch; `e5` on another branch. -/
def exRev : RevRepo :=
  { commits := [(b!"a1", []), (b!"a2", [b!"a1"]), (b!"b2", [b!"a1"]), (b!"c3", [b!"a2", b!"b2"]), (b!"d4", [b!"c3"]), (b!"e5", [b!"a2"])],
    head := b!"d4", tips := [b!"d4", b!"e5"],
    named := fun s => if s ∈ [b!"a1", b!"a2", b!"b2", b!"c3", b!"d4", b!"e5"] then some s else none }

/-- Ranks that decrease from commit to parent. -/
def exRevRank (c : Str) : Nat := (c.getD 1 0).toNat

theorem exRev_parent {c p : Str} (h : exRev.Parent c p) : exRevRank p < exRevRank c := by
  obtain ⟨ps, h1, h2⟩ := h
  have : ∀ e ∈ exRev.commits, ∀ p ∈ e.2, exRevRank p < exRevRank e.1 := by decide
  exact this _ h1 _ h2

theorem exRev_ok : exRev.Ok := by
  refine ⟨by decide, ?_, ?_, ⟨[b!"c3"], by decide⟩, by decide, ?_⟩
  · intro c hc
    have : ∀ {a b : Str}, TransGen exRev.Parent a b → exRevRank b < exRevRank a := by
      intro a b h
      induction h with
      | single h => exact exRev_parent h
      | tail _ h ih => exact Nat.lt_trans (exRev_parent h) ih
    exact Nat.lt_irrefl _ (this hc)
  · rintro c p ⟨ps, h1, h2⟩
    have : ∀ e ∈ exRev.commits, ∀ p ∈ e.2, p ∈ exRev.commits.map Prod.fst := by decide
    obtain ⟨e, he, rfl⟩ := List.mem_map.1 (this _ h1 _ h2)
    exact ⟨e.2, he⟩
  · intro t ht
    have : ∀ t ∈ exRev.tips, t ∈ exRev.commits.map Prod.fst := by decide
    obtain ⟨e, he, rfl⟩ := List.mem_map.1 (this t ht)
    exact ⟨e.2, he⟩

theorem exRev_step {c p : Str} (h : (c, p) ∈ [(b!"d4", b!"c3"), (b!"c3", b!"a2"), (b!"c3", b!"b2"), (b!"a2", b!"a1"), (b!"b2", b!"a1"), (b!"e5", b!"a2")]) :
    exRev.Parent c p := by
  have : ∀ x ∈ [(b!"d4", b!"c3"), (b!"c3", b!"a2"), (b!"c3", b!"b2"), (b!"a2", b!"a1"), (b!"b2", b!"a1"), (b!"e5", b!"a2")],
      ∃ e ∈ exRev.commits, e.1 = x.1 ∧ x.2 ∈ e.2 := by decide
  obtain ⟨e, he, h1, h2⟩ := this _ h
  exact ⟨e.2, by cases h1; exact he, h2⟩

theorem exRev_not_reach {c x : Str} (h : exRevRank c ≤ exRevRank x) (hne : c ≠ x) : ¬ exRev.Reach c x := by
  intro hr
  rcases ReflTransGen.cases_head hr with h1 | ⟨e, he, h1⟩
  · exact hne h1
  · have : ∀ {a b : Str}, exRev.Reach a b → exRevRank b ≤ exRevRank a := by
      intro a b h
      induction h with
      | refl => exact Nat.le_refl _
      | tail _ h ih => exact Nat.le_trans (Nat.le_of_lt (exRev_parent h)) ih
    have h2 := exRev_parent he
    have h3 := this h1
    omega

/-- The hypotheses are met by a repository with a merge: an inclusive start at the merge `c3` processes `c3`, `d4` and, again, `b2`, which is
older than the start. -/
theorem C61_merge_start_includes_older : ∃ (r : RevRepo) (u : RevOpts) (p : Str) (ps : List Str), r.Ok ∧
    (u.commitFromIncl, p :: ps) ∈ r.commits ∧ r.Reach r.head u.commitFromIncl ∧
    ∃ c, r.Prints (patchCommand b!"/tmp/x" u) c ∧ r.Parent u.commitFromIncl c := by
  refine ⟨exRev, { commitFromIncl := b!"c3" }, b!"a2", [b!"b2"], exRev_ok, by decide, ReflTransGen.single (exRev_step (by decide)), b!"b2", ?_,
    exRev_step (by decide)⟩
  refine ((C61_inclusive exRev_ok b!"/tmp/x" (u := { commitFromIncl := b!"c3" }) (p := b!"a2") (ps := [b!"b2"]) (by decide) rfl).2 _).2 ⟨?_, ?_⟩
  · exact (ReflTransGen.single (exRev_step (c := b!"d4") (p := b!"c3") (by decide))).tail (exRev_step (by decide))
  · exact exRev_not_reach (by decide) (by decide)

/-- The new commit of another branch is not processed in an incremental run with `AllBranches`, although a full run processes it. -/
theorem C61_other_branch_missed : ∃ (r : RevRepo) (u : RevOpts) (c : Str), r.Ok ∧ u.allBranches = true ∧
    ¬ r.Refuses (patchCommand b!"/tmp/x" u) ∧ ¬ r.Prints (patchCommand b!"/tmp/x" u) c ∧
    r.Prints (patchCommand b!"/tmp/x" { u with commitFromIncl := [] }) c := by
  refine ⟨exRev, { commitFromIncl := b!"c3", allBranches := true }, b!"e5", exRev_ok, rfl, ?_, ?_, ?_⟩
  · exact (C61_inclusive exRev_ok _ (u := { commitFromIncl := b!"c3", allBranches := true }) (p := b!"a2") (ps := [b!"b2"]) (by decide) rfl).1
  · intro hc
    have := ((C61_inclusive exRev_ok _ (u := { commitFromIncl := b!"c3", allBranches := true }) (p := b!"a2") (ps := [b!"b2"]) (by decide) rfl).2 _).1 hc
    exact exRev_not_reach (by decide) (by decide) this.1
  · exact ((C61_full exRev { allBranches := true } _ rfl).2 _).2 (Or.inr ⟨rfl, b!"e5", by decide, ReflTransGen.refl⟩)

/-- An inclusive start at the root commit is refused. -/
example : exRev.Refuses (patchCommand b!"/tmp/x" { commitFromIncl := b!"a1" }) :=
  (C61_refused exRev_ok _ (by decide) (by
    intro c hc
    have h : exRev.named b!"a1" = some b!"a1" := rfl
    rw [h] at hc
    cases hc
    exact ⟨rfl, [], by decide⟩)).2 (Or.inr ⟨rfl, by decide⟩)

/-- After a forced push HEAD does not reach the start: the start is not processed, contrary to the name of the option. -/
theorem C61_start_not_reached : ∃ (r : RevRepo) (u : RevOpts), r.Ok ∧ u.commitFromMakeNonIncl = false ∧
    ¬ r.Refuses (patchCommand b!"/tmp/x" u) ∧ ¬ r.Prints (patchCommand b!"/tmp/x" u) u.commitFromIncl := by
  refine ⟨exRev, { commitFromIncl := b!"e5" }, exRev_ok, rfl, ?_, ?_⟩
  · exact (C61_inclusive exRev_ok _ (u := { commitFromIncl := b!"e5" }) (p := b!"a2") (ps := []) (by decide) rfl).1
  · intro hc
    have := ((C61_inclusive exRev_ok _ (u := { commitFromIncl := b!"e5" }) (p := b!"a2") (ps := []) (by decide) rfl).2 _).1 hc
    exact exRev_not_reach (by decide) (by decide) this.1

/-- A history without merges, as required by `C61_linear` and `C61_overlap_one`. -/
def exRevLinear : RevRepo :=
  { commits := [(b!"a1", []), (b!"a2", [b!"a1"]), (b!"a3", [b!"a2"])], head := b!"a3", tips := [b!"a3"],
    named := fun s => if s ∈ [b!"a1", b!"a2", b!"a3"] then some s else none }

theorem exRevLinear_parent {c p : Str} (h : exRevLinear.Parent c p) : exRevRank p < exRevRank c := by
  obtain ⟨ps, h1, h2⟩ := h
  have : ∀ e ∈ exRevLinear.commits, ∀ p ∈ e.2, exRevRank p < exRevRank e.1 := by decide
  exact this _ h1 _ h2

example : exRevLinear.Ok ∧ exRevLinear.Linear ∧ (b!"a2", [b!"a1"]) ∈ exRevLinear.commits ∧ exRevLinear.Reach exRevLinear.head b!"a2" := by
  refine ⟨⟨by decide, ?_, ?_, ⟨[b!"a2"], by decide⟩, by decide, ?_⟩, ?_, by decide, ReflTransGen.single ⟨[b!"a2"], by decide, by decide⟩⟩
  · intro c hc
    have : ∀ {a b : Str}, TransGen exRevLinear.Parent a b → exRevRank b < exRevRank a := by
      intro a b h
      induction h with
      | single h => exact exRevLinear_parent h
      | tail _ h ih => exact Nat.lt_trans (exRevLinear_parent h) ih
    exact Nat.lt_irrefl _ (this hc)
  · rintro c p ⟨ps, h1, h2⟩
    have : ∀ e ∈ exRevLinear.commits, ∀ p ∈ e.2, p ∈ exRevLinear.commits.map Prod.fst := by decide
    obtain ⟨e, he, rfl⟩ := List.mem_map.1 (this _ h1 _ h2)
    exact ⟨e.2, he⟩
  · intro t ht
    have : ∀ t ∈ exRevLinear.tips, t ∈ exRevLinear.commits.map Prod.fst := by decide
    obtain ⟨e, he, rfl⟩ := List.mem_map.1 (this t ht)
    exact ⟨e.2, he⟩
  · rintro c - p q ⟨ps, h1, h2⟩ ⟨qs, h3, h4⟩
    have : ∀ e ∈ exRevLinear.commits, ∀ f ∈ exRevLinear.commits, e.1 = f.1 → ∀ p ∈ e.2, ∀ q ∈ f.2, p = q := by decide
    exact this _ h1 _ h3 rfl p h2 q h4

end Ripsrc
