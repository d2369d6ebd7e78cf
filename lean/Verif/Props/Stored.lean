import Verif.Lib.Stored
import Verif.Props.ExHistory
/-!
# C75: which paths the checkpoint stores
-/
namespace Ripsrc
open Spec

theorem stored_hasPath {r : Repo} {h f : Str} (hs : Stored r h f) : HasPath f (GoMap.get r h) := by
  obtain ⟨fs, hfs, hf⟩ := hs
  intro fs' h'
  rw [hfs] at h'; cases h'; exact hf

theorem Spec.PartGraph.of_mem {g gk : Graph} {log : List LogCommit} (h : PartGraph g gk log) {e : LogCommit} (he : e ∈ log) : gk.parentsOf e.hash = g.parentsOf e.hash :=
  (h e.hash).elim id (fun h => absurd rfl (h.2 e he))

theorem Spec.PartGraph.of_merge {g gk : Graph} {log : List LogCommit} (h : PartGraph g gk log) {c : Str} (hc : 1 < (gk.parentsOf c).length) : gk.parentsOf c = g.parentsOf c :=
  (h c).elim id (fun h => by rw [h.1] at hc; simp at hc)

/-- An invariant on the stored files holds of the checkpoint that a sequence of runs leaves, if each commit that is processed establishes it. -/
theorem runs_everywhere {I : Str → Option Files → Prop} {g : Graph} {T : List LogCommit} (h0 : ∀ h, I h none)
    (hres : ∀ h fs fs', I h (some fs) → (∀ p, GoMap.get fs' p = GoMap.get fs p) → I h (some fs'))
    (hreg : ∀ env : Env, (∀ n k l, (env.order n k l).Perm l) → ∀ e ∈ T, ∀ n repo r res, (g.parentsOf e.hash).length ≤ 1 → Everywhere I repo →
      processRegularCommit env n repo e.hash (g.parentsOf e.hash) e.changes = .ok (r, res) → I e.hash (GoMap.get r e.hash))
    (hmer : ∀ env : Env, (∀ n k l, (env.order n k l).Perm l) → ∀ h parts n repo r res, 1 < (g.parentsOf h).length → Everywhere I repo →
      (∀ q e, GoMap.get parts q = some e → e ∈ T ∧ e.hash = h) → processMergeCommit env n repo h (g.parentsOf h) parts = .ok (r, res) → I h (GoMap.get r h))
    {L : List LogCommit} {R : Repo} (h : RunsOn g L R) (hL : ∀ e ∈ L, e ∈ T) : Everywhere I R := by
  have one : ∀ {env : Env} {opts : RunOpts} {read : Str → Go Repo} {gk : Graph} {log : List LogCommit} {R0 R : Repo} {last : Str}, (∀ n k l, (env.order n k l).Perm l) →
      initCheckpoints opts read = .ok R0 → PartGraph g gk log → (∀ e ∈ log, e ∈ T) → Everywhere I R0 → (run env opts read gk log).written = some (R, last) → Everywhere I R := by
    intro env opts read gk log R0 R last ho hi hp hT hR0 hw
    refine run_everywhere (log := log) (g := gk) (env := env) h0 ?_ ?_ hi hR0 hw
    · intro e he n repo r res hlen hI hr
      rw [hp.of_mem he] at hlen hr
      exact hreg env ho e (hT e he) n repo r res hlen hI hr
    · intro h parts n repo r res hlen hI hparts hm
      rw [hp.of_merge hlen] at hm
      rw [hp.of_merge hlen] at hlen
      exact hmer env ho h parts n repo r res hlen hI (fun q e he => ⟨hT e (hparts q e he).1, (hparts q e he).2⟩) hm
  induction h with
  | first ho hopts hp hw =>
    exact one ho (show initCheckpoints _ _ = .ok [] by simp [initCheckpoints, hopts]) hp hL (fun h => h0 h) hw
  | @next env opts read gk L log R R' R2 last hprev hrest ho hi hp hw ih =>
    have hI := ih (fun e he => hL e (List.mem_append.2 (.inl he)))
    refine one ho hi hp (fun e he => hL e (List.mem_append.2 (.inr he))) ?_ hw
    intro c
    cases hg : GoMap.get R' c with
    | none => exact h0 c
    | some fs' =>
      obtain ⟨fs, hfs, hsame⟩ := hrest.sound c fs' hg
      have := hI c
      rw [hfs] at this
      exact hres c fs fs' this hsame

theorem keys_of_get {fs fs' : Files} (h : ∀ p, GoMap.get fs' p = GoMap.get fs p) (f : Str) : f ∈ GoMap.keys fs' ↔ f ∈ GoMap.keys fs := by
  rw [← GoMap.get_isSome_iff, ← GoMap.get_isSome_iff, h]

/-- **C75 (nothing is forgotten).** For every graph and every sequence of runs, each with any log and iteration order and each but the first starting from the checkpoint of the
one before: whatever is in the checkpoint for a commit contains every path that the commit keeps in the sense of `KeepsPath`. In particular the old name of a renamed file
stays stored for all later commits, and a file deleted by a merge stays stored. -/
theorem C75_kept {g : Graph} (hself : ∀ h, h ∉ g.parentsOf h) {log : List LogCommit} {R : Repo} (h : RunsOn g log R)
    {f c : Str} (hk : KeepsPath g log f c) {fs : Files} (hfs : GoMap.get R c = some fs) : f ∈ GoMap.keys fs := by
  have key : Everywhere (fun c o => KeepsPath g log f c → HasPath f o) R := by
    refine runs_everywhere (T := log) ?_ ?_ ?_ ?_ h (fun _ h => h)
    · intro h _ fs hfs; cases hfs
    · intro h fs fs' hI hsame hk fs2 h2
      cases h2
      exact (keys_of_get hsame f).2 (hI hk fs rfl)
    · intro env horder e he n repo r res hlen hI hr hk
      apply stored_hasPath
      obtain ⟨s1, s2⟩ := regular_stored horder hr (hself _) f
      cases hk with
      | written _ hw => exact s1.2 (.inl (hw e he rfl))
      | inherited hp hkp hrem =>
        rename_i p
        by_cases hin : f ∈ GoMap.keys res.files
        · rcases s2.1 hin with h | h
          · exact s1.2 (.inl h)
          · exact absurd h (hrem e he rfl)
        · refine s1.2 (.inr ⟨p, hp, ?_, hin⟩)
          cases hg : GoMap.get repo p with
          | none => exact absurd hr (regular_no_parent (p := p) (by rw [hp]; simp) (fun hx => hself e.hash (by rw [hp, hx]; simp)) hg)
          | some fs => exact ⟨fs, hg, hI p hkp fs hg⟩
      | merged hl _ _ => omega
    · intro env horder h parts n repo r res hlen hI _ hm hk
      apply stored_hasPath
      have s := merge_stored (P := fun _ => True) horder (fun _ _ _ _ _ _ _ => trivial) hm (hself _) f
      cases hk with
      | written hl _ => omega
      | inherited hp _ _ => rw [hp] at hlen; simp at hlen
      | merged hl hp hkp =>
        rename_i p
        refine s.1 p hp ?_
        cases hg : GoMap.get repo p with
        | none => exact absurd hm (merge_no_parent hp (fun hx => hself h (by rw [hx] at hp; exact hp)) hg)
        | some fs => exact ⟨fs, hg, hI p hkp fs hg⟩
  exact key c hk fs hfs

/-- The paths stored for a commit were written by it or an ancestor. -/
def FromAncestor (g : Graph) (log : List LogCommit) (c : Str) (o : Option Files) : Prop :=
  ∀ f fs, o = some fs → f ∈ GoMap.keys fs → ∃ a, g.Reach c a ∧ ∃ e ∈ log, e.hash = a ∧ WritesPath e f

theorem fromAncestor_reg {env : Env} (horder : ∀ n k l, (env.order n k l).Perm l) {g : Graph} (hself : ∀ h, h ∉ g.parentsOf h) {log : List LogCommit} :
    ∀ e ∈ log, ∀ n repo r res, (g.parentsOf e.hash).length ≤ 1 → Everywhere (FromAncestor g log) repo →
      processRegularCommit env n repo e.hash (g.parentsOf e.hash) e.changes = .ok (r, res) → FromAncestor g log e.hash (GoMap.get r e.hash) := by
  intro e he n repo r res hlen hI hr f fs hfs hf
  rcases (regular_stored horder hr (hself _) f).1.1 ⟨fs, hfs, hf⟩ with hw | ⟨p, hp, ⟨fs', hfs', hf'⟩, _⟩
  · exact ⟨e.hash, .refl, e, he, rfl, hw⟩
  · obtain ⟨a, ha, h⟩ := hI p f fs' hfs' hf'
    exact ⟨a, .head (show g.Parent e.hash p by unfold Graph.Parent; rw [hp]; simp) ha, h⟩

theorem fromAncestor_mer {env : Env} (horder : ∀ n k l, (env.order n k l).Perm l) {g : Graph} (hself : ∀ h, h ∉ g.parentsOf h) {log : List LogCommit} :
    ∀ h parts n repo r res, 1 < (g.parentsOf h).length → Everywhere (FromAncestor g log) repo → (∀ q e, GoMap.get parts q = some e → e ∈ log ∧ e.hash = h) →
      processMergeCommit env n repo h (g.parentsOf h) parts = .ok (r, res) → FromAncestor g log h (GoMap.get r h) := by
  intro h parts n repo r res hlen hI hparts hm f fs hfs hf
  rcases (merge_stored (P := fun d => ∃ e ∈ log, e.hash = h ∧ ∃ ch ∈ e.changes, parseDiff ch = .ok d) horder
    (fun q e he ch hch d hd => ⟨e, (hparts q e he).1, (hparts q e he).2, ch, hch, hd⟩) hm (hself _) f).2 ⟨fs, hfs, hf⟩ with ⟨p, hp, fs', hfs', hf'⟩ | ⟨d, ⟨e, he, hh, ch, hch, hd⟩, hp, hne⟩
  · obtain ⟨a, ha, h'⟩ := hI p f fs' hfs' hf'
    exact ⟨a, .head hp ha, h'⟩
  · exact ⟨h, .refl, e, he, hh, hne, ch, hch, d, hd, hp⟩

/-- **C75 (nothing else, nothing of other branches).** Every path that the checkpoint of a sequence of runs stores for a commit was written by a log entry of this commit or
of one of its ancestors, in one of the runs. -/
theorem C75_only_ancestors {g : Graph} (hself : ∀ h, h ∉ g.parentsOf h) {log : List LogCommit} {R : Repo} (h : RunsOn g log R)
    {f c : Str} {fs : Files} (hfs : GoMap.get R c = some fs) (hf : f ∈ GoMap.keys fs) : ∃ a, g.Reach c a ∧ ∃ e ∈ log, e.hash = a ∧ WritesPath e f :=
  runs_everywhere (I := FromAncestor g log) (T := log) (fun h f fs hfs => by cases hfs)
    (fun h fs fs' hI hsame f fs2 h2 hf => by cases h2; exact hI f fs rfl ((keys_of_get hsame f).1 hf))
    (fun _ ho => fromAncestor_reg ho hself) (fun _ ho => fromAncestor_mer ho hself) h (fun _ h => h) c f fs hfs hf

/-- **C75 (deletions).** A path deleted by a commit with at most one parent, and not written by it, is not stored for that commit. -/
theorem C75_removed {g : Graph} (hself : ∀ h, h ∉ g.parentsOf h) {log : List LogCommit} {R : Repo} (h : RunsOn g log R)
    {f c : Str} (hreg : (g.parentsOf c).length ≤ 1) (hrem : ∀ e ∈ log, e.hash = c → RemovesPath e f ∧ ¬ WritesPath e f) {fs : Files} (hfs : GoMap.get R c = some fs) :
    f ∉ GoMap.keys fs := by
  have key : Everywhere (fun x o => x = c → ∀ fs, o = some fs → f ∉ GoMap.keys fs) R := by
    refine runs_everywhere (T := log) ?_ ?_ ?_ ?_ h (fun _ h => h)
    · intro h _ fs hfs; cases hfs
    · intro h fs fs' hI hsame hc fs2 h2 hf
      cases h2
      exact hI hc fs rfl ((keys_of_get hsame f).1 hf)
    · intro env horder e he n repo r res hlen hI hr hc fs hfs hf
      obtain ⟨hre, hw⟩ := hrem e he hc
      obtain ⟨s1, s2⟩ := regular_stored horder hr (hself _) f
      rcases s1.1 ⟨fs, hfs, hf⟩ with h | ⟨p, _, _, hno⟩
      · exact hw h
      · exact hno (s2.2 (.inr hre))
    · intro env horder h parts n repo r res hlen hI hparts hm hc fs hfs hf
      rw [hc] at hlen; omega
  exact key c rfl fs hfs

/-- **C75 (growth).** In a linear history `cs` without deletions, in which the commit `i` writes the path `path i`, the checkpoint stores for each commit the paths of all commits
up to it. So if a file is renamed by each of `n` commits, `n + 1` paths are stored for the last commit although its tree has one file. -/
theorem C75_growth {g : Graph} (hself : ∀ h, h ∉ g.parentsOf h) {log : List LogCommit} {R : Repo} (h : RunsOn g log R) (cs : List Str)
    (hroot : ∀ c, cs[0]? = some c → g.parentsOf c = [])
    (hchain : ∀ (i : Nat) c c', cs[i]? = some c → cs[i + 1]? = some c' → g.parentsOf c' = [c])
    (path : Nat → Str) (hw : ∀ (i : Nat) c, cs[i]? = some c → ∀ e ∈ log, e.hash = c → WritesPath e (path i))
    (hrem : ∀ e ∈ log, ∀ f, ¬ RemovesPath e f) {i : Nat} {c : Str} (hi : cs[i]? = some c) {fs : Files} (hfs : GoMap.get R c = some fs) :
    ∀ j ≤ i, path j ∈ GoMap.keys fs := by
  have kept : ∀ (n : Nat) (c : Str), cs[n]? = some c → ∀ j ≤ n, KeepsPath g log (path j) c := by
    intro n
    induction n with
    | zero =>
      intro c hc j hj
      have : j = 0 := by omega
      subst this
      exact .written (by rw [hroot c hc]; simp) (hw 0 c hc)
    | succ n ih =>
      intro c hc j hj
      obtain ⟨hlt, _⟩ := List.getElem?_eq_some_iff.1 hc
      have hn : cs[n]? = some cs[n] := List.getElem?_eq_getElem (by omega)
      have hp := hchain n _ c hn hc
      by_cases hjn : j = n + 1
      · subst hjn
        exact .written (by rw [hp]; simp) (hw _ c hc)
      · exact .inherited hp (ih _ hn j (by omega)) (fun e' he' _ => hrem e' he' _)
  intro j hj
  exact C75_kept hself h (kept i c hi j hj) hfs

/-! ### Examples -/

namespace ExStored

/-- `c1` creates `f`, `c2` renames it to `g`, `c3` renames it to `h`; `d2` (parent `c1`) deletes `f`; `m` merges `c3` and `d2`. -/
def parents : GoMap Str (List Str) := [(b!"c1", []), (b!"c2", [b!"c1"]), (b!"c3", [b!"c2"]), (b!"d2", [b!"c1"]), (b!"m", [b!"c3", b!"d2"])]

def g : Graph := Graph.newFromMap parents parents

def chCreate : Str := b!"diff --git a/f b/f\nnew file mode 100644\nindex 0000000..7898192\n--- /dev/null\n+++ b/f\n@@ -0,0 +1 @@\n+a\n"
def chRen1 : Str := b!"diff --git a/f b/g\nsimilarity index 100%\nrename from f\nrename to g\n"
def chRen2 : Str := b!"diff --git a/g b/h\nsimilarity index 100%\nrename from g\nrename to h\n"
def chDel : Str := b!"diff --git a/f b/f\ndeleted file mode 100644\nindex 7898192..0000000\n--- a/f\n+++ /dev/null\n@@ -1 +0,0 @@\n-a\n"
def chDelH : Str := b!"diff --git a/h b/h\ndeleted file mode 100644\nindex 7898192..0000000\n--- a/h\n+++ /dev/null\n@@ -1 +0,0 @@\n-a\n"

def log : List LogCommit := [
  { hash := b!"c1", changes := [chCreate] }, { hash := b!"c2", changes := [chRen1] }, { hash := b!"c3", changes := [chRen2] }]

/-- The merge takes the side of `d2`, so it deletes `h`. -/
def logM : List LogCommit := log ++ [
  { hash := b!"d2", changes := [chDel] }, { hash := b!"m", mergeDiffFrom := b!"c3", changes := [chDelH] }, { hash := b!"m", mergeDiffFrom := b!"d2" }]

def paths (o : RunOut) (c : Str) : Option (List Str) := o.written.bind (fun w => (GoMap.get w.1 c).map GoMap.keys)

/-- After two renames three paths are stored for a tree with the single file `h`. -/
example : paths (run Ex.env {} (fun _ => .ok []) g log) b!"c3" = some [b!"h", b!"g", b!"f"] := by decide +kernel

/-- The tree of the merge is empty, and three paths are stored for it; `f`, deleted by `d2`, is not stored for `d2`. -/
example : paths (run Ex.env {} (fun _ => .ok []) g logM) b!"m" = some [b!"h", b!"g", b!"f"] ∧ paths (run Ex.env {} (fun _ => .ok []) g logM) b!"d2" = some [] := by
  decide +kernel

theorem self : ∀ h, h ∉ g.parentsOf h := by
  intro h hc
  have hp : ∀ e ∈ g.parents, e.1 ∉ e.2 := by decide +kernel
  unfold Graph.parentsOf at hc
  cases hg : GoMap.get g.parents h with
  | none => rw [hg] at hc; cases hc
  | some ps => rw [hg] at hc; exact hp _ (GoMap.mem_of_get hg) hc

/-- The hypotheses of `C75_growth` hold for the renames, for all orders of iteration. -/
example {fs : Files} (hfs : ∀ R l, (run Ex.env {} (fun _ => .ok []) g log).written = some (R, l) → GoMap.get R b!"c3" = some fs) :
    ∀ p ∈ [b!"f", b!"g", b!"h"], p ∈ GoMap.keys fs := by
  have hw : (run Ex.env {} (fun _ => .ok []) g log).written.isSome = true := by decide +kernel
  obtain ⟨⟨R, l⟩, hw⟩ := Option.isSome_iff_exists.1 hw
  have := C75_growth self (.first (fun _ _ _ => List.Perm.refl _) rfl (fun _ => .inl rfl) hw) [b!"c1", b!"c2", b!"c3"] (by intro c hc; cases hc; decide +kernel)
    (by
      intro i c c' h h'
      match i, h, h' with
      | 0, h, h' => cases h; cases h'; decide +kernel
      | 1, h, h' => cases h; cases h'; decide +kernel
      | 2, h, h' => cases h'
      | i + 3, h, h' => simp at h)
    (fun i => [b!"f", b!"g", b!"h"].getD i [])
    (by
      have hc : ∀ e ∈ log, (e.hash = b!"c1" → e.changes = [chCreate]) ∧ (e.hash = b!"c2" → e.changes = [chRen1]) ∧ (e.hash = b!"c3" → e.changes = [chRen2]) := by decide +kernel
      intro i c h e he hh
      match i, h with
      | 0, h => cases h; exact ⟨by decide, chCreate, by rw [(hc e he).1 hh]; simp, _, rfl, by decide +kernel⟩
      | 1, h => cases h; exact ⟨by decide, chRen1, by rw [(hc e he).2.1 hh]; simp, _, rfl, by decide +kernel⟩
      | 2, h => cases h; exact ⟨by decide, chRen2, by rw [(hc e he).2.2 hh]; simp, _, rfl, by decide +kernel⟩
      | i + 3, h => simp at h)
    (by
      have hall : ∀ e ∈ log, ∀ ch ∈ e.changes, (match parseDiff ch with | .ok d => decide (d.path ≠ []) | .error _ => true) = true := by decide +kernel
      rintro e he f ⟨ch, hch, d, hd, hp, _⟩
      have := hall e he ch hch
      rw [hd] at this
      simp [hp] at this)
    (i := 2) rfl (hfs R l hw)
  intro p hp
  simp only [List.mem_cons, List.not_mem_nil, or_false] at hp
  rcases hp with rfl | rfl | rfl
  · exact this 0 (by omega)
  · exact this 1 (by omega)
  · exact this 2 (by omega)

/-- Two runs: the first sees `c1` and `c2`, the second resumes at `c2` and sees `c2` and `c3`. `f` is still stored for `c3`. -/
def logB : List LogCommit := [{ hash := b!"c2", changes := [chRen1] }, { hash := b!"c3", changes := [chRen2] }]

def first : RunOut := run Ex.env {} (fun _ => .ok []) g (log.take 2)

def second : RunOut := run Ex.env { commitFromIncl := b!"c2" } (fun _ => .ok ((first.written.map Prod.fst).getD [])) g logB

example : ∃ R l, second.written = some (R, l) ∧ RunsOn g (log.take 2 ++ logB) R ∧ (GoMap.get R b!"c3").map GoMap.keys = some [b!"h", b!"g", b!"f"] := by
  have h1 : first.written.isSome = true := by decide +kernel
  have h2 : second.written.isSome = true := by decide +kernel
  obtain ⟨⟨R, l⟩, hw⟩ := Option.isSome_iff_exists.1 h1
  obtain ⟨⟨R2, l2⟩, hw2⟩ := Option.isSome_iff_exists.1 h2
  refine ⟨R2, l2, hw2, ?_, ?_⟩
  · refine .next (.first (fun _ _ _ => List.Perm.refl _) rfl (fun _ => .inl rfl) hw) (R' := R) ⟨fun h fs hh => ⟨fs, hh, fun _ => rfl⟩, fun h fs hh _ => ⟨fs, hh⟩⟩
      (fun _ _ _ => List.Perm.refl _) ?_ (fun _ => .inl rfl) hw2
    rw [hw]; rfl
  · have : paths second b!"c3" = some [b!"h", b!"g", b!"f"] := by decide +kernel
    unfold paths at this
    rw [hw2] at this
    exact this

theorem logM_written : ∃ R l, (run Ex.env {} (fun _ => .ok []) g logM).written = some (R, l) := by
  have hw : (run Ex.env {} (fun _ => .ok []) g logM).written.isSome = true := by decide +kernel
  obtain ⟨⟨R, l⟩, hw⟩ := Option.isSome_iff_exists.1 hw
  exact ⟨R, l, hw⟩

/-- The merge keeps `f` in the sense of `KeepsPath`. -/
theorem keeps : KeepsPath g logM b!"f" b!"m" := by
  have h1 : KeepsPath g logM b!"f" b!"c1" := by
    refine .written (by decide +kernel) ?_
    intro e he hh
    have : ∀ e ∈ logM, e.hash = b!"c1" → e.changes = [chCreate] := by decide +kernel
    exact ⟨by decide, chCreate, by rw [this e he hh]; simp, _, rfl, by decide +kernel⟩
  have nodel : ∀ (c : Str), (∀ e ∈ logM, e.hash = c → ∀ ch ∈ e.changes, (match parseDiff ch with | .ok d => decide (d.path ≠ []) | .error _ => true) = true) →
      ∀ e ∈ logM, e.hash = c → ¬ RemovesPath e b!"f" := by
    rintro c hall e he hh ⟨ch, hch, d, hd, hp, _⟩
    have := hall e he hh ch hch
    rw [hd] at this
    simp [hp] at this
  have h2 : KeepsPath g logM b!"f" b!"c2" := .inherited (by decide +kernel) h1 (nodel _ (by decide +kernel))
  have h3 : KeepsPath g logM b!"f" b!"c3" := .inherited (by decide +kernel) h2 (nodel _ (by decide +kernel))
  exact .merged (by decide +kernel) (by decide +kernel) h3

/-- `C75_kept` and `C75_removed` apply to the run with the merge. -/
example : ∃ R l, (run Ex.env {} (fun _ => .ok []) g logM).written = some (R, l) ∧ (∀ fs, GoMap.get R b!"m" = some fs → b!"f" ∈ GoMap.keys fs) ∧
    ∀ fs, GoMap.get R b!"d2" = some fs → b!"f" ∉ GoMap.keys fs := by
  obtain ⟨R, l, hw⟩ := logM_written
  have hr : RunsOn g logM R := .first (fun _ _ _ => List.Perm.refl _) rfl (fun _ => .inl rfl) hw
  refine ⟨R, l, hw, fun fs h => C75_kept self hr keeps h, fun fs h => C75_removed self hr (by decide +kernel) ?_ h⟩
  intro e he hh
  have hc : ∀ e ∈ logM, e.hash = b!"d2" → e.changes = [chDel] := by decide +kernel
  refine ⟨⟨chDel, by rw [hc e he hh]; simp, _, rfl, by decide +kernel, by decide +kernel⟩, ?_⟩
  rintro ⟨_, ch, hch, d, hd, hp⟩
  rw [hc e he hh, List.mem_singleton] at hch
  subst hch
  have : parseDiff chDel = .ok d → d.path = [] := by
    intro h
    have : (match parseDiff chDel with | .ok d => decide (d.path = []) | .error _ => true) = true := by decide +kernel
    rw [h] at this
    simpa using this
  rw [this hd] at hp
  cases hp

end ExStored

end Ripsrc
