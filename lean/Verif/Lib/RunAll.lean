import Verif.Lib.Ideal
import Verif.Lib.GraphOf
import Verif.Spec.Run
import Verif.Lib.Frame
/-!
# Whole runs
-/
namespace Ripsrc
open Spec

theorem logOf_ok {H : History} {es : List LogEntry} (h : LogOf H es) : ∀ e ∈ es, e.Ok := by
  induction h with
  | nil => simp
  | @cons c ec H es hp _ ih =>
    intro e he
    rcases List.mem_append.1 he with he | he
    · rcases hp with ⟨_, cs, e', _, h2, rfl⟩ | ⟨_, h2⟩
      · simp only [List.mem_singleton] at he
        subst he
        exact h2.1
      · unfold MergeEntries at h2
        simp only at h2
        split at h2
        · obtain ⟨e', rfl, h3⟩ := h2
          simp only [List.mem_singleton] at he
          subst he
          exact h3.1
        · obtain ⟨h3, h4⟩ := h2
          obtain ⟨i, hi, rfl⟩ := List.getElem_of_mem he
          exact (h4 (((c.parents.zip c.diffs).filter (fun x => !x.2.isEmpty))[i]'(by omega), ec[i])
            (by rw [List.mem_iff_getElem]; exact ⟨i, by simp; omega, by simp⟩)).1
    · exact ih e he

theorem logOf_ne {H : History} {es : List LogEntry} (h : LogOf H es) (hne : H ≠ []) : es ≠ [] := by
  cases h with
  | nil => exact absurd rfl hne
  | @cons c ec H es hp _ =>
    intro he
    rw [List.append_eq_nil_iff] at he
    rcases hp with ⟨_, cs, e', _, h2, rfl⟩ | ⟨_, h2⟩
    · exact absurd he.1 (by simp)
    · rw [he.1] at h2
      unfold MergeEntries at h2
      simp only at h2
      split at h2
      · obtain ⟨e', h3, _⟩ := h2
        cases h3
      · rename_i hf
        exact hf (List.length_eq_zero_iff.1 h2.1.symm)

/-- A log of a history is given by the entries of its commits. -/
theorem logOf_entries {H : History} {es : List LogEntry} (h : LogOf H es) : ∀ {before : History}, History.Ok before H →
    ∃ entries : HCommit → List LogEntry, es = H.flatMap entries ∧ ∀ c ∈ H, Printed c (entries c) := by
  induction h with
  | nil => intro _ _; exact ⟨fun _ => [], rfl, by simp⟩
  | @cons c ec H es hp _ ih =>
    intro before hH
    obtain ⟨entries, h1, h2⟩ := ih hH.2
    have hne : ∀ x ∈ H, x.hash ≠ c.hash := by
      intro x hx
      obtain ⟨a, r, rfl⟩ := List.append_of_mem hx
      have : x.Ok (before ++ [c] ++ a) := by
        have key : ∀ (a : History) (b : History), History.Ok b (a ++ x :: r) → x.Ok (b ++ a) := by
          intro a
          induction a with
          | nil => intro b hb; rw [List.append_nil]; exact hb.1
          | cons y a ih => intro b hb; have := ih (b ++ [y]) hb.2; simpa using this
        exact key a _ hH.2
      exact (this.new c (by simp)).symm
    refine ⟨fun x => if x.hash = c.hash then ec else entries x, ?_, ?_⟩
    · rw [List.flatMap_cons, if_pos rfl, h1]
      congr 1
      have : ∀ l : History, (∀ x ∈ l, x.hash ≠ c.hash) → l.flatMap entries = l.flatMap (fun x => if x.hash = c.hash then ec else entries x) := by
        intro l hl
        induction l with
        | nil => rfl
        | cons x l ih =>
          rw [List.flatMap_cons, List.flatMap_cons, if_neg (hl x (by simp)), ih (fun y hy => hl y (by simp [hy]))]
      exact this H hne
    · intro x hx
      rcases List.mem_cons.1 hx with rfl | hx
      · simp only [if_true]; exact hp
      · simp only [hne x hx, if_false]; exact h2 x hx

theorem printed_hash {c : HCommit} {ec : List LogEntry} (h : Printed c ec) : ∀ e ∈ ec, e.hash = c.hash := by
  intro e he
  rcases h with ⟨_, cs, e', _, h2, rfl⟩ | ⟨_, h2⟩
  · simp only [List.mem_singleton] at he
    subst he
    exact h2.2.1
  · unfold MergeEntries at h2
    simp only at h2
    split at h2
    · obtain ⟨e', rfl, h3⟩ := h2
      simp only [List.mem_singleton] at he
      subst he
      exact h3.2.1
    · obtain ⟨h3, h4⟩ := h2
      obtain ⟨i, hi, rfl⟩ := List.getElem_of_mem he
      exact (h4 (((c.parents.zip c.diffs).filter (fun x => !x.2.isEmpty))[i]'(by omega), ec[i])
        (by rw [List.mem_iff_getElem]; exact ⟨i, by simp; omega, by simp⟩)).2.1

theorem logOf_hash {H : History} {es : List LogEntry} (h : LogOf H es) : ∀ e ∈ es, ∃ c ∈ H, e.hash = c.hash := by
  induction h with
  | nil => simp
  | @cons c ec H es hp _ ih =>
    intro e he
    rcases List.mem_append.1 he with he | he
    · exact ⟨c, by simp, printed_hash hp e he⟩
    · obtain ⟨d, hd, h⟩ := ih e he
      exact ⟨d, by simp [hd], h⟩

/-- A commit that is not in the history is not touched by the log of a part of the history. -/
theorem log_untouched {env : Env} {A : History} {G : Str → Str → List Str} {m : GoMap Str (List Str)} {order : List (Str × List Str)}
    (h : Setting env A G m order) {N : History} {es : List LogEntry} (hlog : LogOf N es) (hN : ∀ c ∈ N, c ∈ A) {q : Str} (hq : ∀ c ∈ A, c.hash ≠ q) :
    ∀ e ∈ es.map LogEntry.meaning, Untouched (Graph.newFromMap m order) q e.hash := by
  intro e he
  obtain ⟨e', he', rfl⟩ := List.mem_map.1 he
  obtain ⟨c, hc, hh⟩ := logOf_hash hlog e' he'
  have : e'.meaning.hash = c.hash := hh
  rw [this]
  refine ⟨fun h' => hq c (hN c hc) h'.symm, ?_⟩
  unfold Graph.parentsOf
  rw [show (Graph.newFromMap m order).parents = m from rfl, h.parents c (hN c hc)]
  intro hp
  obtain ⟨x, hx, he⟩ := history_parents h.history (hN c hc) (q := q) hp
  exact hq x hx he

theorem run_of_loopF {env : Env} {opts : RunOpts} {read : Str → Go Repo} {g : Graph} {log : List LogCommit} (hne : log ≠ []) {R : Repo}
    (hinit : initCheckpoints opts read = .ok R) {s' : Proc} (h : Proc.LoopF env { graph := g, repo := R } log s') :
    run env opts read g log = { sent := s'.sent, fault := none, written := some (s'.repo, s'.lastProcessed) } := by
  obtain ⟨t, h1, h2⟩ := h
  unfold run
  cases log with
  | nil => exact absurd rfl hne
  | cons c cs =>
    simp only [hinit, h1]
    unfold Proc.flush at h2
    split at h2
    · rename_i hl
      rw [if_pos hl, h2]
    · rename_i hl
      rw [if_neg hl]
      cases h2
      rfl

theorem start_inv {A : History} {G : Str → Str → List Str} {g : Graph} {B N : History} (hs : A = B ++ N) {R : Repo}
    (hst : ∀ c ∈ B, ∀ fs, GoMap.get R c.hash = some fs → RightFiles A G c.hash fs)
    (hk : ∀ c ∈ B, HasChildIn N c.hash → ∃ fs, GoMap.get R c.hash = some fs) :
    PInv A G g B.length B N { graph := g, repo := R } := by
  have hz : ∀ p, nc (B.drop B.length) p = 0 := by intro p; rw [List.drop_length]; rfl
  refine ⟨hs, ⟨rfl, ?_, by simp, by simp, by simp, ?_⟩, hst, ?_, ?_, ?_, by simp, ?_, by simp⟩
  · intro p
    rw [hz]
    rfl
  · intro x hx
    simp only [hz] at hx
    exact absurd rfl hx
  · intro c hc hn
    exact hk c hc (nc_pos hn)
  · intro c hc
    rw [List.drop_length] at hc
    cases hc
  · intro d1 d2 hd _ c _ hcd
    rw [List.drop_length] at hd
    obtain ⟨_, rfl⟩ := List.append_eq_nil_iff.1 hd.symm
    rcases hcd with hcd | ⟨d, hcd, _⟩ <;> cases hcd
  · intro i c res hc
    rw [List.drop_length] at hc
    simp at hc

/-- A run from scratch, or resumed, over `N1` in the history `B ++ N1 ++ N2`. -/
theorem run_core {env : Env} {A : History} {G : Str → Str → List Str} {m : GoMap Str (List Str)} {order : List (Str × List Str)}
    (h : Setting env A G m order) {B N1 N2 : History} (hs : A = B ++ (N1 ++ N2)) {es : List LogEntry} (hlog : LogOf N1 es) (hne : N1 ≠ [])
    {opts : RunOpts} {read : Str → Go Repo} {R : Repo} (hinit : initCheckpoints opts read = .ok R)
    (hst : ∀ c ∈ B, ∀ fs, GoMap.get R c.hash = some fs → RightFiles A G c.hash fs)
    (hk : ∀ c ∈ B, HasChildIn (N1 ++ N2) c.hash → ∃ fs, GoMap.get R c.hash = some fs) :
    ∃ s', run env opts read (Graph.newFromMap m order) (es.map LogEntry.meaning) =
        { sent := s'.sent, fault := none, written := some (s'.repo, s'.lastProcessed) } ∧
      PInv A G (Graph.newFromMap m order) B.length (B ++ N1) N2 s' := by
  have hg := graphOf_build h.history h.wf h.perm h.parents
  obtain ⟨s', h1, _, h3⟩ := loop_ok h.sorts h.orders h.history hg h.blame.ancestors hlog (fun c hc => h.blame.text c (by rw [hs]; simp [hc])) rfl (start_inv (g := Graph.newFromMap m order) hs hst hk) (Nat.le_refl _)
  exact ⟨s', run_of_loopF (by simpa using logOf_ne hlog hne) hinit h1, h3⟩

/-- The same, compared with the ideal of a larger history. -/
theorem run_core_agree {env env' : Env} {H A : History} {G : Str → Str → List Str} {m : GoMap Str (List Str)} {order : List (Str × List Str)}
    (he : SameEnv env env') (hH : History.Ok [] H) (hbw : BlameWorks H G env'.blameOut) (hsub : ∀ c ∈ A, c ∈ H)
    (h : Setting env' A G m order) {B N1 N2 : History} (hs : A = B ++ (N1 ++ N2)) (hne : N1 ≠ [])
    {entries : HCommit → List LogEntry} (hent : ∀ c ∈ H, Printed c (entries c))
    {Ri : Repo} {res : HCommit → Result} (hideal : IdealOn H G env entries H Ri res)
    {opts : RunOpts} {read : Str → Go Repo} {R : Repo} (hinit : initCheckpoints opts read = .ok R)
    (hst : ∀ c ∈ B, ∀ fs, GoMap.get R c.hash = some fs → RightFiles A G c.hash fs)
    (hlook : ∀ c ∈ B, ∀ fs, GoMap.get R c.hash = some fs → ∀ p, R.getFileOptional c.hash p = Ri.getFileOptional c.hash p)
    (hk : ∀ c ∈ B, HasChildIn (N1 ++ N2) c.hash → ∃ fs, GoMap.get R c.hash = some fs) :
    ∃ s', run env' opts read (Graph.newFromMap m order) ((N1.flatMap entries).map LogEntry.meaning) =
        { sent := s'.sent, fault := none, written := some (s'.repo, s'.lastProcessed) } ∧
      PInv A G (Graph.newFromMap m order) B.length (B ++ N1) N2 s' ∧ Agree H Ri res { graph := Graph.newFromMap m order, repo := R } B.length (B ++ N1) s' := by
  have hg := graphOf_build h.history h.wf h.perm h.parents
  have hN1 : ∀ c ∈ N1, Printed c (entries c) := fun c hc => hent c (hsub c (by rw [hs]; simp [hc]))
  obtain ⟨s', h1, _, h3, h4⟩ := loop_agree he h.sorts h.orders hH h.history hsub hg hbw hent hideal N1 rfl
    (start_inv (g := Graph.newFromMap m order) hs hst hk) (Nat.le_refl _)
    ⟨by rw [List.drop_length]; exact BookEq.refl _, hlook, fun i c r hc => by rw [List.drop_length] at hc; simp at hc⟩
  exact ⟨s', run_of_loopF (by simpa using logOf_ne (log_of_entries N1 hN1) hne) hinit h1, h3, h4⟩

end Ripsrc
