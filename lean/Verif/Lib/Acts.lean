import Verif.Model.Process
import Verif.Lib.Script
/-!
# Processing a commit as a list of independent updates
-/
namespace Ripsrc
open Spec

/-- Assign all entries in order. -/
def putAll {β : Type} (m : GoMap Str β) (l : List (Str × β)) : GoMap Str β := l.foldl (fun m e => GoMap.set m e.1 e.2) m

theorem putAll_append {β : Type} (m : GoMap Str β) (a b : List (Str × β)) : putAll m (a ++ b) = putAll (putAll m a) b := by
  simp [putAll]

theorem putAll_not_mem {β : Type} (m : GoMap Str β) (l : List (Str × β)) (k : Str) (h : k ∉ l.map Prod.fst) :
    GoMap.get (putAll m l) k = GoMap.get m k := by
  induction l generalizing m with
  | nil => rfl
  | cons e l ih =>
    simp only [List.map_cons, List.mem_cons, not_or] at h
    show GoMap.get (putAll (GoMap.set m e.1 e.2) l) k = _
    rw [ih _ h.2, GoMap.get_set_ne _ _ (Ne.symm h.1)]

theorem putAll_mem {β : Type} (m : GoMap Str β) (l : List (Str × β)) (k : Str) (h : k ∈ l.map Prod.fst) :
    ∃ v, (k, v) ∈ l ∧ GoMap.get (putAll m l) k = some v := by
  induction l generalizing m with
  | nil => simp at h
  | cons e l ih =>
    by_cases hk : k ∈ l.map Prod.fst
    · obtain ⟨v, h1, h2⟩ := ih (GoMap.set m e.1 e.2) hk
      exact ⟨v, List.mem_cons_of_mem _ h1, h2⟩
    · simp only [List.map_cons, List.mem_cons] at h
      have he : k = e.1 := by
        rcases h with h | h
        · exact h
        · exact absurd h hk
      refine ⟨e.2, ?_, ?_⟩
      · rw [he]; exact List.mem_cons_self ..
      · show GoMap.get (putAll (GoMap.set m e.1 e.2) l) k = _
        rw [putAll_not_mem _ _ _ hk, he, GoMap.get_set_self]

/-- The last entry for a key decides. -/
theorem putAll_last {β : Type} (m : GoMap Str β) (a b : List (Str × β)) (k : Str) (v : β) (h : k ∉ b.map Prod.fst) :
    GoMap.get (putAll m (a ++ (k, v) :: b)) k = some v := by
  rw [putAll_append]
  show GoMap.get (putAll (GoMap.set (putAll m a) k v) b) k = _
  rw [putAll_not_mem _ _ _ h, GoMap.get_set_self]

theorem putAll_wf {β : Type} (m : GoMap Str β) (l : List (Str × β)) (h : GoMap.WF m) : GoMap.WF (putAll m l) := by
  induction l generalizing m with
  | nil => exact h
  | cons e l ih => exact ih _ (GoMap.wf_set h _ _)

theorem putAll_keys {β : Type} (m : GoMap Str β) (l : List (Str × β)) (k : Str) :
    k ∈ GoMap.keys (putAll m l) ↔ k ∈ GoMap.keys m ∨ k ∈ l.map Prod.fst := by
  induction l generalizing m with
  | nil => simp [putAll]
  | cons e l ih =>
    show k ∈ GoMap.keys (putAll (GoMap.set m e.1 e.2) l) ↔ _
    rw [ih, GoMap.mem_keys_set]
    simp only [List.map_cons, List.mem_cons]
    constructor
    · rintro ((h | h) | h)
      · exact Or.inr (Or.inl h)
      · exact Or.inl h
      · exact Or.inr (Or.inr h)
    · rintro (h | h | h)
      · exact Or.inl (Or.inr h)
      · exact Or.inl (Or.inl h)
      · exact Or.inr h

/-- With distinct keys the order of the assignments does not matter. -/
theorem putAll_perm {β : Type} (m : GoMap Str β) (a b : List (Str × β)) (hp : a.Perm b) (hn : (a.map Prod.fst).Nodup) (k : Str) :
    GoMap.get (putAll m a) k = GoMap.get (putAll m b) k := by
  by_cases h : k ∈ a.map Prod.fst
  · obtain ⟨v, h1, h2⟩ := putAll_mem m a k h
    obtain ⟨w, g1, g2⟩ := putAll_mem m b k ((hp.map Prod.fst).mem_iff.1 h)
    rw [h2, g2]
    have e1 := GoMap.get_of_mem (m := a) hn h1
    have e2 := GoMap.get_of_mem (m := a) hn (hp.mem_iff.2 g1)
    rw [e1] at e2
    exact e2
  · rw [putAll_not_mem _ _ _ h, putAll_not_mem _ _ _ (fun h' => h ((hp.map Prod.fst).mem_iff.2 h'))]

/-- What is done for one change. -/
inductive Act where
  | report (p : Str) (b : Blame)
  | keep (p : Str) (b : Blame)
  | both (p : Str) (b : Blame)

def Act.kept : Act → Option (Str × Blame)
  | .report _ _ => none
  | .keep p b => some (p, b)
  | .both p b => some (p, b)

def Act.reported : Act → Option (Str × Blame)
  | .report p b => some (p, b)
  | .keep _ _ => none
  | .both p b => some (p, b)

def Act.run (hash : Str) (st : Repo × Files) : Act → Go (Repo × Files)
  | .report p b => .ok (st.1, GoMap.set st.2 p b)
  | .keep p b => do
    let r ← st.1.put hash p b
    .ok (r, st.2)
  | .both p b => store hash st p b

theorem put_ok {r : Repo} {c : Str} {fs : Files} (h : GoMap.get r c = some fs) (p : Str) (b : Blame) :
    r.put c p b = .ok (GoMap.set r c (GoMap.set fs p b)) := by
  unfold Repo.put; rw [h]

/-- Repos agree except on the files of one commit. -/
def SameBut (hash : Str) (r r' : Repo) : Prop := ∀ q, q ≠ hash → GoMap.get r' q = GoMap.get r q

theorem SameBut.trans {hash : Str} {a b c : Repo} (h1 : SameBut hash a b) (h2 : SameBut hash b c) : SameBut hash a c :=
  fun q hq => (h2 q hq).trans (h1 q hq)

theorem sameBut_set (hash : Str) (r : Repo) (fs : Files) : SameBut hash r (GoMap.set r hash fs) :=
  fun _ hq => GoMap.get_set_ne _ _ (Ne.symm hq)

theorem act_run {hash : Str} {st : Repo × Files} {fs : Files} (h : GoMap.get st.1 hash = some fs) (a : Act) :
    ∃ st', a.run hash st = .ok st' ∧ GoMap.get st'.1 hash = some (putAll fs a.kept.toList) ∧ SameBut hash st.1 st'.1 ∧
      st'.2 = putAll st.2 a.reported.toList := by
  cases a with
  | report p b => exact ⟨_, rfl, h, fun _ _ => rfl, rfl⟩
  | keep p b =>
    refine ⟨(GoMap.set st.1 hash (GoMap.set fs p b), st.2), ?_, ?_, sameBut_set _ _ _, rfl⟩
    · simp only [Act.run, put_ok h]; rfl
    · exact GoMap.get_set_self _ _ _
  | both p b =>
    refine ⟨(GoMap.set st.1 hash (GoMap.set fs p b), GoMap.set st.2 p b), ?_, ?_, sameBut_set _ _ _, rfl⟩
    · simp only [Act.run, store, put_ok h]; rfl
    · exact GoMap.get_set_self _ _ _

/-- A loop whose steps compute an update from the files of other commits. -/
theorem fold_acts {α : Type} (hash : Str) (step : Repo → α → Go Act) (parents : List Str) (hself : hash ∉ parents)
    (hloc : ∀ r r', (∀ q ∈ parents, GoMap.get r' q = GoMap.get r q) → ∀ x, step r' x = step r x)
    (f : α → Act) (xs : List α) (st : Repo × Files) (fs : Files) (h : GoMap.get st.1 hash = some fs)
    (hf : ∀ x ∈ xs, step st.1 x = .ok (f x)) :
    ∃ st', xs.foldlM (fun st x => do
        let a ← step st.1 x
        a.run hash st) st = .ok st' ∧
      GoMap.get st'.1 hash = some (putAll fs (xs.filterMap (fun x => (f x).kept))) ∧ SameBut hash st.1 st'.1 ∧
      st'.2 = putAll st.2 (xs.filterMap (fun x => (f x).reported)) := by
  induction xs generalizing st fs with
  | nil => exact ⟨st, rfl, h, fun _ _ => rfl, rfl⟩
  | cons x xs ih =>
    obtain ⟨st1, h1, h2, h3, h4⟩ := act_run h (f x)
    obtain ⟨st2, g1, g2, g3, g4⟩ := ih st1 _ h2 (fun y hy => by
      rw [hloc st.1 st1.1 (fun q hq => h3 q (by rintro rfl; exact hself hq))]
      exact hf y (by simp [hy]))
    refine ⟨st2, ?_, ?_, h3.trans g3, ?_⟩
    · simp only [List.foldlM_cons, hf x (by simp), bind, Except.bind, h1]
      exact g1
    · rw [g2]
      cases hk : (f x).kept with
      | none => simp [hk, putAll]
      | some e => simp [hk, putAll]
    · rw [g4, h4]
      cases hk : (f x).reported with
      | none => simp [hk, putAll]
      | some e => simp [hk, putAll]

/-! ## Regular commits -/

/-- The update for one change of a regular commit. -/
def regAct (env : Env) (hash : Str) (parents : List Str) (repo : Repo) (ch : Str) : Go Act := do
  let diff ← parseDiff ch
  if diff.isBinary then
    if diff.path = [] then .ok (.report diff.pathPrev (blameBinaryFile hash))
    else .ok (.both diff.path (blameBinaryFile hash))
  else if diff.path = [] then .ok (.report diff.pathPrev { commit := hash, lines := [] })
  else do
    let rb ← renamedBinary repo parents diff
    match rb with
    | some pb => .ok (.both diff.path pb)
    | none => do
      let pb ← parentBlameOf repo parents diff
      let bl ← newBlame env hash pb diff
      .ok (.both diff.path bl)

theorem regularChange_eq (env : Env) (hash : Str) (parents : List Str) (st : Repo × Files) (ch : Str) :
    regularChange env hash parents st ch = (do
      let a ← regAct env hash parents st.1 ch
      a.run hash st) := by
  unfold regularChange regAct
  cases parseDiff ch with
  | error e => rfl
  | ok d =>
    simp only [bind, Except.bind]
    split
    · split <;> rfl
    · split
      · rfl
      · cases renamedBinary st.1 parents d with
        | error e => rfl
        | ok rb =>
          cases rb with
          | some pb => rfl
          | none =>
            simp only
            cases parentBlameOf st.1 parents d with
            | error e => rfl
            | ok pb =>
              simp only
              cases newBlame env hash pb d <;> rfl

/-- The files of the given commits are the same in both repos. -/
def LookEq (ps : List Str) (r r' : Repo) : Prop := ∀ q ∈ ps, ∀ f, r'.getFileOptional q f = r.getFileOptional q f

theorem LookEq.of_get {ps : List Str} {r r' : Repo} (h : ∀ q ∈ ps, GoMap.get r' q = GoMap.get r q) : LookEq ps r r' :=
  fun q hq f => by simp only [Repo.getFileOptional, h q hq]

theorem LookEq.must {ps : List Str} {r r' : Repo} (h : LookEq ps r r') {q : Str} (hq : q ∈ ps) (f : Str) :
    r'.getFileMust q f = r.getFileMust q f := by
  have h' := h q hq f
  unfold Repo.getFileOptional at h'
  unfold Repo.getFileMust
  cases h1 : GoMap.get r' q with
  | none =>
    rw [h1] at h'
    cases h2 : GoMap.get r q with
    | none => rfl
    | some _ => rw [h2] at h'; cases h'
  | some a =>
    rw [h1] at h'
    cases h2 : GoMap.get r q with
    | none => rw [h2] at h'; cases h'
    | some b =>
      rw [h2] at h'
      simp only [Except.ok.injEq] at h'
      simp only [h']

theorem renamedBinary_look {r r' : Repo} {parents : List Str} (h : LookEq parents r r') (d : Diff) :
    renamedBinary r' parents d = renamedBinary r parents d := by
  unfold renamedBinary
  split
  · cases parents with
    | nil => rfl
    | cons p ps =>
      cases ps with
      | nil => simp only [h.must (q := p) (by simp)]
      | cons _ _ => rfl
  · rfl

theorem parentBlameOf_look {r r' : Repo} {parents : List Str} (h : LookEq parents r r') (d : Diff) :
    parentBlameOf r' parents d = parentBlameOf r parents d := by
  unfold parentBlameOf
  split
  · rfl
  · cases parents with
    | nil => rfl
    | cons p ps =>
      cases ps with
      | nil => simp only [h p (by simp)]
      | cons q ps => cases ps <;> rfl

/-- Everything but the iteration order is the same. -/
def SameEnv (e e' : Env) : Prop := e'.srt = e.srt ∧ e'.blameOut = e.blameOut

theorem newBlame_env {e e' : Env} (h : SameEnv e e') (c : Str) (pb : Option Blame) (d : Diff) : newBlame e' c pb d = newBlame e c pb d := by
  unfold newBlame slowGitBlame
  rw [h.1, h.2]

theorem regAct_look {env env' : Env} (he : SameEnv env env') (hash : Str) (parents : List Str) (r r' : Repo)
    (h : LookEq parents r r') (ch : Str) : regAct env' hash parents r' ch = regAct env hash parents r ch := by
  unfold regAct
  simp only [renamedBinary_look h, parentBlameOf_look h, newBlame_env he]

theorem regAct_congr (env : Env) (hash : Str) (parents : List Str) (r r' : Repo)
    (h : ∀ q ∈ parents, GoMap.get r' q = GoMap.get r q) (ch : Str) : regAct env hash parents r' ch = regAct env hash parents r ch :=
  regAct_look ⟨rfl, rfl⟩ hash parents r r' (LookEq.of_get h) ch

/-- The copying loop. -/
theorem copy_loop (hash parent : Str) (hne : parent ≠ hash) (res : Files) (pf : Files) (l : List Str) (repo : Repo) (fs : Files)
    (h : GoMap.get repo hash = some fs) (hp : GoMap.get repo parent = some pf) (hl : ∀ x ∈ l, x ∈ GoMap.keys pf) :
    ∃ r, l.foldlM (copyUnchanged hash parent res) repo = .ok r ∧
      GoMap.get r hash = some (putAll fs (l.filterMap (fun x => if GoMap.has res x then none else (GoMap.get pf x).map (fun b => (x, b))))) ∧
      SameBut hash repo r := by
  induction l generalizing repo fs with
  | nil => exact ⟨repo, rfl, h, fun _ _ => rfl⟩
  | cons x l ih =>
    by_cases hr : GoMap.has res x = true
    · obtain ⟨r, h1, h2, h3⟩ := ih repo fs h hp (fun y hy => hl y (by simp [hy]))
      refine ⟨r, ?_, ?_, h3⟩
      · simp only [List.foldlM_cons, copyUnchanged, hr, if_true, bind, Except.bind]
        exact h1
      · simpa [List.filterMap_cons, hr] using h2
    · have hx := (GoMap.get_isSome_iff pf x).2 (hl x (by simp))
      obtain ⟨b, hb⟩ := Option.isSome_iff_exists.1 hx
      have hget : repo.getFileMust parent x = .ok b := by unfold Repo.getFileMust; rw [hp]; simp only; rw [hb]
      obtain ⟨r, h1, h2, h3⟩ := ih (GoMap.set repo hash (GoMap.set fs x b)) (GoMap.set fs x b) (GoMap.get_set_self _ _ _)
        (by rw [GoMap.get_set_ne _ _ (Ne.symm hne)]; exact hp) (fun y hy => hl y (by simp [hy]))
      refine ⟨r, ?_, ?_, (sameBut_set _ _ _).trans h3⟩
      · simp only [List.foldlM_cons, copyUnchanged, hr, hget, put_ok h, bind, Except.bind]
        exact h1
      · rw [h2]
        simp [hr, hb, putAll]

end Ripsrc
