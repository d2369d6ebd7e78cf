import Verif.Lib.Pipeline
/-!
# The goroutines of `Code`: a canonical schedule
-/
namespace Ripsrc
open Conc

variable {τ : Type}

/-- A state given by its goroutines. -/
def pst (a b c d e : Option (PLoc τ)) (cl : PChan → Bool) : State PRole PChan (PLoc τ) :=
  ⟨fun | .caller => a | .parser => b | .code => c | .flat => d | .collect => e, cl⟩

theorem pst_ext {s : State PRole PChan (PLoc τ)} {a b c d e : Option (PLoc τ)} {cl : PChan → Bool} (h1 : s.procs .caller = a) (h2 : s.procs .parser = b)
    (h3 : s.procs .code = c) (h4 : s.procs .flat = d) (h5 : s.procs .collect = e) (h6 : s.closed = cl) : s = pst a b c d e cl := by
  apply State.ext'
  · intro r; cases r <;> assumption
  · intro x; rw [h6]; rfl

variable {p : Pipe τ} {a b c d e : Option (PLoc τ)} {cl : PChan → Bool}

theorem Step.cast {s t t' : State PRole PChan (PLoc τ)} (h : Step p.act s t) (ht : t = t') : Step p.act s t' := ht ▸ h

theorem st_parser_caller {l m k f x v} (h1 : p.act l = .send x v k) (h2 : p.act m = .recv x f) (hc : cl x = false) :
    Step p.act (pst (some m) (some l) c d e cl) (pst (some (f (some v))) (some k) c d e cl) :=
  Step.cast (Step.sync (p := .parser) (q := .caller) rfl h1 rfl h2 hc) (pst_ext rfl rfl rfl rfl rfl rfl)
theorem st_caller_code {l m k f x v} (h1 : p.act l = .send x v k) (h2 : p.act m = .recv x f) (hc : cl x = false) :
    Step p.act (pst (some l) b (some m) d e cl) (pst (some k) b (some (f (some v))) d e cl) :=
  Step.cast (Step.sync (p := .caller) (q := .code) rfl h1 rfl h2 hc) (pst_ext rfl rfl rfl rfl rfl rfl)
theorem st_code_flat {l m k f x v} (h1 : p.act l = .send x v k) (h2 : p.act m = .recv x f) (hc : cl x = false) :
    Step p.act (pst a b (some l) (some m) e cl) (pst a b (some k) (some (f (some v))) e cl) :=
  Step.cast (Step.sync (p := .code) (q := .flat) rfl h1 rfl h2 hc) (pst_ext rfl rfl rfl rfl rfl rfl)
theorem st_flat_collect {l m k f x v} (h1 : p.act l = .send x v k) (h2 : p.act m = .recv x f) (hc : cl x = false) :
    Step p.act (pst a b c (some l) (some m) cl) (pst a b c (some k) (some (f (some v))) cl) :=
  Step.cast (Step.sync (p := .flat) (q := .collect) rfl h1 rfl h2 hc) (pst_ext rfl rfl rfl rfl rfl rfl)
theorem st_code_caller {l m k f x v} (h1 : p.act l = .send x v k) (h2 : p.act m = .recv x f) (hc : cl x = false) :
    Step p.act (pst (some m) b (some l) d e cl) (pst (some (f (some v))) b (some k) d e cl) :=
  Step.cast (Step.sync (p := .code) (q := .caller) rfl h1 rfl h2 hc) (pst_ext rfl rfl rfl rfl rfl rfl)
theorem st_flat_caller {l m k f x v} (h1 : p.act l = .send x v k) (h2 : p.act m = .recv x f) (hc : cl x = false) :
    Step p.act (pst (some m) b c (some l) e cl) (pst (some (f (some v))) b c (some k) e cl) :=
  Step.cast (Step.sync (p := .flat) (q := .caller) rfl h1 rfl h2 hc) (pst_ext rfl rfl rfl rfl rfl rfl)
theorem st_collect_caller {l m k f x v} (h1 : p.act l = .send x v k) (h2 : p.act m = .recv x f) (hc : cl x = false) :
    Step p.act (pst (some m) b c d (some l) cl) (pst (some (f (some v))) b c d (some k) cl) :=
  Step.cast (Step.sync (p := .collect) (q := .caller) rfl h1 rfl h2 hc) (pst_ext rfl rfl rfl rfl rfl rfl)

theorem st_caller_tau {l k} (h1 : p.act l = .tau k) : Step p.act (pst (some l) b c d e cl) (pst (some k) b c d e cl) :=
  Step.cast (Step.tau (r := .caller) rfl h1) (pst_ext rfl rfl rfl rfl rfl rfl)
theorem st_caller_closed {l x f} (h1 : p.act l = .recv x f) (hc : cl x = true) : Step p.act (pst (some l) b c d e cl) (pst (some (f none)) b c d e cl) :=
  Step.cast (Step.recvClosed (q := .caller) rfl h1 hc) (pst_ext rfl rfl rfl rfl rfl rfl)
theorem st_code_closed {l x f} (h1 : p.act l = .recv x f) (hc : cl x = true) : Step p.act (pst a b (some l) d e cl) (pst a b (some (f none)) d e cl) :=
  Step.cast (Step.recvClosed (q := .code) rfl h1 hc) (pst_ext rfl rfl rfl rfl rfl rfl)
theorem st_flat_closed {l x f} (h1 : p.act l = .recv x f) (hc : cl x = true) : Step p.act (pst a b c (some l) e cl) (pst a b c (some (f none)) e cl) :=
  Step.cast (Step.recvClosed (q := .flat) rfl h1 hc) (pst_ext rfl rfl rfl rfl rfl rfl)
theorem st_collect_closed {l x f} (h1 : p.act l = .recv x f) (hc : cl x = true) : Step p.act (pst a b c d (some l) cl) (pst a b c d (some (f none)) cl) :=
  Step.cast (Step.recvClosed (q := .collect) rfl h1 hc) (pst_ext rfl rfl rfl rfl rfl rfl)
theorem st_caller_close {l x k} (h1 : p.act l = .close x k) (hc : cl x = false) :
    Step p.act (pst (some l) b c d e cl) (pst (some k) b c d e (upd cl x true)) :=
  Step.cast (Step.close (r := .caller) rfl h1 hc) (pst_ext rfl rfl rfl rfl rfl rfl)
theorem st_parser_close {l x k} (h1 : p.act l = .close x k) (hc : cl x = false) :
    Step p.act (pst a (some l) c d e cl) (pst a (some k) c d e (upd cl x true)) :=
  Step.cast (Step.close (r := .parser) rfl h1 hc) (pst_ext rfl rfl rfl rfl rfl rfl)
theorem st_code_close {l x k} (h1 : p.act l = .close x k) (hc : cl x = false) :
    Step p.act (pst a b (some l) d e cl) (pst a b (some k) d e (upd cl x true)) :=
  Step.cast (Step.close (r := .code) rfl h1 hc) (pst_ext rfl rfl rfl rfl rfl rfl)
theorem st_go_collect {l g k} (h1 : p.act l = .go .collect g k) : Step p.act (pst (some l) b c d none cl) (pst (some k) b c d (some g) cl) :=
  Step.cast (Step.go (r := .caller) rfl h1 rfl) (pst_ext rfl rfl rfl rfl rfl rfl)
theorem st_go_flat {l g k} (h1 : p.act l = .go .flat g k) : Step p.act (pst (some l) b c none e cl) (pst (some k) b c (some g) e cl) :=
  Step.cast (Step.go (r := .caller) rfl h1 rfl) (pst_ext rfl rfl rfl rfl rfl rfl)
theorem st_go_code {l g k} (h1 : p.act l = .go .code g k) : Step p.act (pst (some l) b none d e cl) (pst (some k) b (some g) d e cl) :=
  Step.cast (Step.go (r := .caller) rfl h1 rfl) (pst_ext rfl rfl rfl rfl rfl rfl)
theorem st_go_parser {l g k} (h1 : p.act l = .go .parser g k) : Step p.act (pst (some l) none c d e cl) (pst (some k) (some g) c d e cl) :=
  Step.cast (Step.go (r := .caller) rfl h1 rfl) (pst_ext rfl rfl rfl rfl rfl rfl)

/-- The channels closed while the `n`-th result is awaited (`x`: the log parser has closed its channel). -/
def upTo (x : Bool) (n : Nat) : PChan → Bool
  | .blames i => decide (i < n)
  | .commits => x
  | _ => false

theorem upTo_succ (x : Bool) (n : Nat) : upd (upTo x n) (.blames n) true = upTo x (n + 1) := by
  funext x
  cases x with
  | blames i =>
    by_cases h : i = n
    · subst h; simp [upd, upTo]
    · have : (decide (i < n)) = decide (i < n + 1) := by simp; omega
      simp [upd, upTo, h, this]
  | _ => simp [upd, upTo]

theorem upTo_close (n : Nat) : upd (upTo false n) .commits true = upTo true n := by
  funext x; cases x <;> simp [upd, upTo]

/-- The records that the goroutine of `CodeByCommit` makes for a list of results, and the cache at the end. -/
def Pipe.codeAll (p : Pipe τ) : Nat → GoMap Str Str → List Result → Go (List (CodeRecord τ) × GoMap Str Str)
  | _, cache, [] => .ok ([], cache)
  | n, cache, r :: rs =>
    match GoMap.get p.metas r.commit with
    | none => .error (.panic "commit not found in commit meta")
    | some _ => match codeInfoFiles p.cl p.scc (p.orders n) p.metas cache r with
      | .error e => .error e
      | .ok (recs, cache) => match p.codeAll (n + 1) cache rs with
        | .error e => .error e
        | .ok (out, cache) => .ok (recs ++ out, cache)

theorem codeAll_of_codeByCommit (p : Pipe τ) : ∀ (rs : List Result) (n : Nat) (cache : GoMap Str Str) (out : List (MetaCommit τ × List (CodeRecord τ))),
    codeByCommit p.cl p.scc p.orders p.metas n cache rs = .ok out → ∃ cache', p.codeAll n cache rs = .ok (out.flatMap (·.2), cache') := by
  intro rs
  induction rs with
  | nil => intro n cache out h; cases h; exact ⟨cache, rfl⟩
  | cons r rs ih =>
    intro n cache out h
    simp only [codeByCommit] at h
    simp only [Pipe.codeAll]
    cases hm : GoMap.get p.metas r.commit with
    | none => rw [hm] at h; cases h
    | some c =>
      simp only [hm] at h ⊢
      cases hf : codeInfoFiles p.cl p.scc (p.orders n) p.metas cache r with
      | error e => rw [hf] at h; cases h
      | ok x =>
        obtain ⟨recs, cache1⟩ := x
        simp only [hf, bind, Except.bind] at h ⊢
        cases hr : codeByCommit p.cl p.scc p.orders p.metas (n + 1) cache1 rs with
        | error e => rw [hr] at h; cases h
        | ok out1 =>
          rw [hr] at h
          cases h
          obtain ⟨cache', h'⟩ := ih _ _ _ hr
          exact ⟨cache', by simp [h']⟩

theorem codeAll_append (p : Pipe τ) : ∀ (rs rs' : List Result) (n : Nat) (cache cache' : GoMap Str Str) (out : List (CodeRecord τ)),
    p.codeAll n cache (rs ++ rs') = .ok (out, cache') →
      ∃ o1 c1 o2, p.codeAll n cache rs = .ok (o1, c1) ∧ p.codeAll (n + rs.length) c1 rs' = .ok (o2, cache') ∧ out = o1 ++ o2 := by
  intro rs
  induction rs with
  | nil => intro rs' n cache cache' out h; exact ⟨[], cache, out, rfl, h, rfl⟩
  | cons r rs ih =>
    intro rs' n cache cache' out h
    simp only [List.cons_append, Pipe.codeAll] at h ⊢
    cases hm : GoMap.get p.metas r.commit with
    | none => rw [hm] at h; cases h
    | some c =>
      simp only [hm] at h ⊢
      cases hf : codeInfoFiles p.cl p.scc (p.orders n) p.metas cache r with
      | error e => rw [hf] at h; cases h
      | ok x =>
        obtain ⟨recs, cache1⟩ := x
        simp only [hf] at h ⊢
        cases hr : p.codeAll (n + 1) cache1 (rs ++ rs') with
        | error e => rw [hr] at h; cases h
        | ok y =>
          obtain ⟨out1, c2⟩ := y
          rw [hr] at h
          cases h
          obtain ⟨o1, c1, o2, h1, h2, rfl⟩ := ih _ _ _ _ _ hr
          refine ⟨recs ++ o1, c1, o2, by simp [h1], ?_, by simp⟩
          rw [List.length_cons, Nat.add_comm rs.length 1, ← Nat.add_assoc]; exact h2

/-- The records of one commit pass through. -/
theorem reach_records {x : Bool} : ∀ (recs : List (CodeRecord τ)) (n : Nat) (cache : GoMap Str Str) (got : List (CodeRecord τ)),
    Reach p.act (pst a b (some (.codeRecs n cache recs)) (some (.flatRange n)) (some (.collect got)) (upTo x n))
      (pst a b (some (.codeRecv (n + 1) cache)) (some .flatRecv) (some (.collect (got ++ recs))) (upTo x (n + 1))) := by
  intro recs
  induction recs with
  | nil =>
    intro n cache got
    refine (Reach.step (st_code_close (l := .codeRecs n cache []) rfl (by simp [upTo]))).trans ?_
    rw [upTo_succ, List.append_nil]
    exact Reach.step (st_flat_closed (l := .flatRange n) rfl (by simp [upTo]))
  | cons r rs ih =>
    intro n cache got
    refine (Reach.step (st_code_flat (l := .codeRecs n cache (r :: rs)) rfl rfl (by simp [upTo]))).trans ?_
    refine (Reach.step (st_flat_collect (l := .flatSend n r) rfl rfl rfl)).trans ?_
    have := ih n cache (got ++ [r])
    rw [List.append_assoc] at this
    exact this

/-- The results that the caller sends pass through. -/
theorem reach_results {x : Bool} {k : PAfter} : ∀ (rs : List Result) (n : Nat) (cache cache' : GoMap Str Str) (got recs : List (CodeRecord τ)),
    p.codeAll n cache rs = .ok (recs, cache') →
    Reach p.act (pst (some (.sending rs k)) b (some (.codeRecv n cache)) (some .flatRecv) (some (.collect got)) (upTo x n))
      (pst (some k.loc) b (some (.codeRecv (n + rs.length) cache')) (some .flatRecv) (some (.collect (got ++ recs))) (upTo x (n + rs.length))) := by
  intro rs
  induction rs with
  | nil =>
    intro n cache cache' got recs h
    cases h
    rw [List.append_nil]
    exact Reach.step (st_caller_tau rfl)
  | cons r rs ih =>
    intro n cache cache' got recs h
    simp only [Pipe.codeAll] at h
    cases hm : GoMap.get p.metas r.commit with
    | none => rw [hm] at h; cases h
    | some c =>
      simp only [hm] at h
      cases hf : codeInfoFiles p.cl p.scc (p.orders n) p.metas cache r with
      | error e => rw [hf] at h; cases h
      | ok y =>
        obtain ⟨recs1, cache1⟩ := y
        simp only [hf] at h
        cases hr : p.codeAll (n + 1) cache1 rs with
        | error e => rw [hr] at h; cases h
        | ok y =>
          obtain ⟨out1, c2⟩ := y
          rw [hr] at h
          cases h
          refine (Reach.step (st_caller_code (l := .sending (r :: rs) k) rfl rfl rfl)).trans ?_
          have : p.onResult n cache r = .codeHead n cache1 c recs1 := by simp [Pipe.onResult, hm, hf]
          simp only [this]
          refine (Reach.step (st_code_flat (l := .codeHead n cache1 c recs1) rfl rfl rfl)).trans ?_
          refine (reach_records recs1 n cache1 got).trans ?_
          have := ih (n + 1) cache1 _ (got ++ recs1) out1 hr
          rw [List.length_cons, Nat.add_comm rs.length 1, ← Nat.add_assoc, ← List.append_assoc]
          exact this

/-- What is sent only grows. -/
theorem finishMerge_prefix {env : Env} {s s' : Proc} (h : s.finishMerge env = .ok s') : s'.sent = s.sent ++ s'.sent.drop s.sent.length := by
  unfold Proc.finishMerge at h
  split at h
  · cases h
  · cases h
    rename_i r res hm
    obtain ⟨a, _, _, _⟩ := trim_keep ({ s with repo := r, lastProcessed := s.mergePartsCommit } : Proc) s.mergePartsCommit
    simp only [a]
    simp

theorem newCommit_prefix {env : Env} {s s' : Proc} {c : LogCommit} (h : s.newCommit env c = .ok s') : s'.sent = s.sent ++ s'.sent.drop s.sent.length := by
  unfold Proc.newCommit at h
  split at h
  · cases h; simp
  · cases hr : processRegularCommit env s.sent.length s.repo c.hash (s.parents c.hash) c.changes with
    | error e => rw [hr] at h; cases h
    | ok x =>
      obtain ⟨r, res⟩ := x
      rw [hr] at h
      cases h
      obtain ⟨a, _, _, _⟩ := trim_keep ({ s with repo := r, lastProcessed := c.hash } : Proc) c.hash
      simp only [a]
      simp

theorem prefix_trans {A : Type} {x y z : List A} (h1 : y = x ++ y.drop x.length) (h2 : z = y ++ z.drop y.length) : z = x ++ z.drop x.length := by
  rw [h1] at h2
  rw [List.append_assoc] at h2
  have : z.drop x.length = y.drop x.length ++ z.drop (x ++ y.drop x.length).length := by
    rw [h2]; simp
  rw [this]; exact h2

theorem drop_split {A : Type} {x y z : List A} (h1 : y = x ++ y.drop x.length) (h2 : z = y ++ z.drop y.length) :
    z.drop x.length = y.drop x.length ++ z.drop y.length := by
  generalize z.drop y.length = v at *
  generalize y.drop x.length = u at *
  subst h1 h2
  simp

theorem commit_prefix {env : Env} {s s' : Proc} {c : LogCommit} {f : Option Fault} (h : s.commit env c = (s', f)) :
    s'.sent = s.sent ++ s'.sent.drop s.sent.length := by
  unfold Proc.commit at h
  split at h
  · split at h
    · cases h; simp
    · split at h
      · cases h; simp
      · rename_i s1 hf
        have h1 := finishMerge_prefix hf
        split at h
        · cases h; exact h1
        · rename_i s2 hn
          cases h
          exact prefix_trans h1 (newCommit_prefix hn)
  · split at h
    · cases h; simp
    · rename_i s2 hn
      cases h
      exact newCommit_prefix hn

theorem loop_prefix {env : Env} : ∀ (log : List LogCommit) {s s' : Proc} {f : Option Fault}, s.loop env log = (s', f) →
    s'.sent = s.sent ++ s'.sent.drop s.sent.length := by
  intro log
  induction log with
  | nil => intro s s' f h; cases h; simp
  | cons c cs ih =>
    intro s s' f h
    unfold Proc.loop at h
    split at h
    · rename_i h1; cases h; exact commit_prefix h1
    · rename_i h1; exact prefix_trans (commit_prefix h1) (ih h)

/-- Where the caller is after the loop. -/
def afterLoop (s : Proc) : Option Fault → PAfter
  | none => .loop s
  | some e => .fault e

/-- The loop of `Run`, from the point where the caller has received a commit. -/
theorem reach_loop : ∀ (todo : List LogCommit) (c : LogCommit) (s s' : Proc) (f : Option Fault) (n : Nat) (cache cache' : GoMap Str Str)
    (got recs : List (CodeRecord τ)), s.loop p.env (c :: todo) = (s', f) → p.codeAll n cache (s'.sent.drop s.sent.length) = .ok (recs, cache') →
    ∃ rest, (f = none → rest = []) ∧
    Reach p.act (pst (some (p.onCommit s c)) (some (.parse todo)) (some (.codeRecv n cache)) (some .flatRecv) (some (.collect got)) (upTo false n))
      (pst (some (afterLoop s' f).loc) (some (.parse rest)) (some (.codeRecv (n + (s'.sent.drop s.sent.length).length) cache')) (some .flatRecv)
        (some (.collect (got ++ recs))) (upTo false (n + (s'.sent.drop s.sent.length).length))) := by
  intro todo
  induction todo with
  | nil =>
    intro c s s' f n cache cache' got recs hl hc
    unfold Proc.loop at hl
    cases hcm : s.commit p.env c with
    | mk s1 f1 =>
      rw [hcm] at hl
      cases f1 with
      | some e =>
        cases hl
        refine ⟨[], fun _ => rfl, ?_⟩
        simp only [Pipe.onCommit, hcm]
        exact reach_results _ n cache cache' got recs hc
      | none =>
        simp only [Proc.loop] at hl
        cases hl
        refine ⟨[], fun _ => rfl, ?_⟩
        simp only [Pipe.onCommit, hcm]
        exact reach_results _ n cache cache' got recs hc
  | cons c1 todo ih =>
    intro c s s' f n cache cache' got recs hl hc
    unfold Proc.loop at hl
    cases hcm : s.commit p.env c with
    | mk s1 f1 =>
      rw [hcm] at hl
      cases f1 with
      | some e =>
        cases hl
        refine ⟨c1 :: todo, by simp, ?_⟩
        simp only [Pipe.onCommit, hcm]
        exact reach_results _ n cache cache' got recs hc
      | none =>
        simp only at hl
        have h1 := commit_prefix hcm
        have h2 := loop_prefix _ hl
        have hsplit := drop_split h1 h2
        rw [hsplit] at hc ⊢
        obtain ⟨o1, k1, o2, e1, e2, rfl⟩ := codeAll_append p _ _ _ _ _ _ hc
        obtain ⟨rest, hr1, hr2⟩ := ih c1 s1 s' f _ _ _ (got ++ o1) o2 hl e2
        refine ⟨rest, hr1, ?_⟩
        have first := reach_results (p := p) (x := false) (b := some (.parse (c1 :: todo))) (k := .loop s1) _ n cache k1 got o1 e1
        have hon : p.onCommit s c = .sending (s1.sent.drop s.sent.length) (.loop s1) := by simp only [Pipe.onCommit, hcm]
        rw [hon]
        refine first.trans ?_
        refine (Reach.step (st_parser_caller (l := .parse (c1 :: todo)) (m := .loop (some s1)) rfl rfl rfl)).trans ?_
        rw [List.length_append, ← Nat.add_assoc, ← List.append_assoc]
        exact hr2

/-- Draining the log parser. -/
theorem reach_drain {e0 : Fault} {n : Nat} : ∀ (rest : List LogCommit),
    Reach p.act (pst (some (.drain e0)) (some (.parse rest)) c d e (upTo false n))
      (pst (some (.joinRun none (some e0))) (some .parseDone) c d e (upTo true n)) := by
  intro rest
  induction rest with
  | nil =>
    refine (Reach.step (st_parser_close (l := .parse []) rfl rfl)).trans ?_
    rw [upTo_close]
    exact Reach.step (st_caller_closed (l := .drain e0) rfl rfl)
  | cons x xs ih => exact (Reach.step (st_parser_caller (l := .parse (x :: xs)) rfl rfl rfl)).trans ih

/-- The end of the log. -/
theorem reach_stop {st : Option Proc} {n : Nat} :
    Reach p.act (pst (some (.loop st)) (some (.parse [])) c d e (upTo false n)) (pst (some (p.onEnd st)) (some .parseDone) c d e (upTo true n)) := by
  refine (Reach.step (st_parser_close (l := .parse []) rfl rfl)).trans ?_
  rw [upTo_close]
  exact Reach.step (st_caller_closed (l := .loop st) rfl rfl)

/-- The channels closed at the end of a run of `n` results. -/
def closedEnd (n : Nat) : PChan → Bool
  | .blames i => decide (i < n)
  | .commits | .gitRes | .res2 | .res => true
  | _ => false

/-- How the log parser ends. -/
def Pipe.parserEnd (p : Pipe τ) : PLoc τ := match (parseSent p.text).2 with | none => .parsed | some _ => .panicked .parser

/-- From the end of `Run` to the end of `CodeSlice`. -/
theorem reach_end (n : Nat) (cache : GoMap Str Str) (got : List (CodeRecord τ)) (w : Option (Repo × Str)) (e0 : Option Fault) :
    Reach p.act (pst (some (.joinRun w e0)) (some .parseDone) (some (.codeRecv n cache)) (some .flatRecv) (some (.collect got)) (upTo true n))
      (pst (some (.returned w e0 got)) (some p.parserEnd) (some .codeEnd) (some .flatEnd) (some (.collected got)) (closedEnd n)) := by
  refine (Reach.step (st_parser_caller (l := .parseDone) rfl rfl (by simp [upd, upTo]))).trans ?_
  refine (Reach.step (st_caller_close (l := .closeGitRes w e0) rfl (by simp [upd, upTo]))).trans ?_
  refine (Reach.step (st_code_closed (l := .codeRecv n cache) rfl (by simp [upd]))).trans ?_
  refine (Reach.step (st_code_caller (l := .codeDone) (m := .joinByCommit w e0) rfl rfl (by simp [upd, upTo]))).trans ?_
  refine (Reach.step (st_caller_close (l := .closeRes2 w e0) rfl (by simp [upd, upTo]))).trans ?_
  refine (Reach.step (st_flat_closed (l := .flatRecv) rfl (by simp [upd]))).trans ?_
  refine (Reach.step (st_flat_caller (l := .flatDone) (m := .joinCode w e0) rfl rfl (by simp [upd, upTo]))).trans ?_
  refine (Reach.step (st_caller_close (l := .closeRes w e0) rfl (by simp [upd, upTo]))).trans ?_
  refine (Reach.step (st_collect_closed (l := .collect got) rfl (by simp [upd]))).trans ?_
  refine (Reach.step (st_collect_caller (l := .collectEnd got) (m := .joinSlice w e0) rfl rfl (by simp [upd, upTo]))).trans ?_
  have : upd (upd (upd (upTo true n) .gitRes true) .res2 true) .res true = closedEnd n := by
    funext x; cases x <;> simp [upd, upTo, closedEnd]
  rw [this]
  exact Reach.refl _

/-- The error that `Code` returns. -/
def Pipe.err (p : Pipe τ) : Option Fault :=
  match p.pre, p.openErr, (run p.env p.opts p.read p.graph (parseSent p.text).1).fault with
  | some e, _, _ => some (.error e)
  | none, some e, _ => some (.error e)
  | none, none, some e => some e
  | none, none, none => if (parseSent p.text).1 = [] then none else p.writeErr.map .error

/-- The canonical schedule: a call of `CodeSlice` that does not panic. -/
theorem reach_all (hpre : p.pre = none) (hopen : p.openErr = none) (hf : ∀ w, (run p.env p.opts p.read p.graph (parseSent p.text).1).fault ≠ some (.panic w))
    {recs : List (CodeRecord τ)} {cache' : GoMap Str Str}
    (hc : p.codeAll 0 [] (run p.env p.opts p.read p.graph (parseSent p.text).1).sent = .ok (recs, cache')) :
    ∃ n, Reach p.act Pipe.init
      (pst (some (.returned (run p.env p.opts p.read p.graph (parseSent p.text).1).written p.err recs)) (some p.parserEnd) (some .codeEnd) (some .flatEnd)
        (some (.collected recs)) (closedEnd n)) := by
  have h0 : (Pipe.init : State PRole PChan (PLoc τ)) = pst (some .cSlice) none none none none (upTo false 0) := by
    refine pst_ext rfl rfl rfl rfl rfl ?_
    funext x; cases x <;> first | rfl | simp [Pipe.init, upTo]
  have start : Reach p.act Pipe.init (pst (some (.loop none)) (some (.parse (parseSent p.text).1)) (some (.codeRecv 0 [])) (some .flatRecv)
      (some (.collect [])) (upTo false 0)) := by
    rw [h0]
    refine (Reach.step (st_go_collect (l := .cSlice) rfl)).trans ?_
    refine (Reach.step (st_go_flat (l := .cCode) rfl)).trans ?_
    refine (Reach.step (st_go_code (l := .cByCommit) (by simp only [Pipe.act, hpre]; rfl))).trans ?_
    exact Reach.step (st_go_parser (l := .cRun) (by simp only [Pipe.act, hopen]))
  generalize hlog : (parseSent p.text).1 = log at *
  cases log with
  | nil =>
    have herr : p.err = none := by simp [Pipe.err, hpre, hopen, hlog, run]
    simp only [run] at hc ⊢
    cases hc
    refine ⟨0, start.trans ?_⟩
    refine (Reach.step (st_parser_close (l := .parse []) rfl rfl)).trans ?_
    refine (Reach.step (st_caller_closed (l := .loop none) rfl (by simp [upd]))).trans ?_
    rw [herr, upTo_close]
    exact reach_end 0 [] [] none none
  | cons c0 cs =>
    have recv0 := start.trans (Reach.step (st_parser_caller (l := .parse (c0 :: cs)) (m := .loop none) rfl rfl rfl))
    simp only at recv0
    cases hi : initCheckpoints p.opts p.read with
    | error e =>
      have hrun : run p.env p.opts p.read p.graph (c0 :: cs) = { sent := [], fault := some e, written := none } := by simp [run, hi]
      have herr : p.err = some e := by simp [Pipe.err, hpre, hopen, hlog, hrun]
      rw [hrun] at hc hf ⊢
      cases hc
      rw [herr]
      cases e with
      | panic w => exact absurd rfl (hf w)
      | error w =>
        have hon : p.onFirst none c0 = .sending [] (.drain (.error w)) := by simp [Pipe.onFirst, hi, PAfter.fault]
        rw [hon] at recv0
        refine ⟨0, recv0.trans ?_⟩
        refine (Reach.step (st_caller_tau (l := .sending [] (.drain (.error w))) rfl)).trans ?_
        exact (reach_drain cs).trans (reach_end 0 [] [] none _)
    | ok repo =>
      have hon : p.onFirst none c0 = p.onCommit { graph := p.graph, repo := repo } c0 := by simp [Pipe.onFirst, hi]
      rw [hon] at recv0
      cases hl : Proc.loop p.env { graph := p.graph, repo := repo } (c0 :: cs) with
      | mk s f =>
        cases f with
        | some e =>
          have hrun : run p.env p.opts p.read p.graph (c0 :: cs) = { sent := s.sent, fault := some e, written := none } := by simp [run, hi, hl]
          have herr : p.err = some e := by simp [Pipe.err, hpre, hopen, hlog, hrun]
          rw [hrun] at hc hf ⊢
          rw [herr]
          obtain ⟨rest, _, hr⟩ := reach_loop cs c0 _ s _ 0 [] cache' [] recs hl (by simpa using hc)
          cases e with
          | panic w => exact absurd rfl (hf w)
          | error w =>
            have h2 := (recv0.trans hr).trans (reach_drain (e0 := .error w) rest)
            exact ⟨_, h2.trans (reach_end _ cache' recs none (some (.error w)))⟩
        | none =>
          by_cases hm : s.mergeParts.length > 0
          · cases hfm : s.finishMerge p.env with
            | error e =>
              exfalso
              have he : ∃ w, e = .panic w := by
                unfold Proc.finishMerge at hfm
                split at hfm <;> cases hfm
                exact ⟨_, rfl⟩
              obtain ⟨w, rfl⟩ := he
              exact hf w (by simp only [run, hi, hl, if_pos hm, hfm])
            | ok s1 =>
              have hrun : run p.env p.opts p.read p.graph (c0 :: cs) = { sent := s1.sent, fault := none, written := some (s1.repo, s1.lastProcessed) } := by
                simp only [run, hi, hl, if_pos hm, hfm]
              have herr : p.err = p.writeErr.map .error := by simp [Pipe.err, hpre, hopen, hlog, hrun]
              rw [hrun] at hc ⊢
              rw [herr]
              have hpf := finishMerge_prefix hfm
              have hc' := hc
              simp only at hc'
              rw [hpf] at hc'
              obtain ⟨o1, k1, o2, e1, e2, rfl⟩ := codeAll_append p _ _ _ _ _ _ hc'
              obtain ⟨rest, hrest, hr⟩ := reach_loop cs c0 _ s _ 0 [] k1 [] o1 hl (by simpa using e1)
              obtain rfl := hrest rfl
              have hone : p.onEnd (some s) = .sending (s1.sent.drop s.sent.length) (.end (some (s1.repo, s1.lastProcessed)) (p.writeErr.map .error)) := by
                simp only [Pipe.onEnd, if_pos hm, hfm]
              have h2 := (recv0.trans hr).trans (reach_stop (st := some s))
              rw [hone] at h2
              have hlast := reach_results (p := p) (b := some .parseDone) (x := true) (k := .end (some (s1.repo, s1.lastProcessed)) (p.writeErr.map .error))
                _ _ k1 cache' ([] ++ o1) o2 e2
              have hlen : 0 + (List.drop ({ graph := p.graph, repo := repo } : Proc).sent.length s.sent).length = 0 + s.sent.length := by simp
              rw [hlen] at h2
              have h3 := h2.trans hlast
              exact ⟨_, h3.trans (reach_end _ cache' _ _ _)⟩
          · have hrun : run p.env p.opts p.read p.graph (c0 :: cs) = { sent := s.sent, fault := none, written := some (s.repo, s.lastProcessed) } := by
              simp only [run, hi, hl, if_neg hm]
            have herr : p.err = p.writeErr.map .error := by simp [Pipe.err, hpre, hopen, hlog, hrun]
            rw [hrun] at hc ⊢
            rw [herr]
            obtain ⟨rest, hrest, hr⟩ := reach_loop cs c0 _ s _ 0 [] cache' [] recs hl (by simpa using hc)
            obtain rfl := hrest rfl
            have hone : p.onEnd (some s) = .joinRun (some (s.repo, s.lastProcessed)) (p.writeErr.map .error) := by
              simp only [Pipe.onEnd, if_neg hm]
            have h2 := (recv0.trans hr).trans (reach_stop (st := some s))
            rw [hone] at h2
            exact ⟨_, h2.trans (reach_end _ cache' _ _ _)⟩

/-- An error before the goroutine of `CodeByCommit` is started. -/
theorem reach_pre {e0 : String} (hpre : p.pre = some e0) :
    Reach p.act Pipe.init (pst (some (.returned none (some (.error e0)) [])) none none (some .flatEnd) (some (.collected []))
      (upd (upd (upTo false 0) .res2 true) .res true)) := by
  have h0 : (Pipe.init : State PRole PChan (PLoc τ)) = pst (some .cSlice) none none none none (upTo false 0) := by
    refine pst_ext rfl rfl rfl rfl rfl ?_
    funext x; cases x <;> first | rfl | simp [Pipe.init, upTo]
  rw [h0]
  refine (Reach.step (st_go_collect (l := .cSlice) rfl)).trans ?_
  refine (Reach.step (st_go_flat (l := .cCode) rfl)).trans ?_
  refine (Reach.step (st_caller_tau (l := .cByCommit) (by simp only [Pipe.act, hpre]; rfl))).trans ?_
  refine (Reach.step (st_caller_close (l := .closeRes2 none (some (.error e0))) rfl (by simp [upTo]))).trans ?_
  refine (Reach.step (st_flat_closed (l := .flatRecv) rfl (by simp [upd]))).trans ?_
  refine (Reach.step (st_flat_caller (l := .flatDone) (m := .joinCode none (some (.error e0))) rfl rfl (by simp [upd, upTo]))).trans ?_
  refine (Reach.step (st_caller_close (l := .closeRes none (some (.error e0))) rfl (by simp [upd, upTo]))).trans ?_
  refine (Reach.step (st_collect_closed (l := .collect []) rfl (by simp [upd]))).trans ?_
  exact Reach.step (st_collect_caller (l := .collectEnd []) (m := .joinSlice none (some (.error e0))) rfl rfl (by simp [upd, upTo]))

/-- The log cannot be opened. -/
theorem reach_open {e0 : String} (hpre : p.pre = none) (hopen : p.openErr = some e0) :
    Reach p.act Pipe.init (pst (some (.returned none (some (.error e0)) [])) none (some .codeEnd) (some .flatEnd) (some (.collected []))
      (upd (upd (upd (upTo false 0) .gitRes true) .res2 true) .res true)) := by
  have h0 : (Pipe.init : State PRole PChan (PLoc τ)) = pst (some .cSlice) none none none none (upTo false 0) := by
    refine pst_ext rfl rfl rfl rfl rfl ?_
    funext x; cases x <;> first | rfl | simp [Pipe.init, upTo]
  rw [h0]
  refine (Reach.step (st_go_collect (l := .cSlice) rfl)).trans ?_
  refine (Reach.step (st_go_flat (l := .cCode) rfl)).trans ?_
  refine (Reach.step (st_go_code (l := .cByCommit) (by simp only [Pipe.act, hpre]; rfl))).trans ?_
  refine (Reach.step (st_caller_tau (l := .cRun) (by simp only [Pipe.act, hopen]; rfl))).trans ?_
  refine (Reach.step (st_caller_close (l := .closeGitRes none (some (.error e0))) rfl (by simp [upTo]))).trans ?_
  refine (Reach.step (st_code_closed (l := .codeRecv 0 []) rfl (by simp [upd]))).trans ?_
  refine (Reach.step (st_code_caller (l := .codeDone) (m := .joinByCommit none (some (.error e0))) rfl rfl (by simp [upd, upTo]))).trans ?_
  refine (Reach.step (st_caller_close (l := .closeRes2 none (some (.error e0))) rfl (by simp [upd, upTo]))).trans ?_
  refine (Reach.step (st_flat_closed (l := .flatRecv) rfl (by simp [upd]))).trans ?_
  refine (Reach.step (st_flat_caller (l := .flatDone) (m := .joinCode none (some (.error e0))) rfl rfl (by simp [upd, upTo]))).trans ?_
  refine (Reach.step (st_caller_close (l := .closeRes none (some (.error e0))) rfl (by simp [upd, upTo]))).trans ?_
  refine (Reach.step (st_collect_closed (l := .collect []) rfl (by simp [upd]))).trans ?_
  exact Reach.step (st_collect_caller (l := .collectEnd []) (m := .joinSlice none (some (.error e0))) rfl rfl (by simp [upd, upTo]))

/-- The records that the goroutine of `CodeSlice` has received. -/
def PLoc.got : PLoc τ → List (CodeRecord τ)
  | .collect g | .collectEnd g | .collected g => g
  | _ => []

/-- The records delivered on the channel of `Code` so far. -/
def delivered (s : State PRole PChan (PLoc τ)) : List (CodeRecord τ) := match s.procs .collect with | none => [] | some l => l.got

theorem got_recv {l c f} (h : p.act l = .recv c f) (hl : l.role = .collect) (o : Option (PVal τ)) (ho : (f o) ≠ .panicked .collect) : l.got <+: (f o).got := by
  cases l with
  | collect g =>
    simp only [Pipe.act] at h
    injection h with h1 h2
    subst h2
    rcases o with _ | v
    · exact List.prefix_refl _
    · cases v with
      | record r => exact List.prefix_append _ _
      | _ => exact absurd rfl ho
  | panicked r => simp [Pipe.act] at h
  | collectEnd g => simp [Pipe.act] at h
  | collected g => simp [Pipe.act] at h
  | _ => cases hl

theorem got_send {l c v k} (h : p.act l = .send c v k) (hl : l.role = .collect) : k.got = l.got := by
  cases l with
  | collectEnd g => simp [Pipe.act] at h; rw [← h.2.2]; rfl
  | panicked r => simp [Pipe.act] at h
  | collect g => simp [Pipe.act] at h
  | collected g => simp [Pipe.act] at h
  | _ => cases hl

theorem delivered_step {s t : State PRole PChan (PLoc τ)} (hp : Placed PLoc.role s) (h : Step p.act s t) (ht : t.procs .collect ≠ some (.panicked .collect)) :
    delivered s <+: delivered t := by
  unfold delivered
  cases hs : s.procs .collect with
  | none => simp
  | some l =>
    simp only
    obtain ⟨eff, he, rfl⟩ := step_iff.1 h
    by_cases hmem : PRole.collect ∈ eff.keys
    · have hl : l.role = .collect := hp _ _ hs
      cases he with
      | tau h1 h2 =>
        simp [Eff.keys] at hmem; subst hmem
        rw [hs] at h1; cases h1
        exact absurd ((pipe_tau p h2).1.symm.trans hl) (by simp)
      | sync h1 h2 h3 h4 h5 =>
        simp [Eff.keys] at hmem
        rcases hmem with rfl | rfl
        · rw [hs] at h1; cases h1
          rename_i q m c v k f
          have hq : q ≠ .collect := by rintro rfl; rw [hs] at h3; cases h3; rw [h2] at h4; cases h4
          simp [Eff.app, upd, Ne.symm hq, got_send h2 hl]
        · rw [hs] at h3; cases h3
          simp only [Eff.app, List.foldl_cons, List.foldl_nil, upd_same] at ht ⊢
          exact got_recv h4 hl _ (by simpa using ht)
      | recvClosed h1 h2 h3 =>
        simp [Eff.keys] at hmem; subst hmem
        rw [hs] at h1; cases h1
        simp only [Eff.app, List.foldl_cons, List.foldl_nil, upd_same] at ht ⊢
        exact got_recv h2 hl _ (by simpa using ht)
      | close h1 h2 h3 =>
        simp [Eff.keys] at hmem; subst hmem
        rw [hs] at h1; cases h1
        have := (pipe_close p h2).1
        rw [hl] at this
        rename_i c k
        cases c <;> simp [PChan.cw] at this
      | go h1 h2 h3 =>
        simp [Eff.keys] at hmem
        rcases hmem with rfl | rfl
        · rw [hs] at h3; cases h3
        · rw [hs] at h1; cases h1
          have := (pipe_go p h2).1
          rw [hl] at this; cases this
      | wait h1 h2 h3 => exact (pipe_wait p h2).elim
    · rw [app_not_mem hmem, hs]
      exact List.prefix_refl _

theorem delivered_steps {n : Nat} {s t : State PRole PChan (PLoc τ)} (hp : Placed PLoc.role s) (h : Steps p.act n s t) (ht : t.procs .collect ≠ some (.panicked .collect)) :
    delivered s <+: delivered t := by
  induction h with
  | refl => exact List.prefix_refl _
  | @cons n s u t h1 h2 ih =>
    have hu : u.procs .collect ≠ some (.panicked .collect) := by
      intro hu
      apply ht
      -- a panicked goroutine does not move
      have key : ∀ {a b : State PRole PChan (PLoc τ)}, a.procs .collect = some (.panicked .collect) → Step p.act a b → b.procs .collect = some (.panicked .collect) := by
        intro a b ha hab
        obtain ⟨eff, he, rfl⟩ := step_iff.1 hab
        rw [app_not_mem]; exact ha
        intro hmem
        cases he <;> simp [Eff.keys] at hmem <;> grind [Pipe.act]
      exact h2.inv (P := fun x => x.procs .collect = some (.panicked .collect)) (fun _ _ => key) hu
    exact (delivered_step hp h1 hu).trans (ih (hp.step (pipe_owned p) h1) ht)

theorem placed_init : Placed PLoc.role (Pipe.init : State PRole PChan (PLoc τ)) := by
  intro r l h
  simp only [Pipe.init] at h
  split at h
  · cases h; simp_all [PLoc.role]
  · cases h

theorem pipeInv_init : PipeInv (Pipe.init : State PRole PChan (PLoc τ)) := by
  constructor
  · intro l h; cases h; simp [PLoc.afterCode]
  · intro l h; cases h; simp [PLoc.afterFlat]
  · intro l h _; rfl
  · rfl
  · rfl

theorem pst_returned {w e0 got n} (hp : (parseSent p.text).2 = none) : AllReturned p.act (pst (some (.returned w e0 got)) (some p.parserEnd) (some .codeEnd)
    (some .flatEnd) (some (.collected got)) (closedEnd n)) := by
  intro r l h
  cases r <;> cases h <;> first | rfl | (simp [Pipe.parserEnd, hp, Pipe.act])

/-- `parseSent` and `parseLog` agree. -/
theorem parseSent_ok (text : Str) (log : List LogCommit) : parseLog text = .ok log ↔ parseSent text = (log, none) := by
  have key : ∀ (ls : List Str) (s s' : LogParser), (ls.foldlM LogParser.line s = .ok s' ↔ s.lines ls = (s', none)) := by
    intro ls
    induction ls with
    | nil => intro s s'; simp [LogParser.lines, pure, Except.pure]
    | cons b bs ih =>
      intro s s'
      simp only [List.foldlM_cons, LogParser.lines]
      cases hl : s.line b with
      | ok s1 => simpa [bind, Except.bind] using ih s1 s'
      | error e =>
        simp only [bind, Except.bind]
        split <;> simp
  unfold parseLog parseSent
  generalize scan logMaxLine text = x
  obtain ⟨lines, tooLong⟩ := x
  simp only
  cases hf : lines.foldlM LogParser.line {} with
  | ok s =>
    rw [(key lines {} s).1 hf]
    simp only [bind, Except.bind]
    cases tooLong
    · by_cases hs : s.state = .notStarted
      · simp [hs]
      · simp [hs]
    · simp
  | error e =>
    simp only [bind, Except.bind]
    cases hl : LogParser.lines {} lines with
    | mk s f =>
      cases f with
      | none => rw [(key lines {} s).2 hl] at hf; cases hf
      | some e' => simp

end Ripsrc
