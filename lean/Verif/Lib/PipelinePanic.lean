import Verif.Lib.PipelineRun
/-!
# The goroutines of `Code` when the run or the records panic
-/
namespace Ripsrc
open Conc

variable {τ : Type} {p : Pipe τ} {a b c d e : Option (PLoc τ)} {cl : PChan → Bool}

theorem codeAll_error_of_codeByCommit (p : Pipe τ) : ∀ (rs : List Result) (n : Nat) (cache : GoMap Str Str) (e : Fault),
    codeByCommit p.cl p.scc p.orders p.metas n cache rs = .error e → ∃ e', p.codeAll n cache rs = .error e' := by
  intro rs
  induction rs with
  | nil => intro n cache e h; cases h
  | cons r rs ih =>
    intro n cache e h
    simp only [codeByCommit] at h
    simp only [Pipe.codeAll]
    cases hm : GoMap.get p.metas r.commit with
    | none => exact ⟨_, rfl⟩
    | some c =>
      simp only [hm] at h ⊢
      cases hf : codeInfoFiles p.cl p.scc (p.orders n) p.metas cache r with
      | error e => exact ⟨_, rfl⟩
      | ok x =>
        obtain ⟨recs, cache1⟩ := x
        simp only [hf, bind, Except.bind] at h ⊢
        cases hr : codeByCommit p.cl p.scc p.orders p.metas (n + 1) cache1 rs with
        | error e =>
          obtain ⟨e', h'⟩ := ih _ _ _ hr
          exact ⟨e', by simp [h']⟩
        | ok out1 => rw [hr] at h; cases h

/-- The first results can be computed, or one of them already fails. -/
theorem codeAll_append_error (p : Pipe τ) : ∀ (rs rs' : List Result) (n : Nat) (cache : GoMap Str Str) (e : Fault),
    p.codeAll n cache (rs ++ rs') = .error e →
      (∃ e', p.codeAll n cache rs = .error e') ∨ ∃ o1 c1 e', p.codeAll n cache rs = .ok (o1, c1) ∧ p.codeAll (n + rs.length) c1 rs' = .error e' := by
  intro rs
  induction rs with
  | nil => intro rs' n cache e h; exact .inr ⟨[], cache, e, rfl, h⟩
  | cons r rs ih =>
    intro rs' n cache e h
    simp only [List.cons_append, Pipe.codeAll] at h ⊢
    cases hm : GoMap.get p.metas r.commit with
    | none => exact .inl ⟨_, rfl⟩
    | some c =>
      simp only [hm] at h ⊢
      cases hf : codeInfoFiles p.cl p.scc (p.orders n) p.metas cache r with
      | error e => exact .inl ⟨_, rfl⟩
      | ok x =>
        obtain ⟨recs, cache1⟩ := x
        simp only [hf] at h ⊢
        cases hr : p.codeAll (n + 1) cache1 (rs ++ rs') with
        | ok y => rw [hr] at h; cases h
        | error e =>
          rcases ih _ _ _ _ hr with ⟨e', h1⟩ | ⟨o1, c1, e', h1, h2⟩
          · exact .inl ⟨e', by simp [h1]⟩
          · refine .inr ⟨recs ++ o1, c1, e', by simp [h1], ?_⟩
            rw [List.length_cons, Nat.add_comm rs.length 1, ← Nat.add_assoc]; exact h2

theorem codeAll_append_ok (p : Pipe τ) : ∀ (rs rs' : List Result) (n : Nat) (cache c1 c2 : GoMap Str Str) (o1 o2 : List (CodeRecord τ)),
    p.codeAll n cache rs = .ok (o1, c1) → p.codeAll (n + rs.length) c1 rs' = .ok (o2, c2) → p.codeAll n cache (rs ++ rs') = .ok (o1 ++ o2, c2) := by
  intro rs
  induction rs with
  | nil => intro rs' n cache c1 c2 o1 o2 h1 h2; cases h1; exact h2
  | cons r rs ih =>
    intro rs' n cache c1 c2 o1 o2 h1 h2
    simp only [List.cons_append, Pipe.codeAll] at h1 ⊢
    cases hm : GoMap.get p.metas r.commit with
    | none => rw [hm] at h1; cases h1
    | some c =>
      simp only [hm] at h1 ⊢
      cases hf : codeInfoFiles p.cl p.scc (p.orders n) p.metas cache r with
      | error e => rw [hf] at h1; cases h1
      | ok x =>
        obtain ⟨recs, cache1⟩ := x
        simp only [hf] at h1 ⊢
        cases hr : p.codeAll (n + 1) cache1 rs with
        | error e => rw [hr] at h1; cases h1
        | ok y =>
          obtain ⟨out1, c3⟩ := y
          rw [hr] at h1
          cases h1
          rw [List.length_cons, Nat.add_comm rs.length 1, ← Nat.add_assoc] at h2
          rw [ih rs' _ _ _ _ _ _ hr h2]
          simp

theorem codeByCommit_of_codeAll (p : Pipe τ) : ∀ (rs : List Result) (n : Nat) (cache cache' : GoMap Str Str) (recs : List (CodeRecord τ)),
    p.codeAll n cache rs = .ok (recs, cache') → ∃ out, codeByCommit p.cl p.scc p.orders p.metas n cache rs = .ok out ∧ out.flatMap (·.2) = recs := by
  intro rs n cache cache' recs h
  cases hb : codeByCommit p.cl p.scc p.orders p.metas n cache rs with
  | error e =>
    obtain ⟨e', h'⟩ := codeAll_error_of_codeByCommit p _ _ _ _ hb
    rw [h] at h'; cases h'
  | ok out =>
    obtain ⟨c', h'⟩ := codeAll_of_codeByCommit p _ _ _ _ hb
    rw [h] at h'
    cases h'
    exact ⟨out, rfl, rfl⟩

/-- The goroutine of `CodeByCommit` has panicked, the records of the first `k` of `rs` have been delivered after `got`. -/
def CodePanic (p : Pipe τ) (n : Nat) (cache : GoMap Str Str) (got : List (CodeRecord τ)) (rs : List Result) (t : State PRole PChan (PLoc τ)) : Prop :=
  t.procs .code = some (.panicked .code) ∧ (t.procs .flat = some .flatRecv ∧ t.closed .res2 = false ∧ t.closed .res = false) ∧
    ∃ k recs cache', k < rs.length ∧ p.codeAll n cache (rs.take k) = .ok (recs, cache') ∧ t.procs .collect = some (.collect (got ++ recs))

theorem CodePanic.append {n : Nat} {cache c1 : GoMap Str Str} {got o1 : List (CodeRecord τ)} {rs rs' : List Result} {t : State PRole PChan (PLoc τ)}
    (h1 : p.codeAll n cache rs = .ok (o1, c1)) (h : CodePanic p (n + rs.length) c1 (got ++ o1) rs' t) : CodePanic p n cache got (rs ++ rs') t := by
  obtain ⟨a1, a2, k, recs, cache', hk, h2, h3⟩ := h
  refine ⟨a1, a2, rs.length + k, o1 ++ recs, cache', by simp; omega, ?_, by rw [h3, List.append_assoc]⟩
  rw [List.take_append]
  simp only [Nat.add_sub_cancel_left]
  rw [List.take_of_length_le (by omega)]
  exact codeAll_append_ok p _ _ _ _ _ _ _ _ h1 h2

theorem CodePanic.left {n : Nat} {cache : GoMap Str Str} {got : List (CodeRecord τ)} {rs rs' : List Result} {t : State PRole PChan (PLoc τ)}
    (h : CodePanic p n cache got rs t) : CodePanic p n cache got (rs ++ rs') t := by
  obtain ⟨a1, a2, k, recs, cache', hk, h2, h3⟩ := h
  refine ⟨a1, a2, k, recs, cache', by simp; omega, ?_, h3⟩
  rw [List.take_append_of_le_length (by omega)]; exact h2

/-- The goroutine of `CodeByCommit` comes to a panic when one of the results cannot be turned into records. -/
theorem reach_results_panic {x : Bool} {k : PAfter} : ∀ (rs : List Result) (n : Nat) (cache : GoMap Str Str) (got : List (CodeRecord τ)) (e : Fault),
    p.codeAll n cache rs = .error e →
    ∃ t, Reach p.act (pst (some (.sending rs k)) b (some (.codeRecv n cache)) (some .flatRecv) (some (.collect got)) (upTo x n)) t ∧
      CodePanic p n cache got rs t := by
  intro rs
  induction rs with
  | nil => intro n cache got e h; cases h
  | cons r rs ih =>
    intro n cache got e h
    simp only [Pipe.codeAll] at h
    have h1 : Reach p.act (pst (some (.sending (r :: rs) k)) b (some (.codeRecv n cache)) (some .flatRecv) (some (.collect got)) (upTo x n))
        (pst (some (.sending rs k)) b (some (p.onResult n cache r)) (some .flatRecv) (some (.collect got)) (upTo x n)) := by
      have h0 := st_caller_code (p := p) (b := b) (d := some .flatRecv) (e := some (.collect got)) (cl := upTo x n) (l := .sending (r :: rs) k)
        (m := .codeRecv n cache) rfl rfl rfl
      exact Reach.step h0
    cases hm : GoMap.get p.metas r.commit with
    | none => exact ⟨_, h1, by simp [pst, Pipe.onResult, hm], ⟨rfl, rfl, rfl⟩, 0, [], cache, by simp, rfl, by simp [pst]⟩
    | some c =>
      simp only [hm] at h
      cases hf : codeInfoFiles p.cl p.scc (p.orders n) p.metas cache r with
      | error e => exact ⟨_, h1, by simp [pst, Pipe.onResult, hm, hf], ⟨rfl, rfl, rfl⟩, 0, [], cache, by simp, rfl, by simp [pst]⟩
      | ok y =>
        obtain ⟨recs1, cache1⟩ := y
        simp only [hf] at h
        cases hr : p.codeAll (n + 1) cache1 rs with
        | ok y => rw [hr] at h; cases h
        | error e =>
          obtain ⟨t, ht, htc⟩ := ih (n + 1) cache1 (got ++ recs1) e hr
          have hone : p.codeAll n cache [r] = .ok (recs1, cache1) := by simp [Pipe.codeAll, hm, hf]
          refine ⟨t, h1.trans ?_, CodePanic.append (rs := [r]) hone htc⟩
          have : p.onResult n cache r = .codeHead n cache1 c recs1 := by simp [Pipe.onResult, hm, hf]
          simp only [this]
          exact (Reach.step (st_code_flat (l := .codeHead n cache1 c recs1) rfl rfl rfl)).trans ((reach_records recs1 n cache1 got).trans ht)

/-- The same in the loop of `Run`. -/
theorem reach_loop_panic : ∀ (todo : List LogCommit) (c : LogCommit) (s s' : Proc) (f : Option Fault) (n : Nat) (cache : GoMap Str Str)
    (got : List (CodeRecord τ)) (e : Fault), s.loop p.env (c :: todo) = (s', f) → p.codeAll n cache (s'.sent.drop s.sent.length) = .error e →
    ∃ t, Reach p.act (pst (some (p.onCommit s c)) (some (.parse todo)) (some (.codeRecv n cache)) (some .flatRecv) (some (.collect got)) (upTo false n)) t ∧
      CodePanic p n cache got (s'.sent.drop s.sent.length) t := by
  intro todo
  induction todo with
  | nil =>
    intro c s s' f n cache got e hl hc
    unfold Proc.loop at hl
    cases hcm : s.commit p.env c with
    | mk s1 f1 =>
      rw [hcm] at hl
      simp only [Pipe.onCommit, hcm]
      cases f1 with
      | some e => cases hl; exact reach_results_panic _ n cache got _ hc
      | none => simp only [Proc.loop] at hl; cases hl; exact reach_results_panic _ n cache got _ hc
  | cons c1 todo ih =>
    intro c s s' f n cache got e hl hc
    unfold Proc.loop at hl
    cases hcm : s.commit p.env c with
    | mk s1 f1 =>
      rw [hcm] at hl
      cases f1 with
      | some e => cases hl; simp only [Pipe.onCommit, hcm]; exact reach_results_panic _ n cache got _ hc
      | none =>
        simp only at hl
        have hon : p.onCommit s c = .sending (s1.sent.drop s.sent.length) (.loop s1) := by simp only [Pipe.onCommit, hcm]
        rw [hon]
        have hsplit := drop_split (commit_prefix hcm) (loop_prefix _ hl)
        rw [hsplit] at hc ⊢
        rcases codeAll_append_error p _ _ _ _ _ hc with ⟨e', h1⟩ | ⟨o1, k1, e', h1, h2⟩
        · obtain ⟨t, ht, htc⟩ := reach_results_panic (p := p) (x := false) (b := some (.parse (c1 :: todo))) (k := .loop s1) _ n cache got _ h1
          exact ⟨t, ht, htc.left⟩
        · obtain ⟨t, ht, htc⟩ := ih c1 s1 s' f _ _ (got ++ o1) e' hl h2
          refine ⟨t, ?_, CodePanic.append h1 htc⟩
          have first := reach_results (p := p) (x := false) (b := some (.parse (c1 :: todo))) (k := .loop s1) _ n cache k1 got o1 h1
          exact first.trans ((Reach.step (st_parser_caller (l := .parse (c1 :: todo)) (m := .loop (some s1)) rfl rfl rfl)).trans ht)

theorem reach_start (hpre : p.pre = none) (hopen : p.openErr = none) :
    Reach p.act Pipe.init (pst (some (.loop none)) (some (.parse (parseSent p.text).1)) (some (.codeRecv 0 [])) (some .flatRecv)
      (some (.collect [])) (upTo false 0)) := by
  have h0 : (Pipe.init : State PRole PChan (PLoc τ)) = pst (some .cSlice) none none none none (upTo false 0) := by
    refine pst_ext rfl rfl rfl rfl rfl ?_
    funext x; cases x <;> first | rfl | simp [Pipe.init, upTo]
  rw [h0]
  refine (Reach.step (st_go_collect (l := .cSlice) rfl)).trans ?_
  refine (Reach.step (st_go_flat (l := .cCode) rfl)).trans ?_
  refine (Reach.step (st_go_code (l := .cByCommit) (by simp only [Pipe.act, hpre]; rfl))).trans ?_
  exact Reach.step (st_go_parser (l := .cRun) (by simp only [Pipe.act, hopen]))

/-- Some schedule comes to a panic of the goroutine of `CodeByCommit` when a result of the run cannot be turned into records. -/
theorem reach_code_panic (hpre : p.pre = none) (hopen : p.openErr = none) {e : Fault}
    (hc : p.codeAll 0 [] (run p.env p.opts p.read p.graph (parseSent p.text).1).sent = .error e) :
    ∃ t, Reach p.act Pipe.init t ∧ CodePanic p 0 [] [] (run p.env p.opts p.read p.graph (parseSent p.text).1).sent t := by
  have start := reach_start hpre hopen
  generalize hlog : (parseSent p.text).1 = log at *
  cases log with
  | nil => simp only [run] at hc; cases hc
  | cons c0 cs =>
    have recv0 := start.trans (Reach.step (st_parser_caller (l := .parse (c0 :: cs)) (m := .loop none) rfl rfl rfl))
    simp only at recv0
    cases hi : initCheckpoints p.opts p.read with
    | error e => simp only [run, hi] at hc; cases hc
    | ok repo =>
      have hon : p.onFirst none c0 = p.onCommit { graph := p.graph, repo := repo } c0 := by simp [Pipe.onFirst, hi]
      rw [hon] at recv0
      cases hl : Proc.loop p.env { graph := p.graph, repo := repo } (c0 :: cs) with
      | mk s f =>
        have plain : ∀ {e}, p.codeAll 0 [] s.sent = .error e → ∃ t, Reach p.act Pipe.init t ∧ CodePanic p 0 [] [] s.sent t := by
          intro e hc
          obtain ⟨t, ht, htc⟩ := reach_loop_panic cs c0 _ s _ 0 [] [] e hl (by simpa using hc)
          exact ⟨t, recv0.trans ht, by simpa using htc⟩
        cases f with
        | some e1 =>
          have hrun : run p.env p.opts p.read p.graph (c0 :: cs) = { sent := s.sent, fault := some e1, written := none } := by simp [run, hi, hl]
          rw [hrun] at hc ⊢
          exact plain hc
        | none =>
          by_cases hm : s.mergeParts.length > 0
          · cases hfm : s.finishMerge p.env with
            | error e1 =>
              simp only [run, hi, hl, if_pos hm, hfm] at hc ⊢
              exact plain hc
            | ok s1 =>
              simp only [run, hi, hl, if_pos hm, hfm] at hc ⊢
              rw [finishMerge_prefix hfm] at hc ⊢
              rcases codeAll_append_error p _ _ _ _ _ hc with ⟨e', h1⟩ | ⟨o1, k1, e', h1, h2⟩
              · obtain ⟨t, ht, htc⟩ := plain h1
                exact ⟨t, ht, htc.left⟩
              · obtain ⟨rest, hrest, hr⟩ := reach_loop cs c0 _ s _ 0 [] k1 [] o1 hl (by simpa using h1)
                obtain rfl := hrest rfl
                have hone : p.onEnd (some s) = .sending (s1.sent.drop s.sent.length) (.end (some (s1.repo, s1.lastProcessed)) (p.writeErr.map .error)) := by
                  simp only [Pipe.onEnd, if_pos hm, hfm]
                have h3 := (recv0.trans hr).trans (reach_stop (st := some s))
                rw [hone] at h3
                have hlen : 0 + (List.drop ({ graph := p.graph, repo := repo } : Proc).sent.length s.sent).length = 0 + s.sent.length := by simp
                rw [hlen] at h3
                obtain ⟨t, ht, htc⟩ := reach_results_panic (p := p) (b := some .parseDone) (x := true)
                  (k := .end (some (s1.repo, s1.lastProcessed)) (p.writeErr.map .error)) _ _ k1 ([] ++ o1) e' h2
                exact ⟨t, h3.trans ht, CodePanic.append h1 htc⟩
          · simp only [run, hi, hl, if_neg hm] at hc ⊢
            exact plain hc

/-- Some schedule comes to a panic of the caller when the run panics. -/
theorem reach_caller_panic (hpre : p.pre = none) (hopen : p.openErr = none) {w : String}
    (hf : (run p.env p.opts p.read p.graph (parseSent p.text).1).fault = some (.panic w)) {recs : List (CodeRecord τ)} {cache' : GoMap Str Str}
    (hc : p.codeAll 0 [] (run p.env p.opts p.read p.graph (parseSent p.text).1).sent = .ok (recs, cache')) :
    ∃ t, Reach p.act Pipe.init t ∧ t.procs .caller = some (.panicked .caller) ∧ (∃ n, t.procs .code = some (.codeRecv n cache')) ∧
      (t.procs .flat = some .flatRecv ∧ t.closed .res2 = false ∧ t.closed .res = false ∧ t.closed .gitRes = false) ∧ t.procs .collect = some (.collect recs) ∧
      t.closed .doneRun = false ∧ (t.procs .parser = some .parseDone ∨ ∃ cs, t.procs .parser = some (.parse cs) ∧ t.closed .commits = false) := by
  have start := reach_start hpre hopen
  generalize hlog : (parseSent p.text).1 = log at *
  cases log with
  | nil => simp only [run] at hf; cases hf
  | cons c0 cs =>
    have recv0 := start.trans (Reach.step (st_parser_caller (l := .parse (c0 :: cs)) (m := .loop none) rfl rfl rfl))
    simp only at recv0
    cases hi : initCheckpoints p.opts p.read with
    | error e =>
      simp only [run, hi] at hf hc
      cases hf
      cases hc
      have hon : p.onFirst none c0 = .sending [] .panic := by simp [Pipe.onFirst, hi, PAfter.fault]
      rw [hon] at recv0
      exact ⟨_, recv0.trans (Reach.step (st_caller_tau (l := .sending [] .panic) rfl)), rfl, ⟨_, rfl⟩, ⟨rfl, rfl, rfl, rfl⟩, rfl, rfl, .inr ⟨_, rfl, rfl⟩⟩
    | ok repo =>
      have hon : p.onFirst none c0 = p.onCommit { graph := p.graph, repo := repo } c0 := by simp [Pipe.onFirst, hi]
      rw [hon] at recv0
      cases hl : Proc.loop p.env { graph := p.graph, repo := repo } (c0 :: cs) with
      | mk s f =>
        cases f with
        | some e1 =>
          have hrun : run p.env p.opts p.read p.graph (c0 :: cs) = { sent := s.sent, fault := some e1, written := none } := by simp [run, hi, hl]
          rw [hrun] at hc hf
          cases hf
          obtain ⟨rest, _, hr⟩ := reach_loop cs c0 _ s _ 0 [] cache' [] recs hl (by simpa using hc)
          exact ⟨_, recv0.trans hr, rfl, ⟨_, rfl⟩, ⟨rfl, rfl, rfl, rfl⟩, by simp [pst], rfl, .inr ⟨_, rfl, rfl⟩⟩
        | none =>
          by_cases hm : s.mergeParts.length > 0
          · cases hfm : s.finishMerge p.env with
            | ok s1 => simp only [run, hi, hl, if_pos hm, hfm] at hf; cases hf
            | error e1 =>
              simp only [run, hi, hl, if_pos hm, hfm] at hf hc
              obtain ⟨rest, hrest, hr⟩ := reach_loop cs c0 _ s _ 0 [] cache' [] recs hl (by simpa using hc)
              obtain rfl := hrest rfl
              have hone : p.onEnd (some s) = .panicked .caller := by simp only [Pipe.onEnd, if_pos hm, hfm]
              have h3 := (recv0.trans hr).trans (reach_stop (st := some s))
              rw [hone] at h3
              exact ⟨_, h3, rfl, ⟨_, rfl⟩, ⟨rfl, rfl, rfl, rfl⟩, by simp [pst], rfl, .inl rfl⟩
          · simp only [run, hi, hl, if_neg hm] at hf; cases hf

/-- A goroutine that has returned or panicked stays where it is. -/
theorem still {s t : State PRole PChan (PLoc τ)} {r : PRole} {l : PLoc τ} (hl : p.act l = .halt ∨ p.act l = .panic) (hs : s.procs r = some l) (h : Reach p.act s t) :
    t.procs r = some l := by
  obtain ⟨n, hn⟩ := h
  refine hn.inv (P := fun x => x.procs r = some l) ?_ hs
  intro a b ha hab
  obtain ⟨eff, he, rfl⟩ := step_iff.1 hab
  rw [app_not_mem]; exact ha
  intro hmem
  cases he <;> simp [Eff.keys] at hmem <;> grind

/-- A state after which no further record is delivered. -/
structure Frozen (got : List (CodeRecord τ)) (s : State PRole PChan (PLoc τ)) : Prop where
  placed : Placed PLoc.role s
  inv : PipeInv s
  flat : s.procs .flat = some .flatRecv
  collect : s.procs .collect = some (.collect got)
  stop : s.procs .code = some (.panicked .code) ∨
    ((∃ n cache, s.procs .code = some (.codeRecv n cache)) ∧ s.procs .caller = some (.panicked .caller) ∧ s.closed .gitRes = false)
  c1 : s.closed .res2 = false
  c2 : s.closed .res = false

theorem Frozen.step {got : List (CodeRecord τ)} {s t : State PRole PChan (PLoc τ)} (h : Frozen got s) (hst : Step p.act s t) : Frozen got t := by
  have hpl := h.placed.step (pipe_owned p) hst
  have hinv := h.inv.step p h.placed hst
  obtain ⟨eff, he, rfl⟩ := step_iff.1 hst
  have hcode : ∀ {l}, s.procs .code = some l → (∀ c v k, p.act l ≠ .send c v k) ∧ (∀ c f, p.act l = .recv c f → c = .gitRes) := by
    intro l hl
    rcases h.stop with h1 | ⟨⟨n, cache, h1⟩, _⟩
    · rw [h1] at hl; cases hl; simp [Pipe.act]
    · rw [h1] at hl; cases hl
      refine ⟨by simp [Pipe.act], ?_⟩
      intro c f hf
      simp only [Pipe.act] at hf
      injection hf with h1
      exact h1.symm
  have hdead : ∀ {r l}, s.procs r = some l → p.act l = .panic → r ∉ eff.keys := by
    intro r l hr hl hmem
    cases he <;> simp [Eff.keys] at hmem <;> grind
  have hrole : ∀ {r l}, s.procs r = some l → l.role = r := fun hr => h.placed _ _ hr
  -- a receive of `flat` needs the goroutine `code`, a receive of `collect` needs `flat`
  have hflat : PRole.flat ∉ eff.keys := by
    intro hmem
    have hf := h.flat
    cases he with
    | tau h1 h2 => simp [Eff.keys] at hmem; subst hmem; rw [hf] at h1; cases h1; simp [Pipe.act] at h2
    | sync h1 h2 h3 h4 h5 =>
      simp [Eff.keys] at hmem
      rcases hmem with rfl | rfl
      · rw [hf] at h1; cases h1; simp [Pipe.act] at h2
      · rw [hf] at h3; cases h3
        simp only [Pipe.act] at h4
        injection h4 with h6
        subst h6
        have := (pipe_send p h2).1
        rw [hrole h1] at this
        change PRole.code = _ at this
        subst this
        exact (hcode h1).1 _ _ _ h2
    | recvClosed h1 h2 h3 =>
      simp [Eff.keys] at hmem; subst hmem; rw [hf] at h1; cases h1
      simp only [Pipe.act] at h2
      injection h2 with h6
      subst h6
      rw [h.c1] at h3; cases h3
    | close h1 h2 h3 => simp [Eff.keys] at hmem; subst hmem; rw [hf] at h1; cases h1; simp [Pipe.act] at h2
    | go h1 h2 h3 =>
      simp [Eff.keys] at hmem
      rcases hmem with rfl | rfl
      · rw [hf] at h3; cases h3
      · rw [hf] at h1; cases h1; simp [Pipe.act] at h2
    | wait h1 h2 h3 => exact (pipe_wait p h2).elim
  have hcol : PRole.collect ∉ eff.keys := by
    intro hmem
    have hf := h.collect
    cases he with
    | tau h1 h2 => simp [Eff.keys] at hmem; subst hmem; rw [hf] at h1; cases h1; simp [Pipe.act] at h2
    | sync h1 h2 h3 h4 h5 =>
      simp [Eff.keys] at hmem
      rcases hmem with rfl | rfl
      · rw [hf] at h1; cases h1; simp [Pipe.act] at h2
      · rw [hf] at h3; cases h3
        simp only [Pipe.act] at h4
        injection h4 with h6
        subst h6
        have := (pipe_send p h2).1
        rw [hrole h1] at this
        change PRole.flat = _ at this
        subst this
        rw [h.flat] at h1; cases h1
        simp [Pipe.act] at h2
    | recvClosed h1 h2 h3 =>
      simp [Eff.keys] at hmem; subst hmem; rw [hf] at h1; cases h1
      simp only [Pipe.act] at h2
      injection h2 with h6
      subst h6
      rw [h.c2] at h3; cases h3
    | close h1 h2 h3 => simp [Eff.keys] at hmem; subst hmem; rw [hf] at h1; cases h1; simp [Pipe.act] at h2
    | go h1 h2 h3 =>
      simp [Eff.keys] at hmem
      rcases hmem with rfl | rfl
      · rw [hf] at h3; cases h3
      · rw [hf] at h1; cases h1; simp [Pipe.act] at h2
    | wait h1 h2 h3 => exact (pipe_wait p h2).elim
  -- the caller does not close these channels
  have hnot : ∀ l, s.procs .caller = some l → l.afterCode = false := by
    intro l hl
    cases ha : l.afterCode with
    | false => rfl
    | true =>
      exfalso
      rcases h.inv.code l hl ha with h1 | h1 <;> rcases h.stop with h2 | ⟨⟨n, cache, h2⟩, _⟩ <;> rw [h1] at h2 <;> cases h2
  have hclosed : ∀ {c}, c = .res2 ∨ c = .res → s.closed c = false → (eff.app s).closed c = false := by
    intro c hc hcl
    cases he with
    | close h1 h2 h3 =>
      rename_i r l c' k
      simp only [Eff.app, upd]
      split
      · rename_i heq
        exfalso
        subst heq
        have hcw := (pipe_close p h2).1
        rw [hrole h1] at hcw
        have hr : r = .caller := by rcases hc with rfl | rfl <;> exact hcw.symm
        subst hr
        have h5 := hnot _ h1
        have h6 := hrole h1
        cases l with
        | closeRes2 w e => cases h5
        | closeRes w e => cases h5
        | closeGitRes w e => simp [Pipe.act] at h2; rcases hc with rfl | rfl <;> simp at h2
        | sending rs k => cases rs <;> simp [Pipe.act] at h2
        | cByCommit => simp only [Pipe.act] at h2; cases hp : p.pre <;> simp [hp] at h2
        | cRun => simp only [Pipe.act] at h2; cases hp : p.openErr <;> simp [hp] at h2
        | _ => first | (cases h6; done) | (simp [Pipe.act] at h2; done)
      · exact hcl
    | _ => exact hcl
  refine ⟨hpl, hinv, by rw [app_not_mem hflat]; exact h.flat, by rw [app_not_mem hcol]; exact h.collect, ?_, hclosed (.inl rfl) h.c1, hclosed (.inr rfl) h.c2⟩
  rcases h.stop with h1 | ⟨⟨n, cache, h1⟩, h2, h3⟩
  · left
    rw [app_not_mem (hdead h1 rfl)]; exact h1
  · right
    have hcaller := hdead h2 rfl
    have hcd : PRole.code ∉ eff.keys := by
      intro hmem
      cases he with
      | tau h4 h5 => simp [Eff.keys] at hmem; subst hmem; rw [h1] at h4; cases h4; simp [Pipe.act] at h5
      | sync h4 h5 h6 h7 h8 =>
        simp [Eff.keys] at hmem
        rcases hmem with rfl | rfl
        · exact (hcode h4).1 _ _ _ h5
        · have hc := (hcode h6).2 _ _ h7
          subst hc
          have := (pipe_send p h5).1
          rw [hrole h4] at this
          change PRole.caller = _ at this
          subst this
          rw [h2] at h4; cases h4; simp [Pipe.act] at h5
      | recvClosed h4 h5 h6 =>
        simp [Eff.keys] at hmem; subst hmem
        have hc := (hcode h4).2 _ _ h5
        subst hc
        rw [h3] at h6; cases h6
      | close h4 h5 h6 => simp [Eff.keys] at hmem; subst hmem; rw [h1] at h4; cases h4; simp [Pipe.act] at h5
      | go h4 h5 h6 =>
        simp [Eff.keys] at hmem
        rcases hmem with rfl | rfl
        · rw [h1] at h6; cases h6
        · rw [h1] at h4; cases h4; simp [Pipe.act] at h5
      | wait h1 h2 h3 => exact (pipe_wait p h2).elim
    refine ⟨⟨n, cache, by rw [app_not_mem hcd]; exact h1⟩, by rw [app_not_mem hcaller]; exact h2, ?_⟩
    cases he with
    | close h4 h5 h6 =>
      rename_i r l c' k
      simp only [Eff.app, upd]
      split
      · rename_i heq
        exfalso
        subst heq
        have hcw := (pipe_close p h5).1
        rw [hrole h4] at hcw
        change PRole.caller = _ at hcw
        subst hcw
        simp [Eff.keys] at hcaller
      · exact h3
    | _ => exact h3

theorem Frozen.reach {got : List (CodeRecord τ)} {s t : State PRole PChan (PLoc τ)} (h : Frozen got s) (hst : Reach p.act s t) : Frozen got t := by
  obtain ⟨n, hn⟩ := hst
  exact hn.inv (P := Frozen got) (fun _ _ h hs => h.step hs) h

theorem Frozen.crashed {got : List (CodeRecord τ)} {s : State PRole PChan (PLoc τ)} (h : Frozen got s) : Crashed p.act s := by
  rcases h.stop with h1 | ⟨_, h2, _⟩
  · exact ⟨_, _, h1, .inl rfl⟩
  · exact ⟨_, _, h2, .inl rfl⟩

theorem Frozen.not_returned {got : List (CodeRecord τ)} {s : State PRole PChan (PLoc τ)} (h : Frozen got s) (w : Option (Repo × Str)) (e : Option Fault)
    (res : List (CodeRecord τ)) : s.procs .caller ≠ some (.returned w e res) := by
  intro hr
  rcases h.stop with h1 | ⟨_, h2, _⟩
  · rcases h.inv.code _ hr rfl with h3 | h3 <;> rw [h1] at h3 <;> cases h3
  · rw [hr] at h2; cases h2

end Ripsrc
