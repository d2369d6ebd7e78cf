import Verif.Model.Access
import Verif.Lib.Race
import Verif.Lib.Pipeline
import Verif.Lib.Pool
import Verif.Model.MemLogs
import Verif.Props.GetAll
import Verif.Props.Whole
import Verif.Props.Pool
/-!
# C79: no data races
-/
namespace Ripsrc
open Conc
variable {τ : Type}

def _root_.Ripsrc.Conc.Access.var {X : Type} : Access X → X
  | .read x | .write x => x

theorem conflict_var {X : Type} {a b : Access X} (h : a.Conflict b) : a.var = b.var := by
  cases a <;> cases b <;> first | exact h | exact h.elim
theorem conflict_symm {X : Type} {a b : Access X} (h : a.Conflict b) : b.Conflict a := by
  cases a <;> cases b <;> first | exact Eq.symm h | exact h.elim

/-! ## CodeSlice -/

/-- How far the caller is. -/
def PLoc.phase : PLoc τ → Nat
  | .cSlice => 0
  | .cCode => 1
  | .cByCommit => 2
  | .cRun => 3
  | .loop _ | .sending _ _ | .drain _ | .joinRun _ _ => 4
  | .closeGitRes _ _ => 5
  | .joinByCommit _ _ => 6
  | .closeRes2 _ _ => 7
  | .joinCode _ _ => 8
  | .closeRes _ _ => 9
  | .joinSlice _ _ => 10
  | .returned _ _ _ => 11
  | _ => 12

/-- The steps of the caller. -/
inductive PEdge (p : Pipe τ) (l k : PLoc τ) : Prop where
  | slice (h : l.phase = 0) (h' : k.phase = 1) (g) (a : p.act l = .go .collect g k)
  | code (h : l.phase = 1) (h' : k.phase = 2) (g) (a : p.act l = .go .flat g k)
  | pre (h : l.phase = 2) (h' : k.phase = 7) (a : p.act l = .tau k)
  | byCommit (h : l.phase = 2) (h' : k.phase = 3) (g) (a : p.act l = .go .code g k)
  | noLog (h : l.phase = 3) (h' : k.phase = 5) (a : p.act l = .tau k)
  | run (h : l.phase = 3) (h' : k.phase = 4) (g) (a : p.act l = .go .parser g k)
  | mid (h : l.phase = 4) (h' : k.phase = 4 ∨ k.phase = 12) (a : ∀ n g k', p.act l ≠ .go n g k')
  | joinRun (h : l.phase = 4) (h' : k.phase = 5) (f) (a : p.act l = .recv .doneRun f)
  | closeGitRes (h : l.phase = 5) (h' : k.phase = 6) (a : p.act l = .close .gitRes k)
  | joinByCommit (h : l.phase = 6) (h' : k.phase = 7) (f) (a : p.act l = .recv .doneByCommit f)
  | closeRes2 (h : l.phase = 7) (h' : k.phase = 8) (a : p.act l = .close .res2 k)
  | joinCode (h : l.phase = 8) (h' : k.phase = 9) (f) (a : p.act l = .recv .doneCode f)
  | closeRes (h : l.phase = 9) (h' : k.phase = 10) (a : p.act l = .close .res k)
  | joinSlice (h : l.phase = 10) (h' : k.phase = 11 ∨ k.phase = 12) (f) (a : p.act l = .recv .doneSlice f)

theorem after_phase (k : PAfter) : (k.loc : PLoc τ).phase = 4 ∨ (k.loc : PLoc τ).phase = 12 := by
  cases k <;> first | exact .inl rfl | exact .inr rfl
theorem onFirst_phase (p : Pipe τ) (st : Option Proc) (c : LogCommit) : (p.onFirst st c).phase = 4 := by
  cases st with
  | some s => rfl
  | none => unfold Pipe.onFirst; cases initCheckpoints p.opts p.read <;> rfl
theorem onEnd_phase (p : Pipe τ) (st : Option Proc) : (p.onEnd st).phase = 4 ∨ (p.onEnd st).phase = 12 := by
  cases st with
  | none => exact .inl rfl
  | some s =>
    by_cases h : s.mergeParts.length > 0
    · simp only [Pipe.onEnd, if_pos h]
      cases s.finishMerge p.env <;> first | exact .inl rfl | exact .inr rfl
    · simp only [Pipe.onEnd, if_neg h]
      exact .inl rfl

theorem nxt_recv {R C V L : Type} {act : L → Conc.Act R C V L} {l k : L} (h : Nxt act l k) {c : C} {f : Option V → L} (ha : act l = .recv c f) : ∃ o, k = f o := by
  simp only [Nxt, ha, reduceCtorEq, false_or, or_false, Conc.Act.recv.injEq, exists_const, exists_false] at h
  obtain ⟨c, f, o, ⟨rfl, rfl⟩, rfl⟩ := h
  exact ⟨o, rfl⟩

theorem pipe_edge (p : Pipe τ) {l k : PLoc τ} (hl : l.role = .caller) (h : Nxt p.act l k) : PEdge p l k := by
  cases l with
  | cSlice =>
    simp [Nxt, Pipe.act] at h
    subst h; exact .slice rfl rfl _ rfl
  | cCode =>
    simp [Nxt, Pipe.act] at h
    subst h; exact .code rfl rfl _ rfl
  | cByCommit =>
    have hact : p.act .cByCommit = match p.pre with
      | some e => .tau (.closeRes2 none (some (.error e)))
      | none => .go .code (.codeRecv 0 []) .cRun := rfl
    cases hp : p.pre with
    | some e =>
      simp [Nxt, hact, hp] at h
      subst h; exact .pre rfl rfl (by rw [hact, hp])
    | none =>
      simp [Nxt, hact, hp] at h
      subst h; exact .byCommit rfl rfl _ (by rw [hact, hp])
  | cRun =>
    have hact : p.act .cRun = match p.openErr with
      | some e => .tau (.closeGitRes none (some (.error e)))
      | none => .go .parser (.parse (parseSent p.text).1) (.loop none) := rfl
    cases hp : p.openErr with
    | some e =>
      simp [Nxt, hact, hp] at h
      subst h; exact .noLog rfl rfl (by rw [hact, hp])
    | none =>
      simp [Nxt, hact, hp] at h
      subst h; exact .run rfl rfl _ (by rw [hact, hp])
  | loop st =>
    obtain ⟨o, rfl⟩ := nxt_recv h rfl
    refine .mid rfl ?_ (by simp [Pipe.act])
    rcases o with _ | v
    · exact onEnd_phase p st
    · cases v <;> first | exact .inr rfl | exact .inl (onFirst_phase p st _)
  | sending rs k' =>
    cases rs with
    | nil =>
      simp [Nxt, Pipe.act] at h
      subst h
      exact .mid rfl (after_phase k') (by simp [Pipe.act])
    | cons r rs =>
      simp [Nxt, Pipe.act] at h
      subst h
      exact .mid rfl (.inl rfl) (by simp [Pipe.act])
  | drain e =>
    obtain ⟨o, rfl⟩ := nxt_recv h rfl
    refine .mid rfl ?_ (by simp [Pipe.act])
    rcases o with _ | v <;> exact .inl rfl
  | joinRun w e =>
    obtain ⟨o, rfl⟩ := nxt_recv h rfl
    exact .joinRun rfl rfl _ rfl
  | closeGitRes w e =>
    simp [Nxt, Pipe.act] at h
    subst h; exact .closeGitRes rfl rfl rfl
  | joinByCommit w e =>
    obtain ⟨o, rfl⟩ := nxt_recv h rfl
    exact .joinByCommit rfl rfl _ rfl
  | closeRes2 w e =>
    simp [Nxt, Pipe.act] at h
    subst h; exact .closeRes2 rfl rfl rfl
  | joinCode w e =>
    obtain ⟨o, rfl⟩ := nxt_recv h rfl
    exact .joinCode rfl rfl _ rfl
  | closeRes w e =>
    simp [Nxt, Pipe.act] at h
    subst h; exact .closeRes rfl rfl rfl
  | joinSlice w e =>
    obtain ⟨o, rfl⟩ := nxt_recv h rfl
    refine .joinSlice rfl ?_ _ rfl
    rcases o with _ | v
    · exact .inr rfl
    · cases v <;> first | exact .inr rfl | exact .inl rfl
  | returned w e r => simp [Nxt, Pipe.act] at h
  | panicked r => simp [Nxt, Pipe.act] at h
  | _ => cases hl

theorem pipe_send_ends (p : Pipe τ) {l c v k} (h : p.act l = .send c v k) :
    (c = .doneByCommit → k = .codeEnd) ∧ (c = .doneCode → k = .flatEnd) ∧ (c = .doneRun → k = .parsed ∨ k = .panicked .parser) ∧ (c = .doneSlice → ∃ g, k = .collected g) := by
  cases l with
  | sending rs k' => cases rs <;> simp [Pipe.act] at h; obtain ⟨rfl, rfl, rfl⟩ := h; simp
  | parse rs => cases rs <;> simp [Pipe.act] at h; obtain ⟨rfl, rfl, rfl⟩ := h; simp
  | codeRecs _ _ rs => cases rs <;> simp [Pipe.act] at h; obtain ⟨rfl, rfl, rfl⟩ := h; simp
  | cByCommit => simp only [Pipe.act] at h; cases hp : p.pre <;> simp [hp] at h
  | cRun => simp only [Pipe.act] at h; cases hp : p.openErr <;> simp [hp] at h
  | parseDone =>
    simp only [Pipe.act] at h
    injection h with h1 h2 h3
    subst h1 h3
    cases (parseSent p.text).2 <;> simp
  | _ => simp [Pipe.act] at h <;> (obtain ⟨rfl, rfl, rfl⟩ := h; simp)

theorem pipe_halt (p : Pipe τ) {l : PLoc τ} (h : p.act l = .halt) :
    (∃ w e r, l = .returned w e r) ∨ l = .parsed ∨ l = .codeEnd ∨ l = .flatEnd ∨ ∃ g, l = .collected g := by
  cases l with
  | sending rs k' => cases rs <;> simp [Pipe.act] at h
  | parse rs => cases rs <;> simp [Pipe.act] at h
  | codeRecs _ _ rs => cases rs <;> simp [Pipe.act] at h
  | cByCommit => simp only [Pipe.act] at h; cases hp : p.pre <;> simp [hp] at h
  | cRun => simp only [Pipe.act] at h; cases hp : p.openErr <;> simp [hp] at h
  | _ => simp [Pipe.act] at h <;> simp

theorem pipe_close_chan (p : Pipe τ) {l c k} (h : p.act l = .close c k) : c = .res ∨ c = .res2 ∨ c = .gitRes ∨ c = .commits ∨ ∃ i, c = .blames i := by
  cases l with
  | sending rs k' => cases rs <;> simp [Pipe.act] at h
  | parse rs => cases rs <;> simp [Pipe.act] at h; simp [← h.1]
  | codeRecs _ _ rs => cases rs <;> simp [Pipe.act] at h; simp [← h.1]
  | cByCommit => simp only [Pipe.act] at h; cases hp : p.pre <;> simp [hp] at h
  | cRun => simp only [Pipe.act] at h; cases hp : p.openErr <;> simp [hp] at h
  | _ => simp [Pipe.act] at h <;> simp [← h.1]

theorem pipe_roles (p : Pipe τ) : Roles p.act PLoc.role where
  next := by
    rintro l k (h | ⟨c, v, h⟩ | ⟨c, f, o, h, rfl⟩ | ⟨c, h⟩ | ⟨n, g, h⟩ | ⟨rs, h⟩)
    · exact (pipe_tau p h).2.1
    · exact (pipe_send p h).2
    · exact (pipe_recv p h).2 o
    · exact (pipe_close p h).2.1
    · exact (pipe_go p h).2.2.1
    · exact (pipe_wait p h).elim
  go := fun h => (pipe_go p h).2.1

/-- The caller and one of its children; `b` is the last phase before the child is started, `a` the first phase after it was waited for. -/
theorem pipe_forkJoin (p : Pipe τ) {ch : PRole} {d : PChan} {b a : Nat} {E : PLoc τ → Prop}
    (h : (ch = .code ∧ d = .doneByCommit ∧ b = 2 ∧ a = 7 ∧ E = (· = .codeEnd)) ∨
      (ch = .parser ∧ d = .doneRun ∧ b = 3 ∧ a = 5 ∧ E = (fun l => l = .parsed ∨ l = .panicked .parser)) ∨
      (ch = .collect ∧ d = .doneSlice ∧ b = 0 ∧ a = 11 ∧ E = (fun l => ∃ g, l = .collected g))) :
    ForkJoin p.act PLoc.role .caller ch (some d) (fun l => l.phase ≤ b) (fun l => a ≤ l.phase ∧ l.phase ≤ 11) E where
  ne := by rcases h with ⟨rfl, _⟩ | ⟨rfl, _⟩ | ⟨rfl, _⟩ <;> simp
  fresh := by
    intro l k hl hn hB
    have he := pipe_edge p hl hn
    rcases h with ⟨rfl, rfl, rfl, rfl, rfl⟩ | ⟨rfl, rfl, rfl, rfl, rfl⟩ | ⟨rfl, rfl, rfl, rfl, rfl⟩ <;> cases he <;> (try omega) <;>
      (refine ⟨by omega, ?_⟩; simp_all)
  join := by
    intro l k hl hn hA
    have he := pipe_edge p hl hn
    rcases h with ⟨rfl, rfl, rfl, rfl, rfl⟩ | ⟨rfl, rfl, rfl, rfl, rfl⟩ | ⟨rfl, rfl, rfl, rfl, rfl⟩ <;> cases he <;> (try omega) <;>
      first
      | (refine .inl ⟨by omega, ?_⟩; simp_all; done)
      | (exact .inr (.inl ⟨_, _, rfl, by assumption⟩))
  done := by
    intro l c v k hd hs
    cases hd
    obtain ⟨h1, h2, h3, h4⟩ := pipe_send_ends p hs
    rw [(pipe_send p hs).1.symm]
    rcases h with ⟨rfl, rfl, rfl, rfl, rfl⟩ | ⟨rfl, rfl, rfl, rfl, rfl⟩ | ⟨rfl, rfl, rfl, rfl, rfl⟩
    · exact ⟨rfl, h1 rfl⟩
    · exact ⟨rfl, h3 rfl⟩
    · exact ⟨rfl, h4 rfl⟩
  stay := by
    intro l k hl hE hn
    exfalso
    rcases h with ⟨rfl, rfl, rfl, rfl, rfl⟩ | ⟨rfl, rfl, rfl, rfl, rfl⟩ | ⟨rfl, rfl, rfl, rfl, rfl⟩
    · cases hE; simp [Nxt, Pipe.act] at hn
    · rcases hE with rfl | rfl <;> simp [Nxt, Pipe.act] at hn
    · obtain ⟨g, rfl⟩ := hE; simp [Nxt, Pipe.act] at hn
  halt := by
    intro l hl hh
    have := pipe_halt p hh
    rcases h with ⟨rfl, rfl, rfl, rfl, rfl⟩ | ⟨rfl, rfl, rfl, rfl, rfl⟩ | ⟨rfl, rfl, rfl, rfl, rfl⟩ <;> rcases this with ⟨_, _, _, rfl⟩ | rfl | rfl | rfl | ⟨_, rfl⟩ <;>
      first | (cases hl; done) | exact rfl | exact .inl rfl | exact ⟨_, rfl⟩
  noclose := by
    intro l c k hd hc
    cases hd
    have := pipe_close_chan p hc
    rcases h with ⟨rfl, rfl, rfl, rfl, rfl⟩ | ⟨rfl, rfl, rfl, rfl, rfl⟩ | ⟨rfl, rfl, rfl, rfl, rfl⟩ <;> simp at this
  spawn := fun hg => (pipe_go p hg).1.symm

/-- A child touches only its own variables. -/
def PVar.child : PVar → PRole
  | .result => .collect
  | .commitMeta | .fileInfo | .codeTimings => .code
  | .log => .parser
  | .commitGraph | .gitTimings | .processor => .caller

theorem pacc_child {l : PLoc τ} (hl : l.role ≠ .caller) {a : Access PVar} (ha : a ∈ l.acc) : a.var.child = l.role := by
  cases l with
  | panicked r => cases r <;> simp [PLoc.acc, PLoc.role] at ha hl ⊢ <;> (try rcases ha with rfl | rfl | rfl) <;> (try subst ha) <;> rfl
  | _ => first
    | (simp [PLoc.role] at hl; done)
    | (simp [PLoc.acc] at ha; done)
    | (simp [PLoc.acc] at ha; rcases ha with rfl | rfl | rfl <;> rfl)
    | (simp [PLoc.acc] at ha; subst ha; rfl)

/-- No state of `CodeSlice` has conflicting accesses. -/
theorem pipe_not_racy (p : Pipe τ) {s : State PRole PChan (PLoc τ)} (h : Reach p.act Pipe.init s) : ¬ Racy PLoc.acc s := by
  have hp0 : Placed PLoc.role (Pipe.init : State PRole PChan (PLoc τ)) := by
    intro r l hl
    simp only [Pipe.init] at hl
    split at hl
    · cases hl; subst_vars; rfl
    · cases hl
  have hp := (pipe_roles p).reach hp0 h
  have hj : ∀ (ch : PRole) (d : PChan) (b a : Nat) (E : PLoc τ → Prop), ForkJoin p.act PLoc.role .caller ch (some d) (fun l => l.phase ≤ b) (fun l => a ≤ l.phase ∧ l.phase ≤ 11) E →
      Joined .caller ch (some d) (fun l : PLoc τ => l.phase ≤ b) (fun l => a ≤ l.phase ∧ l.phase ≤ 11) E s := by
    intro ch d b a E fj
    refine Joined.reach fj (pipe_roles p) hp0 ⟨by simp [Pipe.init], ?_, ?_, fun _ _ => rfl⟩ h
    · intro l _ _; simp [Pipe.init, Ne.symm fj.ne]
    · intro l _ _ m hm; simp [Pipe.init, Ne.symm fj.ne] at hm
  have j1 := hj _ _ _ _ _ (pipe_forkJoin p (.inl ⟨rfl, rfl, rfl, rfl, rfl⟩))
  have j2 := hj _ _ _ _ _ (pipe_forkJoin p (.inr (.inl ⟨rfl, rfl, rfl, rfl, rfl⟩)))
  have j3 := hj _ _ _ _ _ (pipe_forkJoin p (.inr (.inr ⟨rfl, rfl, rfl, rfl, rfl⟩)))
  clear hj
  -- the caller against a child
  have key : ∀ {q l m a b}, q ≠ PRole.caller → s.procs .caller = some l → s.procs q = some m → a ∈ l.acc → b ∈ m.acc → a.Conflict b → False := by
    intro q l m a b hq hl hm ha hb hab
    have hv := conflict_var hab
    have hmr := hp _ _ hm
    have hc := pacc_child (by rw [hmr]; exact hq) hb
    rw [hmr, ← hv] at hc
    clear hv hab
    -- the child has not been started
    have fresh : ∀ {n : Nat}, l.phase ≤ n → (q = .code ∧ n = 2 ∨ q = .parser ∧ n = 3 ∨ q = .collect ∧ n = 0) → False := by
      intro n h1 h2
      rcases h2 with ⟨rfl, rfl⟩ | ⟨rfl, rfl⟩ | ⟨rfl, rfl⟩
      · rw [j1.fresh l hl h1] at hm; cases hm
      · rw [j2.fresh l hl h1] at hm; cases hm
      · rw [j3.fresh l hl h1] at hm; cases hm
    -- the child has ended
    have ended : ∀ {n : Nat}, n ≤ l.phase → l.phase ≤ 11 → (q = .code ∧ n = 7 ∨ q = .parser ∧ n = 5 ∨ q = .collect ∧ n = 11) → False := by
      intro n h1 h1' h2
      rcases h2 with ⟨rfl, rfl⟩ | ⟨rfl, rfl⟩ | ⟨rfl, rfl⟩
      · cases j1.ended l hl ⟨h1, h1'⟩ m hm; simp [PLoc.acc] at hb
      · rcases j2.ended l hl ⟨h1, h1'⟩ m hm with rfl | rfl <;> simp [PLoc.acc] at hb
      · obtain ⟨g, rfl⟩ := j3.ended l hl ⟨h1, h1'⟩ m hm; simp [PLoc.acc] at hb
    have hlr := hp _ _ hl
    cases l with
    | cSlice =>
      have hcases : q = .code ∨ q = .parser ∨ q = .collect := by
        rw [← hc]
        rw [← hc] at hq
        cases hv : a.var <;> simp [hv, PVar.child] at hq ⊢
      rcases hcases with rfl | rfl | rfl
      · exact fresh (n := 2) (Nat.zero_le _) (.inl ⟨rfl, rfl⟩)
      · exact fresh (n := 3) (Nat.zero_le _) (.inr (.inl ⟨rfl, rfl⟩))
      · exact fresh (n := 0) (Nat.zero_le _) (.inr (.inr ⟨rfl, rfl⟩))
    | returned w e r =>
      have hcases : q = .code ∨ q = .parser ∨ q = .collect := by
        rw [← hc]
        rw [← hc] at hq
        cases hv : a.var <;> simp [hv, PVar.child] at hq ⊢
      have h11 : (PLoc.returned w e r : PLoc τ).phase = 11 := rfl
      rcases hcases with rfl | rfl | rfl
      · exact ended (n := 7) (by omega) (by omega) (.inl ⟨rfl, rfl⟩)
      · exact ended (n := 5) (by omega) (by omega) (.inr (.inl ⟨rfl, rfl⟩))
      · exact ended (n := 11) (by omega) (by omega) (.inr (.inr ⟨rfl, rfl⟩))
    | cByCommit =>
      simp [PLoc.acc] at ha
      rcases ha with rfl | rfl
      · exact hq hc.symm
      · exact fresh (n := 2) (by simp [PLoc.phase]) (.inl ⟨hc.symm, rfl⟩)
    | cRun =>
      simp [PLoc.acc] at ha
      rcases ha with rfl | rfl | rfl
      · exact hq hc.symm
      · exact hq hc.symm
      · exact fresh (n := 3) (by simp [PLoc.phase]) (.inr (.inl ⟨hc.symm, rfl⟩))
    | closeGitRes w e =>
      simp [PLoc.acc] at ha
      subst ha
      exact ended (n := 5) (by simp [PLoc.phase]) (by simp [PLoc.phase]) (.inr (.inl ⟨hc.symm, rfl⟩))
    | panicked r =>
      cases r <;> simp [PLoc.role] at hlr
      simp [PLoc.acc] at ha
      rcases ha with rfl | rfl <;> exact hq hc.symm
    | _ => first
      | (cases hlr; done)
      | (simp [PLoc.acc] at ha; done)
      | (simp [PLoc.acc] at ha; rcases ha with rfl | rfl <;> exact hq hc.symm)
  rintro ⟨q, r, l, m, a, b, hne, hq, hr, ha, hb, hab⟩
  by_cases hqc : q = .caller
  · subst hqc
    exact key (Ne.symm hne) hq hr ha hb hab
  · by_cases hrc : r = .caller
    · subst hrc
      exact key hqc hr hq hb ha (conflict_symm hab)
    · have h1 := pacc_child (by rw [hp _ _ hq]; exact hqc) ha
      have h2 := pacc_child (by rw [hp _ _ hr]; exact hrc) hb
      rw [hp _ _ hq] at h1
      rw [hp _ _ hr] at h2
      rw [conflict_var hab, h2] at h1
      exact hne h1.symm

/-- `CodeSlice` has no data race. -/
theorem C79_code (p : Pipe τ) : RaceFree p.act PLoc.acc Pipe.init := raceFree_of fun _ h => pipe_not_racy p h

/-! ## BranchesSlice -/

/-- The steps of the caller. -/
inductive BEdge (p : Pool) (l k : BLoc) : Prop where
  | slice (h : l.stage = 0) (h' : k.stage = 1) (g) (a : p.act l = .go .collect g k)
  | pre (h : l.stage = 1) (h' : k.stage = 9 ∨ k.stage = 12) (a : p.act l = .tau k)
  | branches (h : l.stage = 1) (h' : k.stage = 2) (g) (a : p.act l = .go .fwd g k)
  | run (h : l.stage = 2 ∨ l.stage = 4) (h' : l.stage < k.stage ∧ k.stage ≤ 5 ∨ k.stage = 7 ∨ k.stage = 12) (a : p.act l = .tau k)
  | default (h : l.stage = 3) (h' : k.stage = 4) (c v) (a : p.act l = .send c v k)
  | feeder (h : l.stage = 5) (dh reach) (h' : k = .spawn dh reach 0) (g) (a : p.act l = .go .feeder g k)
  | spawn (dh reach i) (h : l = .spawn dh reach i) (hi : i < p.workers) (h' : k = .spawn dh reach (i + 1)) (g) (a : p.act l = .go (.worker i) g k)
  | wait (dh reach i) (h : l = .spawn dh reach i) (hi : ¬ i < p.workers) (h' : k.stage = 7) (a : p.act l = .wait ((List.range p.workers).map .worker) k)
  | closeRes2 (h : l.stage = 7) (h' : k.stage = 8) (a : p.act l = .close .res2 k)
  | joinFwd (h : l.stage = 8) (h' : k.stage = 9) (f) (a : p.act l = .recv .doneFwd f)
  | closeRes (h : l.stage = 9) (h' : k.stage = 10) (a : p.act l = .close .res k)
  | joinCollect (h : l.stage = 10) (h' : k.stage = 11 ∨ k.stage = 12) (f) (a : p.act l = .recv .doneCollect f)

theorem failRun_stage (e : Fault) : (failRun e).stage = 7 ∨ (failRun e).stage = 12 := by
  cases e <;> first | exact .inl rfl | exact .inr rfl
theorem failPre_stage (e : Fault) : (failPre e).stage = 9 ∨ (failPre e).stage = 12 := by
  cases e <;> first | exact .inl rfl | exact .inr rfl
theorem failRun_role (e : Fault) : (failRun e).role = .caller := by cases e <;> rfl
theorem failPre_role (e : Fault) : (failPre e).role = .caller := by cases e <;> rfl

theorem onRun_stage (p : Pool) : (2 < p.onRun.stage ∧ p.onRun.stage ≤ 5 ∨ p.onRun.stage = 7 ∨ p.onRun.stage = 12) ∧ p.onRun.role = .caller := by
  unfold Pool.onRun
  split
  · exact ⟨.inr (failRun_stage _), failRun_role _⟩
  · split
    · split
      · exact ⟨.inr (failRun_stage _), failRun_role _⟩
      · split
        · exact ⟨.inr (failRun_stage _), failRun_role _⟩
        · exact ⟨.inl ⟨by simp [BLoc.stage], by simp [BLoc.stage]⟩, rfl⟩
    · exact ⟨.inl ⟨by simp [BLoc.stage], by simp [BLoc.stage]⟩, rfl⟩

theorem onWork_stage (p : Pool) (dh : Str) : (4 < (p.onWork dh).stage ∧ (p.onWork dh).stage ≤ 5 ∨ (p.onWork dh).stage = 7 ∨ (p.onWork dh).stage = 12) ∧
    (p.onWork dh).role = .caller := by
  unfold Pool.onWork
  split
  · exact ⟨.inr (failRun_stage _), failRun_role _⟩
  · split
    · exact ⟨.inr (failRun_stage _), failRun_role _⟩
    · exact ⟨.inl ⟨by simp [BLoc.stage], by simp [BLoc.stage]⟩, rfl⟩

theorem onItem_role (p : Pool) (i : Nat) (dh : Str) (reach : List Str) (x : Str × Str) : (p.onItem i dh reach x).role = .worker i := by
  unfold Pool.onItem
  split <;> rfl

theorem pool_roles (p : Pool) : Roles p.act BLoc.role where
  next := by
    intro l k h
    cases l with
    | cBranches =>
      have hact : p.act .cBranches = match p.pre with
        | some e => .tau (failPre e)
        | none => .go .fwd .fwdRecv .cRun := rfl
      cases hp : p.pre with
      | some e => simp [Nxt, hact, hp] at h; subst h; exact failPre_role e
      | none => simp [Nxt, hact, hp] at h; subst h; rfl
    | cRun => simp [Nxt, Pool.act] at h; subst h; exact (onRun_stage p).2
    | cWork dh => simp [Nxt, Pool.act] at h; subst h; exact (onWork_stage p dh).2
    | spawn dh reach i =>
      by_cases hi : i < p.workers <;> simp [Nxt, Pool.act, hi] at h <;> subst h <;> rfl
    | feed xs => cases xs <;> simp [Nxt, Pool.act] at h <;> subst h <;> rfl
    | work i dh reach =>
      obtain ⟨o, rfl⟩ := nxt_recv h rfl
      rcases o with _ | v
      · rfl
      · cases v <;> first | rfl | exact onItem_role p _ _ _ _
    | joinFwd e => obtain ⟨o, rfl⟩ := nxt_recv h rfl; rfl
    | joinCollect e => obtain ⟨o, rfl⟩ := nxt_recv h rfl; (rcases o with _ | v; rfl; cases v <;> rfl)
    | fwdRecv => obtain ⟨o, rfl⟩ := nxt_recv h rfl; (rcases o with _ | v; rfl; cases v <;> rfl)
    | collect g => obtain ⟨o, rfl⟩ := nxt_recv h rfl; (rcases o with _ | v; rfl; cases v <;> rfl)
    | _ => simp [Nxt, Pool.act] at h <;> (subst h; rfl)
  go := by
    intro l n g k h
    cases l with
    | cBranches =>
      simp only [Pool.act] at h
      cases hp : p.pre <;> simp [hp] at h
      obtain ⟨rfl, rfl, rfl⟩ := h; rfl
    | spawn dh reach i =>
      by_cases hi : i < p.workers <;> simp [Pool.act, hi] at h
      obtain ⟨rfl, rfl, rfl⟩ := h; rfl
    | feed xs => cases xs <;> simp [Pool.act] at h
    | _ => simp [Pool.act] at h <;> (obtain ⟨rfl, rfl, rfl⟩ := h; rfl)

theorem pool_edge (p : Pool) {l k : BLoc} (hl : l.role = .caller) (h : Nxt p.act l k) : BEdge p l k := by
  cases l with
  | cSlice => simp [Nxt, Pool.act] at h; subst h; exact .slice rfl rfl _ rfl
  | cBranches =>
    have hact : p.act .cBranches = match p.pre with
      | some e => .tau (failPre e)
      | none => .go .fwd .fwdRecv .cRun := rfl
    cases hp : p.pre with
    | some e => simp [Nxt, hact, hp] at h; subst h; exact .pre rfl (failPre_stage e) (by rw [hact, hp])
    | none => simp [Nxt, hact, hp] at h; subst h; exact .branches rfl rfl _ (by rw [hact, hp])
  | cRun => simp [Nxt, Pool.act] at h; subst h; exact .run (.inl rfl) (onRun_stage p).1 rfl
  | sendDefault b dh => simp [Nxt, Pool.act] at h; subst h; exact .default rfl rfl _ _ rfl
  | cWork dh => simp [Nxt, Pool.act] at h; subst h; exact .run (.inr rfl) (onWork_stage p dh).1 rfl
  | startFeeder dh reach items => simp [Nxt, Pool.act] at h; subst h; exact .feeder rfl _ _ rfl _ rfl
  | spawn dh reach i =>
    by_cases hi : i < p.workers
    · simp [Nxt, Pool.act, hi] at h; subst h; exact .spawn _ _ _ rfl hi rfl _ (by simp [Pool.act, hi]; rfl)
    · simp [Nxt, Pool.act, hi] at h; subst h; exact .wait _ _ _ rfl hi rfl (by simp [Pool.act, hi])
  | closeRes2 e => simp [Nxt, Pool.act] at h; subst h; exact .closeRes2 rfl rfl rfl
  | joinFwd e => obtain ⟨o, rfl⟩ := nxt_recv h rfl; exact .joinFwd rfl rfl _ rfl
  | closeRes e => simp [Nxt, Pool.act] at h; subst h; exact .closeRes rfl rfl rfl
  | joinCollect e =>
    obtain ⟨o, rfl⟩ := nxt_recv h rfl
    refine .joinCollect rfl ?_ _ rfl
    rcases o with _ | v
    · exact .inr rfl
    · cases v <;> first | exact .inr rfl | exact .inl rfl
  | returned e bs => simp [Nxt, Pool.act] at h
  | panicked r => simp [Nxt, Pool.act] at h
  | _ => cases hl

theorem pool_go (p : Pool) {l n g k} (h : p.act l = .go n g k) : l.role = .caller := by
  cases l with
  | cBranches => rfl
  | spawn dh reach i => rfl
  | feed xs => cases xs <;> simp [Pool.act] at h
  | _ => simp [Pool.act] at h <;> rfl

theorem pool_send_done (p : Pool) {l v k} (h : p.act l = .send .doneCollect v k) : l.role = .collect ∧ ∃ g, k = .collected g := by
  cases l with
  | cBranches => simp only [Pool.act] at h; cases hp : p.pre <;> simp [hp] at h
  | spawn dh reach i => by_cases hi : i < p.workers <;> simp [Pool.act, hi] at h
  | feed xs => cases xs <;> simp [Pool.act] at h
  | _ => simp [Pool.act] at h <;> (obtain ⟨rfl, rfl⟩ := h; exact ⟨rfl, _, rfl⟩)

theorem pool_halt (p : Pool) {l : BLoc} (h : p.act l = .halt) :
    (∃ e bs, l = .returned e bs) ∨ l = .fed ∨ (∃ i, l = .workEnd i) ∨ l = .fwdEnd ∨ ∃ g, l = .collected g := by
  cases l with
  | cBranches => simp only [Pool.act] at h; cases hp : p.pre <;> simp [hp] at h
  | spawn dh reach i => by_cases hi : i < p.workers <;> simp [Pool.act, hi] at h
  | feed xs => cases xs <;> simp [Pool.act] at h
  | _ => simp [Pool.act] at h <;> simp

theorem pool_close_chan (p : Pool) {l c k} (h : p.act l = .close c k) : c = .res ∨ c = .res2 ∨ c = .work := by
  cases l with
  | cBranches => simp only [Pool.act] at h; cases hp : p.pre <;> simp [hp] at h
  | spawn dh reach i => by_cases hi : i < p.workers <;> simp [Pool.act, hi] at h
  | feed xs => cases xs <;> simp [Pool.act] at h; simp [← h.1]
  | _ => simp [Pool.act] at h <;> simp [← h.1]

theorem pool_fj_collect (p : Pool) : ForkJoin p.act BLoc.role .caller .collect (some .doneCollect) (fun l => l.stage = 0) (fun l => l.stage = 11) (fun l => ∃ g, l = .collected g) where
  ne := by simp
  fresh := by intro l k hl hn hB; have he := pool_edge p hl hn; cases he <;> simp_all [BLoc.stage]
  join := by
    intro l k hl hn hA
    have he := pool_edge p hl hn
    cases he with
    | joinCollect h h' f a => exact .inr (.inl ⟨_, _, rfl, a⟩)
    | _ => simp_all [BLoc.stage]
  done := by intro l c v k hd hs; cases hd; exact pool_send_done p hs
  stay := by rintro l k hl ⟨g, rfl⟩ hn; simp [Nxt, Pool.act] at hn
  halt := by
    intro l hl hh
    rcases pool_halt p hh with ⟨e, bs, rfl⟩ | rfl | ⟨i, rfl⟩ | rfl | ⟨g, rfl⟩
    · cases hl
    · cases hl
    · cases hl
    · cases hl
    · exact ⟨g, rfl⟩
  noclose := by intro l c k hd hc; cases hd; have := pool_close_chan p hc; simp at this
  spawn := pool_go p

theorem pool_fj_feeder (p : Pool) : ForkJoin p.act BLoc.role .caller .feeder none (fun l => l.stage ≤ 5) (fun _ => False) (fun l => l = .fed) where
  ne := by simp
  fresh := by
    intro l k hl hn hB
    have he := pool_edge p hl hn
    cases he <;> first | (simp_all [BLoc.stage]; done) | (refine ⟨by omega, ?_⟩; simp_all; done) | omega
  join := by intro l k hl hn hA; exact hA.elim
  done := by intro l c v k hd hs; cases hd
  stay := by rintro l k hl rfl hn; simp [Nxt, Pool.act] at hn
  halt := by
    intro l hl hh
    rcases pool_halt p hh with ⟨e, bs, rfl⟩ | rfl | ⟨i, rfl⟩ | rfl | ⟨g, rfl⟩
    · cases hl
    · rfl
    · cases hl
    · cases hl
    · cases hl
  noclose := by intro l c k hd hc; cases hd
  spawn := pool_go p

/-- The caller has not started worker `i` (and may be about to). -/
def BLoc.before (p : Pool) (i : Nat) : BLoc → Prop
  | .spawn _ _ j => j ≤ i ∨ p.workers ≤ i
  | l => l.stage ≤ 5

theorem before_of_stage {p : Pool} {i : Nat} {l : BLoc} (h : l.stage ≤ 5) : l.before p i := by
  cases l <;> first | exact h | (simp [BLoc.stage] at h; done)
theorem stage_of_before {p : Pool} {i : Nat} {l : BLoc} (h : l.before p i) : l.stage ≤ 6 := by
  cases l <;> first | exact Nat.le_succ_of_le h | (simp [BLoc.stage]; done)

theorem pool_fj_worker (p : Pool) (i : Nat) : ForkJoin p.act BLoc.role .caller (.worker i) none (BLoc.before p i) (fun l => 7 ≤ l.stage ∧ l.stage ≤ 11) (fun l => l = .workEnd i) where
  ne := by simp
  fresh := by
    intro l k hl hn hB
    have hk := stage_of_before hB
    have he := pool_edge p hl hn
    cases he with
    | spawn dh reach j h hj h' g a =>
      subst h h'
      have hB' : j + 1 ≤ i ∨ p.workers ≤ i := hB
      have hi : j ≠ i := by omega
      refine ⟨by show j ≤ i ∨ p.workers ≤ i; omega, ?_⟩
      intro g k' hh
      rw [hh] at a
      cases a; exact hi rfl
    | wait dh reach j h hj h' a => omega
    | feeder h dh reach h' g a => exact ⟨before_of_stage (by omega), by simp [a]⟩
    | slice h h' g a => exact ⟨before_of_stage (by omega), by simp [a]⟩
    | branches h h' g a => exact ⟨before_of_stage (by omega), by simp [a]⟩
    | run h h' a => exact ⟨before_of_stage (by omega), by simp [a]⟩
    | default h h' c v a => exact ⟨before_of_stage (by omega), by simp [a]⟩
    | _ => omega
  join := by
    intro l k hl hn hA
    have he := pool_edge p hl hn
    cases he with
    | spawn dh reach j h hj h' g a => subst h'; simp [BLoc.stage] at hA
    | wait dh reach j h hj h' a =>
      subst h
      by_cases hi : i < p.workers
      · exact .inr (.inr ⟨_, a, by simp [hi]⟩)
      · refine .inl ⟨.inr (show j ≤ i ∨ p.workers ≤ i by omega), by simp [a]⟩
    | feeder h dh reach h' g a => subst h'; simp [BLoc.stage] at hA
    | slice h h' g a => omega
    | branches h h' g a => omega
    | pre h h' a => exact .inl ⟨.inr (before_of_stage (by omega)), by simp [a]⟩
    | run h h' a => exact .inl ⟨.inr (before_of_stage (by omega)), by simp [a]⟩
    | default h h' c v a => omega
    | closeRes2 h h' a => exact .inl ⟨.inl (by omega), by simp [a]⟩
    | joinFwd h h' f a => exact .inl ⟨.inl (by omega), by simp [a]⟩
    | closeRes h h' a => exact .inl ⟨.inl (by omega), by simp [a]⟩
    | joinCollect h h' f a => exact .inl ⟨.inl (by omega), by simp [a]⟩
  done := by intro l c v k hd hs; cases hd
  stay := by rintro l k hl rfl hn; simp [Nxt, Pool.act] at hn
  halt := by
    intro l hl hh
    rcases pool_halt p hh with ⟨e, bs, rfl⟩ | rfl | ⟨j, rfl⟩ | rfl | ⟨g, rfl⟩
    · cases hl
    · cases hl
    · simp [BLoc.role] at hl; rw [hl]
    · cases hl
    · cases hl
  noclose := by intro l c k hd hc; cases hd
  spawn := pool_go p

/-- What the children may touch. -/
theorem bacc_child {l : BLoc} (hl : l.role ≠ .caller) {a : Access BVar} (ha : a ∈ l.acc) :
    (l.role = .collect ∧ a = .write .result) ∨ (l.role = .feeder ∧ a = .read .names) ∨
    (∃ i, l.role = .worker i ∧ (a = .read .commitGraph ∨ a = .read .default ∨ a = .read .reachable ∨ a = .read .lastErr)) := by
  cases l with
  | panicked r => cases r <;> simp [BLoc.acc, BLoc.role] at ha hl ⊢ <;> exact ha
  | _ => first
    | (simp [BLoc.role] at hl; done)
    | (simp [BLoc.acc] at ha; done)
    | (simp [BLoc.acc] at ha; simp [BLoc.role, ha]; done)

/-- No state of `BranchesSlice` has conflicting accesses. -/
theorem pool_not_racy (p : Pool) {s : State BRole BChan BLoc} (h : Reach p.act Pool.init s) : ¬ Racy BLoc.acc s := by
  have hp0 : Placed BLoc.role Pool.init := by
    intro r l hl
    simp only [Pool.init] at hl
    split at hl
    · cases hl; subst_vars; rfl
    · cases hl
  have hp := (pool_roles p).reach hp0 h
  have hj : ∀ (ch : BRole) (d : Option BChan) (B A E : BLoc → Prop), ForkJoin p.act BLoc.role .caller ch d B A E → Joined .caller ch d B A E s := by
    intro ch d B A E fj
    refine Joined.reach fj (pool_roles p) hp0 ⟨by simp [Pool.init], ?_, ?_, fun _ _ => rfl⟩ h
    · intro l _ _; simp [Pool.init, Ne.symm fj.ne]
    · intro l _ _ m hm; simp [Pool.init, Ne.symm fj.ne] at hm
  have j1 := hj _ _ _ _ _ (pool_fj_collect p)
  have j2 := hj _ _ _ _ _ (pool_fj_feeder p)
  have j3 := fun i => hj _ _ _ _ _ (pool_fj_worker p i)
  clear hj
  have key : ∀ {q l m a b}, q ≠ BRole.caller → s.procs .caller = some l → s.procs q = some m → a ∈ l.acc → b ∈ m.acc → a.Conflict b → False := by
    intro q l m a b hq hl hm ha hb hab
    have hmr := hp _ _ hm
    have hlr := hp _ _ hl
    rcases bacc_child (by rw [hmr]; exact hq) hb with ⟨hc, rfl⟩ | ⟨hc, rfl⟩ | ⟨i, hc, hbs⟩
    · -- the collector
      rw [hmr] at hc
      subst hc
      have hst : l.stage = 0 ∨ l.stage = 11 := by
        cases l with
        | panicked r => cases r <;> first | (cases hlr; done) | (simp [BLoc.acc] at ha; done)
        | _ => first
          | exact .inl rfl
          | exact .inr rfl
          | (cases hlr; done)
          | (exfalso; simp [BLoc.acc] at ha; done)
          | (exfalso; simp [BLoc.acc] at ha; rcases ha with rfl | rfl | rfl | rfl <;> exact (by simpa [Access.Conflict] using hab))
          | (exfalso; simp [BLoc.acc] at ha; rcases ha with rfl | rfl <;> exact (by simpa [Access.Conflict] using hab))
          | (exfalso; simp [BLoc.acc] at ha; subst ha; exact (by simpa [Access.Conflict] using hab))
      rcases hst with hst | hst
      · rw [j1.fresh l hl hst] at hm; cases hm
      · obtain ⟨g, rfl⟩ := j1.ended l hl hst m hm
        simp [BLoc.acc] at hb
    · -- the feeder
      rw [hmr] at hc
      subst hc
      have hst : l.stage ≤ 5 := by
        cases l with
        | panicked r => cases r <;> first | (cases hlr; done) | (simp [BLoc.acc] at ha; done)
        | _ => first
          | (simp [BLoc.stage]; done)
          | (cases hlr; done)
          | (exfalso; simp [BLoc.acc] at ha; done)
          | (exfalso; simp [BLoc.acc] at ha; rcases ha with rfl | rfl | rfl | rfl <;> exact (by simpa [Access.Conflict] using hab))
          | (exfalso; simp [BLoc.acc] at ha; subst ha; exact (by simpa [Access.Conflict] using hab))
      rw [j2.fresh l hl hst] at hm; cases hm
    · -- a worker
      rw [hmr] at hc
      subst hc
      have hst : l.stage ≤ 5 ∨ l.stage = 11 := by
        cases l with
        | panicked r => cases r <;> first | (cases hlr; done) | (simp [BLoc.acc] at ha; done)
        | _ => first
          | exact .inr rfl
          | (left; simp [BLoc.stage]; done)
          | (cases hlr; done)
          | (exfalso; simp [BLoc.acc] at ha; done)
          | (exfalso; simp [BLoc.acc] at ha; subst ha; rcases hbs with rfl | rfl | rfl | rfl <;> exact (by simpa [Access.Conflict] using hab))
      rcases hst with hst | hst
      · rw [(j3 i).fresh l hl (before_of_stage hst)] at hm; cases hm
      · cases (j3 i).ended l hl (by omega) m hm
        simp [BLoc.acc] at hb
  rintro ⟨q, r, l, m, a, b, hne, hq, hr, ha, hb, hab⟩
  by_cases hqc : q = .caller
  · subst hqc
    exact key (Ne.symm hne) hq hr ha hb hab
  · by_cases hrc : r = .caller
    · subst hrc
      exact key hqc hr hq hb ha (conflict_symm hab)
    · have h1 := bacc_child (by rw [hp _ _ hq]; exact hqc) ha
      have h2 := bacc_child (by rw [hp _ _ hr]; exact hrc) hb
      rw [hp _ _ hq] at h1
      rw [hp _ _ hr] at h2
      have hv := conflict_var hab
      rcases h1 with ⟨h1, rfl⟩ | ⟨h1, rfl⟩ | ⟨i, h1, rfl | rfl | rfl | rfl⟩ <;>
        rcases h2 with ⟨h2, rfl⟩ | ⟨h2, rfl⟩ | ⟨i', h2, rfl | rfl | rfl | rfl⟩ <;>
        first
        | exact hab.elim
        | (cases hv; done)
        | exact hne (h1.trans h2.symm)

/-- `BranchesSlice` has no data race. -/
theorem C79_branches (p : Pool) : RaceFree p.act BLoc.acc Pool.init := raceFree_of fun _ h => pool_not_racy p h

/-! ## RunGetAll -/

/-- `RunGetAll` has no data race. -/
theorem C79_getAll {α : Type} (o : RunOutcome α) : RaceFree o.act GLoc.acc RunOutcome.init := by
  refine raceFree_of ?_
  rintro s ⟨n, hst⟩ hr
  have hg := GInv.steps hst (GInv.init o)
  generalize 0 + n = k at hg
  have hn : ∀ (c : GLoc α) (r : GLoc α) (cl : Bool), (∀ a b, a ∈ c.acc → b ∈ r.acc → ¬ a.Conflict b) → ¬ Racy GLoc.acc (gst c (some r) cl) := by
    rintro c r cl hcr ⟨p, q, l, m, a, b, hne, hp, hq, ha, hb, hab⟩
    cases p <;> cases q <;> first | exact hne rfl | skip
    · cases gst_caller hp; cases gst_runner hq; exact hcr _ _ ha hb hab
    · cases gst_runner hp; cases gst_caller hq; exact hcr _ _ hb ha (conflict_symm hab)
  cases hg with
  | start =>
    obtain ⟨p, q, l, m, a, b, hne, hp, hq, ha, hb, hab⟩ := hr
    cases p <;> cases q <;> first | exact hne rfl | (cases hp; done) | (cases hq; done)
  | run a b h => exact hn _ _ _ (by simp [GLoc.acc]) hr
  | closed => exact hn _ _ _ (by simp [GLoc.acc]) hr
  | join => exact hn _ _ _ (by simp [GLoc.acc]) hr
  | ret h => exact hn _ _ _ (by simp [GLoc.acc]) hr

/-! ## The memory log -/

/-- The memory log of the commands has a data race: the ticker writes `allocatedMem` while the main goroutine reads it for its output. -/
theorem C79_memory_log_race : ¬ RaceFree memLogs MLoc.acc memLogsInit := by
  rw [raceFree_iff]
  intro h
  let s1 := (memLogsInit.set .ticker .ticking).set .main (.log .main)
  let s2 := (s1.set .main (.locked .main)).set .mutex .held
  let s3 := (s2.set .main (.printing .main)).set .mutex .free
  let s4 := s3.set .ticker (.log .ticker)
  let s5 := (s4.set .ticker (.locked .ticker)).set .mutex .held
  have h1 : Conc.Step memLogs memLogsInit s1 := Conc.Step.go (act := memLogs) (r := MRole.main) (l := MLoc.start) rfl rfl rfl
  have h2 : Conc.Step memLogs s1 s2 :=
    Conc.Step.sync (act := memLogs) (p := MRole.main) (q := MRole.mutex) (l := MLoc.log .main) (m := MLoc.free) rfl rfl rfl rfl rfl
  have h3 : Conc.Step memLogs s2 s3 :=
    Conc.Step.sync (act := memLogs) (p := MRole.main) (q := MRole.mutex) (l := MLoc.locked .main) (m := MLoc.held) rfl rfl rfl rfl rfl
  have h4 : Conc.Step memLogs s3 s4 := Conc.Step.tau (act := memLogs) (r := MRole.ticker) (l := MLoc.ticking) rfl rfl
  have h5 : Conc.Step memLogs s4 s5 :=
    Conc.Step.sync (act := memLogs) (p := MRole.ticker) (q := MRole.mutex) (l := MLoc.log .ticker) (m := MLoc.free) rfl rfl rfl rfl rfl
  refine h s5 ⟨5, .cons h1 (.cons h2 (.cons h3 (.cons h4 (.cons h5 .refl))))⟩ ⟨.main, .ticker, .printing .main, .locked .ticker, .read (), .write (), by simp, rfl, rfl, ?_, ?_, rfl⟩
  · simp [MLoc.acc]
  · simp [MLoc.acc]

/-! ## What the caller sees -/

/-- When `CodeSlice` has returned, whatever a goroutine has read or written in a shared variable has happened before: the caller sees all of it, and may change the variables. -/
theorem C79_code_visible (p : Pipe τ) {es₁ es₂ : List (Event PRole PChan)} {s t : State PRole PChan (PLoc τ)} (h₁ : Trace p.act Pipe.init es₁ s) (h₂ : Trace p.act s es₂ t)
    {w : Option (Repo × Str)} {e : Option Fault} {res : List (CodeRecord τ)} (ht : t.procs .caller = some (.returned w e res)) {r : PRole} (hr : r ≠ .caller) {l : PLoc τ}
    (hl : s.procs r = some l) (ha : l.acc ≠ []) : HappensBefore es₂ r .caller := by
  obtain ⟨a, ha⟩ := List.exists_mem_of_ne_nil _ ha
  have hw : Access.write a.var ∈ (PLoc.returned w e res : PLoc τ).acc := by
    show _ ∈ PVar.all.map Access.write
    cases a.var <;> simp [PVar.all]
  exact C79_code p es₁ s es₂ t h₁ h₂ r .caller l _ a _ hr hl ht ha hw (by cases a <;> rfl)

/-- The same for `BranchesSlice` and the variables that its user can reach (the workers have ended; the list of names belongs to the feeder). -/
theorem C79_branches_visible (p : Pool) {es₁ es₂ : List (Event BRole BChan)} {s t : State BRole BChan BLoc} (h₁ : Trace p.act Pool.init es₁ s) (h₂ : Trace p.act s es₂ t)
    {e : Option Fault} {bs : List Branch} (ht : t.procs .caller = some (.returned e bs)) {r : BRole} (hr : r ≠ .caller) (hf : r ≠ .feeder) {l : BLoc}
    (hl : s.procs r = some l) (ha : l.acc ≠ []) : HappensBefore es₂ r .caller := by
  have hp0 : Placed BLoc.role Pool.init := by
    intro r l hl
    simp only [Pool.init] at hl
    split at hl
    · cases hl; subst_vars; rfl
    · cases hl
  have hp := (pool_roles p).reach hp0 h₁.reach _ _ hl
  obtain ⟨a, ha'⟩ := List.exists_mem_of_ne_nil _ ha
  rcases bacc_child (by rw [hp]; exact hr) ha' with ⟨h, rfl⟩ | ⟨h, rfl⟩ | ⟨i, h, _⟩
  · exact C79_branches p es₁ s es₂ t h₁ h₂ r .caller l _ _ (.write .result) hr hl ht ha' (by simp [BLoc.acc]) rfl
  · rw [hp] at h; exact (hf h).elim
  · -- a worker that makes an access reads the graph
    have hg : Access.read BVar.commitGraph ∈ l.acc := by
      cases l with
      | panicked r => cases r <;> first | (cases h; done) | simp [BLoc.acc]
      | workEnd i => simp [BLoc.acc] at ha
      | _ => first | (cases h; done) | simp [BLoc.acc]
    exact C79_branches p es₁ s es₂ t h₁ h₂ r .caller l _ _ (.write .commitGraph) hr hl ht hg (by simp [BLoc.acc]) rfl

/-! ## The hypotheses are met -/

/-- A call that always ends can be continued to its end. -/
theorem continue_to_end {R C V L : Type} [DecidableEq R] [DecidableEq C] {act : L → Conc.Act R C V L} {init : State R C L} {N : Nat}
    (h : ∀ m u, Steps act m init u → m ≤ N) : ∀ (d m : Nat) (u : State R C L), N - m = d → Steps act m init u → ∃ k t, Steps act k u t ∧ Steps act (m + k) init t ∧ Stuck act t := by
  intro d
  induction d with
  | zero =>
    intro m u hd hu
    refine ⟨0, u, .refl, hu, ?_⟩
    intro t ht
    have := h _ _ (hu.snoc ht)
    omega
  | succ d ih =>
    intro m u hd hu
    by_cases hs : Stuck act u
    · exact ⟨0, u, .refl, hu, hs⟩
    · obtain ⟨v, hv⟩ := Classical.not_forall.1 hs
      have hv := Classical.byContradiction hv
      obtain ⟨k, t, h1, h2, h3⟩ := ih (m + 1) v (by omega) (hu.snoc hv)
      refine ⟨k + 1, t, .cons hv h1, ?_, h3⟩
      rw [show m + (k + 1) = m + 1 + k by omega]; exact h2

/-- A complete call for the example history: the collector begins with its part of the result, later the call returns; so that the first comes before the second. -/
example : ∃ es₁ s es₂ t w e res, Trace exPipe.act Pipe.init es₁ s ∧ Trace exPipe.act s es₂ t ∧ s.procs .collect = some (.collect []) ∧
    t.procs .caller = some (.returned w e res) ∧ HappensBefore es₂ .collect .caller := by
  obtain ⟨w, out, ⟨N, hN⟩, _⟩ := C57_code_of_a_history Ex.setting ex_log (by decide) (fun _ => .ok []) (exCl_lawful false)
    (fun p c _ => exCl_license p c) exScc (fun _ fs => fs) (fun _ _ => .refl _) exWholeMetas exWholeMetas_of
  change ∀ m u, Steps exPipe.act m Pipe.init u → _ at hN
  have h1 : Steps exPipe.act 1 Pipe.init ((Pipe.init.set .collect (.collect [])).set .caller .cCode) := .cons (.go (r := .caller) rfl rfl rfl) .refl
  obtain ⟨k, t, h2, h3, h4⟩ := continue_to_end (fun m u hu => (hN m u hu).1) _ 1 _ rfl h1
  have ht := ((hN _ t h3).2.2.2.2 h4).2
  obtain ⟨es₁, _, t₁⟩ := h1.trace
  obtain ⟨es₂, _, t₂⟩ := h2.trace
  exact ⟨es₁, _, es₂, t, _, _, _, t₁, t₂, rfl, ht, C79_code_visible exPipe t₁ t₂ ht (by simp) (l := .collect []) rfl (by simp [PLoc.acc])⟩

/-- The same for the branches of the example, with any number of workers. -/
example (c : Int) (hc : 0 ≤ c) : ∃ es₁ s es₂ t bs, Trace (exPool c).act Pool.init es₁ s ∧ Trace (exPool c).act s es₂ t ∧ s.procs .collect = some (.collect []) ∧
    t.procs .caller = some (.returned none bs) ∧ HappensBefore es₂ .collect .caller := by
  have h := C22_worker_pool (exPool c) (parents := [(b!"m1", []), (b!"m2", [b!"m1"]), (b!"m3", [b!"m2"]), (b!"b1", [b!"m1"]), (b!"b2", [b!"b1"])])
    (by decide) (List.Perm.refl _) rfl exGraph_acyclic exGraph_complete (fun _ _ => List.Perm.refl _) (fun s => List.reverse_perm s)
    (name := b!"master") (dh := b!"m3") (first := b!"m1") (branches := [(b!"br", b!"b2"), (b!"old", b!"m2")]) rfl rfl (fun _ _ => rfl) (fun _ => rfl) (by simp [exPool])
    (show exGraph.Known b!"m3" by unfold Graph.Known; decide)
    (show ∀ x ∈ [(b!"br", b!"b2"), (b!"old", b!"m2")], exGraph.Known x.2 by unfold Graph.Known; decide) (by simp only [exPool]; omega)
  have h1 : Steps (exPool c).act 1 Pool.init ((Pool.init.set .collect (.collect [])).set .caller .cBranches) := .cons (.go (r := .caller) rfl rfl rfl) .refl
  obtain ⟨k, v, hv, hs⟩ := (h.2 1 _ h1).2.1
  obtain ⟨_, cs, d, bs, ht, _⟩ := (h.2 _ v (h1.append hv)).2.2 hs
  obtain ⟨es₁, _, t₁⟩ := h1.trace
  obtain ⟨es₂, _, t₂⟩ := hv.trace
  exact ⟨es₁, _, es₂, v, _, t₁, t₂, rfl, ht, C79_branches_visible (exPool c) t₁ t₂ ht (by simp) (by simp) (l := .collect []) rfl (by simp [BLoc.acc])⟩

/-- `RunGetAll` without `<-done`: it returns when the channel of the results is closed. -/
def noJoin {α : Type} (o : RunOutcome α) : GLoc α → Conc.Act GRole GChan (GVal α) (GLoc α)
  | .collect got => .recv .res fun
    | some (.val a) => .collect (got ++ [a])
    | some (.done _) => .panicked
    | none => .returned got none
  | l => o.act l

/-- That program has a data race: the definition tells the two apart. -/
example : ¬ RaceFree (noJoin ({ vs := [], fault := none } : RunOutcome Nat)) GLoc.acc RunOutcome.init := by
  rw [raceFree_iff]
  intro h
  have h1 : Conc.Step (noJoin ({ vs := [], fault := none } : RunOutcome Nat)) RunOutcome.init ((RunOutcome.init.set .runner (.run [])).set .caller (.collect [])) :=
    Conc.Step.go (act := noJoin _) (r := GRole.caller) (l := GLoc.start) rfl rfl rfl
  have h2 : Conc.Step (noJoin ({ vs := [], fault := none } : RunOutcome Nat)) ((RunOutcome.init.set .runner (.run [])).set .caller (.collect []))
      ((((RunOutcome.init.set .runner (.run [])).set .caller (.collect [])).set .runner (.sendDone none)).shut .res) :=
    Conc.Step.close (act := noJoin _) (r := GRole.runner) (l := GLoc.run []) rfl rfl rfl
  have h3 : Conc.Step (noJoin ({ vs := [], fault := none } : RunOutcome Nat)) ((((RunOutcome.init.set .runner (.run [])).set .caller (.collect [])).set .runner (.sendDone none)).shut .res)
      (((((RunOutcome.init.set .runner (.run [])).set .caller (.collect [])).set .runner (.sendDone none)).shut .res).set .caller (.returned [] none)) :=
    Conc.Step.recvClosed (act := noJoin _) (q := GRole.caller) (m := GLoc.collect []) rfl rfl rfl
  refine h _ ⟨3, .cons h1 (.cons h2 (.cons h3 .refl))⟩ ⟨.caller, .runner, .returned [] none, .sendDone none, .write .err, .write .err, by simp, rfl, rfl, ?_, ?_, rfl⟩
  · simp [GLoc.acc]
  · simp [GLoc.acc]

end Ripsrc
