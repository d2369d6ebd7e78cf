import Verif.Lib.Conc
import Verif.Model.Pool
/-!
# `Branches` when `Run` returns an error before the workers start

Only three goroutines take part: the caller, the collector and the forwarder. Their reachable configurations are listed.
-/
namespace Ripsrc
open Conc

/-- Control states of caller, forwarder and collector; is `res2` closed, is `res` closed. -/
structure ECfg where
  a : BLoc
  f : Option BLoc := none
  c : Option BLoc := none
  c2 : Bool := false
  c1 : Bool := false

/-- The state of the program. -/
def ECfg.state (x : ECfg) : State BRole BChan BLoc where
  procs := fun r => match r with
    | .caller => some x.a
    | .fwd => x.f
    | .collect => x.c
    | _ => none
  closed := fun c => match c with
    | .res2 => x.c2
    | .res => x.c1
    | _ => false

theorem ECfg.init : Pool.init = ECfg.state ⟨.cSlice, none, none, false, false⟩ := by
  apply State.ext'
  · intro r; cases r <;> simp [Pool.init, ECfg.state]
  · intro c; cases c <;> rfl

theorem ECfg.setCaller (x : ECfg) (l : BLoc) : x.state.set .caller l = ECfg.state { x with a := l } := by
  apply State.ext'
  · intro r; cases r <;> simp [set_procs, ECfg.state]
  · intro c; rfl

theorem ECfg.setFwd (x : ECfg) (l : BLoc) : x.state.set .fwd l = ECfg.state { x with f := some l } := by
  apply State.ext'
  · intro r; cases r <;> simp [set_procs, ECfg.state]
  · intro c; rfl

theorem ECfg.setCollect (x : ECfg) (l : BLoc) : x.state.set .collect l = ECfg.state { x with c := some l } := by
  apply State.ext'
  · intro r; cases r <;> simp [set_procs, ECfg.state]
  · intro c; rfl

theorem ECfg.shut2 (x : ECfg) : x.state.shut .res2 = ECfg.state { x with c2 := true } := by
  apply State.ext'
  · intro r; rfl
  · intro c; cases c <;> simp [shut_closed, ECfg.state]

theorem ECfg.shut1 (x : ECfg) : x.state.shut .res = ECfg.state { x with c1 := true } := by
  apply State.ext'
  · intro r; rfl
  · intro c; cases c <;> simp [shut_closed, ECfg.state]

/-- A call that fails with `e`, after the records `ds`: before `Run`; in the first part of `Run`; in its second part, without or with the record of the default branch. -/
inductive FailsWith (p : Pool) (e : Fault) : List Branch → Prop where
  | pre : p.pre = some e → failPre e = .closeRes (some e) → FailsWith p e []
  | run : p.pre = none → p.onRun = .closeRes2 (some e) → FailsWith p e []
  | work0 {dh} : p.pre = none → p.onRun = .cWork dh → p.onWork dh = .closeRes2 (some e) → FailsWith p e []
  | work1 {b dh} : p.pre = none → p.onRun = .sendDefault b dh → p.onWork dh = .closeRes2 (some e) → FailsWith p e [b]

/-- The configurations of such a call; the number is a bound on the steps to the end. -/
inductive EOk (p : Pool) (e : Fault) (ds : List Branch) : Nat → ECfg → Prop where
  | a0 : EOk p e ds 12 ⟨.cSlice, none, none, false, false⟩
  | a1 : EOk p e ds 11 ⟨.cBranches, none, some (.collect []), false, false⟩
  | p2 : ds = [] → EOk p e ds 3 ⟨.closeRes (some e), none, some (.collect []), false, false⟩
  | p3 : ds = [] → EOk p e ds 2 ⟨.joinCollect (some e), none, some (.collect []), false, true⟩
  | p4 : ds = [] → EOk p e ds 1 ⟨.joinCollect (some e), none, some (.collectEnd []), false, true⟩
  | p5 : ds = [] → EOk p e ds 0 ⟨.returned (some e) [], none, some (.collected []), false, true⟩
  | b2 : p.pre = none → EOk p e ds 10 ⟨.cRun, some .fwdRecv, some (.collect []), false, false⟩
  | b3 {b dh} : ds = [b] → p.onWork dh = .closeRes2 (some e) → EOk p e ds 9 ⟨.sendDefault b dh, some .fwdRecv, some (.collect []), false, false⟩
  | w1 {b dh} : ds = [b] → p.onWork dh = .closeRes2 (some e) → EOk p e ds 8 ⟨.cWork dh, some (.fwdSend b), some (.collect []), false, false⟩
  | w2 {b} : ds = [b] → EOk p e ds 7 ⟨.closeRes2 (some e), some (.fwdSend b), some (.collect []), false, false⟩
  | w3 {b} : ds = [b] → EOk p e ds 6 ⟨.joinFwd (some e), some (.fwdSend b), some (.collect []), true, false⟩
  | r1 {dh} : p.onWork dh = .closeRes2 (some e) → EOk p e ds 7 ⟨.cWork dh, some .fwdRecv, some (.collect ds), false, false⟩
  | r2 : EOk p e ds 6 ⟨.closeRes2 (some e), some .fwdRecv, some (.collect ds), false, false⟩
  | r3 : EOk p e ds 5 ⟨.joinFwd (some e), some .fwdRecv, some (.collect ds), true, false⟩
  | r4 : EOk p e ds 4 ⟨.joinFwd (some e), some .fwdDone, some (.collect ds), true, false⟩
  | r5 : EOk p e ds 3 ⟨.closeRes (some e), some .fwdEnd, some (.collect ds), true, false⟩
  | r6 : EOk p e ds 2 ⟨.joinCollect (some e), some .fwdEnd, some (.collect ds), true, true⟩
  | r7 : EOk p e ds 1 ⟨.joinCollect (some e), some .fwdEnd, some (.collectEnd ds), true, true⟩
  | r8 : EOk p e ds 0 ⟨.returned (some e) ds, some .fwdEnd, some (.collected ds), true, true⟩

section
variable {p : Pool} {e : Fault} {ds : List Branch}

/-- The goroutines of a configuration. -/
theorem ECfg.procs {x : ECfg} {r : BRole} {l : BLoc} (h : x.state.procs r = some l) :
    (r = .caller ∧ x.a = l) ∨ (r = .fwd ∧ x.f = some l) ∨ (r = .collect ∧ x.c = some l) := by
  cases r <;> simp [ECfg.state] at h
  · exact .inl ⟨rfl, h⟩
  · exact .inr (.inr ⟨rfl, h⟩)
  · exact .inr (.inl ⟨rfl, h⟩)

/-- The steps of three goroutines. -/
inductive EStep (p : Pool) (x : ECfg) : ECfg → Prop where
  | tau {k} : p.act x.a = .tau k → EStep p x { x with a := k }
  | goCollect {g k} : p.act x.a = .go .collect g k → x.c = none → EStep p x { x with c := some g, a := k }
  | goFwd {g k} : p.act x.a = .go .fwd g k → x.f = none → EStep p x { x with f := some g, a := k }
  | close2 {k} : p.act x.a = .close .res2 k → x.c2 = false → EStep p x { x with a := k, c2 := true }
  | close1 {k} : p.act x.a = .close .res k → x.c1 = false → EStep p x { x with a := k, c1 := true }
  | toFwd {m v k f} : p.act x.a = .send .res2 v k → x.f = some m → p.act m = .recv .res2 f → x.c2 = false → EStep p x { x with a := k, f := some (f (some v)) }
  | toCollect {l m v k f} : x.f = some l → p.act l = .send .res v k → x.c = some m → p.act m = .recv .res f → x.c1 = false →
      EStep p x { x with f := some k, c := some (f (some v)) }
  | joinFwd {l v k f} : x.f = some l → p.act l = .send .doneFwd v k → p.act x.a = .recv .doneFwd f → EStep p x { x with f := some k, a := f (some v) }
  | joinCollect {l v k f} : x.c = some l → p.act l = .send .doneCollect v k → p.act x.a = .recv .doneCollect f → EStep p x { x with c := some k, a := f (some v) }
  | fwdEnd {m f} : x.f = some m → p.act m = .recv .res2 f → x.c2 = true → EStep p x { x with f := some (f none) }
  | collectEnd {m f} : x.c = some m → p.act m = .recv .res f → x.c1 = true → EStep p x { x with c := some (f none) }

theorem EStep.step {x y : ECfg} (h : EStep p x y) : Step p.act x.state y.state := by
  cases h with
  | tau h =>
    have := Step.tau (s := x.state) (r := .caller) rfl h
    rwa [ECfg.setCaller] at this
  | goCollect h h2 =>
    have := Step.go (s := x.state) (r := .caller) rfl h h2
    rwa [ECfg.setCollect, ECfg.setCaller] at this
  | goFwd h h2 =>
    have := Step.go (s := x.state) (r := .caller) rfl h h2
    rwa [ECfg.setFwd, ECfg.setCaller] at this
  | close2 h h2 =>
    have := Step.close (s := x.state) (r := .caller) rfl h h2
    rwa [ECfg.setCaller, ECfg.shut2] at this
  | close1 h h2 =>
    have := Step.close (s := x.state) (r := .caller) rfl h h2
    rwa [ECfg.setCaller, ECfg.shut1] at this
  | toFwd h1 h2 h3 h4 =>
    have := Step.sync (s := x.state) (p := .caller) (q := .fwd) rfl h1 h2 h3 h4
    rwa [ECfg.setCaller, ECfg.setFwd] at this
  | toCollect h1 h2 h3 h4 h5 =>
    have := Step.sync (s := x.state) (p := .fwd) (q := .collect) h1 h2 h3 h4 h5
    rwa [ECfg.setFwd, ECfg.setCollect] at this
  | joinFwd h1 h2 h3 =>
    have := Step.sync (s := x.state) (p := .fwd) (q := .caller) h1 h2 rfl h3 rfl
    rwa [ECfg.setFwd, ECfg.setCaller] at this
  | joinCollect h1 h2 h3 =>
    have := Step.sync (s := x.state) (p := .collect) (q := .caller) h1 h2 rfl h3 rfl
    rwa [ECfg.setCollect, ECfg.setCaller] at this
  | fwdEnd h1 h2 h3 =>
    have := Step.recvClosed (s := x.state) (q := .fwd) h1 h2 h3
    rwa [ECfg.setFwd] at this
  | collectEnd h1 h2 h3 =>
    have := Step.recvClosed (s := x.state) (q := .collect) h1 h2 h3
    rwa [ECfg.setCollect] at this

/-- In such a configuration, every step leads to such a configuration, nearer to the end. -/
theorem EOk.next (hf : FailsWith p e ds) {n : Nat} {x : ECfg} (h : EOk p e ds n x) {t : State BRole BChan BLoc} (hst : Step p.act x.state t) :
    ∃ m y, m < n ∧ EOk p e ds m y ∧ t = y.state := by
  rcases hpre : p.pre with _ | e' <;> cases hst with
  | tau h1 h2 =>
    rcases ECfg.procs h1 with ⟨rfl, h3⟩ | ⟨rfl, h3⟩ | ⟨rfl, h3⟩ <;> cases h <;> simp only [Option.some.injEq, reduceCtorEq] at h3 <;> subst h3 <;>
      simp only [Pool.act, hpre, reduceCtorEq, Act.tau.injEq] at h2 <;> subst h2 <;> simp only [ECfg.setCaller]
    all_goals first
      | (refine ⟨_, _, ?_, .w2 (by assumption), by simp only [*]⟩; decide)
      | (refine ⟨_, _, ?_, .r2, by simp only [*]⟩; decide)
      | (cases hf with
          | pre h4 h4b =>
            rw [hpre] at h4; cases h4
            try (first | (refine ⟨_, _, ?_, .p2 rfl, by rw [h4b]⟩; decide) | (exfalso; simp_all; done))
          | run h4 h5 =>
            rw [hpre] at h4; cases h4
            try (refine ⟨_, _, ?_, .r2, by rw [h5]⟩; decide)
          | work0 h4 h5 h6 =>
            rw [hpre] at h4; cases h4
            try (refine ⟨_, _, ?_, .r1 h6, by rw [h5]⟩; decide)
          | work1 h4 h5 h6 =>
            rw [hpre] at h4; cases h4
            try (refine ⟨_, _, ?_, .b3 rfl h6, by rw [h5]⟩; decide))
  | sync h1 h2 h3 h4 h5 =>
    rcases ECfg.procs h1 with ⟨rfl, h6⟩ | ⟨rfl, h6⟩ | ⟨rfl, h6⟩ <;> rcases ECfg.procs h3 with ⟨rfl, h7⟩ | ⟨rfl, h7⟩ | ⟨rfl, h7⟩ <;>
      cases h <;> simp only [Option.some.injEq, reduceCtorEq] at h6 h7 <;> subst h6 <;> subst h7 <;>
      simp only [Pool.act, hpre, reduceCtorEq, Act.send.injEq, Act.recv.injEq] at h2 h4
    all_goals
      obtain ⟨rfl, rfl, rfl⟩ := h2
      obtain ⟨h8, rfl⟩ := h4
      simp only [ECfg.setCaller, ECfg.setFwd, ECfg.setCollect]
      cases h8
    all_goals (try subst ds)
    all_goals first
      | (refine ⟨_, _, ?_, .w1 rfl (by assumption), rfl⟩; decide)
      | (refine ⟨_, _, ?_, .r1 (by assumption), rfl⟩; decide)
      | (refine ⟨_, _, ?_, .r2, rfl⟩; decide)
      | (refine ⟨_, _, ?_, .r3, rfl⟩; decide)
      | (refine ⟨_, _, ?_, .r5, rfl⟩; decide)
      | (refine ⟨_, _, ?_, .r8, rfl⟩; decide)
      | (refine ⟨_, _, ?_, .p5 rfl, rfl⟩; decide)
  | recvClosed h1 h2 h3 =>
    rcases ECfg.procs h1 with ⟨rfl, h6⟩ | ⟨rfl, h6⟩ | ⟨rfl, h6⟩ <;> cases h <;> simp only [Option.some.injEq, reduceCtorEq] at h6 <;> subst h6 <;>
      simp only [Pool.act, hpre, reduceCtorEq, Act.recv.injEq] at h2
    all_goals
      obtain ⟨rfl, rfl⟩ := h2
      first
        | (simp [ECfg.state] at h3; done)
        | (simp only [ECfg.setCaller, ECfg.setFwd, ECfg.setCollect]
           try subst ds
           first
            | (refine ⟨_, _, ?_, .p4 rfl, rfl⟩; decide)
            | (refine ⟨_, _, ?_, .r4, rfl⟩; decide)
            | (refine ⟨_, _, ?_, .r7, rfl⟩; decide))
  | close h1 h2 h3 =>
    rcases ECfg.procs h1 with ⟨rfl, h6⟩ | ⟨rfl, h6⟩ | ⟨rfl, h6⟩ <;> cases h <;> simp only [Option.some.injEq, reduceCtorEq] at h6 <;> subst h6 <;>
      simp only [Pool.act, hpre, reduceCtorEq, Act.close.injEq] at h2
    all_goals
      obtain ⟨rfl, rfl⟩ := h2
      simp only [ECfg.setCaller, ECfg.shut1, ECfg.shut2]
      first
        | (refine ⟨_, _, ?_, .p3 (by assumption), rfl⟩; decide)
        | (refine ⟨_, _, ?_, .w3 (by assumption), rfl⟩; decide)
        | (refine ⟨_, _, ?_, .r3, rfl⟩; decide)
        | (refine ⟨_, _, ?_, .r6, rfl⟩; decide)
  | go h1 h2 h3 =>
    rcases ECfg.procs h1 with ⟨rfl, h6⟩ | ⟨rfl, h6⟩ | ⟨rfl, h6⟩ <;> cases h <;> simp only [Option.some.injEq, reduceCtorEq] at h6 <;> subst h6 <;>
      simp only [Pool.act, hpre, reduceCtorEq, Act.go.injEq] at h2
    all_goals
      obtain ⟨rfl, rfl, rfl⟩ := h2
      simp only [ECfg.setCaller, ECfg.setFwd, ECfg.setCollect]
      first
        | (refine ⟨_, _, ?_, .a1, rfl⟩; decide)
        | (refine ⟨_, _, ?_, .b2 hpre, rfl⟩; decide)
  | wait h1 h2 h3 =>
    rcases ECfg.procs h1 with ⟨rfl, h6⟩ | ⟨rfl, h6⟩ | ⟨rfl, h6⟩ <;> cases h <;> simp only [Option.some.injEq, reduceCtorEq] at h6 <;> subst h6 <;>
      simp only [Pool.act, hpre, reduceCtorEq] at h2

/-- Before the end there is a step. -/
theorem EOk.progress (hf : FailsWith p e ds) {n : Nat} {x : ECfg} (h : EOk p e ds (n + 1) x) : ∃ y, EStep p x y := by
  cases h with
  | a0 => exact ⟨_, .goCollect rfl rfl⟩
  | a1 =>
    cases hpre : p.pre with
    | none => exact ⟨_, .goFwd (by simp only [Pool.act, hpre]; rfl) rfl⟩
    | some e' => exact ⟨_, .tau (by simp only [Pool.act, hpre]; rfl)⟩
  | p2 => exact ⟨_, .close1 rfl rfl⟩
  | p3 => exact ⟨_, .collectEnd rfl rfl rfl⟩
  | p4 => exact ⟨_, .joinCollect rfl rfl rfl⟩
  | b2 => exact ⟨_, .tau rfl⟩
  | b3 => exact ⟨_, .toFwd rfl rfl rfl rfl⟩
  | w1 => exact ⟨_, .tau rfl⟩
  | w2 => exact ⟨_, .close2 rfl rfl⟩
  | w3 => exact ⟨_, .toCollect rfl rfl rfl rfl rfl⟩
  | r1 => exact ⟨_, .tau rfl⟩
  | r2 => exact ⟨_, .close2 rfl rfl⟩
  | r3 => exact ⟨_, .fwdEnd rfl rfl rfl⟩
  | r4 => exact ⟨_, .joinFwd rfl rfl rfl⟩
  | r5 => exact ⟨_, .close1 rfl rfl⟩
  | r6 => exact ⟨_, .collectEnd rfl rfl rfl⟩
  | r7 => exact ⟨_, .joinCollect rfl rfl rfl⟩

/-- At the end all have returned. -/
theorem EOk.final {x : ECfg} (h : EOk p e ds 0 x) : AllReturned p.act x.state ∧ x.state.procs .caller = some (.returned (some e) ds) := by
  cases h with
  | p5 h =>
    subst h
    refine ⟨?_, rfl⟩
    intro r l hl
    rcases ECfg.procs hl with ⟨rfl, h⟩ | ⟨rfl, h⟩ | ⟨rfl, h⟩ <;> cases h <;> rfl
  | r8 =>
    refine ⟨?_, rfl⟩
    intro r l hl
    rcases ECfg.procs hl with ⟨rfl, h⟩ | ⟨rfl, h⟩ | ⟨rfl, h⟩ <;> cases h <;> rfl

theorem EOk.not_crashed {n : Nat} {x : ECfg} (h : EOk p e ds n x) : ¬ Crashed p.act x.state := by
  rintro ⟨r, l, hl, hc⟩
  rcases hpre : p.pre with _ | e' <;> rcases ECfg.procs hl with ⟨rfl, h2⟩ | ⟨rfl, h2⟩ | ⟨rfl, h2⟩ <;> cases h <;> simp only [Option.some.injEq, reduceCtorEq] at h2 <;> subst h2 <;>
    simp [Pool.act, hpre, ECfg.state] at hc

theorem EOk.steps (hf : FailsWith p e ds) {n k : Nat} {x : ECfg} (h : EOk p e ds n x) {t : State BRole BChan BLoc} (hst : Steps p.act k x.state t) :
    ∃ m y, k + m ≤ n ∧ EOk p e ds m y ∧ t = y.state := by
  generalize hs : x.state = s at hst
  induction hst generalizing n x with
  | refl => exact ⟨n, x, by omega, h, hs.symm⟩
  | cons h1 _ ih =>
    subst hs
    obtain ⟨m, y, hm, hy, rfl⟩ := h.next hf h1
    obtain ⟨m', z, hm', hz, rfl⟩ := ih hy rfl
    exact ⟨m', z, by omega, hz, rfl⟩

theorem EOk.ends (hf : FailsWith p e ds) {n : Nat} {x : ECfg} (h : EOk p e ds n x) : ∃ k y, Steps p.act k x.state y.state ∧ EOk p e ds 0 y := by
  induction n using Nat.strongRecOn generalizing x with
  | _ n ih =>
    cases n with
    | zero => exact ⟨0, x, .refl, h⟩
    | succ n =>
      obtain ⟨y, hy⟩ := h.progress hf
      obtain ⟨m, z, hm, hz, he⟩ := h.next hf hy.step
      obtain ⟨k, w, hw, hw2⟩ := ih m hm hz
      exact ⟨k + 1, w, .cons (he ▸ hy.step) hw, hw2⟩

/-- The caller panics before the workers start: in `Branches`, or in the first part of `Run`. -/
def PanicsEarly (p : Pool) : Prop := (∃ w, p.pre = some (.panic w)) ∨ (p.pre = none ∧ p.onRun = .panicked .caller)

/-- The configurations of such a call. -/
inductive XOk (p : Pool) : Nat → ECfg → Prop where
  | a0 : XOk p 3 ⟨.cSlice, none, none, false, false⟩
  | a1 : XOk p 2 ⟨.cBranches, none, some (.collect []), false, false⟩
  | b2 : p.pre = none → XOk p 1 ⟨.cRun, some .fwdRecv, some (.collect []), false, false⟩
  | x1 : XOk p 0 ⟨.panicked .caller, none, some (.collect []), false, false⟩
  | x2 : XOk p 0 ⟨.panicked .caller, some .fwdRecv, some (.collect []), false, false⟩

theorem XOk.next (hf : PanicsEarly p) {n : Nat} {x : ECfg} (h : XOk p n x) {t : State BRole BChan BLoc} (hst : Step p.act x.state t) :
    ∃ m y, m < n ∧ XOk p m y ∧ t = y.state := by
  rcases hpre : p.pre with _ | e' <;> cases hst with
  | tau h1 h2 =>
    rcases ECfg.procs h1 with ⟨rfl, h3⟩ | ⟨rfl, h3⟩ | ⟨rfl, h3⟩ <;> cases h <;> simp only [Option.some.injEq, reduceCtorEq] at h3 <;> subst h3 <;>
      simp only [Pool.act, hpre, reduceCtorEq, Act.tau.injEq] at h2 <;> subst h2 <;> simp only [ECfg.setCaller]
    all_goals
      rcases hf with ⟨w, h4⟩ | ⟨h4, h5⟩
    all_goals
      rw [hpre] at h4; cases h4
    all_goals first
      | (refine ⟨_, _, ?_, .x1, rfl⟩; decide)
      | (refine ⟨_, _, ?_, .x2, by rw [h5]⟩; decide)
      | simp_all
  | sync h1 h2 h3 h4 h5 =>
    rcases ECfg.procs h1 with ⟨rfl, h6⟩ | ⟨rfl, h6⟩ | ⟨rfl, h6⟩ <;> rcases ECfg.procs h3 with ⟨rfl, h7⟩ | ⟨rfl, h7⟩ | ⟨rfl, h7⟩ <;>
      cases h <;> simp only [Option.some.injEq, reduceCtorEq] at h6 h7 <;> subst h6 <;> subst h7 <;>
      simp only [Pool.act, hpre, reduceCtorEq, Act.send.injEq, Act.recv.injEq] at h2 h4
  | recvClosed h1 h2 h3 =>
    rcases ECfg.procs h1 with ⟨rfl, h6⟩ | ⟨rfl, h6⟩ | ⟨rfl, h6⟩ <;> cases h <;> simp only [Option.some.injEq, reduceCtorEq] at h6 <;> subst h6 <;>
      simp only [Pool.act, hpre, reduceCtorEq, Act.recv.injEq] at h2
    all_goals
      obtain ⟨rfl, rfl⟩ := h2
      simp [ECfg.state] at h3
  | close h1 h2 h3 =>
    rcases ECfg.procs h1 with ⟨rfl, h6⟩ | ⟨rfl, h6⟩ | ⟨rfl, h6⟩ <;> cases h <;> simp only [Option.some.injEq, reduceCtorEq] at h6 <;> subst h6 <;>
      simp only [Pool.act, hpre, reduceCtorEq, Act.close.injEq] at h2
  | go h1 h2 h3 =>
    rcases ECfg.procs h1 with ⟨rfl, h6⟩ | ⟨rfl, h6⟩ | ⟨rfl, h6⟩ <;> cases h <;> simp only [Option.some.injEq, reduceCtorEq] at h6 <;> subst h6 <;>
      simp only [Pool.act, hpre, reduceCtorEq, Act.go.injEq] at h2
    all_goals
      obtain ⟨rfl, rfl, rfl⟩ := h2
      simp only [ECfg.setCaller, ECfg.setFwd, ECfg.setCollect]
      first
        | (refine ⟨_, _, ?_, .a1, rfl⟩; decide)
        | (refine ⟨_, _, ?_, .b2 hpre, rfl⟩; decide)
  | wait h1 h2 h3 =>
    rcases ECfg.procs h1 with ⟨rfl, h6⟩ | ⟨rfl, h6⟩ | ⟨rfl, h6⟩ <;> cases h <;> simp only [Option.some.injEq, reduceCtorEq] at h6 <;> subst h6 <;>
      simp only [Pool.act, hpre, reduceCtorEq] at h2

theorem XOk.progress {n : Nat} {x : ECfg} (h : XOk p (n + 1) x) : ∃ y, EStep p x y := by
  cases h with
  | a0 => exact ⟨_, .goCollect rfl rfl⟩
  | a1 =>
    cases hpre : p.pre with
    | none => exact ⟨_, .goFwd (by simp only [Pool.act, hpre]; rfl) rfl⟩
    | some e' => exact ⟨_, .tau (by simp only [Pool.act, hpre]; rfl)⟩
  | b2 => exact ⟨_, .tau rfl⟩

theorem XOk.crashed {x : ECfg} (h : XOk p 0 x) : Crashed p.act x.state := by
  cases h <;> exact ⟨.caller, _, rfl, .inl rfl⟩

theorem XOk.steps (hf : PanicsEarly p) {n k : Nat} {x : ECfg} (h : XOk p n x) {t : State BRole BChan BLoc} (hst : Steps p.act k x.state t) :
    ∃ m y, k + m ≤ n ∧ XOk p m y ∧ t = y.state := by
  generalize hs : x.state = s at hst
  induction hst generalizing n x with
  | refl => exact ⟨n, x, by omega, h, hs.symm⟩
  | cons h1 _ ih =>
    subst hs
    obtain ⟨m, y, hm, hy, rfl⟩ := h.next hf h1
    obtain ⟨m', z, hm', hz, rfl⟩ := ih hy rfl
    exact ⟨m', z, by omega, hz, rfl⟩

/-- Whatever the schedule, the program crashes after at most three steps. -/
theorem panicsEarly_crashes (hf : PanicsEarly p) : ∀ m u, Steps p.act m Pool.init u → m ≤ 3 ∧ (Stuck p.act u → Crashed p.act u) := by
  intro m u hu
  rw [ECfg.init] at hu
  obtain ⟨k, y, hk, hy, rfl⟩ := (XOk.a0 (p := p)).steps hf hu
  refine ⟨by omega, fun hs => ?_⟩
  cases k with
  | zero => exact hy.crashed
  | succ k =>
    obtain ⟨z, hz⟩ := hy.progress
    exact absurd hz.step (hs _)
end
end Ripsrc
