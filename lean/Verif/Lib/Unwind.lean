import Verif.Model.Unwind
import Verif.Lib.OutletUse
/-!
# The deferred calls of a panicking caller: simulation by the programs of Model/Pipeline.lean
-/
namespace Ripsrc
open Conc

variable {τ : Type}

/-- Same control states. -/
structure Same (u : State PRole PChan (ULoc τ)) (s : State PRole PChan (PLoc τ)) : Prop where
  procs : ∀ r, u.procs r = (s.procs r).map .prog
  closed : ∀ c, u.closed c = s.closed c

/-- A goroutine that found a channel closed by a deferred call, and the place where it would still wait. -/
inductive Ahead : PLoc τ → PLoc τ → Prop where
  | code {n cache} : Ahead (.codeRecv n cache) .codeDone
  | flat : Ahead .flatRecv .flatDone
  | collect {g} : Ahead (.collect g) (.collectEnd g)

def PChan.deferred : PChan → Bool
  | .gitRes | .res2 | .res => true
  | _ => false

/-- The caller is running its deferred calls, or has run them. -/
structure Unw (u : State PRole PChan (ULoc τ)) (s : State PRole PChan (PLoc τ)) : Prop where
  caller : (∃ cs, u.procs .caller = some (.unwind cs) ∧ ∀ c ∈ cs, c.deferred = true) ∨ u.procs .caller = some .dead
  others : ∀ r, r ≠ .caller → u.procs r = (s.procs r).map .prog ∨ ∃ l l', s.procs r = some l ∧ u.procs r = some (.prog l') ∧ Ahead l l'
  le : ∀ c, s.closed c = true → u.closed c = true
  eq : ∀ c, c.deferred = false → u.closed c = s.closed c

variable {p : Pipe τ} {prep : Bool} {ds : List PChan}

theorem uact_prog {l : PLoc τ} (h1 : l ≠ .panicked .caller) (h2 : prep = true → l ≠ .cByCommit) : p.uact prep ds (.prog l) = (p.act l).map .prog := by
  cases l with
  | cByCommit =>
    cases prep with
    | false => rfl
    | true => exact absurd rfl (h2 rfl)
  | panicked r => cases r <;> first | rfl | exact absurd rfl h1
  | _ => rfl

/-- The instruction of a goroutine in a control state of Model/Pipeline.lean. -/
theorem uact_cases (p : Pipe τ) (prep : Bool) (ds : List PChan) (l : PLoc τ) :
    p.uact prep ds (.prog l) = (p.act l).map .prog ∨ l.role = .caller ∧ ∃ cs, p.uact prep ds (.prog l) = .tau (.unwind cs) ∧ (cs = ds ∨ cs = .gitRes :: ds) := by
  by_cases h1 : l = .panicked .caller
  · subst h1; exact .inr ⟨rfl, _, rfl, .inr rfl⟩
  · by_cases h2 : prep = true ∧ l = .cByCommit
    · obtain ⟨rfl, rfl⟩ := h2; exact .inr ⟨rfl, _, rfl, .inl rfl⟩
    · exact .inl (uact_prog h1 fun h3 h4 => h2 ⟨h3, h4⟩)

theorem map_send {a : Act PRole PChan (PVal τ) (PLoc τ)} {c : PChan} {v : PVal τ} {k : ULoc τ} (h : a.map ULoc.prog = .send c v k) : ∃ k', a = .send c v k' ∧ k = .prog k' := by
  cases a <;> simp [Act.map] at h
  obtain ⟨rfl, rfl, rfl⟩ := h; exact ⟨_, rfl, rfl⟩
theorem map_recv {a : Act PRole PChan (PVal τ) (PLoc τ)} {c : PChan} {f : Option (PVal τ) → ULoc τ} (h : a.map ULoc.prog = .recv c f) :
    ∃ f', a = .recv c f' ∧ ∀ o, f o = .prog (f' o) := by
  cases a <;> simp [Act.map] at h
  obtain ⟨rfl, rfl⟩ := h; exact ⟨_, rfl, fun _ => rfl⟩
theorem map_close {a : Act PRole PChan (PVal τ) (PLoc τ)} {c : PChan} {k : ULoc τ} (h : a.map ULoc.prog = .close c k) : ∃ k', a = .close c k' ∧ k = .prog k' := by
  cases a <;> simp [Act.map] at h
  obtain ⟨rfl, rfl⟩ := h; exact ⟨_, rfl, rfl⟩
theorem map_go {a : Act PRole PChan (PVal τ) (PLoc τ)} {r : PRole} {l k : ULoc τ} (h : a.map ULoc.prog = .go r l k) : ∃ l' k', a = .go r l' k' ∧ l = .prog l' ∧ k = .prog k' := by
  cases a <;> simp [Act.map] at h
  obtain ⟨rfl, rfl, rfl⟩ := h; exact ⟨_, _, rfl, rfl, rfl⟩
theorem map_tau {a : Act PRole PChan (PVal τ) (PLoc τ)} {k : ULoc τ} (h : a.map ULoc.prog = .tau k) : ∃ k', a = .tau k' ∧ k = .prog k' := by
  cases a <;> simp [Act.map] at h
  subst h; exact ⟨_, rfl, rfl⟩
theorem map_wait {a : Act PRole PChan (PVal τ) (PLoc τ)} {rs : List PRole} {k : ULoc τ} (h : a.map ULoc.prog = .wait rs k) : ∃ k', a = .wait rs k' ∧ k = .prog k' := by
  cases a <;> simp [Act.map] at h
  obtain ⟨rfl, rfl⟩ := h; exact ⟨_, rfl, rfl⟩

/-- Sends, receives and so on of control states of Model/Pipeline.lean. -/
theorem uact_send {l : PLoc τ} {c : PChan} {v : PVal τ} {k : ULoc τ} (h : p.uact prep ds (.prog l) = .send c v k) : ∃ k', p.act l = .send c v k' ∧ k = .prog k' := by
  rcases uact_cases p prep ds l with h1 | ⟨_, _, h1, _⟩ <;> rw [h1] at h
  · exact map_send h
  · cases h
theorem uact_recv {l : PLoc τ} {c : PChan} {f : Option (PVal τ) → ULoc τ} (h : p.uact prep ds (.prog l) = .recv c f) : ∃ f', p.act l = .recv c f' ∧ ∀ o, f o = .prog (f' o) := by
  rcases uact_cases p prep ds l with h1 | ⟨_, _, h1, _⟩ <;> rw [h1] at h
  · exact map_recv h
  · cases h
theorem uact_close {l : PLoc τ} {c : PChan} {k : ULoc τ} (h : p.uact prep ds (.prog l) = .close c k) : ∃ k', p.act l = .close c k' ∧ k = .prog k' := by
  rcases uact_cases p prep ds l with h1 | ⟨_, _, h1, _⟩ <;> rw [h1] at h
  · exact map_close h
  · cases h
theorem uact_go {l : PLoc τ} {r : PRole} {g k : ULoc τ} (h : p.uact prep ds (.prog l) = .go r g k) : ∃ g' k', p.act l = .go r g' k' ∧ g = .prog g' ∧ k = .prog k' := by
  rcases uact_cases p prep ds l with h1 | ⟨_, _, h1, _⟩ <;> rw [h1] at h
  · exact map_go h
  · cases h

theorem Same.set {u : State PRole PChan (ULoc τ)} {s : State PRole PChan (PLoc τ)} (h : Same u s) (r : PRole) (l : PLoc τ) : Same (u.set r (.prog l)) (s.set r l) where
  procs := by
    intro q
    rw [set_procs, set_procs]
    split
    · rfl
    · exact h.procs q
  closed := h.closed

theorem Same.shut {u : State PRole PChan (ULoc τ)} {s : State PRole PChan (PLoc τ)} (h : Same u s) (c : PChan) : Same (u.shut c) (s.shut c) where
  procs := h.procs
  closed := by
    intro d
    rw [shut_closed, shut_closed, h.closed]

theorem Same.get {u : State PRole PChan (ULoc τ)} {s : State PRole PChan (PLoc τ)} (h : Same u s) {r : PRole} {m : ULoc τ} (hr : u.procs r = some m) :
    ∃ l, m = .prog l ∧ s.procs r = some l := by
  rw [h.procs] at hr
  cases hs : s.procs r with
  | none => rw [hs] at hr; cases hr
  | some l => rw [hs] at hr; cases hr; exact ⟨l, rfl, rfl⟩

theorem Same.none {u : State PRole PChan (ULoc τ)} {s : State PRole PChan (PLoc τ)} (h : Same u s) {r : PRole} (hr : u.procs r = none) : s.procs r = none := by
  rw [h.procs] at hr
  cases hs : s.procs r with
  | none => rfl
  | some l => rw [hs] at hr; cases hr

theorem Same.step (hds : ∀ c ∈ ds, c.deferred = true) {u u' : State PRole PChan (ULoc τ)} {s : State PRole PChan (PLoc τ)} (h : Same u s) (hpl : Placed PLoc.role s)
    (hst : Conc.Step (p.uact prep ds) u u') : (∃ s', Conc.Step p.act s s' ∧ Same u' s') ∨ Unw u' s := by
  cases hst with
  | @tau r m k h1 h2 =>
    obtain ⟨l, rfl, hl⟩ := h.get h1
    rcases uact_cases p prep ds l with h3 | ⟨hrole, cs, h3, hcs⟩ <;> rw [h3] at h2
    · obtain ⟨k', h4, rfl⟩ := map_tau h2
      exact .inl ⟨_, .tau hl h4, h.set _ _⟩
    · cases h2
      have hr : r = .caller := (hpl _ _ hl).symm.trans hrole
      subst hr
      refine .inr ⟨.inl ⟨cs, by rw [set_procs, if_pos rfl], ?_⟩, ?_, fun c hc => by rw [set_closed, h.closed]; exact hc, fun c _ => by rw [set_closed, h.closed]⟩
      · rcases hcs with rfl | rfl
        · exact hds
        · intro c hc
          rcases List.mem_cons.1 hc with rfl | hc
          · rfl
          · exact hds c hc
      · intro q hq
        rw [set_procs, if_neg hq]
        exact .inl (h.procs q)
  | @sync a b l m c v k f h1 h2 h3 h4 h5 =>
    obtain ⟨l, rfl, hl⟩ := h.get h1
    obtain ⟨m, rfl, hm⟩ := h.get h3
    obtain ⟨k, e1, rfl⟩ := uact_send h2
    obtain ⟨f', e2, e3⟩ := uact_recv h4
    rw [e3]
    exact .inl ⟨_, .sync hl e1 hm e2 (by rw [← h.closed]; exact h5), (h.set _ _).set _ _⟩
  | @recvClosed q m c f h1 h2 h3 =>
    obtain ⟨m, rfl, hm⟩ := h.get h1
    obtain ⟨f', e2, e3⟩ := uact_recv h2
    rw [e3]
    exact .inl ⟨_, .recvClosed hm e2 (by rw [← h.closed]; exact h3), h.set _ _⟩
  | @close r l c k h1 h2 h3 =>
    obtain ⟨l, rfl, hl⟩ := h.get h1
    obtain ⟨k, e1, rfl⟩ := uact_close h2
    exact .inl ⟨_, .close hl e1 (by rw [← h.closed]; exact h3), (h.set _ _).shut _⟩
  | @go r l n g k h1 h2 h3 =>
    obtain ⟨l, rfl, hl⟩ := h.get h1
    obtain ⟨g, k, e1, rfl, rfl⟩ := uact_go h2
    exact .inl ⟨_, .go hl e1 (h.none h3), (h.set _ _).set _ _⟩
  | @wait r l rs k h1 h2 h3 =>
    obtain ⟨l, rfl, hl⟩ := h.get h1
    rcases uact_cases p prep ds l with h4 | ⟨_, _, h4, _⟩ <;> rw [h4] at h2
    · obtain ⟨k', h5, _⟩ := map_wait h2
      exact (pipe_wait p h5).elim
    · cases h2

/-- A goroutine other than the caller: where it is here and there. -/
theorem Unw.get {u : State PRole PChan (ULoc τ)} {s : State PRole PChan (PLoc τ)} (h : Unw u s) {r : PRole} {m : ULoc τ} (hr : u.procs r = some m) (hne : r ≠ .caller) :
    ∃ l, m = .prog l ∧ (s.procs r = some l ∨ ∃ l0, s.procs r = some l0 ∧ Ahead l0 l) := by
  rcases h.others r hne with h1 | ⟨l, l', h1, h2, h3⟩
  · rw [h1] at hr
    cases hs : s.procs r with
    | none => rw [hs] at hr; cases hr
    | some l => rw [hs] at hr; cases hr; exact ⟨l, rfl, .inl rfl⟩
  · rw [h2] at hr; cases hr
    exact ⟨l', rfl, .inr ⟨l, h1, h3⟩⟩

theorem Ahead.act {l l' : PLoc τ} (h : Ahead l l') : ∃ c v k, p.act l' = .send c v k ∧ c.rd = .caller := by
  cases h <;> exact ⟨_, _, _, rfl, rfl⟩

/-- The goroutine of an instruction other than a step of the caller is not the caller. -/
theorem Unw.caller_act {u : State PRole PChan (ULoc τ)} {s : State PRole PChan (PLoc τ)} (h : Unw u s) {m : ULoc τ} (hr : u.procs .caller = some m) :
    (∃ c cs, m = .unwind (c :: cs) ∧ c.deferred = true ∧ ∀ d ∈ cs, d.deferred = true) ∨ m = .unwind [] ∨ m = .dead := by
  rcases h.caller with ⟨cs, h1, h2⟩ | h1 <;> rw [h1] at hr <;> cases hr
  · cases cs with
    | nil => exact .inr (.inl rfl)
    | cons c cs => exact .inl ⟨c, cs, rfl, h2 c List.mem_cons_self, fun d hd => h2 d (List.mem_cons_of_mem _ hd)⟩
  · exact .inr (.inr rfl)

theorem Unw.set {u : State PRole PChan (ULoc τ)} {s : State PRole PChan (PLoc τ)} (h : Unw u s) {r : PRole} (hr : r ≠ .caller) (l : PLoc τ) : Unw (u.set r (.prog l)) (s.set r l) where
  caller := by
    rw [set_procs, if_neg (Ne.symm hr)]
    exact h.caller
  others := by
    intro q hq
    rw [set_procs, set_procs]
    split
    · exact .inl rfl
    · exact h.others q hq
  le := h.le
  eq := h.eq

theorem Unw.shut {u : State PRole PChan (ULoc τ)} {s : State PRole PChan (PLoc τ)} (h : Unw u s) (c : PChan) : Unw (u.shut c) (s.shut c) where
  caller := h.caller
  others := h.others
  le := by
    intro d
    rw [shut_closed, shut_closed]
    split
    · exact fun _ => rfl
    · exact h.le d
  eq := by
    intro d hd
    rw [shut_closed, shut_closed, h.eq d hd]

theorem Unw.send {u : State PRole PChan (ULoc τ)} {s : State PRole PChan (PLoc τ)} (h : Unw u s) {r : PRole} {m : ULoc τ} {c : PChan} {v : PVal τ} {k : ULoc τ}
    (hr : u.procs r = some m) (hm : p.uact prep ds m = .send c v k) (hc : c.rd ≠ .caller) : ∃ l k', r ≠ .caller ∧ k = .prog k' ∧ s.procs r = some l ∧ p.act l = .send c v k' := by
  have hne : r ≠ .caller := by
    rintro rfl
    rcases h.caller_act hr with ⟨c, cs, rfl, _⟩ | rfl | rfl <;> cases hm
  obtain ⟨l, rfl, h1⟩ := h.get hr hne
  obtain ⟨k', h2, rfl⟩ := uact_send hm
  refine ⟨l, k', hne, rfl, ?_, h2⟩
  rcases h1 with h1 | ⟨l0, _, h1⟩
  · exact h1
  · obtain ⟨c', v', k'', h3, h4⟩ := h1.act (p := p)
    rw [h2] at h3; cases h3
    exact absurd h4 hc

theorem Unw.step {u u' : State PRole PChan (ULoc τ)} {s : State PRole PChan (PLoc τ)} (h : Unw u s) (hpl : Placed PLoc.role s)
    (hst : Conc.Step (p.uact prep ds) u u') : (∃ s', Conc.Step p.act s s' ∧ Unw u' s') ∨ Unw u' s := by
  cases hst with
  | @tau r m k h1 h2 =>
    by_cases hr : r = .caller
    · subst hr
      rcases h.caller_act h1 with ⟨c, cs, rfl, _⟩ | rfl | rfl
      · cases h2
      · cases h2
        refine .inr ⟨.inr (by rw [set_procs, if_pos rfl]), ?_, h.le, h.eq⟩
        intro q hq
        rw [set_procs, if_neg hq]
        exact h.others q hq
      · cases h2
    · obtain ⟨l, rfl, h3⟩ := h.get h1 hr
      rcases h3 with h3 | ⟨l0, h3, h4⟩
      · rcases uact_cases p prep ds l with h4 | ⟨hrole, _, h4, _⟩ <;> rw [h4] at h2
        · obtain ⟨k', h5, rfl⟩ := map_tau h2
          exact .inl ⟨_, .tau h3 h5, h.set hr _⟩
        · exact absurd ((hpl _ _ h3).symm.trans hrole) hr
      · cases h4 <;> cases h2
  | @sync a b l m c v k f h1 h2 h3 h4 h5 =>
    have hb : b ≠ .caller := by
      rintro rfl
      rcases h.caller_act h3 with ⟨c, cs, rfl, _⟩ | rfl | rfl <;> cases h4
    obtain ⟨m, rfl, h6⟩ := h.get h3 hb
    obtain ⟨f', e2, e3⟩ := uact_recv h4
    have hm : s.procs b = some m := by
      rcases h6 with h6 | ⟨l0, _, h6⟩
      · exact h6
      · obtain ⟨c', v', k', h7, _⟩ := h6.act (p := p)
        rw [h7] at e2; cases e2
    have hrd := (pipe_recv p e2).1
    rw [hpl _ _ hm] at hrd
    obtain ⟨l, k', ha, rfl, hl, e1⟩ := h.send h1 h2 (by rw [hrd]; exact hb)
    rw [e3]
    refine .inl ⟨_, .sync hl e1 hm e2 ?_, (h.set ha _).set hb _⟩
    cases hs : s.closed c with
    | false => rfl
    | true => rw [h.le c hs] at h5; cases h5
  | @recvClosed q m c f h1 h2 h3 =>
    have hq : q ≠ .caller := by
      rintro rfl
      rcases h.caller_act h1 with ⟨c, cs, rfl, _⟩ | rfl | rfl <;> cases h2
    obtain ⟨m, rfl, h6⟩ := h.get h1 hq
    obtain ⟨f', e2, e3⟩ := uact_recv h2
    have hm : s.procs q = some m := by
      rcases h6 with h6 | ⟨l0, _, h6⟩
      · exact h6
      · obtain ⟨c', v', k', h7, _⟩ := h6.act (p := p)
        rw [h7] at e2; cases e2
    rw [e3]
    cases hs : s.closed c with
    | true => exact .inl ⟨_, .recvClosed hm e2 hs, h.set hq _⟩
    | false =>
      have hd : c.deferred = true := by
        cases hd : c.deferred with
        | true => rfl
        | false => rw [h.eq c hd, hs] at h3; cases h3
      have hah : Ahead m (f' none) := by
        have hrd := (pipe_recv p e2).1
        cases m with
        | sending rs k' => cases rs <;> simp [Pipe.act] at e2
        | parse rs => cases rs <;> simp [Pipe.act] at e2
        | codeRecs _ _ rs => cases rs <;> simp [Pipe.act] at e2
        | cByCommit => simp only [Pipe.act] at e2; cases hp : p.pre <;> simp [hp] at e2
        | cRun => simp only [Pipe.act] at e2; cases hp : p.openErr <;> simp [hp] at e2
        | codeRecv n cache => simp only [Pipe.act, Act.recv.injEq] at e2; obtain ⟨rfl, rfl⟩ := e2; exact .code
        | flatRecv => simp only [Pipe.act, Act.recv.injEq] at e2; obtain ⟨rfl, rfl⟩ := e2; exact .flat
        | collect g => simp only [Pipe.act, Act.recv.injEq] at e2; obtain ⟨rfl, rfl⟩ := e2; exact .collect
        | _ =>
          first
          | (simp [Pipe.act] at e2; done)
          | (simp only [Pipe.act, Act.recv.injEq] at e2
             obtain ⟨rfl, rfl⟩ := e2
             cases hd)
      refine .inr ⟨?_, ?_, h.le, h.eq⟩
      · rw [set_procs, if_neg (Ne.symm hq)]; exact h.caller
      · intro x hx
        rw [set_procs]
        split
        · rename_i e; subst e
          exact .inr ⟨_, _, hm, rfl, hah⟩
        · exact h.others x hx
  | @close r m c k h1 h2 h3 =>
    by_cases hr : r = .caller
    · subst hr
      rcases h.caller_act h1 with ⟨d, cs, rfl, hd, hcs⟩ | rfl | rfl
      · cases h2
        refine .inr ⟨.inl ⟨cs, by rw [shut_procs, set_procs, if_pos rfl], hcs⟩, ?_, ?_, ?_⟩
        · intro q hq
          rw [shut_procs, set_procs, if_neg hq]
          exact h.others q hq
        · intro x hx
          rw [shut_closed]
          split
          · rfl
          · exact h.le x hx
        · intro x hx
          rw [shut_closed, if_neg (by rintro rfl; rw [hd] at hx; cases hx)]
          exact h.eq x hx
      · cases h2
      · cases h2
    · obtain ⟨l, rfl, h4⟩ := h.get h1 hr
      obtain ⟨k', e1, rfl⟩ := uact_close h2
      rcases h4 with h4 | ⟨l0, _, h4⟩
      · refine .inl ⟨_, .close h4 e1 ?_, (h.set hr _).shut _⟩
        cases hs : s.closed c with
        | false => rfl
        | true => rw [h.le c hs] at h3; cases h3
      · obtain ⟨c', v', k', h7, _⟩ := h4.act (p := p)
        rw [h7] at e1; cases e1
  | @go r m n g k h1 h2 h3 =>
    exfalso
    by_cases hr : r = .caller
    · subst hr
      rcases h.caller_act h1 with ⟨c, cs, rfl, _⟩ | rfl | rfl <;> cases h2
    · obtain ⟨l, rfl, h4⟩ := h.get h1 hr
      obtain ⟨g', k', e1, _, _⟩ := uact_go h2
      rcases h4 with h4 | ⟨l0, _, h4⟩
      · exact hr ((hpl _ _ h4).symm.trans (pipe_go p e1).1.symm)
      · obtain ⟨c', v', k', h7, _⟩ := h4.act (p := p)
        rw [h7] at e1; cases e1
  | @wait r m rs k h1 h2 h3 =>
    exfalso
    by_cases hr : r = .caller
    · subst hr
      rcases h.caller_act h1 with ⟨c, cs, rfl, _⟩ | rfl | rfl <;> cases h2
    · obtain ⟨l, rfl, h4⟩ := h.get h1 hr
      rcases uact_cases p prep ds l with h4 | ⟨_, _, h4, _⟩ <;> rw [h4] at h2
      · obtain ⟨k', h5, _⟩ := map_wait h2
        exact (pipe_wait p h5).elim
      · cases h2

end Ripsrc
