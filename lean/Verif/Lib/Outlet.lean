import Verif.Model.Outlet
import Verif.Lib.Conc
/-!
# A call with any consumer is the call with the collector, cut short
-/
namespace Ripsrc
open Conc

variable {R C V L A E : Type} [DecidableEq R] [DecidableEq C]

/-- The variant of a call that collects into a slice: control states and channels. -/
structure Sl (R C V L A E : Type) where
  act : L → Act R C V L
  caller : R
  who : R
  out : C
  dn : C
  l0 : L
  start : L
  col : List A → L
  fin : List A → L
  fin' : List A → L
  join : E → L
  ret : E → List A → L
  val : A → V
  sl : List A → V

def Sl.init (S : Sl R C V L A E) : State R C L := { procs := fun r => if r = S.caller then some S.l0 else none, closed := fun _ => false }
def Sl.open (S : Sl R C V L A E) : OState R C L A := { st := { procs := fun r => if r = S.caller then some S.start else none, closed := fun _ => false } }

structure Sl.Ok (S : Sl R C V L A E) : Prop where
  ne : S.who ≠ S.caller
  aL0 : S.act S.l0 = .go S.who (S.col []) S.start
  aCol : ∀ g, ∃ f, S.act (S.col g) = .recv S.out f ∧ (∀ a, f (some (S.val a)) = S.col (g ++ [a])) ∧ f none = S.fin g
  aFin : ∀ g, S.act (S.fin g) = .send S.dn (S.sl g) (S.fin' g)
  aFin' : ∀ g, S.act (S.fin' g) = .halt
  aJoin : ∀ e, ∃ f, S.act (S.join e) = .recv S.dn f ∧ ∀ g, f (some (S.sl g)) = S.ret e g
  aRet : ∀ e g, S.act (S.ret e g) = .halt
  vals : ∀ l v k, S.act l = .send S.out v k → ∃ a, v = S.val a
  goWho : ∀ l g k, S.act l = .go S.who g k → l = S.l0
  noWait : ∀ l rs k, S.act l = .wait rs k → S.who ∉ rs ∧ S.caller ∉ rs
  i0 : ∀ n u, Steps S.act n S.init u → u.procs S.who ≠ none → ∀ r, u.procs r ≠ some S.l0
  i1 : ∀ n u g, Steps S.act n S.init u → u.closed S.out = true → u.procs S.who = some (S.col g) → ∃ e, u.procs S.caller = some (S.join e)
  i2 : ∀ n u e, Steps S.act n S.init u → u.procs S.caller = some (S.join e) → u.closed S.out = true ∧ u.closed S.dn = false

/-- The same moment of the variant with the collector. -/
def Sl.cl (S : Sl R C V L A E) (x : OState R C L A) : State R C L := { procs := upd x.st.procs S.who (some (S.col x.seen)), closed := x.st.closed }

variable {S : Sl R C V L A E}

theorem cl_procs (x : OState R C L A) (r : R) : (S.cl x).procs r = if r = S.who then some (S.col x.seen) else x.st.procs r := rfl

theorem cl_set {s : State R C L} {h : List A} {b : Bool} {r : R} {l : L} (hr : r ≠ S.who) : S.cl ⟨s.set r l, h, b⟩ = (S.cl ⟨s, h, b⟩).set r l := by
  apply State.ext'
  · intro q
    simp only [cl_procs, set_procs]
    by_cases h1 : q = S.who
    · subst h1; rw [if_pos rfl, if_neg (Ne.symm hr), if_pos rfl]
    · rw [if_neg h1, if_neg h1]
  · intro c; rfl

theorem cl_shut {s : State R C L} {h : List A} {b : Bool} {c : C} : S.cl ⟨s.shut c, h, b⟩ = (S.cl ⟨s, h, b⟩).shut c := rfl

theorem cl_some {s : State R C L} {h : List A} {b : Bool} {r : R} {l : L} (hw : s.procs S.who = none) (hr : s.procs r = some l) :
    r ≠ S.who ∧ (S.cl ⟨s, h, b⟩).procs r = some l := by
  have : r ≠ S.who := by rintro rfl; rw [hw] at hr; cases hr
  exact ⟨this, by rw [cl_procs, if_neg this]; exact hr⟩

/-- A step of the goroutines of the call. -/
theorem cl_inner {s t : State R C L} {h : List A} {b : Bool} (hS : S.Ok) (hw : s.procs S.who = none) (h0 : ∀ r, s.procs r ≠ some S.l0) (hst : Conc.Step S.act s t) :
    Conc.Step S.act (S.cl ⟨s, h, b⟩) (S.cl ⟨t, h, b⟩) ∧ t.procs S.who = none := by
  cases hst with
  | @tau r l k h1 h2 =>
    obtain ⟨hr, h1'⟩ := cl_some (S := S) (h := h) (b := b) hw h1
    exact ⟨by rw [cl_set hr]; exact .tau h1' h2, by rw [set_procs, if_neg (Ne.symm hr)]; exact hw⟩
  | @sync p q l m c v k f h1 h2 h3 h4 h5 =>
    obtain ⟨hr, h1'⟩ := cl_some (S := S) (h := h) (b := b) hw h1
    obtain ⟨hq, h3'⟩ := cl_some (S := S) (h := h) (b := b) hw h3
    refine ⟨by rw [cl_set hq, cl_set hr]; exact .sync h1' h2 h3' h4 h5, ?_⟩
    rw [set_procs, if_neg (Ne.symm hq), set_procs, if_neg (Ne.symm hr)]; exact hw
  | @recvClosed q m c f h1 h2 h3 =>
    obtain ⟨hr, h1'⟩ := cl_some (S := S) (h := h) (b := b) hw h1
    exact ⟨by rw [cl_set hr]; exact .recvClosed h1' h2 h3, by rw [set_procs, if_neg (Ne.symm hr)]; exact hw⟩
  | @close r l c k h1 h2 h3 =>
    obtain ⟨hr, h1'⟩ := cl_some (S := S) (h := h) (b := b) hw h1
    refine ⟨by rw [cl_shut, cl_set hr]; exact .close h1' h2 h3, ?_⟩
    show (s.set r k).procs S.who = none
    rw [set_procs, if_neg (Ne.symm hr)]; exact hw
  | @go r l n g k h1 h2 h3 =>
    obtain ⟨hr, h1'⟩ := cl_some (S := S) (h := h) (b := b) hw h1
    have hn : n ≠ S.who := by
      rintro rfl
      exact h0 r (by rw [h1, hS.goWho _ _ _ h2])
    refine ⟨by rw [cl_set hr, cl_set hn]; exact .go h1' h2 (by rw [cl_procs, if_neg hn]; exact h3), ?_⟩
    rw [set_procs, if_neg (Ne.symm hr), set_procs, if_neg (Ne.symm hn)]; exact hw
  | @wait r l rs k h1 h2 h3 =>
    obtain ⟨hr, h1'⟩ := cl_some (S := S) (h := h) (b := b) hw h1
    refine ⟨by
      rw [cl_set hr]
      refine .wait h1' h2 fun x hx => ?_
      obtain ⟨m, hm, hm'⟩ := h3 x hx
      exact ⟨m, (cl_some hw hm).2, hm'⟩, by rw [set_procs, if_neg (Ne.symm hr)]; exact hw⟩

/-- Every execution with a consumer is an execution with the collector, which is waiting for the next value. -/
theorem open_sim (hS : S.Ok) {ready : List A → Prop} {n : Nat} {x : OState R C L A} (hx : OSteps S.act S.out S.val ready n S.open x) :
    x.st.procs S.who = none ∧ (x.over = true → x.st.closed S.out = true) ∧ ∃ m, Steps S.act (m + 1) S.init (S.cl x) ∧ n = m + (if x.over then 1 else 0) := by
  generalize h0 : S.open = x0 at hx
  induction hx with
  | refl =>
    subst h0
    refine ⟨?_, by simp [Sl.open], 0, ?_, by simp [Sl.open]⟩
    · simp only [Sl.open]; rw [if_neg hS.ne]
    · refine .cons ?_ .refl
      have hs : Conc.Step S.act S.init ((S.init.set S.who (S.col [])).set S.caller S.start) :=
        .go (r := S.caller) (l := S.l0) (by simp [Sl.init]) hS.aL0 (by simp only [Sl.init]; rw [if_neg hS.ne])
      have e : (S.init.set S.who (S.col [])).set S.caller S.start = S.cl S.open := by
        apply State.ext'
        · intro r
          simp only [set_procs, cl_procs, Sl.init, Sl.open]
          by_cases h1 : r = S.caller
          · subst h1; rw [if_pos rfl, if_neg (Ne.symm hS.ne), if_pos rfl]
          · rw [if_neg h1]
            by_cases h2 : r = S.who
            · rw [if_pos h2, if_pos h2]
            · rw [if_neg h2, if_neg h2, if_neg h1, if_neg h1]
        · intro c; rfl
      rw [e] at hs
      exact hs
  | @snoc n x0 y z _ hst ih =>
    obtain ⟨hw, hov, m, hm, hn⟩ := ih h0
    have hl0 : ∀ r, y.st.procs r ≠ some S.l0 := by
      intro r hr
      have h1 := hS.i0 _ _ hm (by rw [cl_procs, if_pos rfl]; simp) r
      rw [cl_procs] at h1
      split at h1
      · rename_i h2; subst h2; rw [hw] at hr; cases hr
      · exact h1 hr
    cases hst with
    | @inner s t h b hs =>
      obtain ⟨h1, h2⟩ := cl_inner (h := h) (b := b) hS hw hl0 hs
      refine ⟨h2, ?_, m + 1, hm.snoc h1, by simp only at hn ⊢; omega⟩
      intro hb
      have hc := hov hb
      simp only at hc ⊢
      cases hs <;> first | exact hc | (simp only [shut_closed]; split <;> first | rfl | exact hc)
    | @take s h b r l a k hr h1 h2 h3 =>
      obtain ⟨hne, h1'⟩ := cl_some (S := S) (h := h) (b := b) hw h1
      refine ⟨by rw [set_procs, if_neg (Ne.symm hne)]; exact hw, ?_, m + 1, ?_, by simp only at hn ⊢; omega⟩
      · intro hb
        exact hov hb
      · obtain ⟨f, hf, hv, _⟩ := hS.aCol h
        have hstep : Conc.Step S.act (S.cl ⟨s, h, b⟩) (((S.cl ⟨s, h, b⟩).set r k).set S.who (f (some (S.val a)))) :=
          .sync h1' h2 (q := S.who) (m := S.col h) (by rw [cl_procs, if_pos rfl]) hf h3
        have e : ((S.cl ⟨s, h, b⟩).set r k).set S.who (f (some (S.val a))) = S.cl ⟨s.set r k, h ++ [a], b⟩ := by
          rw [hv]
          apply State.ext'
          · intro q
            simp only [set_procs, cl_procs]
            by_cases h4 : q = S.who
            · rw [if_pos h4, if_pos h4]
            · rw [if_neg h4, if_neg h4, if_neg h4]
          · intro c; rfl
        rw [e] at hstep
        exact hm.snoc hstep
    | @over s h hr hc =>
      refine ⟨hw, fun _ => hc, m, hm, ?_⟩
      simp only [Bool.false_eq_true, if_false] at hn
      simp [hn]

/-- If nothing can move although the consumer is ready, the channel is closed. -/
theorem open_stuck (hS : S.Ok) {ready : List A → Prop} {x : OState R C L A} (hr : ready x.seen) (hst : x.Stuck S.act S.out S.val ready)
    (hc : x.st.closed S.out = false) : Conc.Stuck S.act (S.cl x) := by
  obtain ⟨s, h, b⟩ := x
  obtain ⟨f0, hf0, _, _⟩ := hS.aCol h
  have hwho : (S.cl ⟨s, h, b⟩).procs S.who = some (S.col h) := by rw [cl_procs, if_pos rfl]
  have back : ∀ {r l}, (S.cl ⟨s, h, b⟩).procs r = some l → r = S.who ∧ l = S.col h ∨ r ≠ S.who ∧ s.procs r = some l := by
    intro r l hrl
    rw [cl_procs] at hrl
    split at hrl
    · rename_i e; cases hrl; exact .inl ⟨e, rfl⟩
    · rename_i e; exact .inr ⟨e, hrl⟩
  intro u hu
  cases hu with
  | @tau r l k h1 h2 =>
    rcases back h1 with ⟨_, rfl⟩ | ⟨hne, h1⟩
    · rw [hf0] at h2; cases h2
    · exact hst _ (.inner (.tau h1 h2))
  | @sync p q l m c v k f h1 h2 h3 h4 h5 =>
    rcases back h1 with ⟨_, rfl⟩ | ⟨hne, h1⟩
    · rw [hf0] at h2; cases h2
    · rcases back h3 with ⟨_, rfl⟩ | ⟨hne', h3⟩
      · rw [hf0] at h4; cases h4
        obtain ⟨a, rfl⟩ := hS.vals _ _ _ h2
        exact hst _ (.take hr h1 h2 h5)
      · exact hst _ (.inner (.sync h1 h2 h3 h4 h5))
  | @recvClosed q m c f h1 h2 h3 =>
    rcases back h1 with ⟨_, rfl⟩ | ⟨hne, h1⟩
    · rw [hf0] at h2; cases h2
      have h3' : s.closed S.out = true := h3
      simp only at hc
      rw [hc] at h3'; cases h3'
    · exact hst _ (.inner (.recvClosed h1 h2 h3))
  | @close r l c k h1 h2 h3 =>
    rcases back h1 with ⟨_, rfl⟩ | ⟨hne, h1⟩
    · rw [hf0] at h2; cases h2
    · exact hst _ (.inner (.close h1 h2 h3))
  | @go r l n g k h1 h2 h3 =>
    rcases back h1 with ⟨_, rfl⟩ | ⟨hne, h1⟩
    · rw [hf0] at h2; cases h2
    · have hn : n ≠ S.who := by rintro rfl; rw [hwho] at h3; cases h3
      rw [cl_procs, if_neg hn] at h3
      exact hst _ (.inner (.go h1 h2 h3))
  | @wait r l rs k h1 h2 h3 =>
    rcases back h1 with ⟨_, rfl⟩ | ⟨hne, h1⟩
    · rw [hf0] at h2; cases h2
    · refine hst _ (.inner (.wait h1 h2 fun x hx => ?_))
      obtain ⟨m, hm, hm'⟩ := h3 x hx
      rcases back hm with ⟨_, rfl⟩ | ⟨_, hm⟩
      · rw [hf0] at hm'; cases hm'
      · exact ⟨m, hm, hm'⟩

/-- The state after the collector and the caller of the variant have finished. -/
def Sl.done (S : Sl R C V L A E) (x : OState R C L A) (e : E) : State R C L :=
  (((S.cl x).set S.who (S.fin x.seen)).set S.who (S.fin' x.seen)).set S.caller (S.ret e x.seen)

theorem done_procs (hS : S.Ok) (x : OState R C L A) (e : E) (r : R) :
    (S.done x e).procs r = if r = S.caller then some (S.ret e x.seen) else if r = S.who then some (S.fin' x.seen) else x.st.procs r := by
  simp only [Sl.done, set_procs, cl_procs]
  by_cases h1 : r = S.caller
  · rw [if_pos h1, if_pos h1]
  · rw [if_neg h1, if_neg h1]
    by_cases h2 : r = S.who
    · rw [if_pos h2, if_pos h2]
    · rw [if_neg h2, if_neg h2, if_neg h2, if_neg h2]

/-- When the call has returned, the variant with the collector can return what the consumer has seen. -/
theorem open_returned (hS : S.Ok) {ready : List A → Prop} {n : Nat} {x : OState R C L A} (hx : OSteps S.act S.out S.val ready n S.open x) {e : E}
    (he : x.st.procs S.caller = some (S.join e)) : Reach S.act S.init (S.done x e) := by
  obtain ⟨hw, _, m, hm, _⟩ := open_sim hS hx
  have hcl : (S.cl x).procs S.caller = some (S.join e) := by rw [cl_procs, if_neg (Ne.symm hS.ne)]; exact he
  obtain ⟨h1, h2⟩ := hS.i2 _ _ _ hm hcl
  obtain ⟨f, hf, _, hn⟩ := hS.aCol x.seen
  obtain ⟨f', hf', hg⟩ := hS.aJoin e
  have s1 : Conc.Step S.act (S.cl x) ((S.cl x).set S.who (S.fin x.seen)) := by
    have := Conc.Step.recvClosed (act := S.act) (s := S.cl x) (q := S.who) (m := S.col x.seen) (by rw [cl_procs, if_pos rfl]) hf h1
    rwa [hn] at this
  have s2 : Conc.Step S.act ((S.cl x).set S.who (S.fin x.seen)) (S.done x e) := by
    have := Conc.Step.sync (act := S.act) (s := (S.cl x).set S.who (S.fin x.seen)) (p := S.who) (q := S.caller) (l := S.fin x.seen) (m := S.join e) (by rw [set_procs, if_pos rfl])
      (hS.aFin _) (by rw [set_procs, if_neg (Ne.symm hS.ne)]; exact hcl) hf' h2
    rwa [hg] at this
  exact ⟨_, (hm.snoc s1).snoc s2⟩

/-- … and then nothing can move in it, if nothing can move here. -/
theorem done_stuck (hS : S.Ok) {ready : List A → Prop} {x : OState R C L A} (hw : x.st.procs S.who = none) {e : E}
    (hst : x.Stuck S.act S.out S.val ready) : Conc.Stuck S.act (S.done x e) := by
  obtain ⟨s, h, b⟩ := x
  have back : ∀ {r l}, (S.done ⟨s, h, b⟩ e).procs r = some l → S.act l = .halt ∨ (r ≠ S.who ∧ r ≠ S.caller ∧ s.procs r = some l) := by
    intro r l hrl
    rw [done_procs hS] at hrl
    split at hrl
    · cases hrl; exact .inl (hS.aRet _ _)
    · rename_i h1
      split at hrl
      · cases hrl; exact .inl (hS.aFin' _)
      · rename_i h2; exact .inr ⟨h2, h1, hrl⟩
  intro u hu
  cases hu with
  | @tau r l k h1 h2 =>
    rcases back h1 with h | ⟨_, _, h1⟩
    · rw [h] at h2; cases h2
    · exact hst _ (.inner (.tau h1 h2))
  | @sync p q l m c v k f h1 h2 h3 h4 h5 =>
    rcases back h1 with h | ⟨_, _, h1⟩
    · rw [h] at h2; cases h2
    · rcases back h3 with h | ⟨_, _, h3⟩
      · rw [h] at h4; cases h4
      · exact hst _ (.inner (.sync h1 h2 h3 h4 h5))
  | @recvClosed q m c f h1 h2 h3 =>
    rcases back h1 with h | ⟨_, _, h1⟩
    · rw [h] at h2; cases h2
    · exact hst _ (.inner (.recvClosed h1 h2 h3))
  | @close r l c k h1 h2 h3 =>
    rcases back h1 with h | ⟨_, _, h1⟩
    · rw [h] at h2; cases h2
    · exact hst _ (.inner (.close h1 h2 h3))
  | @go r l n g k h1 h2 h3 =>
    rcases back h1 with h | ⟨_, _, h1⟩
    · rw [h] at h2; cases h2
    · rw [done_procs hS] at h3
      split at h3
      · cases h3
      · split at h3
        · cases h3
        · exact hst _ (.inner (.go h1 h2 h3))
  | @wait r l rs k h1 h2 h3 =>
    rcases back h1 with h | ⟨_, _, h1⟩
    · rw [h] at h2; cases h2
    · obtain ⟨hn1, hn2⟩ := hS.noWait _ _ _ h2
      refine hst _ (.inner (.wait h1 h2 fun x hx => ?_))
      obtain ⟨m, hm, hm'⟩ := h3 x hx
      rw [done_procs hS, if_neg (by rintro rfl; exact hn2 hx), if_neg (by rintro rfl; exact hn1 hx)] at hm
      exact ⟨m, hm, hm'⟩

/-- A consumer that is ready: when nothing can move, the call has returned, the consumer has found the channel closed, and the variant has come to its end with the same values. -/
theorem open_end (hS : S.Ok) (hall : ∀ n u, Steps S.act n S.init u → Conc.Stuck S.act u → AllReturned S.act u) {ready : List A → Prop} {n : Nat} {x : OState R C L A}
    (hx : OSteps S.act S.out S.val ready n S.open x) (hr : ready x.seen) (hst : x.Stuck S.act S.out S.val ready) :
    ∃ e, x.st.procs S.caller = some (S.join e) ∧ x.over = true ∧ Reach S.act S.init (S.done x e) ∧ Conc.Stuck S.act (S.done x e) ∧
      (∀ r l, r ≠ S.caller → x.st.procs r = some l → S.act l = .halt) := by
  obtain ⟨hw, _, m, hm, _⟩ := open_sim hS hx
  have hc : x.st.closed S.out = true := by
    apply Classical.byContradiction
    intro hc
    have hc : x.st.closed S.out = false := by simpa using hc
    have hs := open_stuck hS hr hst hc
    have := hall _ _ hm hs S.who (S.col x.seen) (by rw [cl_procs, if_pos rfl])
    obtain ⟨f, hf, _⟩ := hS.aCol x.seen
    rw [hf] at this; cases this
  obtain ⟨e, he⟩ := hS.i1 _ _ x.seen hm hc (by rw [cl_procs, if_pos rfl])
  rw [cl_procs, if_neg (Ne.symm hS.ne)] at he
  have hre := open_returned hS hx he
  have hds := done_stuck (e := e) hS hw hst
  refine ⟨e, he, ?_, hre, hds, ?_⟩
  · obtain ⟨s, h, b⟩ := x
    cases b with
    | true => rfl
    | false => exact absurd (.over hr hc) (hst _)
  · intro r l hne hrl
    obtain ⟨k, hk⟩ := hre
    have := hall _ _ hk hds r l
    apply this
    rw [done_procs hS, if_neg hne, if_neg (by rintro rfl; rw [hw] at hrl; cases hrl)]
    exact hrl

/-- No goroutine panics here if none does in the variant. -/
theorem open_not_crashed (hS : S.Ok) {ready : List A → Prop} {n : Nat} {x : OState R C L A} (hx : OSteps S.act S.out S.val ready n S.open x)
    (h : ¬ Crashed S.act (S.cl x)) : ¬ Crashed S.act x.st := by
  rintro ⟨r, l, h1, h2⟩
  obtain ⟨s, hh, b⟩ := x
  exact h ⟨r, l, (cl_some (open_sim hS hx).1 h1).2, h2⟩

end Ripsrc
