import Verif.Lib.Unwind
import Verif.Lib.OutletBack
import Verif.Lib.Stream
/-!
# Executions with the deferred calls of a panicking caller
-/
namespace Ripsrc
open Conc
open Spec

variable {τ : Type} {p : Pipe τ} {prep : Bool}

theorem deferred_all {ds : List PChan} (h : ds = [.res2, .res] ∨ ds = [.res2]) : ∀ c ∈ ds, c.deferred = true := by
  rcases h with rfl | rfl
  · intro c hc; simp at hc; rcases hc with rfl | rfl <;> rfl
  · intro c hc; simp at hc; subst hc; rfl

theorem open_placed {ready : List (CodeRecord τ) → Prop} {n : Nat} {y : OState PRole PChan (PLoc τ) (CodeRecord τ)} (hy : CodeSteps p ready n Pipe.open y) : Placed PLoc.role y.st := by
  obtain ⟨hw, _, m, hm, _⟩ := open_sim (pipe_local p).ok hy
  have := (Sl.Inv.steps (pipe_local p) hm).placed
  intro r l hr
  exact this r l (cl_some hw hr).2

theorem same_open : Same (Pipe.uopen : OState PRole PChan (ULoc τ) (CodeRecord τ)).st (Pipe.open : OState PRole PChan (PLoc τ) (CodeRecord τ)).st where
  procs := by
    intro r
    simp only [Pipe.uopen, Pipe.open]
    split <;> rfl
  closed := fun _ => rfl

/-- `Code` and a consumer. -/
theorem code_usim {ready : List (CodeRecord τ) → Prop} {n : Nat} {x : OState PRole PChan (ULoc τ) (CodeRecord τ)} (hx : UCodeSteps p prep ready n Pipe.uopen x) :
    ∃ m y, CodeSteps p (fun _ => True) m Pipe.open y ∧ y.seen = x.seen ∧ (Same x.st y.st ∧ y.over = x.over ∨ Unw x.st y.st) := by
  generalize h0 : (Pipe.uopen : OState PRole PChan (ULoc τ) (CodeRecord τ)) = x0 at hx
  induction hx with
  | refl => subst h0; exact ⟨0, Pipe.open, .refl, rfl, .inl ⟨same_open, rfl⟩⟩
  | @snoc n x0 x z _ hst ih =>
    obtain ⟨m, y, hy, hseen, hrel⟩ := ih h0
    have hpl := open_placed hy
    obtain ⟨s, h, b⟩ := y
    cases hst with
    | @inner u t h' b' hs =>
      simp only at hseen hrel
      subst hseen
      rcases hrel with ⟨h1, rfl⟩ | h1
      · rcases h1.step (deferred_all (.inl rfl)) hpl hs with ⟨s', h2, h3⟩ | h2
        · exact ⟨_, _, hy.snoc (.inner h2), rfl, .inl ⟨h3, rfl⟩⟩
        · exact ⟨_, _, hy, rfl, .inr h2⟩
      · rcases h1.step hpl hs with ⟨s', h2, h3⟩ | h2
        · exact ⟨_, _, hy.snoc (.inner h2), rfl, .inr h3⟩
        · exact ⟨_, _, hy, rfl, .inr h2⟩
    | @take u h' b' r l a k hr h1 h2 h3 =>
      simp only at hseen hrel
      subst hseen
      rcases hrel with ⟨h4, rfl⟩ | h4
      · obtain ⟨l, rfl, hl⟩ := h4.get h1
        obtain ⟨k, e1, rfl⟩ := uact_send h2
        exact ⟨_, _, hy.snoc (.take trivial hl e1 (by rw [← h4.closed]; exact h3)), rfl, .inl ⟨h4.set _ _, rfl⟩⟩
      · obtain ⟨l, k', hne, rfl, hl, e1⟩ := h4.send h1 h2 (by simp [PChan.rd])
        refine ⟨_, _, hy.snoc (.take trivial hl e1 ?_), rfl, .inr (h4.set hne _)⟩
        cases hs : s.closed .res with
        | false => rfl
        | true => rw [h4.le _ hs] at h3; cases h3
    | @over u h' hr hc =>
      simp only at hseen hrel
      subst hseen
      rcases hrel with ⟨h4, rfl⟩ | h4
      · exact ⟨_, _, hy.snoc (.over trivial (by rw [← h4.closed]; exact hc)), rfl, .inl ⟨h4, rfl⟩⟩
      · exact ⟨_, _, hy, rfl, .inr h4⟩

theorem same_init : Same (Pipe.uinit : State PRole PChan (ULoc τ)) (Pipe.init : State PRole PChan (PLoc τ)) where
  procs := by
    intro r
    simp only [Pipe.uinit, Pipe.init]
    split <;> rfl
  closed := fun _ => rfl

/-- `CodeSlice`. -/
theorem slice_usim {n : Nat} {u : State PRole PChan (ULoc τ)} (hu : Steps (p.uact prep [.res2, .res]) n Pipe.uinit u) :
    ∃ m s, Steps p.act m Pipe.init s ∧ (Same u s ∨ Unw u s) := by
  refine hu.inv (P := fun u => ∃ m s, Steps p.act m Pipe.init s ∧ (Same u s ∨ Unw u s)) ?_ ⟨0, _, .refl, .inl same_init⟩
  rintro u v ⟨m, s, hs, hrel⟩ hst
  have hpl : Placed PLoc.role s := (Sl.Inv.steps (pipe_local p) hs).placed
  rcases hrel with h1 | h1
  · rcases h1.step (deferred_all (.inl rfl)) hpl hst with ⟨s', h2, h3⟩ | h2
    · exact ⟨_, _, hs.snoc h2, .inl h3⟩
    · exact ⟨_, _, hs, .inr h2⟩
  · rcases h1.step hpl hst with ⟨s', h2, h3⟩ | h2
    · exact ⟨_, _, hs.snoc h2, .inr h3⟩
    · exact ⟨_, _, hs, .inr h2⟩

/-- The consumer found the channel of the commits closed. -/
def isEnd : CodeSeen τ → Bool
  | .resClosed => true
  | _ => false

theorem SSteps.snocOne {ready : List (CodeSeen τ) → Want → Prop} {m : Nat} {x y z : SState τ} (h : SSteps p ready m x y) (h2 : SStep p ready y z) : SSteps p ready (m + 1) x z := by
  induction h with
  | refl => exact .cons h2 .refl
  | cons h _ ih => exact .cons h (ih h2)

theorem sstream_placed {ready : List (CodeSeen τ) → Want → Prop} {n : Nat} {y : SState τ} (hy : SSteps p ready n SState.init y) : Placed PLoc.role y.st := by
  have key : ∀ {n : Nat} {x y : SState τ}, SSteps p ready n x y → Placed PLoc.role x.st → Placed PLoc.role y.st := by
    intro n x y h
    induction h with
    | refl => exact id
    | cons hs _ ih =>
      intro h0
      apply ih
      cases hs with
      | inner hst => exact h0.step (pipe_owned p) hst
      | commit _ h1 h2 _ => exact h0.set ((pipe_send p h2).2.trans (h0 _ _ h1))
      | record _ h1 h2 _ => exact h0.set ((pipe_send p h2).2.trans (h0 _ _ h1))
      | resClosed _ _ => exact h0
      | blamesClosed _ _ => exact h0
  apply key hy
  intro r l hr
  simp only [SState.init] at hr
  split at hr
  · rename_i e; cases hr; exact e.symm
  · cases hr

/-- `CodeByCommit` and a consumer. -/
theorem by_commit_usim {ready : List (CodeSeen τ) → Want → Prop} {n : Nat} {x : UState τ} (hx : USteps p prep ready n UState.init x) :
    ∃ m y, SSteps p (fun _ _ => True) m SState.init y ∧ (Same x.st y.st ∧ y.seen = x.seen ∨ Unw x.st y.st ∧ y.seen.filter (!isEnd ·) = x.seen.filter (!isEnd ·)) := by
  generalize h0 : (UState.init : UState τ) = x0 at hx
  induction hx with
  | refl =>
    subst h0
    refine ⟨0, SState.init, .refl, .inl ⟨⟨?_, fun _ => rfl⟩, rfl⟩⟩
    intro r
    simp only [UState.init, SState.init]
    split <;> rfl
  | @snoc n x0 x z _ hst ih =>
    obtain ⟨m, y, hy, hrel⟩ := ih h0
    have hpl := sstream_placed hy
    obtain ⟨s, h⟩ := y
    cases hst with
    | @inner u t h' hs =>
      rcases hrel with ⟨h1, rfl⟩ | ⟨h1, hf⟩
      · rcases h1.step (deferred_all (.inr rfl)) hpl hs with ⟨s', h2, h3⟩ | h2
        · exact ⟨_, _, hy.snocOne (.inner h2), .inl ⟨h3, rfl⟩⟩
        · exact ⟨_, _, hy, .inr ⟨h2, rfl⟩⟩
      · rcases h1.step hpl hs with ⟨s', h2, h3⟩ | h2
        · exact ⟨_, _, hy.snocOne (.inner h2), .inr ⟨h3, hf⟩⟩
        · exact ⟨_, _, hy, .inr ⟨h2, hf⟩⟩
    | @commit u h' r l c i k hr h1 h2 h3 =>
      rcases hrel with ⟨h4, rfl⟩ | ⟨h4, hf⟩
      · obtain ⟨l, rfl, hl⟩ := h4.get h1
        obtain ⟨k, e1, rfl⟩ := uact_send h2
        exact ⟨_, _, hy.snocOne (.commit trivial hl e1 (by rw [← h4.closed]; exact h3)), .inl ⟨h4.set _ _, rfl⟩⟩
      · obtain ⟨l, k', hne, rfl, hl, e1⟩ := h4.send h1 h2 (by simp [PChan.rd])
        refine ⟨_, _, hy.snocOne (.commit trivial hl e1 ?_), .inr ⟨h4.set hne _, ?_⟩⟩
        · cases hs : s.closed .res2 with
          | false => rfl
          | true => rw [h4.le _ hs] at h3; cases h3
        · simp only [List.filter_append]
          simp only at hf
          rw [hf]
    | @record u h' r l i v k hr h1 h2 h3 =>
      rcases hrel with ⟨h4, rfl⟩ | ⟨h4, hf⟩
      · obtain ⟨l, rfl, hl⟩ := h4.get h1
        obtain ⟨k, e1, rfl⟩ := uact_send h2
        exact ⟨_, _, hy.snocOne (.record trivial hl e1 (by rw [← h4.closed]; exact h3)), .inl ⟨h4.set _ _, rfl⟩⟩
      · obtain ⟨l, k', hne, rfl, hl, e1⟩ := h4.send h1 h2 (by simp [PChan.rd])
        refine ⟨_, _, hy.snocOne (.record trivial hl e1 ?_), .inr ⟨h4.set hne _, ?_⟩⟩
        · cases hs : s.closed (.blames i) with
          | false => rfl
          | true => rw [h4.le _ hs] at h3; cases h3
        · simp only [List.filter_append]
          simp only at hf
          rw [hf]
    | @resClosed u h' hr hc =>
      rcases hrel with ⟨h4, rfl⟩ | ⟨h4, hf⟩
      · exact ⟨_, _, hy.snocOne (.resClosed trivial (by rw [← h4.closed]; exact hc)), .inl ⟨h4, rfl⟩⟩
      · refine ⟨_, _, hy, .inr ⟨h4, ?_⟩⟩
        simp only at hf
        have e : ([Seen.resClosed] : List (CodeSeen τ)).filter (!isEnd ·) = [] := rfl
        rw [List.filter_append, e, List.append_nil]; exact hf
    | @blamesClosed u h' i hr hc =>
      rcases hrel with ⟨h4, rfl⟩ | ⟨h4, hf⟩
      · exact ⟨_, _, hy.snocOne (.blamesClosed trivial (by rw [← h4.closed]; exact hc)), .inl ⟨h4, rfl⟩⟩
      · refine ⟨_, _, hy.snocOne (.blamesClosed trivial (by rw [← h4.eq _ rfl]; exact hc)), .inr ⟨h4, ?_⟩⟩
        simp only [List.filter_append]
        simp only at hf
        rw [hf]

/-! ### The other way round: while the caller has not panicked, every step is a step here -/

theorem lift_act {l : PLoc τ} (h : p.act l ≠ .panic) {ds : List PChan} : p.uact false ds (.prog l) = (p.act l).map .prog :=
  uact_prog (by rintro rfl; exact h rfl) (by simp)

theorem lift_step {ds : List PChan} {s t : State PRole PChan (PLoc τ)} {u : State PRole PChan (ULoc τ)} (h : Same u s) (hst : Conc.Step p.act s t) :
    ∃ v, Conc.Step (p.uact false ds) u v ∧ Same v t := by
  have up : ∀ {r l}, s.procs r = some l → u.procs r = some (.prog l) := by intro r l hr; rw [h.procs, hr]; rfl
  cases hst with
  | @tau r l k h1 h2 => exact ⟨_, .tau (up h1) (by rw [lift_act (by rw [h2]; simp), h2]; rfl), h.set _ _⟩
  | @sync a b l m c v k f h1 h2 h3 h4 h5 =>
    exact ⟨_, .sync (up h1) (by rw [lift_act (by rw [h2]; simp), h2]; rfl) (up h3) (by rw [lift_act (by rw [h4]; simp), h4]; rfl) (by rw [h.closed]; exact h5), (h.set _ _).set _ _⟩
  | @recvClosed q m c f h1 h2 h3 =>
    exact ⟨_, .recvClosed (up h1) (by rw [lift_act (by rw [h2]; simp), h2]; rfl) (by rw [h.closed]; exact h3), h.set _ _⟩
  | @close r l c k h1 h2 h3 =>
    exact ⟨_, .close (up h1) (by rw [lift_act (by rw [h2]; simp), h2]; rfl) (by rw [h.closed]; exact h3), (h.set _ _).shut _⟩
  | @go r l n g k h1 h2 h3 =>
    exact ⟨_, .go (up h1) (by rw [lift_act (by rw [h2]; simp), h2]; rfl) (by rw [h.procs, h3]; rfl), (h.set _ _).set _ _⟩
  | @wait r l rs k h1 h2 h3 => exact (pipe_wait p h2).elim

theorem lift_osteps {ready : List (CodeRecord τ) → Prop} {n : Nat} {y : OState PRole PChan (PLoc τ) (CodeRecord τ)} (hy : CodeSteps p ready n Pipe.open y) :
    ∃ x, UCodeSteps p false ready n Pipe.uopen x ∧ x.seen = y.seen ∧ x.over = y.over ∧ Same x.st y.st := by
  generalize h0 : (Pipe.open : OState PRole PChan (PLoc τ) (CodeRecord τ)) = y0 at hy
  induction hy with
  | refl => subst h0; exact ⟨_, .refl, rfl, rfl, same_open⟩
  | @snoc n y0 y z _ hst ih =>
    obtain ⟨x, hx, hseen, hover, hsame⟩ := ih h0
    obtain ⟨u, h, b⟩ := x
    cases hst with
    | @inner s t h' b' hs =>
      simp only at hseen hover hsame
      subst hseen; subst hover
      obtain ⟨v, h1, h2⟩ := lift_step (ds := [.res2, .res]) hsame hs
      exact ⟨_, hx.snoc (.inner h1), rfl, rfl, h2⟩
    | @take s h' b' r l a k hr h1 h2 h3 =>
      simp only at hseen hover hsame
      subst hseen; subst hover
      refine ⟨_, hx.snoc (.take (l := .prog l) (k := .prog k) hr (by rw [hsame.procs, h1]; rfl) (by rw [lift_act (by rw [h2]; simp), h2]; rfl) (by rw [hsame.closed]; exact h3)), rfl, rfl, hsame.set _ _⟩
    | @over s h' hr hc =>
      simp only at hseen hover hsame
      subst hseen; subst hover
      exact ⟨_, hx.snoc (.over hr (by rw [hsame.closed]; exact hc)), rfl, rfl, hsame⟩

theorem pipe_recv_collect (p : Pipe τ) : ∀ l c f o g, p.sl.act l = .recv c f → f o = p.sl.col g → ∃ g', l = p.sl.col g' := by
  intro l c f o g h hg
  rcases pipe_recv_plain p h o with h1 | ⟨rfl, _, h3, _⟩
  · exact absurd hg ((PLoc.plain_sl p h1).col g)
  · change p.act l = _ at h
    cases l with
    | collect g' => exact ⟨g', rfl⟩
    | panicked r => cases h
    | _ => first | (simp [Pipe.act] at h; done) | (cases h3; done)

end Ripsrc
