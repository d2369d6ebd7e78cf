import Verif.Lib.OutletInv
/-!
# With a consumer that is always ready a call can do all that the variant with the collector does
-/
namespace Ripsrc
open Conc

variable {R C V L A E : Type} [DecidableEq R] [DecidableEq C] {S : Sl R C V L A E} {role : L → R}

theorem open_init (hS : S.Ok) : (S.init.set S.who (S.col [])).set S.caller S.start = S.cl S.open := by
  apply State.ext'
  · intro r
    simp only [set_procs, cl_procs, Sl.init, Sl.open]
    by_cases h1 : r = S.caller
    · subst h1; rw [if_pos rfl, if_neg (Ne.symm hS.ne), if_pos rfl]
    · rw [if_neg h1]
      by_cases h2 : r = S.who
      · rw [if_pos h2, if_pos h2]
      · rw [if_neg h2, if_neg h2, if_neg h1, if_neg h1]
  · intro c; rfl

/-- The start, a state with the collector waiting, or a state with the collector past its loop. -/
def Sl.Back (S : Sl R C V L A E) (u : State R C L) : Prop :=
  u = S.init ∨ (∃ m x, OSteps S.act S.out S.val (fun _ => True) m S.open x ∧ u = S.cl x) ∨ ∃ l, u.procs S.who = some l ∧ ∀ g, l ≠ S.col g

theorem Sl.Back.step (h : S.Local role) (hrc : ∀ l c f o g, S.act l = .recv c f → f o = S.col g → ∃ g', l = S.col g') {u v : State R C L} (hb : S.Back u)
    (hst : Conc.Step S.act u v) : S.Back v := by
  have hS := h.ok
  rcases hb with rfl | ⟨m, x, hx, rfl⟩ | ⟨lw, hw, hcol⟩
  · have only : ∀ {r l}, (S.init : State R C L).procs r = some l → r = S.caller ∧ l = S.l0 := by
      intro r l hr
      simp only [Sl.init] at hr
      split at hr
      · rename_i e; exact ⟨e, (Option.some.inj hr).symm⟩
      · cases hr
    cases hst with
    | tau h1 h2 => obtain ⟨_, rfl⟩ := only h1; rw [hS.aL0] at h2; cases h2
    | sync h1 h2 _ _ _ => obtain ⟨_, rfl⟩ := only h1; rw [hS.aL0] at h2; cases h2
    | recvClosed h1 h2 _ => obtain ⟨_, rfl⟩ := only h1; rw [hS.aL0] at h2; cases h2
    | close h1 h2 _ => obtain ⟨_, rfl⟩ := only h1; rw [hS.aL0] at h2; cases h2
    | wait h1 h2 _ => obtain ⟨_, rfl⟩ := only h1; rw [hS.aL0] at h2; cases h2
    | go h1 h2 _ =>
      obtain ⟨rfl, rfl⟩ := only h1
      rw [hS.aL0] at h2; cases h2
      exact .inr (.inl ⟨0, _, .refl, open_init hS⟩)
  · obtain ⟨hw, _⟩ := open_sim hS hx
    obtain ⟨s, hh, b⟩ := x
    obtain ⟨f0, hf0, hv0, hn0⟩ := hS.aCol hh
    have hwho : (S.cl ⟨s, hh, b⟩).procs S.who = some (S.col hh) := by rw [cl_procs, if_pos rfl]
    have back : ∀ {r l}, (S.cl ⟨s, hh, b⟩).procs r = some l → r = S.who ∧ l = S.col hh ∨ r ≠ S.who ∧ s.procs r = some l := by
      intro r l hrl
      rw [cl_procs] at hrl
      split at hrl
      · rename_i e; cases hrl; exact .inl ⟨e, rfl⟩
      · rename_i e; exact .inr ⟨e, hrl⟩
    cases hst with
    | @tau r l k h1 h2 =>
      rcases back h1 with ⟨_, rfl⟩ | ⟨hne, h1⟩
      · rw [hf0] at h2; cases h2
      · exact .inr (.inl ⟨_, _, hx.snoc (.inner (.tau h1 h2)), (cl_set hne).symm⟩)
    | @sync p q l m c v k f h1 h2 h3 h4 h5 =>
      rcases back h1 with ⟨_, rfl⟩ | ⟨hne, h1⟩
      · rw [hf0] at h2; cases h2
      · rcases back h3 with ⟨rfl, rfl⟩ | ⟨hne', h3⟩
        · rw [hf0] at h4; cases h4
          obtain ⟨a, rfl⟩ := hS.vals _ _ _ h2
          refine .inr (.inl ⟨_, _, hx.snoc (.take trivial h1 h2 h5), ?_⟩)
          rw [hv0]
          apply State.ext'
          · intro q
            simp only [set_procs, cl_procs]
            by_cases h4 : q = S.who
            · rw [if_pos h4, if_pos h4]
            · rw [if_neg h4, if_neg h4, if_neg h4]
          · intro c; rfl
        · exact .inr (.inl ⟨_, _, hx.snoc (.inner (.sync h1 h2 h3 h4 h5)), by rw [cl_set hne', cl_set hne]⟩)
    | @recvClosed q m c f h1 h2 h3 =>
      rcases back h1 with ⟨rfl, rfl⟩ | ⟨hne, h1⟩
      · refine .inr (.inr ⟨_, by rw [set_procs, if_pos rfl], fun g hg => ?_⟩)
        exact ((h.recv _ _ _ none h2).2.2.2 g hg).2.1 rfl
      · exact .inr (.inl ⟨_, _, hx.snoc (.inner (.recvClosed h1 h2 h3)), (cl_set hne).symm⟩)
    | @close r l c k h1 h2 h3 =>
      rcases back h1 with ⟨_, rfl⟩ | ⟨hne, h1⟩
      · rw [hf0] at h2; cases h2
      · exact .inr (.inl ⟨_, _, hx.snoc (.inner (.close h1 h2 h3)), by rw [cl_shut, cl_set hne]⟩)
    | @go r l n g k h1 h2 h3 =>
      rcases back h1 with ⟨_, rfl⟩ | ⟨hne, h1⟩
      · rw [hf0] at h2; cases h2
      · have hn : n ≠ S.who := by rintro rfl; rw [hwho] at h3; cases h3
        rw [cl_procs, if_neg hn] at h3
        exact .inr (.inl ⟨_, _, hx.snoc (.inner (.go h1 h2 h3)), by rw [cl_set hne, cl_set hn]⟩)
    | @wait r l rs k h1 h2 h3 =>
      rcases back h1 with ⟨_, rfl⟩ | ⟨hne, h1⟩
      · rw [hf0] at h2; cases h2
      · refine .inr (.inl ⟨_, _, hx.snoc (.inner (.wait h1 h2 fun x hx => ?_)), (cl_set hne).symm⟩)
        obtain ⟨m, hm, hm'⟩ := h3 x hx
        rcases back hm with ⟨_, rfl⟩ | ⟨_, hm⟩
        · rw [hf0] at hm'; cases hm'
        · exact ⟨m, hm, hm'⟩
  · refine .inr (.inr ?_)
    have keep : ∀ {s : State R C L} {r : R} {k : L}, (∃ l, s.procs S.who = some l ∧ ∀ g, l ≠ S.col g) → (∀ g, k ≠ S.col g) →
        ∃ l, (s.set r k).procs S.who = some l ∧ ∀ g, l ≠ S.col g := by
      intro s r k ⟨l, h1, h2⟩ h3
      rw [set_procs]
      split
      · exact ⟨k, rfl, h3⟩
      · exact ⟨l, h1, h2⟩
    have only : ∀ {s : State R C L} {r : R} {k : L}, r ≠ S.who → (∃ l, s.procs S.who = some l ∧ ∀ g, l ≠ S.col g) → ∃ l, (s.set r k).procs S.who = some l ∧ ∀ g, l ≠ S.col g := by
      intro s r k hr hl
      rw [set_procs, if_neg (Ne.symm hr)]
      exact hl
    have h0 : ∃ l, u.procs S.who = some l ∧ ∀ g, l ≠ S.col g := ⟨lw, hw, hcol⟩
    have recv : ∀ {s : State R C L} {q : R} {m : L} {c : C} {f : Option V → L} {o : Option V}, (∃ l, s.procs S.who = some l ∧ ∀ g, l ≠ S.col g) → u.procs q = some m →
        S.act m = .recv c f → ∃ l, (s.set q (f o)).procs S.who = some l ∧ ∀ g, l ≠ S.col g := by
      intro s q m c f o hs h1 h2
      by_cases hq : q = S.who
      · subst hq
        rw [hw] at h1; cases h1
        exact keep hs fun g hg => by
          obtain ⟨g', e⟩ := hrc _ _ _ _ _ h2 hg
          exact hcol _ e
      · exact only hq hs
    cases hst with
    | @tau r l k h1 h2 => exact keep h0 (h.tau _ _ h2).2.col
    | @sync p q l m c v k f h1 h2 h3 h4 h5 => exact recv (keep h0 (h.send _ _ _ _ h2).2.1.col) h3 h4
    | @recvClosed q m c f h1 h2 h3 => exact recv h0 h1 h2
    | @close r l c k h1 h2 h3 =>
      have hk : ∀ g, k ≠ S.col g := by
        intro g
        by_cases hc : c = S.out
        · obtain ⟨_, e, rfl⟩ := (h.close _ _ _ h2).2.2.1 hc
          exact h.joinCol e g
        · exact ((h.close _ _ _ h2).2.2.2 hc).col g
      exact keep h0 hk
    | @go r l n g k h1 h2 h3 =>
      refine keep (only ?_ h0) (h.go _ _ _ _ h2).2.2.1.col
      rintro rfl; rw [hw] at h3; cases h3
    | @wait r l rs k h1 h2 h3 => exact keep h0 (h.wait _ _ _ h2).2.col

theorem open_of_steps (h : S.Local role) (hrc : ∀ l c f o g, S.act l = .recv c f → f o = S.col g → ∃ g', l = S.col g') {n : Nat} {u : State R C L}
    (hst : Steps S.act n S.init u) {g : List A} (hg : u.procs S.who = some (S.col g)) :
    ∃ m x, OSteps S.act S.out S.val (fun _ => True) m S.open x ∧ u = S.cl x := by
  have hb : S.Back u := Steps.inv (P := S.Back) (fun _ _ hi hs => hi.step h hrc hs) hst (.inl rfl)
  rcases hb with rfl | hb | ⟨l, h1, h2⟩
  · exfalso
    simp only [Sl.init] at hg
    rw [if_neg h.ne] at hg; cases hg
  · exact hb
  · rw [hg] at h1; cases h1
    exact absurd rfl (h2 g)

end Ripsrc
