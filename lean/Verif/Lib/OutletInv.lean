import Verif.Lib.Outlet
/-!
# Conditions on the programs for `Sl.Ok`
-/
namespace Ripsrc
open Conc

variable {R C V L A E : Type} [DecidableEq R] [DecidableEq C]

/-- A control state that is none of the start, the wait for the collector and the loop of the collector. -/
structure Sl.Plain (S : Sl R C V L A E) (k : L) : Prop where
  l0 : k ≠ S.l0
  join : ∀ e, k ≠ S.join e
  col : ∀ g, k ≠ S.col g

/-- The conditions: each speaks about one control state. -/
structure Sl.Local (S : Sl R C V L A E) (role : L → R) : Prop where
  ne : S.who ≠ S.caller
  aL0 : S.act S.l0 = .go S.who (S.col []) S.start
  aCol : ∀ g, ∃ f, S.act (S.col g) = .recv S.out f ∧ (∀ a, f (some (S.val a)) = S.col (g ++ [a])) ∧ f none = S.fin g
  aFin : ∀ g, S.act (S.fin g) = .send S.dn (S.sl g) (S.fin' g)
  aFin' : ∀ g, S.act (S.fin' g) = .halt
  aJoin : ∀ e, ∃ f, S.act (S.join e) = .recv S.dn f ∧ ∀ g, f (some (S.sl g)) = S.ret e g
  aRet : ∀ e g, S.act (S.ret e g) = .halt
  vals : ∀ l v k, S.act l = .send S.out v k → ∃ a, v = S.val a
  goWho : ∀ l g k, S.act l = .go S.who g k → l = S.l0
  noWait : ∀ l rs k, S.act l = .wait rs k → S.who ∉ rs ∧ S.caller ∉ rs
  role0 : role S.l0 = S.caller
  join0 : ∀ e, S.join e ≠ S.l0
  joinCol : ∀ e g, S.join e ≠ S.col g
  col0 : ∀ g, S.col g ≠ S.l0
  dnOut : S.dn ≠ S.out
  tau : ∀ l k, S.act l = .tau k → role k = role l ∧ S.Plain k
  send : ∀ l c v k, S.act l = .send c v k → role k = role l ∧ S.Plain k ∧ (c = S.dn → role l = S.who)
  recv : ∀ l c f o, S.act l = .recv c f → role (f o) = role l ∧ f o ≠ S.l0 ∧ (∀ e, f o ≠ S.join e) ∧ ∀ g, f o = S.col g → c = S.out ∧ o ≠ none ∧ role l = S.who
  close : ∀ l c k, S.act l = .close c k → role k = role l ∧ c ≠ S.dn ∧ (c = S.out → role l = S.caller ∧ ∃ e, k = S.join e) ∧ (c ≠ S.out → S.Plain k)
  go : ∀ l n g k, S.act l = .go n g k → role g = n ∧ role k = role l ∧ S.Plain k ∧ g ≠ S.l0 ∧ (∀ e, g ≠ S.join e) ∧ (∀ h, g = S.col h → l = S.l0)
  wait : ∀ l rs k, S.act l = .wait rs k → role k = role l ∧ S.Plain k

/-- The invariant. -/
structure Sl.Inv (S : Sl R C V L A E) (role : L → R) (u : State R C L) : Prop where
  placed : Placed role u
  start : u.procs S.who ≠ none ∨ u.closed S.out = true → u.procs S.caller ≠ some S.l0
  shut : ∀ g, u.closed S.out = true → u.procs S.who = some (S.col g) → ∃ e, u.procs S.caller = some (S.join e)
  join : ∀ e, u.procs S.caller = some (S.join e) → u.closed S.out = true
  dn : u.closed S.dn = false

variable {S : Sl R C V L A E} {role : L → R}

theorem Sl.Plain.set {u : State R C L} {r : R} {k : L} (h : S.Local role) (hi : S.Inv role u) (hk : S.Plain k) (hr : role k = r) {l : L} (hl : u.procs r = some l)
    (hj : ∀ e, l = S.join e → ∀ g, u.procs S.who ≠ some (S.col g)) : S.Inv role (u.set r k) where
  placed := hi.placed.set hr
  start := by
    intro hs
    rw [set_procs]
    split
    · intro e; exact hk.l0 (Option.some.inj e)
    · rename_i hne
      refine hi.start ?_
      rcases hs with hs | hs
      · rw [set_procs] at hs
        split at hs
        · rename_i hw; subst hw; left; rw [hl]; simp
        · exact .inl hs
      · exact .inr hs
  shut := by
    intro g hc hw
    rw [set_procs] at hw
    split at hw
    · exact absurd (Option.some.inj hw) (hk.col g)
    · obtain ⟨e, he⟩ := hi.shut g hc hw
      refine ⟨e, ?_⟩
      rw [set_procs]
      split
      · rename_i hr; subst hr; rw [hl] at he
        exact absurd hw (hj e (Option.some.inj he) g)
      · exact he
  join := by
    intro e he
    rw [set_procs] at he
    split at he
    · exact absurd (Option.some.inj he) (hk.join e)
    · exact hi.join e he
  dn := hi.dn

theorem join_act (h : S.Local role) {l : L} {e : E} (hl : l = S.join e) {c : C} {f : Option V → L} (ha : S.act l = .recv c f) : c = S.dn := by
  obtain ⟨f', hf, _⟩ := h.aJoin e
  subst hl
  rw [hf] at ha; cases ha; rfl

theorem Sl.Inv.step (h : S.Local role) {u v : State R C L} (hi : S.Inv role u) (hst : Conc.Step S.act u v) : S.Inv role v := by
  have notJoin : ∀ {l : L} {e : E}, l = S.join e → ∃ f, S.act l = .recv S.dn f := by
    rintro l e rfl
    obtain ⟨f, hf, _⟩ := h.aJoin e
    exact ⟨f, hf⟩
  cases hst with
  | @tau r l k h1 h2 =>
    obtain ⟨hr, hk⟩ := h.tau _ _ h2
    refine hk.set h hi (hr.trans (hi.placed _ _ h1)) h1 fun e he => ?_
    obtain ⟨f, hf⟩ := notJoin he; rw [hf] at h2; cases h2
  | @wait r l rs k h1 h2 h3 =>
    obtain ⟨hr, hk⟩ := h.wait _ _ _ h2
    refine hk.set h hi (hr.trans (hi.placed _ _ h1)) h1 fun e he => ?_
    obtain ⟨f, hf⟩ := notJoin he; rw [hf] at h2; cases h2
  | @recvClosed q m c f h1 h2 h3 =>
    obtain ⟨hr, h0, hj, hc⟩ := h.recv _ _ _ none h2
    refine Sl.Plain.set h hi ⟨h0, hj, fun g hg => (hc g hg).2.1 rfl⟩ (hr.trans (hi.placed _ _ h1)) h1 fun e he => ?_
    rw [join_act h he h2, hi.dn] at h3; cases h3
  | @close r l c k h1 h2 h3 =>
    obtain ⟨hr, hd, ho, hp⟩ := h.close _ _ _ h2
    by_cases hc : c = S.out
    · obtain ⟨hl, e, rfl⟩ := ho hc
      have hrc : r = S.caller := (hi.placed _ _ h1).symm.trans hl
      subst hrc
      refine ⟨?_, ?_, ?_, ?_, ?_⟩
      · exact hi.placed.set (r := S.caller) (l := S.join e) (hr.trans hl)
      · intro _
        rw [shut_procs, set_procs, if_pos rfl]
        intro e'; exact h.join0 _ (Option.some.inj e')
      · intro g _ _
        exact ⟨e, by rw [shut_procs, set_procs, if_pos rfl]⟩
      · intro _ _
        rw [shut_closed, if_pos hc.symm]
      · rw [shut_closed, if_neg (Ne.symm hd)]; exact hi.dn
    · have hk := hp hc
      have := hk.set h hi (hr.trans (hi.placed _ _ h1)) h1 fun e he => by
        obtain ⟨f, hf⟩ := notJoin he; rw [hf] at h2; cases h2
      have ec : (( u.set r k).shut c).closed S.out = (u.set r k).closed S.out := by rw [shut_closed, if_neg (Ne.symm hc)]
      refine ⟨this.placed, ?_, ?_, ?_, ?_⟩
      · rw [ec]; exact this.start
      · rw [ec]; exact this.shut
      · rw [ec]; exact this.join
      · rw [shut_closed, if_neg (Ne.symm hd)]; exact this.dn
  | @sync p q l m c v k f h1 h2 h3 h4 h5 =>
    obtain ⟨hr, hk, hd⟩ := h.send _ _ _ _ h2
    have hI := hk.set h hi (hr.trans (hi.placed _ _ h1)) h1 fun e he => by
      obtain ⟨f, hf⟩ := notJoin he; rw [hf] at h2; cases h2
    obtain ⟨hr', h0, hj, hcol⟩ := h.recv _ _ _ (some v) h4
    have hpq : q ≠ p := by
      rintro rfl
      rw [h1] at h3; cases h3
      rw [h2] at h4; cases h4
    have h3' : (u.set p k).procs q = some m := by rw [set_procs, if_neg hpq]; exact h3
    by_cases hg : ∃ g, f (some v) = S.col g
    · obtain ⟨g, hg⟩ := hg
      obtain ⟨hc, _, hw⟩ := hcol g hg
      have hq : q = S.who := (hi.placed _ _ h3).symm.trans hw
      subst hq
      have hrg : role (S.col g) = S.who := by rw [← hg]; exact hr'.trans hw
      rw [hg]
      subst hc
      refine ⟨?_, ?_, ?_, ?_, hI.dn⟩
      · exact hI.placed.set hrg
      · intro hs
        rw [set_procs, if_neg (Ne.symm h.ne)]
        refine hI.start (.inl ?_)
        rw [h3']; simp
      · intro g' hc' _
        have hc' : u.closed S.out = true := hc'
        rw [h5] at hc'; cases hc'
      · intro e he
        rw [set_procs, if_neg (Ne.symm h.ne)] at he
        exact hI.join e he
    · refine Sl.Plain.set h hI ⟨h0, hj, fun g hg' => hg ⟨g, hg'⟩⟩ (hr'.trans (hi.placed _ _ h3)) h3' fun e he => ?_
      intro g hwc
      have hc := join_act h he h4
      have hp : p = S.who := (hi.placed _ _ h1).symm.trans (hd hc)
      subst hp
      rw [set_procs, if_pos rfl] at hwc
      exact hk.col g (Option.some.inj hwc)
  | @go r l n g k h1 h2 h3 =>
    obtain ⟨hn, hr, hk, h0, hj, hcol⟩ := h.go _ _ _ _ h2
    by_cases hw : n = S.who
    · subst hw
      have := h.goWho _ _ _ h2
      subst this
      have hrc : r = S.caller := (hi.placed _ _ h1).symm.trans h.role0
      subst hrc
      have hopen : u.closed S.out = false := by
        cases hc : u.closed S.out with
        | false => rfl
        | true => exact absurd h1 (hi.start (.inr hc))
      refine ⟨(hi.placed.set hn).set (hr.trans h.role0), ?_, ?_, ?_, hi.dn⟩
      · intro _
        rw [set_procs, if_pos rfl]
        intro e; exact hk.l0 (Option.some.inj e)
      · intro g' hc _
        have hc : u.closed S.out = true := hc
        rw [hopen] at hc; cases hc
      · intro e he
        rw [set_procs, if_pos rfl] at he
        exact absurd (Option.some.inj he) (hk.join e)
    · have hrn : r ≠ n := by rintro rfl; rw [h1] at h3; cases h3
      have hI : S.Inv role (u.set n g) := by
        refine ⟨hi.placed.set hn, ?_, ?_, ?_, hi.dn⟩
        · intro hs
          rw [set_procs]
          split
          · intro e; exact h0 (Option.some.inj e)
          · refine hi.start ?_
            rcases hs with hs | hs
            · rw [set_procs, if_neg (Ne.symm hw)] at hs; exact .inl hs
            · exact .inr hs
        · intro g' hc hw'
          rw [set_procs, if_neg (Ne.symm hw)] at hw'
          obtain ⟨e, he⟩ := hi.shut g' hc hw'
          refine ⟨e, ?_⟩
          rw [set_procs, if_neg (by rintro rfl; rw [he] at h3; cases h3)]; exact he
        · intro e he
          rw [set_procs] at he
          split at he
          · exact absurd (Option.some.inj he) (hj e)
          · exact hi.join e he
      refine hk.set h hI (hr.trans (hi.placed _ _ h1)) (by rw [set_procs, if_neg hrn]; exact h1) fun e he => ?_
      obtain ⟨f, hf⟩ := notJoin he; rw [hf] at h2; cases h2

theorem Sl.Inv.init (h : S.Local role) : S.Inv role S.init where
  placed := by
    intro r l hr
    simp only [Sl.init] at hr
    split at hr
    · rename_i e; subst e; rw [← Option.some.inj hr]; exact h.role0
    · cases hr
  start := by
    rintro (hs | hs)
    · simp only [Sl.init] at hs; rw [if_neg h.ne] at hs; exact absurd rfl hs
    · cases hs
  shut := by intro g hc; cases hc
  join := by
    intro e he
    simp only [Sl.init, if_pos] at he
    exact absurd (Option.some.inj he).symm (h.join0 e)
  dn := rfl

theorem Sl.Inv.steps (h : S.Local role) {n : Nat} {u : State R C L} (hst : Steps S.act n S.init u) : S.Inv role u :=
  Steps.inv (fun _ _ hi hs => Sl.Inv.step h hi hs) hst (Sl.Inv.init h)

theorem Sl.Local.ok (h : S.Local role) : S.Ok where
  ne := h.ne
  aL0 := h.aL0
  aCol := h.aCol
  aFin := h.aFin
  aFin' := h.aFin'
  aJoin := h.aJoin
  aRet := h.aRet
  vals := h.vals
  goWho := h.goWho
  noWait := h.noWait
  i0 := by
    intro n u hst hw r hr
    have hi := Sl.Inv.steps h hst
    have := (hi.placed _ _ hr).symm.trans h.role0
    subst this
    exact hi.start (.inl hw) hr
  i1 := fun n u g hst hc hw => (Sl.Inv.steps h hst).shut g hc hw
  i2 := fun n u e hst he => ⟨(Sl.Inv.steps h hst).join e he, (Sl.Inv.steps h hst).dn⟩

/-- What is known of the variant that collects: its executions are bounded, nobody panics, and at the end everybody has returned, the caller with a right result. -/
structure Sl.Always (S : Sl R C V L A E) (Res : E → List A → Prop) (N : Nat) : Prop where
  bound : ∀ m u, Steps S.act m S.init u → m ≤ N
  ok : ∀ m u, Steps S.act m S.init u → ¬ Crashed S.act u
  fin : ∀ m u, Steps S.act m S.init u → Conc.Stuck S.act u → AllReturned S.act u ∧ ∃ e g, u.procs S.caller = some (S.ret e g) ∧ Res e g

theorem bounded_ends {act : L → Act R C V L} {N : Nat} {s0 : State R C L} (hb : ∀ m u, Steps act m s0 u → m ≤ N) {m : Nat} {u : State R C L} (hu : Steps act m s0 u) :
    ∃ k v, Steps act k u v ∧ Conc.Stuck act v := by
  have key : ∀ (d m : Nat) (u : State R C L), N - m ≤ d → Steps act m s0 u → ∃ k v, Steps act k u v ∧ Conc.Stuck act v := by
    intro d
    induction d with
    | zero =>
      intro m u hd hu
      refine ⟨0, u, .refl, fun v hv => ?_⟩
      have := hb _ _ (hu.snoc hv)
      omega
    | succ d ih =>
      intro m u hd hu
      by_cases hs : Conc.Stuck act u
      · exact ⟨0, u, .refl, hs⟩
      · simp only [Conc.Stuck, Classical.not_forall, Classical.not_not] at hs
        obtain ⟨v, hv⟩ := hs
        obtain ⟨k, w, hk, hw⟩ := ih (m + 1) v (by omega) (hu.snoc hv)
        exact ⟨k + 1, w, .cons hv hk, hw⟩
  exact key _ m u (Nat.le_refl _) hu

theorem halted_still {act : L → Act R C V L} {s t : State R C L} {r : R} {l : L} (hl : act l = .halt) (hs : s.procs r = some l) {n : Nat} (h : Steps act n s t) : t.procs r = some l := by
  refine h.inv (P := fun s => s.procs r = some l) ?_ hs
  intro s t hs hst
  have ne : ∀ {q m}, s.procs q = some m → act m ≠ .halt → r ≠ q := by
    rintro q m hq hm rfl
    rw [hs] at hq; cases hq; exact hm hl
  cases hst with
  | tau h1 h2 => rw [set_procs, if_neg (ne h1 (by rw [h2]; simp))]; exact hs
  | sync h1 h2 h3 h4 h5 => rw [set_procs, if_neg (ne h3 (by rw [h4]; simp)), set_procs, if_neg (ne h1 (by rw [h2]; simp))]; exact hs
  | recvClosed h1 h2 h3 => rw [set_procs, if_neg (ne h1 (by rw [h2]; simp))]; exact hs
  | close h1 h2 h3 => rw [shut_procs, set_procs, if_neg (ne h1 (by rw [h2]; simp))]; exact hs
  | @go q m n g k h1 h2 h3 =>
    rw [set_procs, if_neg (ne h1 (by rw [h2]; simp)), set_procs, if_neg (by rintro rfl; rw [hs] at h3; cases h3)]; exact hs
  | wait h1 h2 h3 => rw [set_procs, if_neg (ne h1 (by rw [h2]; simp))]; exact hs

variable {act : L → Act R C V L} {out : C} {val : A → V}

theorem OSteps.append {ready : List A → Prop} {n m : Nat} {x y z : OState R C L A} (h : OSteps act out val ready n x y) (h2 : OSteps act out val ready m y z) :
    OSteps act out val ready (n + m) x z := by
  induction h2 with
  | refl => exact h
  | snoc _ hs ih => exact .snoc (ih h) hs

theorem OSteps.mono {ready ready' : List A → Prop} (hr : ∀ h, ready h → ready' h) {n : Nat} {x y : OState R C L A} (h : OSteps act out val ready n x y) :
    OSteps act out val ready' n x y := by
  induction h with
  | refl => exact .refl
  | snoc _ hs ih =>
    refine .snoc ih ?_
    cases hs with
    | inner h => exact .inner h
    | take h1 h2 h3 h4 => exact .take (hr _ h1) h2 h3 h4
    | over h1 h2 => exact .over (hr _ h1) h2

theorem OStep.seen {ready : List A → Prop} {x y : OState R C L A} (h : OStep act out val ready x y) : x.seen <+: y.seen ∧ (¬ ready x.seen → y.seen = x.seen) := by
  cases h with
  | inner _ => exact ⟨List.prefix_refl _, fun _ => rfl⟩
  | take h1 _ _ _ => exact ⟨List.prefix_append _ _, fun h => absurd h1 h⟩
  | over _ _ => exact ⟨List.prefix_refl _, fun _ => rfl⟩

theorem OSteps.seen {ready : List A → Prop} {n : Nat} {x y : OState R C L A} (h : OSteps act out val ready n x y) : x.seen <+: y.seen ∧ (¬ ready x.seen → y.seen = x.seen) := by
  induction h with
  | refl => exact ⟨List.prefix_refl _, fun _ => rfl⟩
  | snoc _ hs ih =>
    refine ⟨ih.1.trans hs.seen.1, fun hn => ?_⟩
    have e := ih.2 hn
    rw [← e]
    exact hs.seen.2 (by rw [e]; exact hn)

theorem open_bound (hS : S.Ok) {Res : E → List A → Prop} {N : Nat} (hA : S.Always Res N) {ready : List A → Prop} {n : Nat} {x : OState R C L A}
    (hx : OSteps S.act S.out S.val ready n S.open x) : n ≤ N := by
  obtain ⟨_, _, m, hm, hn⟩ := open_sim hS hx
  have := hA.bound _ _ hm
  split at hn <;> omega

/-- When the call has returned, what was received is a right result. -/
theorem open_join (hS : S.Ok) {Res : E → List A → Prop} {N : Nat} (hA : S.Always Res N) {ready : List A → Prop} {n : Nat} {x : OState R C L A}
    (hx : OSteps S.act S.out S.val ready n S.open x) {e : E} (he : x.st.procs S.caller = some (S.join e)) : ∃ e' g, S.ret e' g = S.ret e x.seen ∧ Res e' g := by
  obtain ⟨k, hk⟩ := open_returned hS hx he
  obtain ⟨j, v, hj, hs⟩ := bounded_ends hA.bound hk
  obtain ⟨_, e', g, h1, h2⟩ := hA.fin _ _ (hk.append hj) hs
  have := halted_still (hS.aRet e x.seen) (s := S.done x e) (r := S.caller) (by rw [done_procs hS, if_pos rfl]) hj
  rw [h1] at this
  exact ⟨e', g, Option.some.inj this, h2⟩

/-- Every execution can be continued until nothing can move. -/
theorem open_ends (hS : S.Ok) {Res : E → List A → Prop} {N : Nat} (hA : S.Always Res N) {ready : List A → Prop} {n : Nat} {x : OState R C L A}
    (hx : OSteps S.act S.out S.val ready n S.open x) : ∃ m y, OSteps S.act S.out S.val ready m S.open y ∧ x.seen <+: y.seen ∧ y.Stuck S.act S.out S.val ready := by
  have key : ∀ (d n : Nat) (z : OState R C L A), N - n ≤ d → x.seen <+: z.seen → OSteps S.act S.out S.val ready n S.open z →
      ∃ m y, OSteps S.act S.out S.val ready m S.open y ∧ x.seen <+: y.seen ∧ y.Stuck S.act S.out S.val ready := by
    intro d
    induction d with
    | zero =>
      intro n z hd hp hz
      refine ⟨n, z, hz, hp, fun v hv => ?_⟩
      have := open_bound hS hA (hz.snoc hv)
      omega
    | succ d ih =>
      intro n z hd hp hz
      by_cases hs : z.Stuck S.act S.out S.val ready
      · exact ⟨n, z, hz, hp, hs⟩
      · simp only [OState.Stuck, Classical.not_forall, Classical.not_not] at hs
        obtain ⟨v, hv⟩ := hs
        exact ih (n + 1) v (by omega) (hp.trans hv.seen.1) (hz.snoc hv)
  exact key _ n x (Nat.le_refl _) (List.prefix_refl _) hx

/-- At any moment what was received is the beginning of a right result. -/
theorem open_prefix (hS : S.Ok) {Res : E → List A → Prop} {N : Nat} (hA : S.Always Res N) {ready : List A → Prop} {n : Nat} {x : OState R C L A}
    (hx : OSteps S.act S.out S.val ready n S.open x) : ∃ y : OState R C L A, x.seen <+: y.seen ∧ ∃ e e' g, S.ret e' g = S.ret e y.seen ∧ Res e' g := by
  have hx' := OSteps.mono (ready' := fun _ => True) (fun _ _ => trivial) hx
  obtain ⟨m, y, hy, hp, hs⟩ := open_ends hS hA hx'
  obtain ⟨e, he, _⟩ := open_end hS (fun m u h1 h2 => (hA.fin m u h1 h2).1) hy trivial hs
  obtain ⟨e', g, h1, h2⟩ := open_join hS hA hy he
  exact ⟨y, hp, e, e', g, h1, h2⟩

/-- The consumer finds the channel closed only when the call returns. -/
theorem open_over (hS : S.Ok) {ready : List A → Prop} {n : Nat} {x : OState R C L A} (hx : OSteps S.act S.out S.val ready n S.open x) (ho : x.over = true) :
    ∃ e, x.st.procs S.caller = some (S.join e) := by
  obtain ⟨hw, hov, m, hm, _⟩ := open_sim hS hx
  obtain ⟨e, he⟩ := hS.i1 _ _ x.seen hm (hov ho) (by rw [cl_procs, if_pos rfl])
  rw [cl_procs, if_neg (Ne.symm hS.ne)] at he
  exact ⟨e, he⟩

end Ripsrc
