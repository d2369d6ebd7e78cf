import Verif.Spec.HappensBefore
import Verif.Lib.Conc
/-!
# Data races: it is enough that no reachable state has two conflicting accesses
-/
namespace Ripsrc.Conc
variable {R C V L : Type} [DecidableEq R] [DecidableEq C] {act : L → Act R C V L}

theorem LStep.step {s t : State R C L} {e : Event R C} (h : LStep act s e t) : Step act s t := by
  cases h with
  | tau h1 h2 => exact .tau h1 h2
  | sync h1 h2 h3 h4 h5 => exact .sync h1 h2 h3 h4 h5
  | recvClosed h1 h2 h3 => exact .recvClosed h1 h2 h3
  | close h1 h2 h3 => exact .close h1 h2 h3
  | go h1 h2 h3 => exact .go h1 h2 h3
  | wait h1 h2 h3 => exact .wait h1 h2 h3

theorem Step.label {s t : State R C L} (h : Step act s t) : ∃ e, LStep act s e t := by
  cases h with
  | tau h1 h2 => exact ⟨_, .tau h1 h2⟩
  | sync h1 h2 h3 h4 h5 => exact ⟨_, .sync h1 h2 h3 h4 h5⟩
  | recvClosed h1 h2 h3 => exact ⟨_, .recvClosed h1 h2 h3⟩
  | close h1 h2 h3 => exact ⟨_, .close h1 h2 h3⟩
  | go h1 h2 h3 => exact ⟨_, .go h1 h2 h3⟩
  | wait h1 h2 h3 => exact ⟨_, .wait h1 h2 h3⟩

theorem Trace.reach {s t : State R C L} {es : List (Event R C)} (h : Trace act s es t) : Reach act s t := by
  induction h with
  | nil => exact .refl _
  | cons h _ ih => exact .head h.step ih

/-- A schedule has a trace. -/
theorem Steps.trace {n : Nat} {s t : State R C L} (h : Steps act n s t) : ∃ es, es.length = n ∧ Trace act s es t := by
  induction h with
  | refl => exact ⟨[], rfl, .nil⟩
  | cons h _ ih =>
    obtain ⟨e, he⟩ := h.label
    obtain ⟨es, h1, h2⟩ := ih
    exact ⟨e :: es, by simp [h1], .cons he h2⟩

/-- Two goroutines are about to make conflicting accesses. -/
def Racy {X : Type} (acc : L → List (Access X)) (s : State R C L) : Prop :=
  ∃ p q l m a b, p ≠ q ∧ s.procs p = some l ∧ s.procs q = some m ∧ a ∈ acc l ∧ b ∈ acc m ∧ a.Conflict b

/-- A step changes only the goroutines that take part, and starts all of them. -/
theorem LStep.frame {s t : State R C L} {e : Event R C} (h : LStep act s e t) :
    (∀ r, r ∉ e.actors → t.procs r = s.procs r) ∧ (∀ r ∈ e.actors, t.procs r ≠ none) ∧ (∀ r, s.procs r ≠ none → t.procs r ≠ none) ∧
    (∀ c, (∀ r, e ≠ .close r c) → t.closed c = s.closed c) ∧ (∀ r c, e = .close r c → t.closed c = true) := by
  have hfour : ∀ c, (∀ r, e ≠ .close r c) → t.closed c = s.closed c := by
    intro c hc
    cases h with
    | @close r _ c' _ _ _ _ =>
      rw [shut_closed, if_neg]; rfl
      rintro rfl; exact hc r rfl
    | _ => rfl
  have hfive : ∀ r c, e = .close r c → t.closed c = true := by
    rintro r c rfl
    cases h with
    | close => rw [shut_closed, if_pos rfl]
  refine ⟨?_, ?_, ?_, hfour, hfive⟩ <;> clear hfour hfive <;> cases h <;>
    simp only [Event.actors, List.mem_cons, List.not_mem_nil, or_false, set_procs, shut_procs] <;> grind

/-- The goroutines that have been influenced by `p`, before the `k`-th event. -/
def Tainted (es : List (Event R C)) (p : R) (k : Nat) (r : R) : Prop :=
  r = p ∨ ∃ (i : Nat) (a : Event R C), i < k ∧ es[i]? = some a ∧ After es p i ∧ r ∈ a.actors

/-- The channels that have been closed by them. -/
def TaintedC (es : List (Event R C)) (p : R) (k : Nat) (c : C) : Prop :=
  ∃ (i : Nat) (r : R), i < k ∧ es[i]? = some (.close r c) ∧ After es p i

/-- `s'` is the state `s` without the events that happen after what `p` did. -/
structure Without (es : List (Event R C)) (p : R) (lp : L) (k : Nat) (s s' : State R C L) : Prop where
  procs : ∀ r, ¬ Tainted es p k r → s'.procs r = s.procs r
  closed : ∀ c, ¬ TaintedC es p k c → s'.closed c = s.closed c
  shut : ∀ c, TaintedC es p k c → s.closed c = true
  started : ∀ r, Tainted es p k r → s.procs r ≠ none
  self : s'.procs p = some lp

theorem tainted_mono {es : List (Event R C)} {p r : R} {k : Nat} (h : Tainted es p k r) : Tainted es p (k + 1) r := by
  rcases h with h | ⟨i, a, h1, h2, h3, h4⟩
  · exact .inl h
  · exact .inr ⟨i, a, by omega, h2, h3, h4⟩
theorem taintedC_mono {es : List (Event R C)} {p : R} {k : Nat} {c : C} (h : TaintedC es p k c) : TaintedC es p (k + 1) c := by
  obtain ⟨i, r, h1, h2, h3⟩ := h
  exact ⟨i, r, by omega, h2, h3⟩

/-- If the event happens after what `p` did, it is left out. -/
theorem Without.skip {es : List (Event R C)} {p : R} {lp : L} {k : Nat} {s s' t : State R C L} (h : Without es p lp k s s') {e : Event R C}
    (he : es[k]? = some e) (ha : After es p k) (hst : LStep act s e t) : Without es p lp (k + 1) t s' := by
  obtain ⟨f1, f2, f3, f4, f5⟩ := hst.frame
  have hT : ∀ r, Tainted es p (k + 1) r → Tainted es p k r ∨ r ∈ e.actors := by
    rintro r (h | ⟨i, a, h1, h2, h3, h4⟩)
    · exact .inl (.inl h)
    · by_cases hi : i < k
      · exact .inl (.inr ⟨i, a, hi, h2, h3, h4⟩)
      · have : i = k := by omega
        subst this
        rw [he] at h2; cases h2
        exact .inr h4
  constructor
  · intro r hr
    rw [f1 r (fun hm => hr (.inr ⟨k, e, by omega, he, ha, hm⟩))]
    exact h.procs r (fun hm => hr (tainted_mono hm))
  · intro c hc
    rw [f4 c (fun r hm => hc ⟨k, r, by omega, hm ▸ he, ha⟩)]
    exact h.closed c (fun hm => hc (taintedC_mono hm))
  · rintro c ⟨i, r, h1, h2, h3⟩
    by_cases hi : i < k
    · have hcl := h.shut c ⟨i, r, hi, h2, h3⟩
      by_cases hx : ∃ r', e = .close r' c
      · obtain ⟨r', hx⟩ := hx
        exact f5 r' c hx
      · rw [f4 c (fun r' hr' => hx ⟨r', hr'⟩)]; exact hcl
    · have : i = k := by omega
      subst this
      rw [he] at h2; cases h2
      exact f5 r c rfl
  · intro r hr
    rcases hT r hr with hr | hr
    · exact f3 r (h.started r hr)
    · exact f2 r hr
  · exact h.self

/-- If it does not, it happens also without the others. -/
theorem Without.keep {es : List (Event R C)} {p : R} {lp : L} {k : Nat} {s s' t : State R C L} (h : Without es p lp k s s') {e : Event R C}
    (he : es[k]? = some e) (ha : ¬ After es p k) (hst : LStep act s e t) : ∃ t', LStep act s' e t' ∧ Without es p lp (k + 1) t t' := by
  obtain ⟨f1, f2, f3, f4, f5⟩ := hst.frame
  have hT : ∀ r, Tainted es p (k + 1) r → Tainted es p k r := by
    rintro r (h | ⟨i, a, h1, h2, h3, h4⟩)
    · exact .inl h
    · by_cases hi : i < k
      · exact .inr ⟨i, a, hi, h2, h3, h4⟩
      · have : i = k := by omega
        subst this
        exact (ha h3).elim
  have hC : ∀ c, TaintedC es p (k + 1) c → TaintedC es p k c := by
    rintro c ⟨i, r, h1, h2, h3⟩
    by_cases hi : i < k
    · exact ⟨i, r, hi, h2, h3⟩
    · have : i = k := by omega
      subst this
      exact (ha h3).elim
  have hact : ∀ r ∈ e.actors, ¬ Tainted es p k r := by
    rintro r hr (rfl | ⟨i, a, h1, h2, h3, h4⟩)
    · exact ha (.own he (.inl hr))
    · exact ha (.step h3 h1 h2 he (.inl ⟨r, h4, hr⟩))
  have hwait : ∀ r ∈ e.awaits, ¬ Tainted es p k r := by
    rintro r hr (rfl | ⟨i, a, h1, h2, h3, h4⟩)
    · exact ha (.own he (.inr hr))
    · exact ha (.step h3 h1 h2 he (.inr (.inr ⟨r, h4, hr⟩)))
  have hrecv : ∀ r c, e = .recvClosed r c → ¬ TaintedC es p k c := by
    rintro r c rfl ⟨i, r', h1, h2, h3⟩
    exact ha (.step h3 h1 h2 he (.inr (.inl ⟨r', r, c, rfl, rfl⟩)))
  have hopen : ∀ c, s.closed c = false → ¬ TaintedC es p k c := by
    intro c hc ht
    rw [h.shut c ht] at hc; cases hc
  have hp : ∀ {x : R} {m : L}, x ∈ e.actors → s.procs x = some m → s'.procs x = some m := by
    intro x m hx hm
    rw [h.procs x (hact x hx)]; exact hm
  have hcl : ∀ {c : C} {b : Bool}, ¬ TaintedC es p k c → s.closed c = b → s'.closed c = b := by
    intro c b hc hb
    rw [h.closed c hc]; exact hb
  -- the same step from `s'`
  have key : ∃ t', LStep act s' e t' ∧ (∀ r ∈ e.actors, t'.procs r = t.procs r) := by
    cases hst with
    | tau h1 h2 =>
      refine ⟨_, .tau (hp (by simp [Event.actors]) h1) h2, ?_⟩
      intro r hr; simp [Event.actors] at hr; simp [set_procs, hr]
    | sync h1 h2 h3 h4 h5 =>
      refine ⟨_, .sync (hp (by simp [Event.actors]) h1) h2 (hp (by simp [Event.actors]) h3) h4 (hcl (hopen _ h5) h5), ?_⟩
      intro r hr; simp only [Event.actors, List.mem_cons, List.not_mem_nil, or_false] at hr
      simp only [set_procs]; grind
    | recvClosed h1 h2 h3 =>
      refine ⟨_, .recvClosed (hp (by simp [Event.actors]) h1) h2 (hcl (hrecv _ _ rfl) h3), ?_⟩
      intro r hr; simp [Event.actors] at hr; simp [set_procs, hr]
    | close h1 h2 h3 =>
      refine ⟨_, .close (hp (by simp [Event.actors]) h1) h2 (hcl (hopen _ h3) h3), ?_⟩
      intro r hr; simp [Event.actors] at hr; simp [set_procs, hr]
    | @go r l n g k' h1 h2 h3 =>
      refine ⟨_, .go (hp (by simp [Event.actors]) h1) h2 (by rw [h.procs n (hact n (by simp [Event.actors]))]; exact h3), ?_⟩
      intro r hr; simp only [Event.actors, List.mem_cons, List.not_mem_nil, or_false] at hr
      simp only [set_procs]; grind
    | wait h1 h2 h3 =>
      refine ⟨_, .wait (hp (by simp [Event.actors]) h1) h2 ?_, ?_⟩
      · intro x hx
        obtain ⟨m, hm, hh⟩ := h3 x hx
        exact ⟨m, by rw [h.procs x (hwait x hx)]; exact hm, hh⟩
      · intro r hr; simp [Event.actors] at hr; simp [set_procs, hr]
  obtain ⟨t', hst', hsame⟩ := key
  obtain ⟨g1, g2, g3, g4, g5⟩ := hst'.frame
  refine ⟨t', hst', ?_⟩
  constructor
  · intro r hr
    by_cases hm : r ∈ e.actors
    · exact hsame r hm
    · rw [g1 r hm, f1 r hm]
      exact h.procs r (fun hh => hr (tainted_mono hh))
  · intro c hc
    by_cases hx : ∃ r', e = .close r' c
    · obtain ⟨r', hx⟩ := hx
      rw [g5 r' c hx, f5 r' c hx]
    · rw [g4 c (fun r' hr' => hx ⟨r', hr'⟩), f4 c (fun r' hr' => hx ⟨r', hr'⟩)]
      exact h.closed c (fun hh => hc (taintedC_mono hh))
  · intro c hc
    by_cases hx : ∃ r', e = .close r' c
    · obtain ⟨r', hx⟩ := hx
      exact f5 r' c hx
    · rw [f4 c (fun r' hr' => hx ⟨r', hr'⟩)]
      exact h.shut c (hC c hc)
  · intro r hr
    exact f3 r (h.started r (hT r hr))
  · rw [g1 p (fun hm => hact p hm (.inl rfl))]
    exact h.self

theorem Without.run {es : List (Event R C)} {p : R} {lp : L} : ∀ {rest : List (Event R C)} {k : Nat} {s s' t : State R C L}, Without es p lp k s s' →
    (∀ (j : Nat), es[k + j]? = rest[j]?) → Trace act s rest t → ∃ t', Reach act s' t' ∧ Without es p lp (k + rest.length) t t'
  | [], k, s, s', t, h, _, ht => by cases ht; exact ⟨s', .refl _, h⟩
  | e :: rest, k, s, s', t, h, hes, ht => by
    cases ht with
    | @cons _ _ u _ _ hst htr =>
      have he : es[k]? = some e := by simpa using hes 0
      have hes' : ∀ (j : Nat), es[(k + 1) + j]? = rest[j]? := by
        intro j
        have := hes (j + 1)
        rw [List.getElem?_cons_succ] at this
        rw [← this, Nat.add_right_comm, Nat.add_assoc]
      have hl : k + (e :: rest).length = k + 1 + rest.length := by simp only [List.length_cons]; omega
      rw [hl]
      by_cases ha : After es p k
      · obtain ⟨t', h1, h2⟩ := (h.skip he ha hst).run hes' htr
        exact ⟨t', h1, h2⟩
      · obtain ⟨u', hu, hw⟩ := h.keep he ha hst
        obtain ⟨t', h1, h2⟩ := hw.run hes' htr
        exact ⟨t', .head hu.step h1, h2⟩

/-- If no reachable state has two goroutines about to make conflicting accesses, then there is no data race. -/
theorem raceFree_of {X : Type} {acc : L → List (Access X)} {init : State R C L} (h : ∀ s, Reach act init s → ¬ Racy acc s) : RaceFree act acc init := by
  intro es₁ s es₂ t h1 h2 p q l m a b hne hp hq ha hb hab
  have h0 : Without es₂ p l 0 s s := by
    constructor
    · intros; rfl
    · intros; rfl
    · rintro c ⟨i, r, hi, _⟩; omega
    · rintro r (rfl | ⟨i, a, hi, _⟩)
      · simp [hp]
      · omega
    · exact hp
  obtain ⟨t', hr, hw⟩ := h0.run (fun j => by simp) h2
  by_cases hT : Tainted es₂ p (0 + es₂.length) q
  · rcases hT with rfl | ⟨i, e, hi, he, haf, hm⟩
    · exact (hne rfl).elim
    · exact ⟨i, e, he, haf, hm⟩
  · exfalso
    refine h t' (h1.reach.trans hr) ⟨p, q, l, m, a, b, hne, hw.self, ?_, ha, hb, hab⟩
    rw [hw.procs q hT]; exact hq

/-- This condition is also necessary: nothing happens between two accesses that are possible in one state. -/
theorem raceFree_iff {X : Type} {acc : L → List (Access X)} {init : State R C L} : RaceFree act acc init ↔ ∀ s, Reach act init s → ¬ Racy acc s := by
  refine ⟨?_, raceFree_of⟩
  rintro h s ⟨n, hr⟩ ⟨p, q, l, m, a, b, hne, hp, hq, ha, hb, hab⟩
  obtain ⟨es, _, htr⟩ := hr.trace
  obtain ⟨j, e, hj, _⟩ := h es s [] s htr .nil p q l m a b hne hp hq ha hb hab
  simp at hj

/-- `k` is a possible next control state of a goroutine in `l`. -/
def Nxt (act : L → Act R C V L) (l k : L) : Prop :=
  act l = .tau k ∨ (∃ c v, act l = .send c v k) ∨ (∃ c f o, act l = .recv c f ∧ k = f o) ∨ (∃ c, act l = .close c k) ∨ (∃ n g, act l = .go n g k) ∨
  (∃ rs, act l = .wait rs k)

/-- Where a goroutine was before a step. -/
theorem Step.from {s t : State R C L} (h : Step act s t) {r : R} {k : L} (hk : t.procs r = some k) :
    s.procs r = some k ∨ (∃ l, s.procs r = some l ∧ Nxt act l k) ∨ (s.procs r = none ∧ ∃ x l k', s.procs x = some l ∧ act l = .go r k k') := by
  cases h with
  | tau h1 h2 =>
    rw [set_procs] at hk
    split at hk
    · cases hk; subst_vars; exact .inr (.inl ⟨_, h1, .inl h2⟩)
    · exact .inl hk
  | sync h1 h2 h3 h4 h5 =>
    rw [set_procs] at hk
    split at hk
    · cases hk; subst_vars; exact .inr (.inl ⟨_, h3, .inr (.inr (.inl ⟨_, _, _, h4, rfl⟩))⟩)
    · rw [set_procs] at hk
      split at hk
      · cases hk; subst_vars; exact .inr (.inl ⟨_, h1, .inr (.inl ⟨_, _, h2⟩)⟩)
      · exact .inl hk
  | recvClosed h1 h2 h3 =>
    rw [set_procs] at hk
    split at hk
    · cases hk; subst_vars; exact .inr (.inl ⟨_, h1, .inr (.inr (.inl ⟨_, _, _, h2, rfl⟩))⟩)
    · exact .inl hk
  | close h1 h2 h3 =>
    rw [shut_procs, set_procs] at hk
    split at hk
    · cases hk; subst_vars; exact .inr (.inl ⟨_, h1, .inr (.inr (.inr (.inl ⟨_, h2⟩)))⟩)
    · exact .inl hk
  | go h1 h2 h3 =>
    rw [set_procs] at hk
    split at hk
    · cases hk; subst_vars; exact .inr (.inl ⟨_, h1, .inr (.inr (.inr (.inr (.inl ⟨_, _, h2⟩))))⟩)
    · rw [set_procs] at hk
      split at hk
      · cases hk; subst_vars; exact .inr (.inr ⟨h3, _, _, _, h1, h2⟩)
      · exact .inl hk
  | wait h1 h2 h3 =>
    rw [set_procs] at hk
    split at hk
    · cases hk; subst_vars; exact .inr (.inl ⟨_, h1, .inr (.inr (.inr (.inr (.inr ⟨_, h2⟩))))⟩)
    · exact .inl hk

/-- The control states of each goroutine are its own. -/
structure Roles (act : L → Act R C V L) (role : L → R) : Prop where
  next : ∀ {l k}, Nxt act l k → role k = role l
  go : ∀ {l n g k}, act l = .go n g k → role g = n

theorem Roles.step {role : L → R} (h : Roles act role) {s t : State R C L} (hp : Placed role s) (hst : Step act s t) : Placed role t := by
  intro r k hk
  rcases hst.from hk with h1 | ⟨l, h1, h2⟩ | ⟨_, x, l, k', _, h2⟩
  · exact hp _ _ h1
  · rw [h.next h2]; exact hp _ _ h1
  · exact h.go h2

/-- A parent and a child. In the states `B` the parent has not started the child, in the states `A` it has waited for its end (or never started it); the child is then in a
state of `E`. The child tells that it has ended by a send on `d`, or by ending. -/
structure ForkJoin (act : L → Act R C V L) (role : L → R) (par ch : R) (d : Option C) (B A E : L → Prop) : Prop where
  ne : par ≠ ch
  fresh : ∀ {l k}, role l = par → Nxt act l k → B k → B l ∧ ∀ g k', act l ≠ .go ch g k'
  join : ∀ {l k}, role l = par → Nxt act l k → A k → ((A l ∨ B l) ∧ ∀ g k', act l ≠ .go ch g k') ∨ (∃ c f, d = some c ∧ act l = .recv c f) ∨
    (∃ rs, act l = .wait rs k ∧ ch ∈ rs)
  done : ∀ {l c v k}, d = some c → act l = .send c v k → role l = ch ∧ E k
  stay : ∀ {l k}, role l = ch → E l → Nxt act l k → E k
  halt : ∀ {l}, role l = ch → act l = .halt → E l
  noclose : ∀ {l c k}, d = some c → act l ≠ .close c k
  spawn : ∀ {l g k}, act l = .go ch g k → role l = par

/-- What a parent knows about its child. -/
structure Joined (par ch : R) (d : Option C) (B A E : L → Prop) (s : State R C L) : Prop where
  alive : s.procs par ≠ none
  fresh : ∀ l, s.procs par = some l → B l → s.procs ch = none
  ended : ∀ l, s.procs par = some l → A l → ∀ m, s.procs ch = some m → E m
  isOpen : ∀ c, d = some c → s.closed c = false

/-- A goroutine that is not started stays so, unless a `go` starts it. -/
theorem Step.not_started {s t : State R C L} (h : Step act s t) {r : R} (h0 : s.procs r = none) :
    t.procs r = none ∨ ∃ x l g k, s.procs x = some l ∧ act l = .go r g k ∧ t.procs x = some k := by
  cases hk : t.procs r with
  | none => exact .inl rfl
  | some k =>
    right
    cases h with
    | tau h1 h2 => rw [set_procs] at hk; split at hk <;> simp_all
    | sync h1 h2 h3 h4 h5 => simp only [set_procs] at hk; grind
    | recvClosed h1 h2 h3 => rw [set_procs] at hk; split at hk <;> simp_all
    | close h1 h2 h3 => rw [shut_procs, set_procs] at hk; split at hk <;> simp_all
    | go h1 h2 h3 =>
      simp only [set_procs] at hk
      split at hk
      · simp_all
      · split at hk
        · subst_vars; exact ⟨_, _, _, _, h1, h2, by simp [set_procs]⟩
        · simp_all
    | wait h1 h2 h3 => rw [set_procs] at hk; split at hk <;> simp_all

theorem Joined.step {role : L → R} {par ch : R} {d : Option C} {B A E : L → Prop} (fj : ForkJoin act role par ch d B A E) {s t : State R C L}
    (hp : Placed role s) (h : Joined par ch d B A E s) (hst : Step act s t) : Joined par ch d B A E t := by
  -- whoever starts the child is the parent
  have hgo : ∀ {x l g k}, s.procs x = some l → act l = .go ch g k → x = par := by
    intro x l g k hx hl
    rw [← hp _ _ hx]; exact fj.spawn hl
  have hfrom : ∀ {k}, t.procs par = some k → s.procs par = some k ∨ ∃ l, s.procs par = some l ∧ Nxt act l k := by
    intro k hk
    rcases hst.from hk with h1 | h1 | ⟨h1, _⟩
    · exact .inl h1
    · exact .inr h1
    · exact (h.alive h1).elim
  -- the parent does not start the child when it goes to a state of `A` or `B`
  have hno : ∀ {k x l g k'}, t.procs par = some k → B k ∨ A k → s.procs x = some l → act l = .go ch g k' → t.procs x = some k' → False := by
    intro k x l g k' hk hAB hx hl hx'
    have := hgo hx hl
    subst this
    rw [hk] at hx'; cases hx'
    have hn : Nxt act l k := .inr (.inr (.inr (.inr (.inl ⟨_, _, hl⟩))))
    rcases hAB with hB | hA
    · exact (fj.fresh (hp _ _ hx) hn hB).2 _ _ hl
    · rcases fj.join (hp _ _ hx) hn hA with ⟨_, h4⟩ | ⟨c, f, _, h4⟩ | ⟨rs, h4, _⟩
      · exact h4 _ _ hl
      · rw [hl] at h4; cases h4
      · rw [hl] at h4; cases h4
  -- if the child was not started or had ended, it still is so
  have hkeep : ∀ {k}, t.procs par = some k → A k → (∀ m, s.procs ch = some m → E m) → ∀ m, t.procs ch = some m → E m := by
    intro k hk hA hE m hm
    rcases hst.from hm with h1 | ⟨l, h1, h2⟩ | ⟨h1, _⟩
    · exact hE m h1
    · exact fj.stay (hp _ _ h1) (hE l h1) h2
    · rcases hst.not_started h1 with h4 | ⟨x, l', g, k', hx, hl', hx'⟩
      · rw [hm] at h4; cases h4
      · exact (hno hk (.inr hA) hx hl' hx').elim
  refine ⟨?_, ?_, ?_, ?_⟩
  · intro h0
    cases hs : s.procs par with
    | none => exact h.alive hs
    | some l =>
      obtain ⟨e, he⟩ := hst.label
      exact he.frame.2.2.1 par (by simp [hs]) h0
  · intro k hk hB
    have hpre : ∃ l, s.procs par = some l ∧ B l := by
      rcases hfrom hk with h1 | ⟨l, h1, h2⟩
      · exact ⟨k, h1, hB⟩
      · exact ⟨l, h1, (fj.fresh (hp _ _ h1) h2 hB).1⟩
    obtain ⟨l, h1, h2⟩ := hpre
    rcases hst.not_started (h.fresh l h1 h2) with h4 | ⟨x, l', g, k', hx, hl', hx'⟩
    · exact h4
    · exact (hno hk (.inl hB) hx hl' hx').elim
  · intro k hk hA
    rcases hfrom hk with h1 | ⟨l, h1, h2⟩
    · exact hkeep hk hA (h.ended k h1 hA)
    · by_cases hmoved : t.procs par = s.procs par
      · rw [hk] at hmoved
        exact hkeep hk hA (h.ended k hmoved.symm hA)
      rcases fj.join (hp _ _ h1) h2 hA with ⟨hAB, _⟩ | ⟨c, f, hd, hl⟩ | ⟨rs, hl, hch⟩
      · refine hkeep hk hA ?_
        rcases hAB with h3 | h3
        · exact h.ended l h1 h3
        · intro m hm
          rw [h.fresh l h1 h3] at hm; cases hm
      · -- the parent has received on `d`
        intro m hm
        cases hst with
        | @tau r _ _ a1 a2 =>
          by_cases hr : par = r
          · subst hr; rw [h1] at a1; cases a1; rw [hl] at a2; cases a2
          · simp [set_procs, hr] at hmoved
        | @sync p' q _ _ _ _ _ _ a1 a2 a3 a4 a5 =>
          by_cases hq : par = q
          · subst hq; rw [h1] at a3; cases a3; rw [hl] at a4; cases a4
            obtain ⟨b1, b2⟩ := fj.done hd a2
            rw [hp _ _ a1] at b1
            subst b1
            rw [set_procs, if_neg (Ne.symm fj.ne), set_procs, if_pos rfl] at hm
            cases hm; exact b2
          · by_cases hpp : par = p'
            · subst hpp; rw [h1] at a1; cases a1; rw [hl] at a2; cases a2
            · simp [set_procs, hq, hpp] at hmoved
        | @recvClosed q _ _ _ a1 a2 a3 =>
          by_cases hr : par = q
          · subst hr; rw [h1] at a1; cases a1; rw [hl] at a2; cases a2
            rw [h.isOpen _ hd] at a3; cases a3
          · simp [set_procs, hr] at hmoved
        | @close r _ _ _ a1 a2 a3 =>
          by_cases hr : par = r
          · subst hr; rw [h1] at a1; cases a1; rw [hl] at a2; cases a2
          · simp [set_procs, hr] at hmoved
        | @go r _ n _ _ a1 a2 a3 =>
          by_cases hr : par = r
          · subst hr; rw [h1] at a1; cases a1; rw [hl] at a2; cases a2
          · by_cases hn : par = n
            · subst hn; rw [h1] at a3; cases a3
            · simp [set_procs, hr, hn] at hmoved
        | @wait r _ _ _ a1 a2 a3 =>
          by_cases hr : par = r
          · subst hr; rw [h1] at a1; cases a1; rw [hl] at a2; cases a2
          · simp [set_procs, hr] at hmoved
      · -- the parent has waited
        intro m hm
        cases hst with
        | @tau r _ _ a1 a2 =>
          by_cases hr : par = r
          · subst hr; rw [h1] at a1; cases a1; rw [hl] at a2; cases a2
          · simp [set_procs, hr] at hmoved
        | @sync p' q _ _ _ _ _ _ a1 a2 a3 a4 a5 =>
          by_cases hq : par = q
          · subst hq; rw [h1] at a3; cases a3; rw [hl] at a4; cases a4
          · by_cases hpp : par = p'
            · subst hpp; rw [h1] at a1; cases a1; rw [hl] at a2; cases a2
            · simp [set_procs, hq, hpp] at hmoved
        | @recvClosed q _ _ _ a1 a2 a3 =>
          by_cases hr : par = q
          · subst hr; rw [h1] at a1; cases a1; rw [hl] at a2; cases a2
          · simp [set_procs, hr] at hmoved
        | @close r _ _ _ a1 a2 a3 =>
          by_cases hr : par = r
          · subst hr; rw [h1] at a1; cases a1; rw [hl] at a2; cases a2
          · simp [set_procs, hr] at hmoved
        | @go r _ n _ _ a1 a2 a3 =>
          by_cases hr : par = r
          · subst hr; rw [h1] at a1; cases a1; rw [hl] at a2; cases a2
          · by_cases hn : par = n
            · subst hn; rw [h1] at a3; cases a3
            · simp [set_procs, hr, hn] at hmoved
        | @wait r _ _ _ a1 a2 a3 =>
          by_cases hr : par = r
          · subst hr; rw [h1] at a1; cases a1; rw [hl] at a2; cases a2
            obtain ⟨m', b1, b2⟩ := a3 ch hch
            rw [set_procs, if_neg (Ne.symm fj.ne), b1] at hm
            cases hm
            exact fj.halt (hp _ _ b1) b2
          · simp [set_procs, hr] at hmoved
  · intro c hd
    cases hst with
    | close a1 a2 a3 =>
      rw [shut_closed, if_neg]
      · exact h.isOpen c hd
      · rintro rfl; exact fj.noclose hd a2
    | _ => exact h.isOpen c hd

/-- In all reachable states. -/
theorem Joined.reach {role : L → R} {par ch : R} {d : Option C} {B A E : L → Prop} (fj : ForkJoin act role par ch d B A E) (hr : Roles act role) {s t : State R C L}
    (hp : Placed role s) (h : Joined par ch d B A E s) (hst : Reach act s t) : Joined par ch d B A E t := by
  obtain ⟨n, hst⟩ := hst
  have := hst.inv (P := fun s => Placed role s ∧ Joined par ch d B A E s) (fun a b hab hs => ⟨hr.step hab.1 hs, hab.2.step fj hab.1 hs⟩) ⟨hp, h⟩
  exact this.2

theorem Roles.reach {role : L → R} (hr : Roles act role) {s t : State R C L} (hp : Placed role s) (hst : Reach act s t) : Placed role t := by
  obtain ⟨n, hst⟩ := hst
  exact hst.inv (P := Placed role) (fun _ _ hp hs => hr.step hp hs) hp

end Ripsrc.Conc
