import Verif.Model.Conc
/-!
# Networks in which each channel has one sender and one receiver are determinate
-/
namespace Ripsrc.Conc
variable {R C V L : Type} [DecidableEq R] [DecidableEq C] {act : L → Act R C V L}

theorem upd_same {A B : Type} [DecidableEq A] (f : A → B) (a : A) (b : B) : upd f a b a = b := by simp [upd]
theorem upd_ne {A B : Type} [DecidableEq A] (f : A → B) {a x : A} (b : B) (h : x ≠ a) : upd f a b x = f x := by simp [upd, h]

@[simp] theorem set_closed (s : State R C L) (r : R) (l : L) : (s.set r l).closed = s.closed := rfl
@[simp] theorem shut_procs (s : State R C L) (c : C) : (s.shut c).procs = s.procs := rfl
theorem set_procs (s : State R C L) (r x : R) (l : L) : (s.set r l).procs x = if x = r then some l else s.procs x := rfl
theorem shut_closed (s : State R C L) (c x : C) : (s.shut c).closed x = if x = c then true else s.closed x := rfl
theorem State.ext' {s t : State R C L} (h1 : ∀ r, s.procs r = t.procs r) (h2 : ∀ c, s.closed c = t.closed c) : s = t := by
  cases s; cases t; congr
  · exact funext h1
  · exact funext h2

theorem Steps.snoc {n : Nat} {s t u : State R C L} (h : Steps act n s t) (h2 : Step act t u) : Steps act (n + 1) s u := by
  induction h with
  | refl => exact .cons h2 .refl
  | cons h _ ih => exact .cons h (ih h2)

theorem Steps.append {n m : Nat} {s t u : State R C L} (h : Steps act n s t) (h2 : Steps act m t u) : Steps act (n + m) s u := by
  induction h with
  | refl => simpa using h2
  | cons h _ ih => rw [Nat.add_right_comm]; exact .cons h (ih h2)

theorem Reach.refl (s : State R C L) : Reach act s s := ⟨0, .refl⟩
theorem Reach.trans {s t u : State R C L} (h : Reach act s t) (h2 : Reach act t u) : Reach act s u := by
  obtain ⟨n, h⟩ := h; obtain ⟨m, h2⟩ := h2; exact ⟨_, h.append h2⟩
theorem Reach.step {s t : State R C L} (h : Step act s t) : Reach act s t := ⟨1, .cons h .refl⟩
theorem Reach.head {s t u : State R C L} (h : Step act s t) (h2 : Reach act t u) : Reach act s u := (Reach.step h).trans h2

/-- An invariant of the steps holds in all reachable states. -/
theorem Steps.inv {P : State R C L → Prop} (hP : ∀ s t, P s → Step act s t → P t) {n : Nat} {s t : State R C L} (h : Steps act n s t) (h0 : P s) : P t := by
  induction h with
  | refl => exact h0
  | cons h _ ih => exact ih (hP _ _ h0 h)

/-- Each goroutine is in a control state of its own. -/
def Placed (role : L → R) (s : State R C L) : Prop := ∀ r l, s.procs r = some l → role l = r

/-- The discipline: goroutine names are fixed by control states, each channel has one sender, one receiver and one closer, each goroutine has one
parent; when a channel is about to be closed its sender is not sending on it (in the states that satisfy `I`). -/
structure Owned (act : L → Act R C V L) (role : L → R) (wr rd cw : C → R) (sp : R → R) (I : State R C L → Prop) : Prop where
  inv : ∀ {s t}, Placed role s → I s → Step act s t → I t
  quiet : ∀ {s r l m c k v k'}, Placed role s → I s → s.procs r = some l → act l = .close c k → s.procs (wr c) = some m → act m = .send c v k' → False
  send : ∀ {l c v k}, act l = .send c v k → wr c = role l ∧ role k = role l
  recv : ∀ {l c f}, act l = .recv c f → rd c = role l ∧ ∀ o, role (f o) = role l
  close : ∀ {l c k}, act l = .close c k → cw c = role l ∧ role k = role l
  go : ∀ {l n g k}, act l = .go n g k → sp n = role l ∧ role g = n ∧ role k = role l
  wait : ∀ {l rs k}, act l = .wait rs k → role k = role l
  tau : ∀ {l k}, act l = .tau k → role k = role l

theorem Placed.set {role : L → R} {s : State R C L} (h : Placed role s) {r : R} {l : L} (hr : role l = r) : Placed role (s.set r l) := by
  intro x m hm
  rw [set_procs] at hm
  split at hm
  · cases hm; simp_all
  · exact h x m hm

theorem Placed.step {role : L → R} {wr rd cw : C → R} {sp : R → R} {I : State R C L → Prop} (ho : Owned act role wr rd cw sp I) {s t : State R C L} (h : Placed role s) (hst : Step act s t) :
    Placed role t := by
  cases hst with
  | tau h1 h2 => exact h.set ((ho.tau h2).trans (h _ _ h1))
  | sync h1 h2 h3 h4 _ => exact (h.set ((ho.send h2).2.trans (h _ _ h1))).set (((ho.recv h4).2 _).trans (h _ _ h3))
  | recvClosed h1 h2 _ => exact h.set (((ho.recv h2).2 _).trans (h _ _ h1))
  | close h1 h2 _ => exact h.set ((ho.close h2).2.trans (h _ _ h1))
  | go h1 h2 _ => exact (h.set (ho.go h2).2.1).set ((ho.go h2).2.2.trans (h _ _ h1))
  | wait h1 h2 _ => exact h.set ((ho.wait h2).trans (h _ _ h1))

/-- What a step does: the new control states and the channel that it closes. -/
structure Eff (R C L : Type) where
  ups : List (R × L)
  cl : Option C

def Eff.app (s : State R C L) (e : Eff R C L) : State R C L :=
  { procs := e.ups.foldl (fun f u => upd f u.1 (some u.2)) s.procs,
    closed := match e.cl with | none => s.closed | some c => upd s.closed c true }

/-- Labelled steps. -/
inductive En (act : L → Act R C V L) (s : State R C L) : Eff R C L → Prop where
  | tau {r l k} : s.procs r = some l → act l = .tau k → En act s ⟨[(r, k)], none⟩
  | sync {p q l m c v k f} : s.procs p = some l → act l = .send c v k → s.procs q = some m → act m = .recv c f → s.closed c = false →
      En act s ⟨[(p, k), (q, f (some v))], none⟩
  | recvClosed {q m c f} : s.procs q = some m → act m = .recv c f → s.closed c = true → En act s ⟨[(q, f none)], none⟩
  | close {r l c k} : s.procs r = some l → act l = .close c k → s.closed c = false → En act s ⟨[(r, k)], some c⟩
  | go {r l n g k} : s.procs r = some l → act l = .go n g k → s.procs n = none → En act s ⟨[(n, g), (r, k)], none⟩
  | wait {r l rs k} : s.procs r = some l → act l = .wait rs k → (∀ x ∈ rs, ∃ m, s.procs x = some m ∧ act m = .halt) → En act s ⟨[(r, k)], none⟩

theorem step_iff {s t : State R C L} : Step act s t ↔ ∃ e, En act s e ∧ t = e.app s := by
  constructor
  · intro h
    cases h with
    | tau h1 h2 => exact ⟨_, .tau h1 h2, rfl⟩
    | sync h1 h2 h3 h4 h5 => exact ⟨_, .sync h1 h2 h3 h4 h5, rfl⟩
    | recvClosed h1 h2 h3 => exact ⟨_, .recvClosed h1 h2 h3, rfl⟩
    | close h1 h2 h3 => exact ⟨_, .close h1 h2 h3, rfl⟩
    | go h1 h2 h3 => exact ⟨_, .go h1 h2 h3, rfl⟩
    | wait h1 h2 h3 => exact ⟨_, .wait h1 h2 h3, rfl⟩
  · rintro ⟨e, h, rfl⟩
    cases h with
    | tau h1 h2 => exact .tau h1 h2
    | sync h1 h2 h3 h4 h5 => exact .sync h1 h2 h3 h4 h5
    | recvClosed h1 h2 h3 => exact .recvClosed h1 h2 h3
    | close h1 h2 h3 => exact .close h1 h2 h3
    | go h1 h2 h3 => exact .go h1 h2 h3
    | wait h1 h2 h3 => exact .wait h1 h2 h3

def Eff.keys (e : Eff R C L) : List R := e.ups.map (·.1)

theorem foldl_upd_not_mem (ups : List (R × L)) (f : R → Option L) (x : R) (h : x ∉ ups.map (·.1)) :
    ups.foldl (fun f u => upd f u.1 (some u.2)) f x = f x := by
  induction ups generalizing f with
  | nil => rfl
  | cons u us ih =>
    simp only [List.map_cons, List.mem_cons, not_or] at h
    rw [List.foldl_cons, ih _ h.2, upd_ne _ _ h.1]

theorem foldl_upd_mem (ups : List (R × L)) (f g : R → Option L) (x : R) (h : x ∈ ups.map (·.1)) :
    ups.foldl (fun f u => upd f u.1 (some u.2)) f x = ups.foldl (fun f u => upd f u.1 (some u.2)) g x := by
  induction ups generalizing f g with
  | nil => cases h
  | cons u us ih =>
    rw [List.foldl_cons, List.foldl_cons]
    by_cases hx : x ∈ us.map (·.1)
    · exact ih _ _ hx
    · have : x = u.1 := by simpa [hx] using h
      subst this
      rw [foldl_upd_not_mem _ _ _ hx, foldl_upd_not_mem _ _ _ hx, upd_same, upd_same]

theorem app_not_mem {s : State R C L} {e : Eff R C L} {x : R} (h : x ∉ e.keys) : (e.app s).procs x = s.procs x := foldl_upd_not_mem _ _ _ h

theorem app_comm {s : State R C L} {e e' : Eff R C L} (h : ∀ x ∈ e.keys, x ∉ e'.keys) : e.app (e'.app s) = e'.app (e.app s) := by
  apply State.ext'
  · intro x
    by_cases hx : x ∈ e.keys
    · rw [app_not_mem (h x hx)]
      exact foldl_upd_mem _ _ _ _ hx
    · rw [app_not_mem hx]
      by_cases hx' : x ∈ e'.keys
      · exact foldl_upd_mem _ _ _ _ hx'
      · rw [app_not_mem hx', app_not_mem hx', app_not_mem hx]
  · intro c
    unfold Eff.app
    cases e.cl <;> cases e'.cl <;> simp only [upd] <;> split <;> split <;> rfl

/-- `x` takes part in the step (and is not the goroutine that is started). -/
theorem En.key_cases {s : State R C L} {e : Eff R C L} (h : En act s e) {x : R} (hx : x ∈ e.keys) :
    (∃ l, s.procs x = some l ∧ act l ≠ .halt) ∨ (s.procs x = none ∧ ∃ r l g k, s.procs r = some l ∧ act l = .go x g k ∧ r ∈ e.keys) := by
  cases h with
  | tau h1 h2 => simp [Eff.keys] at hx; subst hx; exact .inl ⟨_, h1, by simp [h2]⟩
  | sync h1 h2 h3 h4 h5 =>
    simp [Eff.keys] at hx
    rcases hx with rfl | rfl
    · exact .inl ⟨_, h1, by simp [h2]⟩
    · exact .inl ⟨_, h3, by simp [h4]⟩
  | recvClosed h1 h2 h3 => simp [Eff.keys] at hx; subst hx; exact .inl ⟨_, h1, by simp [h2]⟩
  | close h1 h2 h3 => simp [Eff.keys] at hx; subst hx; exact .inl ⟨_, h1, by simp [h2]⟩
  | go h1 h2 h3 =>
    simp [Eff.keys] at hx
    rcases hx with rfl | rfl
    · exact .inr ⟨h3, _, _, _, _, h1, h2, by simp [Eff.keys]⟩
    · exact .inl ⟨_, h1, by simp [h2]⟩
  | wait h1 h2 h3 => simp [Eff.keys] at hx; subst hx; exact .inl ⟨_, h1, by simp [h2]⟩

/-- A goroutine takes part in at most one step. -/
theorem En.unique {role : L → R} {wr rd cw : C → R} {sp : R → R} {I : State R C L → Prop} (ho : Owned act role wr rd cw sp I) {s : State R C L} (hp : Placed role s) {e e' : Eff R C L}
    (h : En act s e) (h' : En act s e') {x : R} {l : L} (hx : x ∈ e.keys) (hx' : x ∈ e'.keys) (hl : s.procs x = some l) : e = e' := by
  cases h <;> cases h' <;> simp only [Eff.keys, List.map_cons, List.map_nil, List.mem_cons, List.not_mem_nil, or_false] at hx hx'
  all_goals
    have hs := @ho.send
    have hr := @ho.recv
    clear ho
    unfold Placed at hp
    grind

/-- A step stays possible after another step of other goroutines. -/
theorem En.stable {role : L → R} {wr rd cw : C → R} {sp : R → R} {I : State R C L → Prop} (ho : Owned act role wr rd cw sp I) {s : State R C L} (hp : Placed role s) (hI : I s) {e e' : Eff R C L}
    (h : En act s e) (h' : En act s e') (hd : ∀ x ∈ e.keys, x ∉ e'.keys) : En act (e'.app s) e := by
  have key : ∀ {x : R} {m : L}, s.procs x = some m → x ∈ e.keys → (e'.app s).procs x = some m := by
    intro x m hm hx
    rw [app_not_mem (hd x hx)]; exact hm
  have hclosed : ∀ {c : C} {b : Bool}, s.closed c = b → e'.cl ≠ some c → (e'.app s).closed c = b := by
    intro c b hc hne
    unfold Eff.app
    cases hcl : e'.cl with
    | none => exact hc
    | some c' =>
      have : c ≠ c' := by rintro rfl; exact hne hcl
      simp only [upd_ne _ _ this]; exact hc
  have hcl : ∀ {c : C}, e'.cl = some c → s.closed c = false ∧ cw c ∈ e'.keys ∧ ∃ r l k, s.procs r = some l ∧ act l = .close c k := by
    intro c hc
    cases h' <;> simp at hc
    subst hc
    refine ⟨by assumption, ?_⟩
    rename_i h1 h2 _
    have := (ho.close h2).1
    rw [this, hp _ _ h1]
    exact ⟨by simp [Eff.keys], _, _, _, h1, h2⟩
  cases h with
  | tau h1 h2 => exact .tau (key h1 (by simp [Eff.keys])) h2
  | sync h1 h2 h3 h4 h5 =>
    refine .sync (key h1 (by simp [Eff.keys])) h2 (key h3 (by simp [Eff.keys])) h4 (hclosed h5 ?_)
    intro hc
    obtain ⟨_, _, r, l, k, hr, hk⟩ := hcl hc
    have : wr _ = _ := (ho.send h2).1.trans (hp _ _ h1)
    exact ho.quiet hp hI hr hk (this ▸ h1) h2
  | recvClosed h1 h2 h3 =>
    refine .recvClosed (key h1 (by simp [Eff.keys])) h2 (hclosed h3 ?_)
    intro hc
    rw [(hcl hc).1] at h3; cases h3
  | close h1 h2 h3 =>
    refine .close (key h1 (by simp [Eff.keys])) h2 (hclosed h3 ?_)
    intro hc
    have := (hcl hc).2.1
    rw [(ho.close h2).1, hp _ _ h1] at this
    exact hd _ (by simp [Eff.keys]) this
  | go h1 h2 h3 =>
    refine .go (key h1 (by simp [Eff.keys])) h2 ?_
    rw [app_not_mem (hd _ (by simp [Eff.keys]))]; exact h3
  | wait h1 h2 h3 =>
    refine .wait (key h1 (by simp [Eff.keys])) h2 ?_
    intro x hx
    obtain ⟨m, hm, hh⟩ := h3 x hx
    refine ⟨m, ?_, hh⟩
    rw [app_not_mem]
    · exact hm
    · intro hx'
      rcases h'.key_cases hx' with ⟨l, hl, hn⟩ | ⟨hn, _⟩
      · rw [hm] at hl; cases hl; exact hn hh
      · rw [hm] at hn; cases hn

/-- Two different steps from the same state commute. -/
theorem diamond {role : L → R} {wr rd cw : C → R} {sp : R → R} {I : State R C L → Prop} (ho : Owned act role wr rd cw sp I) {s a b : State R C L} (hp : Placed role s) (hI : I s)
    (ha : Step act s a) (hb : Step act s b) : a = b ∨ ∃ c, Step act a c ∧ Step act b c := by
  obtain ⟨e, he, rfl⟩ := step_iff.1 ha
  obtain ⟨e', he', rfl⟩ := step_iff.1 hb
  by_cases heq : e = e'
  · exact .inl (by rw [heq])
  · have hd : ∀ x ∈ e.keys, x ∉ e'.keys := by
      intro x hx hx'
      apply heq
      rcases he.key_cases hx with ⟨l, hl, _⟩ | ⟨hn, r, l, g, k, h1, h2, h3⟩
      · exact he.unique ho hp he' hx hx' hl
      · rcases he'.key_cases hx' with ⟨l, hl, _⟩ | ⟨_, r', l', g', k', h1', h2', h3'⟩
        · rw [hn] at hl; cases hl
        · have e1 := (ho.go h2).1
          have e2 := (ho.go h2').1
          rw [hp _ _ h1] at e1
          rw [hp _ _ h1'] at e2
          have : r' = r := by rw [← e1, ← e2]
          subst this
          exact he.unique ho hp he' h3 h3' h1
    have hd' : ∀ x ∈ e'.keys, x ∉ e.keys := fun x hx hx' => hd x hx' hx
    refine .inr ⟨e'.app (e.app s), step_iff.2 ⟨e', he'.stable ho hp hI he hd', rfl⟩, step_iff.2 ⟨e, he.stable ho hp hI he' hd, ?_⟩⟩
    exact (app_comm hd).symm

/-- **Determinacy.** If one schedule leads to a state where nothing can move, every schedule does, to the same state and in the same number of steps. -/
theorem determinate {role : L → R} {wr rd cw : C → R} {sp : R → R} {I : State R C L → Prop} (ho : Owned act role wr rd cw sp I) {n : Nat} {s t : State R C L} (hp : Placed role s) (hI : I s)
    (h : Steps act n s t) (ht : Stuck act t) {m : Nat} {u : State R C L} (hu : Steps act m s u) : m ≤ n ∧ Steps act (n - m) u t := by
  -- one step first
  have one : ∀ {n : Nat} {s t u : State R C L}, Placed role s → I s → Steps act n s t → Stuck act t → Step act s u → ∃ n', n = n' + 1 ∧ Steps act n' u t := by
    intro n
    induction n with
    | zero => intro s t u _ _ h ht hu; cases h; exact absurd hu (ht _)
    | succ n ih =>
      intro s t u hp hI h ht hu
      cases h with
      | cons h1 h2 =>
        refine ⟨n, rfl, ?_⟩
        rcases diamond ho hp hI h1 hu with rfl | ⟨c, hc1, hc2⟩
        · exact h2
        · obtain ⟨n', rfl, h3⟩ := ih (hp.step ho h1) (ho.inv hp hI h1) h2 ht hc1
          exact .cons hc2 h3
  induction hu generalizing n with
  | refl => exact ⟨Nat.zero_le _, by simpa using h⟩
  | cons h1 _ ih =>
    obtain ⟨n', rfl, h3⟩ := one hp hI h ht h1
    obtain ⟨h4, h5⟩ := ih (hp.step ho h1) (ho.inv hp hI h1) h3
    refine ⟨by omega, ?_⟩
    rw [Nat.add_sub_add_right]; exact h5

/-- A panicking goroutine stays where it is. -/
theorem Crashed.step {s t : State R C L} (h : Crashed act s) (hst : Step act s t) : Crashed act t := by
  obtain ⟨r, l, hr, hc⟩ := h
  obtain ⟨e, he, rfl⟩ := step_iff.1 hst
  have hcl : ∀ {c : C}, s.closed c = true → (e.app s).closed c = true := by
    intro c hc
    unfold Eff.app
    cases e.cl with
    | none => exact hc
    | some c' => simp only [upd]; split <;> simp_all
  refine ⟨r, l, ?_, ?_⟩
  · rw [app_not_mem]
    · exact hr
    · intro hx
      cases he <;> simp only [Eff.keys, List.map_cons, List.map_nil, List.mem_cons, List.not_mem_nil, or_false] at hx <;> grind
  · rcases hc with hc | ⟨c, v, k, h1, h2⟩ | ⟨c, k, h1, h2⟩
    · exact .inl hc
    · exact .inr (.inl ⟨c, v, k, h1, hcl h2⟩)
    · exact .inr (.inr ⟨c, k, h1, hcl h2⟩)

theorem Crashed.steps {n : Nat} {s t : State R C L} (h : Crashed act s) (hst : Steps act n s t) : Crashed act t :=
  hst.inv (P := Crashed act) (fun _ _ h h2 => h.step h2) h

/-- When every started goroutine has returned nothing can move. -/
theorem AllReturned.stuck {s : State R C L} (h : AllReturned act s) : Stuck act s := by
  intro t ht
  cases ht <;> grind [AllReturned]

theorem AllReturned.not_crashed {s : State R C L} (h : AllReturned act s) : ¬ Crashed act s := by
  rintro ⟨r, l, hr, hc⟩
  have := h r l hr
  simp [this] at hc

/-- **Confluence.** Two schedules can be continued to a common state. -/
theorem confluent {role : L → R} {wr rd cw : C → R} {sp : R → R} {I : State R C L → Prop} (ho : Owned act role wr rd cw sp I) {s t u : State R C L} (hp : Placed role s) (hI : I s)
    (ht : Reach act s t) (hu : Reach act s u) : ∃ v, Reach act t v ∧ Reach act u v := by
  -- one step against many
  have strip : ∀ {n : Nat} {s t u : State R C L}, Placed role s → I s → Steps act n s t → Step act s u → ∃ v, (t = v ∨ Step act t v) ∧ Reach act u v := by
    intro n
    induction n with
    | zero => intro s t u _ _ h hu; cases h; exact ⟨u, .inr hu, Reach.refl _⟩
    | succ n ih =>
      intro s t u hp hI h hu
      cases h with
      | cons h1 h2 =>
        rcases diamond ho hp hI h1 hu with rfl | ⟨c, hc1, hc2⟩
        · exact ⟨t, .inl rfl, ⟨_, h2⟩⟩
        · obtain ⟨v, hv1, hv2⟩ := ih (hp.step ho h1) (ho.inv hp hI h1) h2 hc1
          exact ⟨v, hv1, (Reach.step hc2).trans hv2⟩
  obtain ⟨m, hm⟩ := hu
  induction hm generalizing t with
  | refl => exact ⟨t, Reach.refl _, ht⟩
  | cons h1 _ ih =>
    obtain ⟨n, hn⟩ := ht
    obtain ⟨v, hv1, hv2⟩ := strip hp hI hn h1
    obtain ⟨v', h3, h4⟩ := ih (hp.step ho h1) (ho.inv hp hI h1) hv2
    refine ⟨v', ?_, h4⟩
    rcases hv1 with rfl | hv1
    · exact h3
    · exact (Reach.step hv1).trans h3

end Ripsrc.Conc
