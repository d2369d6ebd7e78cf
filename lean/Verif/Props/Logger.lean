import Verif.Model.Logger
import Verif.Spec.Logger
/-!
# C71: the default logger
-/
namespace Ripsrc
open Spec

/-- Inside the critical section. -/
def LogPc.crit : LogPc → Bool
  | .locked | .text | .newline => true
  | _ => false

/-- What the critical section has written so far. -/
def LogThread.part (t : LogThread) : Str :=
  match t.pc with
  | .text => t.texts.headD []
  | .newline => logLine (t.texts.headD [])
  | _ => []

/-- One goroutine: it wants to print `all`; `chunks` is what it has printed. -/
structure ThreadInv (all : List Str) (t : LogThread) (chunks : List Str) : Prop where
  crit : t.pc.crit = true → t.texts ≠ []
  live : t.pc ≠ .dead → ∃ k, chunks = (all.take k).map logLine ∧ all.drop k = t.texts ++ t.calls.flatMap logTexts
  dead : t.pc = .dead → ∃ k x p, all[k]? = some x ∧ p <+: x ∧ chunks = (all.take k).map logLine ++ [p]

/-- The whole program. -/
structure LogInv (progs : List (List LogCall)) (s : LogSt) (done : List (Nat × Str)) : Prop where
  len : s.threads.length = progs.length
  idx : ∀ x ∈ done, x.1 < progs.length
  free : s.mu = false → (∀ (i : Nat) (t : LogThread), s.threads[i]? = some t → t.pc.crit = false) ∧ s.out = (done.map fun x => x.2).flatten
  held : s.mu = true → ∃ (i : Nat) (t : LogThread), s.threads[i]? = some t ∧ t.pc.crit = true ∧ (∀ (j : Nat) (u : LogThread), s.threads[j]? = some u → u.pc.crit = true → j = i) ∧
    s.out = (done.map fun x => x.2).flatten ++ t.part
  each : ∀ (i : Nat) (t : LogThread) (cs : List LogCall), s.threads[i]? = some t → progs[i]? = some cs → ThreadInv (cs.flatMap logTexts) t (ofThread i done)

theorem ofThread_snoc_same {α : Type} (i : Nat) (log : List (Nat × α)) (x : α) : ofThread i (log ++ [(i, x)]) = ofThread i log ++ [x] := by
  simp [ofThread]

theorem ofThread_snoc_other {α : Type} {i j : Nat} (h : i ≠ j) (log : List (Nat × α)) (x : α) : ofThread j (log ++ [(i, x)]) = ofThread j log := by
  simp [ofThread, h]

theorem logInv_init (progs : List (List LogCall)) : LogInv progs (logInit progs) [] := by
  refine ⟨by simp [logInit], by simp, fun _ => ⟨?_, rfl⟩, fun h => by simp [logInit] at h, ?_⟩
  · intro i t h
    simp only [logInit, List.getElem?_map, Option.map_eq_some_iff] at h
    obtain ⟨cs, -, rfl⟩ := h
    rfl
  · intro i t cs h hc
    simp only [logInit, List.getElem?_map, hc, Option.map_some, Option.some.injEq] at h
    subst h
    exact ⟨fun h => by simp [LogPc.crit] at h, fun _ => ⟨0, by simp [ofThread], by simp⟩, fun h => by simp at h⟩

/-- The threads after a step of goroutine `i`. -/
theorem threads_put {ts : List LogThread} {i j : Nat} {t t' u : LogThread} (h : ts[i]? = some t) (hu : (ts.set i t')[j]? = some u) :
    (j = i ∧ u = t') ∨ (j ≠ i ∧ ts[j]? = some u) := by
  by_cases hj : j = i
  · subst hj
    have hlt : j < ts.length := by
      rcases Nat.lt_or_ge j ts.length with hl | hl
      · exact hl
      · rw [List.getElem?_eq_none hl] at h; cases h
    rw [List.getElem?_set_self hlt] at hu
    exact Or.inl ⟨rfl, (Option.some.inj hu).symm⟩
  · rw [List.getElem?_set_ne (Ne.symm hj)] at hu
    exact Or.inr ⟨hj, hu⟩

theorem threads_put_self {ts : List LogThread} {i : Nat} {t : LogThread} (t' : LogThread) (h : ts[i]? = some t) : (ts.set i t')[i]? = some t' := by
  rcases Nat.lt_or_ge i ts.length with hl | hl
  · exact List.getElem?_set_self hl
  · rw [List.getElem?_eq_none hl] at h; cases h

/-- A step of `i` that writes the chunks `new` to the end. -/
theorem each_put {progs : List (List LogCall)} {s : LogSt} {done : List (Nat × Str)} (hI : LogInv progs s done) {i : Nat} {t : LogThread} (t' : LogThread) (new : List Str)
    (h : s.threads[i]? = some t)
    (hn : ∀ all, ThreadInv all t (ofThread i done) → ThreadInv all t' (ofThread i done ++ new)) :
    ∀ (j : Nat) (u : LogThread) (cs : List LogCall), (s.threads.set i t')[j]? = some u → progs[j]? = some cs → ThreadInv (cs.flatMap logTexts) u (ofThread j (done ++ new.map fun x => (i, x))) := by
  intro j u cs hu hc
  have hsame : ofThread i (done ++ new.map fun x => (i, x)) = ofThread i done ++ new := by
    have : ((new.map fun x => (i, x)).filter fun x => x.1 == i) = new.map fun x => (i, x) := by
      apply List.filter_eq_self.2
      simp
    simp only [ofThread, List.filter_append, List.map_append, this, List.map_map]
    congr 1
    exact List.map_id new
  rcases threads_put h hu with ⟨rfl, rfl⟩ | ⟨hj, hu⟩
  · rw [hsame]; exact hn _ (hI.each _ _ _ h hc)
  · have : ofThread j (done ++ new.map fun x => (i, x)) = ofThread j done := by
      have hf : ((new.map fun x => (i, x)).filter fun x => x.1 == j) = [] := by
        apply List.filter_eq_nil_iff.2
        simp [Ne.symm hj]
      simp [ofThread, List.filter_append, hf]
    rw [this]; exact hI.each _ _ _ hu hc

theorem idx_lt {progs : List (List LogCall)} {s : LogSt} {done : List (Nat × Str)} (hI : LogInv progs s done) {i : Nat} {t : LogThread} (h : s.threads[i]? = some t) : i < progs.length := by
  rw [← hI.len]
  rcases Nat.lt_or_ge i s.threads.length with hl | hl
  · exact hl
  · rw [List.getElem?_eq_none hl] at h; cases h

theorem idx_put {progs : List (List LogCall)} {s : LogSt} {done : List (Nat × Str)} (hI : LogInv progs s done) {i : Nat} {t : LogThread} (h : s.threads[i]? = some t) (p : Str) :
    ∀ x ∈ done ++ [p].map fun x => (i, x), x.1 < progs.length := by
  intro x hx
  rcases List.mem_append.1 hx with hx | hx
  · exact hI.idx x hx
  · simp at hx; subst hx; exact idx_lt hI h

theorem logInv_step {progs : List (List LogCall)} {s s' : LogSt} {done : List (Nat × Str)} (hI : LogInv progs s done) (hs : LogStep s s') :
    ∃ done', LogInv progs s' done' := by
  cases hs with
  | call i t c cs h hp hx hc =>
    refine ⟨done, by simp [LogSt.put, hI.len], hI.idx, ?_, ?_, ?_⟩
    · intro hm
      obtain ⟨ha, hb⟩ := hI.free hm
      refine ⟨fun j u hu => ?_, hb⟩
      rcases threads_put h hu with ⟨rfl, rfl⟩ | ⟨-, hu⟩
      · simp [hp, LogPc.crit]
      · exact ha _ _ hu
    · intro hm
      obtain ⟨j, u, hu, hcr, hun, ho⟩ := hI.held hm
      have hji : j ≠ i := by
        rintro rfl
        rw [h] at hu; cases hu
        simp [hp, LogPc.crit] at hcr
      refine ⟨j, u, ?_, hcr, fun j' u' hu' hc' => ?_, ho⟩
      · show (s.threads.set i _)[j]? = _
        rw [List.getElem?_set_ne (Ne.symm hji)]; exact hu
      · rcases threads_put h hu' with ⟨rfl, rfl⟩ | ⟨-, hu'⟩
        · simp [hp, LogPc.crit] at hc'
        · exact hun _ _ hu' hc'
    · have := each_put hI { t with calls := cs, texts := logTexts c } [] h ?_
      · simpa [LogSt.put] using this
      · intro all ht
        refine ⟨fun hc' => by simp [hp, LogPc.crit] at hc', fun _ => ?_, fun hd => by simp [hp] at hd⟩
        obtain ⟨k, h1, h2⟩ := ht.live (by simp [hp])
        exact ⟨k, by simpa using h1, by rw [h2, hx, hc]; simp⟩
  | lock i t h hp hx hm =>
    obtain ⟨ha, hb⟩ := hI.free hm
    refine ⟨done, by simp [LogSt.put, hI.len], hI.idx, fun hc => by simp at hc, fun _ => ?_, ?_⟩
    · refine ⟨i, { t with pc := .locked }, threads_put_self _ h, rfl, fun j u hu hc => ?_, ?_⟩
      · rcases threads_put h hu with ⟨rfl, -⟩ | ⟨-, hu⟩
        · rfl
        · rw [ha _ _ hu] at hc; cases hc
      · simpa [LogThread.part, LogSt.put] using hb
    · have := each_put hI { t with pc := .locked } [] h ?_
      · simpa [LogSt.put] using this
      · intro all ht
        refine ⟨fun _ => hx, fun _ => ?_, fun hd => by simp at hd⟩
        obtain ⟨k, h1, h2⟩ := ht.live (by simp [hp])
        exact ⟨k, by simpa using h1, h2⟩
  | text i t x xs h hp hx =>
    have hm : s.mu = true := by
      rcases Bool.eq_false_or_eq_true s.mu with hm | hm
      · exact hm
      · have := (hI.free hm).1 _ _ h
        simp [hp, LogPc.crit] at this
    obtain ⟨j, u, hu, hcr, hun, ho⟩ := hI.held hm
    have hij : i = j := hun i t h (by simp [hp, LogPc.crit])
    subst hij
    rw [h] at hu; cases hu
    refine ⟨done, by simp [LogSt.put, hI.len], hI.idx, fun hc => by simp [LogSt.put, hm] at hc, fun _ => ?_, ?_⟩
    · refine ⟨i, { t with pc := .text }, threads_put_self _ h, rfl, fun j u hu hc => ?_, ?_⟩
      · rcases threads_put h hu with ⟨rfl, -⟩ | ⟨-, hu⟩
        · rfl
        · exact hun _ _ hu hc
      · simp [LogThread.part, ho, hp, hx]
    · have := each_put hI { t with pc := .text } [] h ?_
      · simpa [LogSt.put] using this
      · intro all ht
        refine ⟨fun _ => by simp [hx], fun _ => ?_, fun hd => by simp at hd⟩
        obtain ⟨k, h1, h2⟩ := ht.live (by simp [hp])
        exact ⟨k, by simpa using h1, h2⟩
  | textErr i t p q xs h hp hx =>
    have hm : s.mu = true := by
      rcases Bool.eq_false_or_eq_true s.mu with hm | hm
      · exact hm
      · have := (hI.free hm).1 _ _ h
        simp [hp, LogPc.crit] at this
    obtain ⟨j, u, hu, hcr, hun, ho⟩ := hI.held hm
    have hij : i = j := hun i t h (by simp [hp, LogPc.crit])
    subst hij
    rw [h] at hu; cases hu
    refine ⟨done ++ [p].map fun x => (i, x), by simp [LogSt.put, hI.len], idx_put hI h _, fun _ => ⟨fun j u hu => ?_, ?_⟩, fun hc => by simp at hc, ?_⟩
    · rcases threads_put h hu with ⟨rfl, rfl⟩ | ⟨hj, hu⟩
      · rfl
      · rcases Bool.eq_false_or_eq_true u.pc.crit with hc | hc
        · exact absurd (hun _ _ hu hc) hj
        · exact hc
    · simp [LogThread.part, ho, hp]
    · refine each_put hI { t with pc := .dead } [p] h ?_
      intro all ht
      refine ⟨fun hc => by simp [LogPc.crit] at hc, fun hd => by simp at hd, fun _ => ?_⟩
      obtain ⟨k, h1, h2⟩ := ht.live (by simp [hp])
      refine ⟨k, p ++ q, p, ?_, List.prefix_append _ _, by rw [h1]⟩
      have : (all.drop k)[0]? = some (p ++ q) := by rw [h2, hx]; rfl
      rwa [List.getElem?_drop, Nat.add_zero] at this
  | newline i t h hp =>
    have hm : s.mu = true := by
      rcases Bool.eq_false_or_eq_true s.mu with hm | hm
      · exact hm
      · have := (hI.free hm).1 _ _ h
        simp [hp, LogPc.crit] at this
    obtain ⟨j, u, hu, hcr, hun, ho⟩ := hI.held hm
    have hij : i = j := hun i t h (by simp [hp, LogPc.crit])
    subst hij
    rw [h] at hu; cases hu
    refine ⟨done, by simp [LogSt.put, hI.len], hI.idx, fun hc => by simp [LogSt.put, hm] at hc, fun _ => ?_, ?_⟩
    · refine ⟨i, { t with pc := .newline }, threads_put_self _ h, rfl, fun j u hu hc => ?_, ?_⟩
      · rcases threads_put h hu with ⟨rfl, -⟩ | ⟨-, hu⟩
        · rfl
        · exact hun _ _ hu hc
      · simp [LogThread.part, ho, hp, logLine]
    · have := each_put hI { t with pc := .newline } [] h ?_
      · simpa [LogSt.put] using this
      · intro all ht
        refine ⟨fun _ => ht.crit (by simp [hp, LogPc.crit]), fun _ => ?_, fun hd => by simp at hd⟩
        obtain ⟨k, h1, h2⟩ := ht.live (by simp [hp])
        exact ⟨k, by simpa using h1, h2⟩
  | newlineErr i t h hp =>
    have hm : s.mu = true := by
      rcases Bool.eq_false_or_eq_true s.mu with hm | hm
      · exact hm
      · have := (hI.free hm).1 _ _ h
        simp [hp, LogPc.crit] at this
    obtain ⟨j, u, hu, hcr, hun, ho⟩ := hI.held hm
    have hij : i = j := hun i t h (by simp [hp, LogPc.crit])
    subst hij
    rw [h] at hu; cases hu
    refine ⟨done ++ [t.texts.headD []].map fun x => (i, x), by simp [LogSt.put, hI.len], idx_put hI h _, fun _ => ⟨fun j u hu => ?_, ?_⟩, fun hc => by simp at hc, ?_⟩
    · rcases threads_put h hu with ⟨rfl, rfl⟩ | ⟨hj, hu⟩
      · rfl
      · rcases Bool.eq_false_or_eq_true u.pc.crit with hc | hc
        · exact absurd (hun _ _ hu hc) hj
        · exact hc
    · simp [LogThread.part, ho, hp, LogSt.put]
    · refine each_put hI { t with pc := .dead } [t.texts.headD []] h ?_
      intro all ht
      refine ⟨fun hc => by simp [LogPc.crit] at hc, fun hd => by simp at hd, fun _ => ?_⟩
      obtain ⟨k, h1, h2⟩ := ht.live (by simp [hp])
      have hne := ht.crit (by simp [hp, LogPc.crit])
      obtain ⟨x, xs, hx⟩ := List.exists_cons_of_ne_nil hne
      refine ⟨k, x, x, ?_, List.prefix_refl _, by rw [h1, hx]; rfl⟩
      have : (all.drop k)[0]? = some x := by rw [h2, hx]; rfl
      rwa [List.getElem?_drop, Nat.add_zero] at this
  | unlock i t h hp =>
    have hm : s.mu = true := by
      rcases Bool.eq_false_or_eq_true s.mu with hm | hm
      · exact hm
      · have := (hI.free hm).1 _ _ h
        simp [hp, LogPc.crit] at this
    obtain ⟨j, u, hu, hcr, hun, ho⟩ := hI.held hm
    have hij : i = j := hun i t h (by simp [hp, LogPc.crit])
    subst hij
    rw [h] at hu; cases hu
    refine ⟨done ++ [logLine (t.texts.headD [])].map fun x => (i, x), by simp [LogSt.put, hI.len], idx_put hI h _, fun _ => ⟨fun j u hu => ?_, ?_⟩, fun hc => by simp at hc, ?_⟩
    · rcases threads_put h hu with ⟨rfl, rfl⟩ | ⟨hj, hu⟩
      · rfl
      · rcases Bool.eq_false_or_eq_true u.pc.crit with hc | hc
        · exact absurd (hun _ _ hu hc) hj
        · exact hc
    · simp [LogThread.part, ho, hp, LogSt.put]
    · refine each_put hI { t with pc := .free, texts := t.texts.tail } [logLine (t.texts.headD [])] h ?_
      intro all ht
      refine ⟨fun hc => by simp [LogPc.crit] at hc, fun _ => ?_, fun hd => by simp at hd⟩
      obtain ⟨k, h1, h2⟩ := ht.live (by simp [hp])
      have hne := ht.crit (by simp [hp, LogPc.crit])
      obtain ⟨x, xs, hx⟩ := List.exists_cons_of_ne_nil hne
      have h3 : all.drop k = x :: (xs ++ t.calls.flatMap logTexts) := by rw [h2, hx]; rfl
      have hk : all[k]? = some x := by
        have : (all.drop k)[0]? = some x := by rw [h3]; rfl
        rwa [List.getElem?_drop, Nat.add_zero] at this
      refine ⟨k + 1, ?_, ?_⟩
      · rw [List.take_add_one, hk, h1, hx]; simp
      · rw [← List.drop_drop, h3, hx]; simp

theorem logInv_steps {progs : List (List LogCall)} {n : Nat} {s : LogSt} (h : LogSteps n (logInit progs) s) : ∃ done, LogInv progs s done := by
  generalize hs0 : logInit progs = s0 at h
  induction h with
  | refl => subst hs0; exact ⟨[], logInv_init progs⟩
  | snoc _ hst ih =>
    obtain ⟨done, hI⟩ := ih hs0
    exact logInv_step hI hst

/-- **C71**: in every schedule of any number of goroutines, and for every behaviour of the writer, what has been written is a sequence of whole chunks `log`, followed by what
the goroutine that is just writing has written of one line (a part of it; nothing unless `mu` is locked). The chunks of each goroutine are the first of the lines of its calls, in the order of the calls, with a last broken
one only if that goroutine panicked. So lines of different goroutines are never mixed, repeated or reordered. -/
theorem C71_lines {progs : List (List LogCall)} {n : Nat} {s : LogSt} (h : LogSteps n (logInit progs) s) :
    ∃ log cur, s.out = (log.map fun (x : Nat × Str) => x.2).flatten ++ cur ∧
      (∀ (i : Nat) (t : LogThread) (cs : List LogCall), s.threads[i]? = some t → progs[i]? = some cs → PrintedBy (t.pc == .dead) (cs.flatMap logTexts) (ofThread i log)) ∧
      (cur ≠ [] → ∃ (i : Nat) (t : LogThread) (x : Str) (cs : List LogCall), s.threads[i]? = some t ∧ t.pc.crit = true ∧ progs[i]? = some cs ∧
        (cs.flatMap logTexts)[(ofThread i log).length]? = some x ∧ cur <+: logLine x) := by
  obtain ⟨log, hI⟩ := logInv_steps h
  have hE : ∀ (i : Nat) (t : LogThread) (cs : List LogCall), s.threads[i]? = some t → progs[i]? = some cs → PrintedBy (t.pc == .dead) (cs.flatMap logTexts) (ofThread i log) := by
    intro i t cs ht hc
    have hT := hI.each _ _ _ ht hc
    by_cases hd : t.pc = .dead
    · obtain ⟨k, x, p, h1, h2, h3⟩ := hT.dead hd
      exact ⟨k, Or.inr ⟨by simp [hd], x, p, h1, h2, h3⟩⟩
    · obtain ⟨k, h1, -⟩ := hT.live hd
      exact ⟨k, Or.inl h1⟩
  rcases Bool.eq_false_or_eq_true s.mu with hm | hm
  · obtain ⟨i, t, ht, hcr, -, ho⟩ := hI.held hm
    refine ⟨log, t.part, ho, hE, fun _ => ?_⟩
    have hlt : i < progs.length := by
      rw [← hI.len]
      rcases Nat.lt_or_ge i s.threads.length with hl | hl
      · exact hl
      · rw [List.getElem?_eq_none hl] at ht; cases ht
    have hc := List.getElem?_eq_getElem hlt
    have hT := hI.each _ _ _ ht hc
    obtain ⟨x, xs, hx⟩ := List.exists_cons_of_ne_nil (hT.crit hcr)
    obtain ⟨k, h1, h2⟩ := hT.live (by intro hd; simp [hd, LogPc.crit] at hcr)
    have hk : (progs[i].flatMap logTexts)[k]? = some x := by
      have : ((progs[i].flatMap logTexts).drop k)[0]? = some x := by rw [h2, hx]; rfl
      rwa [List.getElem?_drop, Nat.add_zero] at this
    have hkl : k < (progs[i].flatMap logTexts).length := by
      rcases Nat.lt_or_ge k (progs[i].flatMap logTexts).length with hl | hl
      · exact hl
      · rw [List.getElem?_eq_none hl] at hk; cases hk
    refine ⟨i, t, x, progs[i], ht, hcr, hc, ?_, ?_⟩
    · rw [h1, List.length_map, List.length_take, Nat.min_eq_left (Nat.le_of_lt hkl)]; exact hk
    · unfold LogThread.part
      split
      · rw [hx]; exact List.prefix_append _ _
      · rw [hx]; exact List.prefix_refl _
      · exact List.nil_prefix
  · exact ⟨log, [], by simpa using (hI.free hm).2, hE, fun h => absurd rfl h⟩

/-- The goroutine has nothing more to do: it has made all its calls, or it has panicked. -/
def LogThread.over (t : LogThread) : Prop := t.pc = .dead ∨ (t.pc = .free ∧ t.texts = [] ∧ t.calls = [])

/-- **C71**: no deadlock: as long as a goroutine has something to do, some goroutine can go on (with or without an error of the writer). -/
theorem C71_no_deadlock {progs : List (List LogCall)} {n : Nat} {s : LogSt} (h : LogSteps n (logInit progs) s) (hn : ¬ ∀ t ∈ s.threads, t.over) :
    ∃ s', LogStep s s' := by
  obtain ⟨log, hI⟩ := logInv_steps h
  rcases Bool.eq_false_or_eq_true s.mu with hm | hm
  · obtain ⟨i, t, ht, hcr, -, -⟩ := hI.held hm
    have hlt : i < progs.length := by
      rw [← hI.len]
      rcases Nat.lt_or_ge i s.threads.length with hl | hl
      · exact hl
      · rw [List.getElem?_eq_none hl] at ht; cases ht
    have hT := hI.each _ _ _ ht (List.getElem?_eq_getElem hlt)
    obtain ⟨x, xs, hx⟩ := List.exists_cons_of_ne_nil (hT.crit hcr)
    cases hp : t.pc with
    | free => simp [hp, LogPc.crit] at hcr
    | dead => simp [hp, LogPc.crit] at hcr
    | locked => exact ⟨_, .text i t x xs ht hp hx⟩
    | text => exact ⟨_, .newline i t ht hp⟩
    | newline => exact ⟨_, .unlock i t ht hp⟩
  · have : ∃ t ∈ s.threads, ¬ t.over := by
      apply Classical.byContradiction
      intro hc
      exact hn fun t ht => Classical.byContradiction fun h' => hc ⟨t, ht, h'⟩
    obtain ⟨t, ht, hno⟩ := this
    obtain ⟨i, hlt, hi⟩ := List.mem_iff_getElem.1 ht
    have hti : s.threads[i]? = some t := by rw [List.getElem?_eq_getElem hlt, hi]
    have hcr := (hI.free hm).1 _ _ hti
    cases hp : t.pc with
    | dead => exact absurd (Or.inl hp) hno
    | locked => simp [hp, LogPc.crit] at hcr
    | text => simp [hp, LogPc.crit] at hcr
    | newline => simp [hp, LogPc.crit] at hcr
    | free =>
      cases hx : t.texts with
      | cons x xs => exact ⟨_, .lock i t hti hp (by simp [hx]) hm⟩
      | nil =>
        cases hc : t.calls with
        | nil => exact absurd (Or.inr ⟨hp, hx, hc⟩) hno
        | cons c cs => exact ⟨_, .call i t c cs hti hp hx hc⟩

/-- Steps left in the current call of `write`. -/
def LogPc.left : LogPc → Nat
  | .free => 4
  | .locked => 3
  | .text => 2
  | .newline => 1
  | .dead => 0

/-- A bound for the steps of a goroutine. -/
def LogThread.work (t : LogThread) : Nat :=
  (if t.pc = .dead then 0 else 4 * t.texts.tail.length + (if t.texts = [] then 0 else t.pc.left)) + (t.calls.map fun c => 4 * (logTexts c).length + 1).sum

theorem sum_set (f : LogThread → Nat) {ts : List LogThread} {i : Nat} {t t' : LogThread} (h : ts[i]? = some t) (hlt : f t' < f t) : ((ts.set i t').map f).sum < (ts.map f).sum := by
  induction ts generalizing i with
  | nil => simp at h
  | cons a ts ih =>
    cases i with
    | zero => simp at h; subst h; simpa using hlt
    | succ i =>
      simp at h
      have := ih h
      simpa using this

theorem logTexts_ne_nil (c : LogCall) : logTexts c ≠ [] := by
  unfold logTexts; split <;> simp

/-- The bound for the whole program decreases with every step. -/
theorem log_work {progs : List (List LogCall)} {s s' : LogSt} {done : List (Nat × Str)} (hI : LogInv progs s done) (hs : LogStep s s') :
    (s'.threads.map LogThread.work).sum < (s.threads.map LogThread.work).sum := by
  have hcrit : ∀ (i : Nat) (t : LogThread), s.threads[i]? = some t → t.pc.crit = true → t.texts ≠ [] := by
    intro i t ht hc
    have hlt : i < progs.length := by
      rw [← hI.len]
      rcases Nat.lt_or_ge i s.threads.length with hl | hl
      · exact hl
      · rw [List.getElem?_eq_none hl] at ht; cases ht
    exact (hI.each _ _ _ ht (List.getElem?_eq_getElem hlt)).crit hc
  cases hs with
  | call i t c cs h hp hx hc =>
    refine sum_set _ h ?_
    obtain ⟨x, xs, hx'⟩ := List.exists_cons_of_ne_nil (logTexts_ne_nil c)
    simp [LogThread.work, hp, hx, hc, hx', LogPc.left]
    omega
  | lock i t h hp hx hm =>
    refine sum_set _ h ?_
    simp [LogThread.work, hp, hx, LogPc.left]
  | text i t x xs h hp hx =>
    refine sum_set _ h ?_
    simp [LogThread.work, hp, hx, LogPc.left]
  | textErr i t p q xs h hp hx =>
    refine sum_set _ h ?_
    simp [LogThread.work, hp, hx, LogPc.left]
  | newline i t h hp =>
    refine sum_set _ h ?_
    have := hcrit i t h (by simp [hp, LogPc.crit])
    simp [LogThread.work, hp, this, LogPc.left]
  | newlineErr i t h hp =>
    refine sum_set _ h ?_
    have := hcrit i t h (by simp [hp, LogPc.crit])
    simp [LogThread.work, hp, this, LogPc.left]
  | unlock i t h hp =>
    refine sum_set _ h ?_
    obtain ⟨x, xs, hx⟩ := List.exists_cons_of_ne_nil (hcrit i t h (by simp [hp, LogPc.crit]))
    cases xs with
    | nil => simp [LogThread.work, hp, hx, LogPc.left]
    | cons y ys => simp [LogThread.work, hp, hx, LogPc.left]; omega

/-- **C71**: every schedule ends after at most 9 steps per call. -/
theorem C71_ends {progs : List (List LogCall)} {n : Nat} {s : LogSt} (h : LogSteps n (logInit progs) s) : n ≤ 9 * (progs.map List.length).sum := by
  have key : n + (s.threads.map LogThread.work).sum ≤ ((logInit progs).threads.map LogThread.work).sum := by
    generalize hs0 : logInit progs = s0 at h
    induction h with
    | refl => omega
    | snoc hst h1 ih =>
      subst hs0
      obtain ⟨done, hI⟩ := logInv_steps hst
      have := log_work hI h1
      have := ih rfl
      omega
  have h2 : ∀ c, 4 * (logTexts c).length + 1 ≤ 9 := by
    intro c; unfold logTexts; split <;> simp
  have h3 : ∀ cs : List LogCall, (cs.map fun c => 4 * (logTexts c).length + 1).sum ≤ 9 * cs.length := by
    intro cs
    induction cs with
    | nil => simp
    | cons c cs ih => have := h2 c; simp at *; omega
  have h4 : ∀ ps : List (List LogCall), (((ps.map fun cs => ({ calls := cs } : LogThread))).map LogThread.work).sum ≤ 9 * (ps.map List.length).sum := by
    intro ps
    induction ps with
    | nil => simp
    | cons p ps ih =>
      have := h3 p
      have e : ({ calls := p } : LogThread).work = (p.map fun c => 4 * (logTexts c).length + 1).sum := by simp [LogThread.work]
      rw [List.map_cons, List.map_cons, List.sum_cons, e, List.map_cons, List.sum_cons]
      omega
  have := h4 progs
  unfold logInit at key
  simp only at key
  omega

/-- **C71**: when everything is over and the writer has returned no error, the output consists of all lines of all calls, each exactly once, in the order of the calls of each
goroutine. -/
theorem C71_complete {progs : List (List LogCall)} {n : Nat} {s : LogSt} (h : LogSteps n (logInit progs) s) (hend : ∀ s', ¬ LogStep s s') (hok : ∀ t ∈ s.threads, t.pc ≠ .dead) :
    ∃ log : List (Nat × Str), s.out = (log.map fun x => logLine x.2).flatten ∧ (∀ (i : Nat) (cs : List LogCall), progs[i]? = some cs → ofThread i log = cs.flatMap logTexts) ∧
      ∀ x ∈ log, x.1 < progs.length := by
  have hall : ∀ t ∈ s.threads, t.over := by
    apply Classical.byContradiction
    intro hc
    obtain ⟨s', hs'⟩ := C71_no_deadlock h hc
    exact hend s' hs'
  obtain ⟨done, hI⟩ := logInv_steps h
  have hlive : ∀ (i : Nat) (t : LogThread) (cs : List LogCall), s.threads[i]? = some t → progs[i]? = some cs → ofThread i done = (cs.flatMap logTexts).map logLine := by
    intro i t cs ht hc
    have hmem : t ∈ s.threads := List.mem_of_getElem? ht
    obtain ⟨k, h1, h2⟩ := (hI.each _ _ _ ht hc).live (hok t hmem)
    rcases hall t hmem with hd | ⟨-, hx, hcs⟩
    · exact absurd hd (hok t hmem)
    · rw [hx, hcs] at h2
      rw [h1, List.take_of_length_le (List.drop_eq_nil_iff.1 (by simpa using h2))]
  have hth : ∀ (i : Nat) (cs : List LogCall), progs[i]? = some cs → ∃ t, s.threads[i]? = some t := by
    intro i cs hc
    have hlt : i < progs.length := by
      rcases Nat.lt_or_ge i progs.length with hl | hl
      · exact hl
      · rw [List.getElem?_eq_none hl] at hc; cases hc
    rw [← hI.len] at hlt
    exact ⟨_, List.getElem?_eq_getElem hlt⟩
  have hline : ∀ x ∈ done, x.2 = logLine x.2.dropLast := by
    intro x hx
    have hc := List.getElem?_eq_getElem (hI.idx x hx)
    obtain ⟨t, ht⟩ := hth _ _ hc
    have hm : x.2 ∈ ofThread x.1 done := List.mem_map.2 ⟨x, List.mem_filter.2 ⟨hx, by simp⟩, rfl⟩
    rw [hlive _ _ _ ht hc] at hm
    obtain ⟨y, -, hy⟩ := List.mem_map.1 hm
    rw [← hy]; simp [logLine]
  have hmu : s.mu = false := by
    rcases Bool.eq_false_or_eq_true s.mu with hm | hm
    · obtain ⟨i, t, ht, hcr, -⟩ := hI.held hm
      rcases hall t (List.mem_of_getElem? ht) with hd | ⟨hd, -⟩ <;> simp [hd, LogPc.crit] at hcr
    · exact hm
  refine ⟨done.map fun x => (x.1, x.2.dropLast), ?_, ?_, ?_⟩
  · rw [(hI.free hmu).2, List.map_map]
    congr 1
    exact List.map_congr_left fun x hx => hline x hx
  · intro i cs hc
    obtain ⟨t, ht⟩ := hth _ _ hc
    have e : ofThread i (done.map fun x => (x.1, x.2.dropLast)) = (ofThread i done).map List.dropLast := by
      simp only [ofThread, List.filter_map, List.map_map]
      rfl
    rw [e, hlive _ _ _ ht hc, List.map_map]
    have : (List.dropLast ∘ logLine) = id := by funext x; simp [logLine]
    rw [this, List.map_id]
  · intro x hx
    obtain ⟨y, hy, rfl⟩ := List.mem_map.1 hx
    exact hI.idx y hy

/-- The arguments of a call for the pairs `kvs`. -/
def pairArgs (kvs : List (Str × LogArg)) : List LogArg := kvs.flatMap fun p => [.str p.1, p.2]

theorem pairArgs_length (kvs : List (Str × LogArg)) : (pairArgs kvs).length = 2 * kvs.length := by
  induction kvs with
  | nil => rfl
  | cons p kvs ih =>
    have : pairArgs (p :: kvs) = .str p.1 :: p.2 :: pairArgs kvs := rfl
    rw [this]; simp [ih]; omega

theorem formatPairs_pairArgs (kvs : List (Str × LogArg)) : formatPairs (pairArgs kvs) = .ok (kvs.map fun p => (p.1, p.2.text)) := by
  induction kvs with
  | nil => rfl
  | cons p kvs ih =>
    have : pairArgs (p :: kvs) = .str p.1 :: p.2 :: pairArgs kvs := rfl
    rw [this, formatPairs, ih]; rfl

theorem formatPairs_ok : ∀ (args : List LogArg) (r : List (Str × Str)), args.length % 2 = 0 → formatPairs args = .ok r → ∃ kvs, args = pairArgs kvs
  | [], _, _, _ => ⟨[], rfl⟩
  | [_], _, h, _ => by simp at h
  | .other _ :: _ :: _, _, _, h => by simp [formatPairs] at h
  | .str k :: v :: rest, r, hl, h => by
    rw [formatPairs] at h
    cases hr : formatPairs rest with
    | error e => rw [hr] at h; cases h
    | ok kvs =>
      obtain ⟨kvs', hk⟩ := formatPairs_ok rest kvs (by simp at hl; omega) hr
      exact ⟨(k, v) :: kvs', by rw [hk]; rfl⟩

/-- **C71**: a call whose arguments are keys (strings) and values prints one line: the kind, the message and the pairs. -/
theorem C71_record (debug : Bool) (msg : Str) (kvs : List (Str × LogArg)) :
    logTexts ⟨debug, msg, pairArgs kvs⟩ = [goodRecord (if debug then b!"DEBUG" else b!"INFO") msg (kvs.map fun p => (p.1, p.2.text))] := by
  have : formatArgs (pairArgs kvs) = .ok (kvs.map fun p => (p.1, p.2.text)) := by
    unfold formatArgs
    rw [pairArgs_length, if_neg (by omega), formatPairs_pairArgs]
  have hk : fmtKv = fun p : Str × Str => b!"{" ++ p.1 ++ b!" " ++ p.2 ++ b!"}" := rfl
  simp [logTexts, this, goodRecord, LogCall.kind, fmtSlice, hk]

/-- **C71**: a call with any other arguments prints two lines: an error line that contains the message and all arguments, and the line of the message without any argument. -/
theorem C71_bad_args (debug : Bool) (msg : Str) (args : List LogArg) (h : ¬ ∃ kvs, args = pairArgs kvs) :
    ∃ why, logTexts ⟨debug, msg, args⟩ =
      [b!"ERROR Logger invalid args passed. Msg: " ++ msg ++ b!" Args: [" ++ joinWith b!" " (args.map LogArg.text) ++ b!"] Err: " ++ why,
       goodRecord (if debug then b!"DEBUG" else b!"INFO") msg []] ∧
      (why = b!"len of args not even" ∨ why = b!"key arg passes in not a string") ∧ (why = b!"len of args not even" ↔ args.length % 2 = 1) := by
  by_cases hl : args.length % 2 = 0
  · cases hf : formatPairs args with
    | ok r => exact absurd (formatPairs_ok args r hl hf) h
    | error e =>
      have he : e = .error "key arg passes in not a string" := by
        clear h
        induction args using formatPairs.induct generalizing e with
        | case1 k v rest ih =>
          rw [formatPairs] at hf
          cases hr : formatPairs rest with
          | error e' =>
            rw [hr] at hf
            have := ih (by simp at hl; omega) e' hr
            subst this
            cases hf; rfl
          | ok kvs => rw [hr] at hf; cases hf
        | case2 => rw [formatPairs] at hf; cases hf; rfl
        | case3 args h1 h2 =>
          match args, h1, h2, hf, hl with
          | [], _, _, hf, _ => simp [formatPairs] at hf
          | [_], _, _, _, hl => simp at hl
          | .str k :: v :: rest, h1, _, _, _ => exact absurd rfl (h1 k v rest)
          | .other t :: rest, _, h2, _, _ => exact absurd rfl (h2 t rest)
      refine ⟨b!"key arg passes in not a string", ?_, Or.inr rfl, ⟨fun h' => absurd h' (by decide), fun h' => by omega⟩⟩
      have : formatArgs args = .error e := by unfold formatArgs; rw [if_neg (by omega), hf]
      simp only [logTexts, this, he, fmtArgsErr, fmtSlice, goodRecord, LogCall.kind, joinWith, List.append_assoc, List.map_nil]
      congr 1
  · refine ⟨b!"len of args not even", ?_, Or.inl rfl, ⟨fun _ => by omega, fun _ => rfl⟩⟩
    have : formatArgs args = .error (.error "len of args not even") := by unfold formatArgs; rw [if_pos hl]
    simp only [logTexts, this, fmtArgsErr, fmtSlice, goodRecord, LogCall.kind, joinWith, List.append_assoc, List.map_nil]
    congr 1

/-- **C71**: a message is not quoted: a call whose message contains a newline can print the same bytes as two calls. -/
theorem C71_injection (a b : Str) :
    (logTexts ⟨false, a ++ b!" []\nINFO " ++ b, []⟩).map logLine = [((logTexts ⟨false, a, []⟩ ++ logTexts ⟨false, b, []⟩).map logLine).flatten] := by
  simp [logTexts, formatArgs, formatPairs, LogCall.kind, fmtSlice, joinWith, logLine]

/-- Two goroutines, with one call each. -/
def logEx : List (List LogCall) := [[⟨false, b!"a", pairArgs [(b!"k", .other b!"1")]⟩], [⟨true, b!"b", [.str b!"k"]⟩]]

example : (logEx.flatMap fun cs => cs.flatMap logTexts) =
    [b!"INFO a [{k 1}]", b!"ERROR Logger invalid args passed. Msg: b Args: [k] Err: len of args not even", b!"DEBUG b []"] := by decide +kernel

/-- The hypotheses of the theorems are met: a schedule in which the second goroutine prints its error line, then the first one its line, then the second one again. -/
theorem logEx_run : ∃ n s, LogSteps n (logInit logEx) s ∧ (∀ t ∈ s.threads, t.pc ≠ .dead) ∧ (∀ t ∈ s.threads, t.over) ∧
    s.out = b!"ERROR Logger invalid args passed. Msg: b Args: [k] Err: len of args not even\nINFO a [{k 1}]\nDEBUG b []\n" := by
  have h1 := LogSteps.snoc (LogSteps.refl (s := logInit logEx)) (.call 0 _ _ _ rfl rfl rfl rfl)
  have h2 := LogSteps.snoc h1 (.call 1 _ _ _ rfl rfl rfl rfl)
  have h3 := LogSteps.snoc h2 (.lock 1 _ rfl rfl (by decide) rfl)
  have h4 := LogSteps.snoc h3 (.text 1 _ _ _ rfl rfl rfl)
  have h5 := LogSteps.snoc h4 (.newline 1 _ rfl rfl)
  have h6 := LogSteps.snoc h5 (.unlock 1 _ rfl rfl)
  have h7 := LogSteps.snoc h6 (.lock 0 _ rfl rfl (by decide) rfl)
  have h8 := LogSteps.snoc h7 (.text 0 _ _ _ rfl rfl rfl)
  have h9 := LogSteps.snoc h8 (.newline 0 _ rfl rfl)
  have h10 := LogSteps.snoc h9 (.unlock 0 _ rfl rfl)
  have h11 := LogSteps.snoc h10 (.lock 1 _ rfl rfl (by decide) rfl)
  have h12 := LogSteps.snoc h11 (.text 1 _ _ _ rfl rfl rfl)
  have h13 := LogSteps.snoc h12 (.newline 1 _ rfl rfl)
  have h14 := LogSteps.snoc h13 (.unlock 1 _ rfl rfl)
  refine ⟨_, _, h14, ?_, ?_, ?_⟩
  · intro t ht
    simp [LogSt.put, logInit, logEx] at ht
    rcases ht with rfl | rfl <;> simp
  · intro t ht
    simp [LogSt.put, logInit, logEx] at ht
    rcases ht with rfl | rfl <;> exact Or.inr ⟨rfl, rfl, rfl⟩
  · rfl

/-- **C71**: after an error of the writer, the line of another goroutine (if it is still run before the panic ends the program) is glued to the broken line. -/
theorem C71_glued (a b : Str) : ∃ n s, LogSteps n (logInit [[⟨false, a, []⟩], [⟨false, b, []⟩]]) s ∧
    s.out = b!"INFO " ++ a ++ b!" INFO " ++ b ++ b!" []\n" := by
  have e : ∀ x : Str, logTexts ⟨false, x, []⟩ = [(b!"INFO " ++ x ++ b!" ") ++ b!"[]"] := by
    intro x; simp [logTexts, formatArgs, formatPairs, LogCall.kind, fmtSlice, joinWith]
  have h1 := LogSteps.snoc (LogSteps.refl (s := logInit [[⟨false, a, []⟩], [⟨false, b, []⟩]])) (.call 0 _ _ _ rfl rfl rfl rfl)
  have h2 := LogSteps.snoc h1 (.call 1 _ _ _ rfl rfl rfl rfl)
  have h3 := LogSteps.snoc h2 (.lock 0 _ rfl rfl (by rw [e a]; simp) rfl)
  have h4 := LogSteps.snoc h3 (.textErr 0 _ (b!"INFO " ++ a ++ b!" ") b!"[]" [] rfl rfl (e a))
  have h5 := LogSteps.snoc h4 (.lock 1 _ rfl rfl (by simp [e b]) rfl)
  have h6 := LogSteps.snoc h5 (.text 1 _ _ [] rfl rfl (e b))
  have h7 := LogSteps.snoc h6 (.newline 1 _ rfl rfl)
  refine ⟨_, _, h7, ?_⟩
  simp [logInit, LogSt.put]

end Ripsrc
