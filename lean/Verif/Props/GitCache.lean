import Verif.Model.GitCache
/-!
# C52: the cache of git output
-/
namespace Ripsrc

/-- A process that holds the temporary file open, or is about to rename it. -/
def Phase.Busy : Phase → Prop
  | .writing _ _ _ => True
  | .written _ => True
  | _ => False

/-- At no time two processes with the same key write the same temporary file. -/
def Exclusive (hash : Str → Str) (calls : Nat → GitCall) (s : CacheState) : Prop :=
  ∀ i j, i ≠ j → (calls i).key hash = (calls j).key hash → (s.phase i).Busy → ¬ (s.phase j).Busy

/-- The executions from an empty cache: any number of processes, any interleaving, any crashes; but never two writers of one temporary file. -/
inductive CacheRun (hash : Str → Str) (calls : Nat → GitCall) : CacheState → Prop where
  | init : CacheRun hash calls {}
  | step {s s' : CacheState} : CacheRun hash calls s → CacheStep hash calls s s' → Exclusive hash calls s' → CacheRun hash calls s'

/-- The content is the complete output of a call that has the same key and whose command did not fail. -/
def CompleteFor (hash : Str → Str) (calls : Nat → GitCall) (i : Nat) (d : Str) : Prop :=
  ∃ j, (calls j).key hash = (calls i).key hash ∧ (calls j).fails = false ∧ d = (calls j).out

/-- The invariant, while no error of a writer was ignored. -/
structure CacheInv (hash : Str → Str) (calls : Nat → GitCall) (s : CacheState) : Prop where
  excl : Exclusive hash calls s
  bound : ∀ n ino, s.fs.names n = some ino → ino < s.fs.next
  inj : ∀ n n' ino, s.fs.names n = some ino → s.fs.names n' = some ino → n = n'
  writing : ∀ i ino off rem, s.phase i = .writing ino off rem →
    s.fs.names ⟨(calls i).key hash, true⟩ = some ino ∧ (s.fs.data ino).length = off ∧ s.fs.data ino ++ rem = (calls i).out
  written : ∀ i ino, s.phase i = .written ino →
    s.fs.names ⟨(calls i).key hash, true⟩ = some ino ∧ s.fs.data ino = (calls i).out ∧ (calls i).fails = false
  loc : ∀ k ino, s.fs.names ⟨k, false⟩ = some ino → ∃ j, (calls j).key hash = k ∧ (calls j).fails = false ∧ s.fs.data ino = (calls j).out
  opened : ∀ i ino, s.phase i = .opened ino → ino < s.fs.next ∧ (∀ k, s.fs.names ⟨k, true⟩ ≠ some ino) ∧ CompleteFor hash calls i (s.fs.data ino)
  done : ∀ i d, s.phase i = .done d → CompleteFor hash calls i d

theorem writeAt_end {d chunk : Str} {off : Nat} (h : d.length = off) : writeAt d off chunk = d ++ chunk := by
  subst h
  simp [writeAt]

theorem upd_same {α β : Type} [DecidableEq α] (f : α → β) (a : α) (b : β) : upd f a b a = b := by simp [upd]
theorem upd_ne {α β : Type} [DecidableEq α] (f : α → β) {a x : α} (b : β) (h : x ≠ a) : upd f a b x = f x := by simp [upd, h]

theorem cacheInv_init (hash : Str → Str) (calls : Nat → GitCall) : CacheInv hash calls {} where
  excl := by intro i j _ _ h; cases h
  bound := by intro n ino h; cases h
  inj := by intro n n' ino h; cases h
  writing := by intro i ino off rem h; cases h
  written := by intro i ino h; cases h
  loc := by intro k ino h; cases h
  opened := by intro i ino h; cases h
  done := by intro i d h; cases h

/-- A step that only changes one phase, to one that is neither writing nor written nor opened nor done. -/
theorem CacheInv.phase {hash : Str → Str} {calls : Nat → GitCall} {s : CacheState} (h : CacheInv hash calls s) (i : Nat) (p : Phase) {l : Nat}
    (he : Exclusive hash calls { s with phase := upd s.phase i p, lossy := l })
    (h1 : ∀ ino off rem, p = .writing ino off rem →
      s.fs.names ⟨(calls i).key hash, true⟩ = some ino ∧ (s.fs.data ino).length = off ∧ s.fs.data ino ++ rem = (calls i).out)
    (h2 : ∀ ino, p = .written ino → s.fs.names ⟨(calls i).key hash, true⟩ = some ino ∧ s.fs.data ino = (calls i).out ∧ (calls i).fails = false)
    (h3 : ∀ ino, p = .opened ino → ino < s.fs.next ∧ (∀ k, s.fs.names ⟨k, true⟩ ≠ some ino) ∧ CompleteFor hash calls i (s.fs.data ino))
    (h4 : ∀ d, p = .done d → CompleteFor hash calls i d) :
    CacheInv hash calls { s with phase := upd s.phase i p, lossy := l } where
  excl := he
  bound := h.bound
  inj := h.inj
  loc := h.loc
  writing := by
    intro j ino off rem hj
    by_cases hji : j = i
    · subst hji; simp only [upd_same] at hj; exact h1 _ _ _ hj
    · simp only [upd_ne _ _ hji] at hj; exact h.writing j _ _ _ hj
  written := by
    intro j ino hj
    by_cases hji : j = i
    · subst hji; simp only [upd_same] at hj; exact h2 _ hj
    · simp only [upd_ne _ _ hji] at hj; exact h.written j _ hj
  opened := by
    intro j ino hj
    by_cases hji : j = i
    · subst hji; simp only [upd_same] at hj; exact h3 _ hj
    · simp only [upd_ne _ _ hji] at hj; exact h.opened j _ hj
  done := by
    intro j d hj
    by_cases hji : j = i
    · subst hji; simp only [upd_same] at hj; exact h4 _ hj
    · simp only [upd_ne _ _ hji] at hj; exact h.done j _ hj

/-- If the process `i` is busy (now), another busy process has another key. -/
theorem Exclusive.key_ne {hash : Str → Str} {calls : Nat → GitCall} {s : CacheState} (h : Exclusive hash calls s) {i j : Nat} (hij : j ≠ i)
    (hi : (s.phase i).Busy) (hj : (s.phase j).Busy) : (calls j).key hash ≠ (calls i).key hash :=
  fun hk => h i j (Ne.symm hij) hk.symm hi hj

theorem cacheInv_step {hash : Str → Str} {calls : Nat → GitCall} {s s' : CacheState} (h : CacheInv hash calls s) (hs : CacheStep hash calls s s')
    (he : Exclusive hash calls s') (hl : s'.lossy = 0) : CacheInv hash calls s' := by
  cases hs with
  | hit i ino hp hn =>
    refine h.phase i _ he (by simp) (by simp) ?_ (by simp)
    intro ino' e; injection e with e; subst e
    obtain ⟨j, h1, h2, h3⟩ := h.loc _ _ hn
    refine ⟨h.bound _ _ hn, ?_, j, h1, h2, h3⟩
    intro k hk
    have := h.inj _ _ _ hn hk
    simp at this
  | miss i hp hn => exact h.phase i _ he (by simp) (by simp) (by simp) (by simp)
  | createOld i ino hp hn =>
    have hbi : ((upd s.phase i (.writing ino 0 (calls i).out)) i).Busy := by simp [upd_same, Phase.Busy]
    -- no other busy process uses this inode
    have hother : ∀ j, j ≠ i → (s.phase j).Busy → s.fs.names ⟨(calls j).key hash, true⟩ ≠ some ino := by
      intro j hji hb hc
      have hk := h.inj _ _ _ hc hn
      injection hk with hk _
      exact he i j (Ne.symm hji) hk.symm hbi (by simpa [upd_ne _ _ hji] using hb)
    refine ⟨he, h.bound, h.inj, ?_, ?_, ?_, ?_, ?_⟩
    · intro j ino' off rem hj
      by_cases hji : j = i
      · subst hji; simp only [upd_same] at hj; injection hj with e1 e2 e3; subst e1; subst e2; subst e3
        exact ⟨hn, by simp [upd_same], by simp [upd_same]⟩
      · simp only [upd_ne _ _ hji] at hj
        obtain ⟨a, b, c⟩ := h.writing j _ _ _ hj
        have hne : ino' ≠ ino := fun hc => hother j hji (by rw [hj]; trivial) (hc ▸ a)
        exact ⟨a, by simp only [upd_ne _ _ hne]; exact b, by simp only [upd_ne _ _ hne]; exact c⟩
    · intro j ino' hj
      by_cases hji : j = i
      · subst hji; simp only [upd_same] at hj; cases hj
      · simp only [upd_ne _ _ hji] at hj
        obtain ⟨a, b, c⟩ := h.written j _ hj
        have hne : ino' ≠ ino := fun hc => hother j hji (by rw [hj]; trivial) (hc ▸ a)
        exact ⟨a, by simp only [upd_ne _ _ hne]; exact b, c⟩
    · intro k ino' hk
      have hne : ino' ≠ ino := by
        intro hc; subst hc
        have := h.inj _ _ _ hk hn
        simp at this
      simp only [upd_ne _ _ hne]
      exact h.loc k ino' hk
    · intro j ino' hj
      by_cases hji : j = i
      · subst hji; simp only [upd_same] at hj; cases hj
      · simp only [upd_ne _ _ hji] at hj
        obtain ⟨a, b, c⟩ := h.opened j _ hj
        have hne : ino' ≠ ino := fun hc => b _ (hc ▸ hn)
        exact ⟨a, b, by simp only [upd_ne _ _ hne]; exact c⟩
    · intro j d hj
      by_cases hji : j = i
      · subst hji; simp only [upd_same] at hj; cases hj
      · simp only [upd_ne _ _ hji] at hj; exact h.done j _ hj
  | createNew i hp hn =>
    have hlt : ∀ n ino, s.fs.names n = some ino → ino ≠ s.fs.next := fun n ino hh hc => by have := h.bound n ino hh; omega
    have hnames : ∀ n ino, upd s.fs.names ⟨(calls i).key hash, true⟩ (some s.fs.next) n = some ino →
        (n = ⟨(calls i).key hash, true⟩ ∧ ino = s.fs.next) ∨ (n ≠ ⟨(calls i).key hash, true⟩ ∧ s.fs.names n = some ino) := by
      intro n ino hh
      by_cases hnn : n = ⟨(calls i).key hash, true⟩
      · subst hnn; simp only [upd_same] at hh; injection hh with hh; exact Or.inl ⟨rfl, hh.symm⟩
      · simp only [upd_ne _ _ hnn] at hh; exact Or.inr ⟨hnn, hh⟩
    refine ⟨he, ?_, ?_, ?_, ?_, ?_, ?_, ?_⟩
    · intro n ino hh
      simp only at hh ⊢
      rcases hnames n ino hh with ⟨_, h2⟩ | ⟨_, h2⟩
      · omega
      · have := h.bound n ino h2; omega
    · intro n n' ino h1 h2
      rcases hnames n ino h1 with ⟨a, b⟩ | ⟨a, b⟩
      · rcases hnames n' ino h2 with ⟨c, d⟩ | ⟨c, d⟩
        · rw [a, c]
        · exact absurd b (hlt _ _ d)
      · rcases hnames n' ino h2 with ⟨c, d⟩ | ⟨c, d⟩
        · exact absurd d (hlt _ _ b)
        · exact h.inj _ _ _ b d
    · intro j ino off rem hj
      by_cases hji : j = i
      · subst hji; simp only [upd_same] at hj; injection hj with e1 e2 e3; subst e1; subst e2; subst e3
        exact ⟨by simp [upd_same], by simp [upd_same], by simp [upd_same]⟩
      · simp only [upd_ne _ _ hji] at hj
        obtain ⟨a, b, c⟩ := h.writing j _ _ _ hj
        have hk : (⟨(calls j).key hash, true⟩ : CacheName) ≠ ⟨(calls i).key hash, true⟩ := by
          intro hc; rw [hc, hn] at a; cases a
        have hne := hlt _ _ a
        exact ⟨by simp only [upd_ne _ _ hk]; exact a, by simp only [upd_ne _ _ hne]; exact b, by simp only [upd_ne _ _ hne]; exact c⟩
    · intro j ino hj
      by_cases hji : j = i
      · subst hji; simp only [upd_same] at hj; cases hj
      · simp only [upd_ne _ _ hji] at hj
        obtain ⟨a, b, c⟩ := h.written j _ hj
        have hk : (⟨(calls j).key hash, true⟩ : CacheName) ≠ ⟨(calls i).key hash, true⟩ := by
          intro hc; rw [hc, hn] at a; cases a
        have hne := hlt _ _ a
        exact ⟨by simp only [upd_ne _ _ hk]; exact a, by simp only [upd_ne _ _ hne]; exact b, c⟩
    · intro k ino hk
      rcases hnames _ ino hk with ⟨a, _⟩ | ⟨_, b⟩
      · simp at a
      · have hne := hlt _ _ b
        simp only [upd_ne _ _ hne]
        exact h.loc k ino b
    · intro j ino hj
      by_cases hji : j = i
      · subst hji; simp only [upd_same] at hj; cases hj
      · simp only [upd_ne _ _ hji] at hj
        obtain ⟨a, b, c⟩ := h.opened j _ hj
        have hne : ino ≠ s.fs.next := by omega
        refine ⟨by simp only; omega, ?_, by simp only [upd_ne _ _ hne]; exact c⟩
        intro k hk
        rcases hnames _ ino hk with ⟨_, d⟩ | ⟨_, d⟩
        · exact hne d
        · exact b k d
    · intro j d hj
      by_cases hji : j = i
      · subst hji; simp only [upd_same] at hj; cases hj
      · simp only [upd_ne _ _ hji] at hj; exact h.done j _ hj
  | write i ino off chunk rem hp =>
    obtain ⟨w1, w2, w3⟩ := h.writing i _ _ _ hp
    have hbi : (s.phase i).Busy := by rw [hp]; trivial
    have hother : ∀ j, j ≠ i → (s.phase j).Busy → s.fs.names ⟨(calls j).key hash, true⟩ ≠ some ino := by
      intro j hji hb hc
      have hk := h.inj _ _ _ hc w1
      injection hk with hk _
      exact h.excl.key_ne hji hbi hb hk
    refine ⟨he, h.bound, h.inj, ?_, ?_, ?_, ?_, ?_⟩
    · intro j ino' off' rem' hj
      by_cases hji : j = i
      · subst hji; simp only [upd_same] at hj; injection hj with e1 e2 e3; subst e1; subst e2; subst e3
        refine ⟨w1, ?_, ?_⟩
        · simp only [upd_same, writeAt_end w2, List.length_append]; omega
        · simp only [upd_same, writeAt_end w2, List.append_assoc]; exact w3
      · simp only [upd_ne _ _ hji] at hj
        obtain ⟨a, b, c⟩ := h.writing j _ _ _ hj
        have hne : ino' ≠ ino := fun hc => hother j hji (by rw [hj]; trivial) (hc ▸ a)
        exact ⟨a, by simp only [upd_ne _ _ hne]; exact b, by simp only [upd_ne _ _ hne]; exact c⟩
    · intro j ino' hj
      by_cases hji : j = i
      · subst hji; simp only [upd_same] at hj; cases hj
      · simp only [upd_ne _ _ hji] at hj
        obtain ⟨a, b, c⟩ := h.written j _ hj
        have hne : ino' ≠ ino := fun hc => hother j hji (by rw [hj]; trivial) (hc ▸ a)
        exact ⟨a, by simp only [upd_ne _ _ hne]; exact b, c⟩
    · intro k ino' hk
      have hne : ino' ≠ ino := by
        intro hc; subst hc
        have := h.inj _ _ _ hk w1
        simp at this
      simp only [upd_ne _ _ hne]
      exact h.loc k ino' hk
    · intro j ino' hj
      by_cases hji : j = i
      · subst hji; simp only [upd_same] at hj; cases hj
      · simp only [upd_ne _ _ hji] at hj
        obtain ⟨a, b, c⟩ := h.opened j _ hj
        have hne : ino' ≠ ino := fun hc => b _ (hc ▸ w1)
        exact ⟨a, b, by simp only [upd_ne _ _ hne]; exact c⟩
    · intro j d hj
      by_cases hji : j = i
      · subst hji; simp only [upd_same] at hj; cases hj
      · simp only [upd_ne _ _ hji] at hj; exact h.done j _ hj
  | close i ino off hp hf =>
    obtain ⟨w1, w2, w3⟩ := h.writing i _ _ _ hp
    refine h.phase i _ he (by simp) ?_ (by simp) (by simp)
    intro ino' e; injection e with e; subst e
    exact ⟨w1, by simpa using w3, hf⟩
  | closeLossy i ino off rem hp hr hf => simp at hl
  | gitFails i ino off rem hp hf => exact h.phase i _ he (by simp) (by simp) (by simp) (by simp)
  | rename i ino ino' hp hn =>
    obtain ⟨w1, w2, w3⟩ := h.written i _ hp
    have hii : ino' = ino := by rw [w1] at hn; injection hn with hn; exact hn.symm
    subst hii
    have hbi : (s.phase i).Busy := by rw [hp]; trivial
    have hnames : ∀ n x, upd (upd s.fs.names ⟨(calls i).key hash, false⟩ (some ino')) ⟨(calls i).key hash, true⟩ none n = some x →
        (n = ⟨(calls i).key hash, false⟩ ∧ x = ino') ∨ (n ≠ ⟨(calls i).key hash, false⟩ ∧ n ≠ ⟨(calls i).key hash, true⟩ ∧ s.fs.names n = some x) := by
      intro n x hh
      by_cases hnn : n = ⟨(calls i).key hash, true⟩
      · subst hnn; simp only [upd_same] at hh; cases hh
      · simp only [upd_ne _ _ hnn] at hh
        by_cases hnm : n = ⟨(calls i).key hash, false⟩
        · subst hnm; simp only [upd_same] at hh; injection hh with hh; exact Or.inl ⟨rfl, hh.symm⟩
        · simp only [upd_ne _ _ hnm] at hh; exact Or.inr ⟨hnm, hnn, hh⟩
    have hkeep : ∀ j, j ≠ i → (s.phase j).Busy → ∀ x, s.fs.names ⟨(calls j).key hash, true⟩ = some x →
        upd (upd s.fs.names ⟨(calls i).key hash, false⟩ (some ino')) ⟨(calls i).key hash, true⟩ none ⟨(calls j).key hash, true⟩ = some x := by
      intro j hji hb x hx
      have hk := h.excl.key_ne hji hbi hb
      rw [upd_ne _ _ (by simp [hk]), upd_ne _ _ (by simp)]
      exact hx
    refine ⟨he, ?_, ?_, ?_, ?_, ?_, ?_, ?_⟩
    · intro n x hh
      rcases hnames n x hh with ⟨_, rfl⟩ | ⟨_, _, b⟩
      · exact h.bound _ _ w1
      · exact h.bound _ _ b
    · intro n n' x h1 h2
      rcases hnames n x h1 with ⟨a, rfl⟩ | ⟨a, a', b⟩
      · rcases hnames n' x h2 with ⟨c, _⟩ | ⟨c, c', d⟩
        · rw [a, c]
        · exact absurd (h.inj _ _ _ d w1) c'
      · rcases hnames n' x h2 with ⟨c, rfl⟩ | ⟨c, c', d⟩
        · exact absurd (h.inj _ _ _ b w1) a'
        · exact h.inj _ _ _ b d
    · intro j x off rem hj
      by_cases hji : j = i
      · subst hji; simp only [upd_same] at hj; cases hj
      · simp only [upd_ne _ _ hji] at hj
        obtain ⟨a, b, c⟩ := h.writing j _ _ _ hj
        exact ⟨hkeep j hji (by rw [hj]; trivial) _ a, b, c⟩
    · intro j x hj
      by_cases hji : j = i
      · subst hji; simp only [upd_same] at hj; cases hj
      · simp only [upd_ne _ _ hji] at hj
        obtain ⟨a, b, c⟩ := h.written j _ hj
        exact ⟨hkeep j hji (by rw [hj]; trivial) _ a, b, c⟩
    · intro k x hk
      rcases hnames _ x hk with ⟨a, rfl⟩ | ⟨_, _, b⟩
      · injection a with a _
        exact ⟨i, a.symm, w3, w2⟩
      · exact h.loc k x b
    · intro j x hj
      by_cases hji : j = i
      · subst hji; simp only [upd_same] at hj; cases hj
      · simp only [upd_ne _ _ hji] at hj
        obtain ⟨a, b, c⟩ := h.opened j _ hj
        refine ⟨a, ?_, c⟩
        intro k hk
        rcases hnames _ x hk with ⟨a', _⟩ | ⟨_, _, b'⟩
        · simp at a'
        · exact b k b'
    · intro j d hj
      by_cases hji : j = i
      · subst hji; simp only [upd_same] at hj; cases hj
      · simp only [upd_ne _ _ hji] at hj; exact h.done j _ hj
  | renameFails i ino hp hn => exact h.phase i _ he (by simp) (by simp) (by simp) (by simp)
  | reopen i ino hp hn =>
    refine h.phase i _ he (by simp) (by simp) ?_ (by simp)
    intro ino' e; injection e with e; subst e
    obtain ⟨j, h1, h2, h3⟩ := h.loc _ _ hn
    refine ⟨h.bound _ _ hn, ?_, j, h1, h2, h3⟩
    intro k hk
    have := h.inj _ _ _ hn hk
    simp at this
  | read i ino hp =>
    refine h.phase i _ he (by simp) (by simp) (by simp) ?_
    intro d e; injection e with e; subst e
    exact (h.opened i _ hp).2.2
  | crash i => exact h.phase i _ he (by simp) (by simp) (by simp) (by simp)

theorem lossy_mono {hash : Str → Str} {calls : Nat → GitCall} {s s' : CacheState} (h : CacheStep hash calls s s') : s.lossy ≤ s'.lossy := by
  cases h <;> simp

theorem cacheRun_inv {hash : Str → Str} {calls : Nat → GitCall} {s : CacheState} (h : CacheRun hash calls s) (hl : s.lossy = 0) : CacheInv hash calls s := by
  induction h with
  | init => exact cacheInv_init hash calls
  | step _ hs he ih => exact cacheInv_step (ih (by have := lossy_mono hs; omega)) hs he hl

/-- **C52.** In every execution of any number of calls, with any interleaving and crashes at any point, as long as no two processes write the same temporary file at
the same time and no error of the writer was ignored: what a call returns is the complete output of a command that ended well and has the same key. -/
theorem C52_complete_output {hash : Str → Str} {calls : Nat → GitCall} {s : CacheState} (h : CacheRun hash calls s) (hl : s.lossy = 0) {i : Nat} {d : Str}
    (hd : s.phase i = .done d) : ∃ j, (calls j).key hash = (calls i).key hash ∧ (calls j).fails = false ∧ d = (calls j).out :=
  (cacheRun_inv h hl).done i d hd

/-- **C52.** The same for the files themselves: a cache file that exists is complete, at every moment, thus after a crash as well. -/
theorem C52_cache_file_complete {hash : Str → Str} {calls : Nat → GitCall} {s : CacheState} (h : CacheRun hash calls s) (hl : s.lossy = 0) {k : Str} {ino : Nat}
    (hn : s.fs.names ⟨k, false⟩ = some ino) : ∃ j, (calls j).key hash = k ∧ (calls j).fails = false ∧ s.fs.data ino = (calls j).out :=
  (cacheRun_inv h hl).loc k ino hn

/-- The cache file of a key stays in place once it is there. -/
theorem loc_mono {hash : Str → Str} {calls : Nat → GitCall} {s s' : CacheState} (h : CacheStep hash calls s s') {k : Str}
    (hn : (s.fs.names ⟨k, false⟩).isSome) : (s'.fs.names ⟨k, false⟩).isSome := by
  cases h with
  | createNew i hp hn' => simp only; rw [upd_ne _ _ (by simp)]; exact hn
  | rename i ino ino' hp hn' =>
    simp only
    rw [upd_ne _ _ (by simp)]
    by_cases hk : k = (calls i).key hash
    · subst hk; rw [upd_same]; rfl
    · rw [upd_ne _ _ (by simp [hk])]; exact hn
  | hit | miss | createOld | write | close | closeLossy | gitFails | renameFails | reopen | read | crash => exact hn

/-- **C52.** Calls with the same arguments and the same head share the entry: after one has put its file in place, no later call with these runs git — its first
step opens that file. -/
theorem C52_shared {hash : Str → Str} {calls : Nat → GitCall} {s s' : CacheState} (i j : Nat) (hargs : (calls i).args = (calls j).args)
    (hhead : (calls i).head = (calls j).head) (hn : (s.fs.names ⟨(calls i).key hash, false⟩).isSome) (hj : s.phase j = .start)
    (hs : CacheStep hash calls s s') (hch : s'.phase j ≠ .start) (hnc : s'.phase j ≠ .crashed) : ∃ ino, s'.phase j = .opened ino := by
  have hk : (calls i).key hash = (calls j).key hash := by simp [GitCall.key, GitCall.keyText, hargs, hhead]
  rw [hk] at hn
  have hne : ∀ (x : Nat) (p : Phase), upd s.phase x p j ≠ .start → x = j := by
    intro x p hx
    apply Classical.byContradiction
    intro hxj
    rw [upd_ne _ _ (Ne.symm hxj)] at hx
    exact hx hj
  cases hs with
  | hit x ino hp hn' => have := hne _ _ hch; subst this; exact ⟨ino, by simp [upd_same]⟩
  | miss x hp hn' => have := hne _ _ hch; subst this; rw [hn'] at hn; cases hn
  | createOld x ino hp hn' => have := hne _ _ hch; subst this; rw [hj] at hp; cases hp
  | createNew x hp hn' => have := hne _ _ hch; subst this; rw [hj] at hp; cases hp
  | write x ino off chunk rem hp => have := hne _ _ hch; subst this; rw [hj] at hp; cases hp
  | close x ino off hp hf => have := hne _ _ hch; subst this; rw [hj] at hp; cases hp
  | closeLossy x ino off rem hp hr hf => have := hne _ _ hch; subst this; rw [hj] at hp; cases hp
  | gitFails x ino off rem hp hf => have := hne _ _ hch; subst this; rw [hj] at hp; cases hp
  | rename x ino ino' hp hn' => have := hne _ _ hch; subst this; rw [hj] at hp; cases hp
  | renameFails x ino hp hn' => have := hne _ _ hch; subst this; rw [hj] at hp; cases hp
  | reopen x ino hp hn' => have := hne _ _ hch; subst this; rw [hj] at hp; cases hp
  | read x ino hp => have := hne _ _ hch; subst this; rw [hj] at hp; cases hp
  | crash x => have := hne _ _ hch; subst this; simp [upd_same] at hnc

/-- **C52 (keys).** Among calls in repositories with a head (40 characters), the text that is hashed determines the arguments and the head, if no argument has an
`@` and there is at least one argument. -/
theorem C52_key_unambiguous {c c' : GitCall} (ha : c.args ≠ []) (ha' : c'.args ≠ []) (hat : ∀ a ∈ c.args, (64 : UInt8) ∉ a) (hat' : ∀ a ∈ c'.args, (64 : UInt8) ∉ a)
    (hh : c.revParse.length = 40) (hh' : c'.revParse.length = 40) (h : c.keyText = c'.keyText) : c.args = c'.args ∧ c.revParse = c'.revParse := by
  simp only [GitCall.keyText, GitCall.head, hh, hh', ne_eq, not_true, if_false] at h
  have h1 := List.append_cancel_left (List.append_cancel_left h)
  have hlen := congrArg List.length h1
  simp only [List.length_append, hh, hh'] at hlen
  obtain ⟨e1, e2⟩ := List.append_inj h1 (by omega)
  refine ⟨?_, e2⟩
  have s1 := splitByte_join 64 c.args ha hat
  have s2 := splitByte_join 64 c'.args ha' hat'
  rw [← s1, ← s2]
  exact congrArg _ e1

/-- **C52 (finding).** Without these conditions the text is ambiguous: two lists of arguments (with `@`), and two heads (one missing), give the same key for every hash. -/
theorem C52_key_ambiguous (hash : Str → Str) :
    (∃ c c' : GitCall, c.revParse = c'.revParse ∧ c.args ≠ c'.args ∧ c.key hash = c'.key hash) ∧
    (∃ c c' : GitCall, (∀ a ∈ c.args, (64 : UInt8) ∉ a) ∧ (∀ a ∈ c'.args, (64 : UInt8) ∉ a) ∧ c.head ≠ c'.head ∧ c.args ≠ c'.args ∧ c.key hash = c'.key hash) := by
  refine ⟨⟨⟨[b!"log", b!"a@b"], [], [], false⟩, ⟨[b!"log", b!"a", b!"b"], [], [], false⟩, rfl, by decide, rfl⟩, ?_⟩
  refine ⟨⟨[b!"log"], List.replicate 40 97, [], false⟩, ⟨[b!"log" ++ List.replicate 40 97], [], [], false⟩, by decide, by decide, by decide, by decide, rfl⟩

/-- **C52 (finding).** The key ignores everything but the head: two calls whose commands print different things (another branch has moved) share an entry. -/
theorem C52_key_ignores_other_refs (hash : Str → Str) (args : List Str) (head out out' : Str) :
    (GitCall.mk args head out false).key hash = (GitCall.mk args head out' false).key hash := rfl

/-- **C52 (finding).** Only heads of 40 characters are told apart: in a repository with SHA-256 names (64 characters) all heads have the same key, so after a commit the
output for the old head is found (with `C52_shared`); and so do an empty repository and one whose head cannot be read. -/
theorem C52_other_heads_ignored (hash : Str → Str) {c c' : GitCall} (ha : c.args = c'.args) (h : c.revParse.length ≠ 40) (h' : c'.revParse.length ≠ 40) :
    c.key hash = c'.key hash := by
  simp [GitCall.key, GitCall.keyText, GitCall.head, ha, h, h']

/-- Two SHA-256 heads. -/
example : (List.replicate 64 97 : Str).length ≠ 40 ∧ (List.replicate 64 98 : Str).length ≠ 40 ∧ (List.replicate 64 97 : Str) ≠ List.replicate 64 98 := by decide

/-- **C52 (keys).** With heads of 40 characters, calls with the same arguments and another head have another text. -/
theorem C52_heads_told_apart {c c' : GitCall} (ha : c.args = c'.args) (h : c.revParse.length = 40) (h' : c'.revParse.length = 40) (hne : c.revParse ≠ c'.revParse) :
    c.keyText ≠ c'.keyText := by
  intro hk
  simp only [GitCall.keyText, GitCall.head, h, h', ne_eq, not_true, if_false, ha] at hk
  exact hne (List.append_cancel_left (List.append_cancel_left (List.append_cancel_left hk)))

/-- **C52 (own output).** If no two of the texts have the same first 32 characters of their hash, if the arguments do not contain `@` and the heads have 40 characters, then a call that succeeds returns the output of a call
with the same arguments for the same head; so it is what the command itself prints, if the same command prints the same for the same head. -/
theorem C52_own_output {hash : Str → Str} {calls : Nat → GitCall} {s : CacheState} (h : CacheRun hash calls s) (hl : s.lossy = 0)
    (hcol : ∀ i j, (hash (calls i).keyText).take 32 = (hash (calls j).keyText).take 32 → (calls i).keyText = (calls j).keyText)
    (hargs : ∀ i, (calls i).args ≠ [] ∧ ∀ a ∈ (calls i).args, (64 : UInt8) ∉ a) (hheads : ∀ i, (calls i).revParse.length = 40) {i : Nat} {d : Str} (hd : s.phase i = .done d) :
    (∃ j, (calls j).args = (calls i).args ∧ (calls j).revParse = (calls i).revParse ∧ (calls j).fails = false ∧ d = (calls j).out) ∧
    ((∀ a b, (calls a).args = (calls b).args → (calls a).revParse = (calls b).revParse → (calls a).out = (calls b).out) → d = (calls i).out) := by
  obtain ⟨j, h1, h2, h3⟩ := C52_complete_output h hl hd
  obtain ⟨e1, e2⟩ := C52_key_unambiguous (hargs j).1 (hargs i).1 (hargs j).2 (hargs i).2 (hheads j) (hheads i) (hcol j i h1)
  exact ⟨⟨j, e1, e2, h2, h3⟩, fun hsame => by rw [h3]; exact hsame j i e1 e2⟩

/-- Two commands in a repository, and a hash without collisions for them. -/
example : ∃ (hash : Str → Str) (calls : Nat → GitCall), (calls 0).args ≠ (calls 1).args ∧
    (∀ i j, (hash (calls i).keyText).take 32 = (hash (calls j).keyText).take 32 → (calls i).keyText = (calls j).keyText) ∧
    (∀ i, (calls i).args ≠ [] ∧ ∀ a ∈ (calls i).args, (64 : UInt8) ∉ a) ∧ ∀ i, (calls i).revParse.length = 40 := by
  refine ⟨fun t => if t = (GitCall.mk [b!"log"] (List.replicate 40 97) b!"x" false).keyText then b!"a" else b!"b",
    fun n => if n = 0 then ⟨[b!"log"], List.replicate 40 97, b!"x", false⟩ else ⟨[b!"log", b!"-m"], List.replicate 40 97, b!"y", false⟩, by decide, ?_, ?_, ?_⟩
  · intro i j
    by_cases hi : i = 0 <;> by_cases hj : j = 0 <;> simp only [hi, hj, if_true, if_false] <;> decide
  · intro i
    by_cases hi : i = 0 <;> simp only [hi, if_true, if_false] <;> decide
  · intro i
    by_cases hi : i = 0 <;> simp only [hi, if_true, if_false] <;> decide

/-! ### Executions -/

def exCalls (n : Nat) : GitCall := ⟨[b!"log"], [], if n = 0 then b!"abcd" else b!"wxyz", false⟩

/-- Steps in a row. -/
inductive CacheSteps (hash : Str → Str) (calls : Nat → GitCall) : CacheState → CacheState → Prop where
  | refl (s : CacheState) : CacheSteps hash calls s s
  | head {s s' s'' : CacheState} : CacheStep hash calls s s' → CacheSteps hash calls s' s'' → CacheSteps hash calls s s''

/-- **C52 (finding).** Two processes that write the same temporary file can put a file in place that is no output of any command, and a third reads it: nothing
but luck keeps two runs on one repository apart. -/
theorem C52_concurrent_writers_corrupt (hash : Str → Str) : ∃ s, CacheSteps hash exCalls {} s ∧ s.lossy = 0 ∧ ∃ d, s.phase 2 = .done d ∧ ∀ j, d ≠ (exCalls j).out := by
  refine ⟨_,
    .head (.miss _ 0 rfl rfl) <| .head (.miss _ 1 rfl rfl) <|
    .head (.createNew _ 0 rfl rfl) <|
    .head (.write _ 0 0 0 b!"ab" b!"cd" rfl) <|
    .head (.createOld _ 1 0 rfl (by simp [upd, exCalls, GitCall.key, GitCall.keyText, GitCall.head])) <|
    .head (.write _ 0 0 2 b!"cd" [] rfl) <|
    .head (.close _ 0 0 4 rfl rfl) <|
    .head (.rename _ 0 0 0 rfl (by simp [upd])) <|
    .head (.hit _ 2 0 rfl (by simp [upd, exCalls, GitCall.key, GitCall.keyText, GitCall.head])) <|
    .head (.read _ 2 0 rfl) <| .refl _, rfl, [0, 0] ++ b!"cd", ?_, ?_⟩
  · rfl
  · intro j
    simp only [exCalls]
    split <;> decide

/-- **C52 (finding).** Two processes that write the temporary file at the same time: what is put in place can begin with the output of one and end with the output of the other, because a write
in the middle of a file does not cut off the rest. -/
theorem C52_concurrent_writers_mix (hash : Str → Str) : ∃ s, CacheSteps hash exCalls {} s ∧ s.lossy = 0 ∧ s.phase 2 = .done b!"wxcd" := by
  refine ⟨_,
    .head (.miss _ 0 rfl rfl) <| .head (.miss _ 1 rfl rfl) <|
    .head (.createNew _ 0 rfl rfl) <|
    .head (.createOld _ 1 0 rfl (by simp [upd, exCalls, GitCall.key, GitCall.keyText, GitCall.head])) <|
    .head (.write _ 0 0 0 b!"abcd" [] rfl) <|
    .head (.write _ 1 0 0 b!"wx" b!"yz" rfl) <|
    .head (.close _ 0 0 4 rfl rfl) <|
    .head (.rename _ 0 0 0 rfl (by simp [upd])) <|
    .head (.hit _ 2 0 rfl (by simp [upd, exCalls, GitCall.key, GitCall.keyText, GitCall.head])) <|
    .head (.read _ 2 0 rfl) <| .refl _, rfl, ?_⟩
  rfl

/-- **C52 (finding).** The error of the deferred `Close` of the gzip writer is ignored: if the last bytes cannot be written (the disk is full), the truncated file is
put in place and returned by this and every later call. -/
theorem C52_ignored_close_error (hash : Str → Str) : ∃ s, CacheRun hash exCalls s ∧ s.phase 0 = .done b!"ab" ∧ b!"ab" ≠ (exCalls 0).out ∧
    s.fs.names ⟨(exCalls 0).key hash, false⟩ = some 0 ∧ s.fs.data 0 = b!"ab" := by
  have hex : ∀ s : CacheState, (∀ j, j ≠ 0 → s.phase j = .start) → Exclusive hash exCalls s := by
    intro s h i j hij _ hi hj
    by_cases h0 : j = 0
    · subst h0; rw [h i hij] at hi; exact hi
    · rw [h j h0] at hj; exact hj
  refine ⟨_, .step (.step (.step (.step (.step (.step (.step .init
    (.miss _ 0 rfl rfl) (hex _ ?_))
    (.createNew _ 0 rfl rfl) (hex _ ?_))
    (.write _ 0 0 0 b!"ab" b!"cd" rfl) (hex _ ?_))
    (.closeLossy _ 0 0 2 b!"cd" rfl (by decide) rfl) (hex _ ?_))
    (.rename _ 0 0 0 rfl (by simp [upd])) (hex _ ?_))
    (.reopen _ 0 0 rfl (by simp [upd])) (hex _ ?_))
    (.read _ 0 0 rfl) (hex _ ?_), rfl, by decide, by simp [upd], rfl⟩
  all_goals (intro j hj; simp [upd, hj])

/-- A normal execution: a call that crashes while it writes, then one that finishes, then one that finds the file. The hypotheses of `C52_complete_output` are met. -/
example (hash : Str → Str) : ∃ s, CacheRun hash exCalls s ∧ s.lossy = 0 ∧ s.phase 0 = .crashed ∧ s.phase 1 = .done b!"wxyz" := by
  have hex : ∀ s : CacheState, (∀ j, j ≠ 1 → ¬ (s.phase j).Busy) → Exclusive hash exCalls s := by
    intro s h i j hij _ hi hj
    by_cases h0 : j = 1
    · subst h0; exact h i hij hi
    · exact h j h0 hj
  have hex0 : ∀ s : CacheState, (∀ j, j ≠ 0 → ¬ (s.phase j).Busy) → Exclusive hash exCalls s := by
    intro s h i j hij _ hi hj
    by_cases h0 : j = 0
    · subst h0; exact h i hij hi
    · exact h j h0 hj
  refine ⟨_, .step (.step (.step (.step (.step (.step (.step (.step (.step (.step (.step .init
    (.miss _ 0 rfl rfl) (hex0 _ ?_))
    (.createNew _ 0 rfl rfl) (hex0 _ ?_))
    (.write _ 0 0 0 b!"ab" b!"cd" rfl) (hex0 _ ?_))
    (.crash _ 0) (hex0 _ ?_))
    (.miss _ 1 rfl (by simp [upd])) (hex _ ?_))
    (.createOld _ 1 0 rfl (by simp [upd, exCalls, GitCall.key, GitCall.keyText, GitCall.head])) (hex _ ?_))
    (.write _ 1 0 0 b!"wxyz" [] rfl) (hex _ ?_))
    (.close _ 1 0 4 rfl rfl) (hex _ ?_))
    (.rename _ 1 0 0 rfl (by simp [upd, exCalls, GitCall.key, GitCall.keyText, GitCall.head])) (hex _ ?_))
    (.reopen _ 1 0 rfl (by simp [upd, exCalls, GitCall.key, GitCall.keyText, GitCall.head])) (hex _ ?_))
    (.read _ 1 0 rfl) (hex _ ?_), rfl, rfl, rfl⟩
  all_goals (intro j hj; simp only [upd, hj, if_false]; (try split)) <;> (try split) <;> simp_all [Phase.Busy]

end Ripsrc
