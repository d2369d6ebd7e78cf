import Verif.Model.ExecPiped
/-!
# Lemmas on streaming
-/
namespace Ripsrc
variable {σ α : Type}

theorem scan_line {max : Nat} {l : Str} (rest : Str) (hl : (10 : UInt8) ∉ l) (hm : l.length < max) :
    scan max (l ++ 10 :: rest) = (dropCR l :: (scan max rest).1, (scan max rest).2) := by
  unfold scan
  rw [rawLines_line l rest hl]
  simp only [scanRaw]
  rw [if_neg (by omega)]

theorem scan_last {max : Nat} {l : Str} (hl : (10 : UInt8) ∉ l) (hn : l ≠ []) (hm : l.length < max) : scan max l = ([dropCR l], false) := by
  unfold scan
  rw [rawLines_last l hl hn]
  simp only [scanRaw]
  rw [if_neg (by omega)]

theorem rawLines_prefix (buf rem : Str) (hb : (10 : UInt8) ∉ buf) (hn : buf ≠ []) : ∃ l ls, rawLines (buf ++ rem) = l :: ls ∧ buf.length ≤ l.length := by
  induction buf with
  | nil => exact absurd rfl hn
  | cons b buf ih =>
    simp only [List.mem_cons, not_or] at hb
    simp only [List.cons_append, rawLines]
    rw [if_neg (Ne.symm hb.1)]
    by_cases h : buf = []
    · subst h
      simp only [List.nil_append]
      cases rawLines rem with
      | nil => exact ⟨_, _, rfl, by simp⟩
      | cons l ls => exact ⟨_, _, rfl, by simp⟩
    · obtain ⟨l, ls, e, hl⟩ := ih hb.2 h
      rw [e]
      exact ⟨_, _, rfl, by simp; exact hl⟩

theorem scan_full {max : Nat} (hmax : 0 < max) {buf : Str} (rem : Str) (hb : (10 : UInt8) ∉ buf) (hm : max ≤ buf.length) : scan max (buf ++ rem) = ([], true) := by
  have hn : buf ≠ [] := by intro h; subst h; simp at hm; omega
  obtain ⟨l, ls, e, hl⟩ := rawLines_prefix buf rem hb hn
  unfold scan
  rw [e]
  simp only [scanRaw]
  rw [if_pos (by omega)]

/-- What git has printed or will print and nobody has read. -/
def GitLoc.unread : GitLoc → Str
  | .run rem => rem
  | .write p rem => p ++ rem
  | .exited => []
  | .ended => []
  | .panicked rem => rem

/-- What was collected. -/
def ColLoc.got : ColLoc α → List α
  | .collect g => g
  | .sendDone g => g
  | .ended g => g

/-- What the caller will still send, and its error or panic, when `rem` is what it will read. -/
def future (r : LineReader σ α) (c : CallLoc σ α) (rem : Str) : List α × Option Fault :=
  match c with
  | .loop buf s => r.loop (scan r.max (buf ++ rem)).2 s (scan r.max (buf ++ rem)).1
  | .put xs (some (buf, s)) => (xs ++ (r.loop (scan r.max (buf ++ rem)).2 s (scan r.max (buf ++ rem)).1).1, (r.loop (scan r.max (buf ++ rem)).2 s (scan r.max (buf ++ rem)).1).2)
  | .put xs none => (xs, none)
  | .closePipe e => ([], e)
  | .closeRes e => ([], e)
  | .join e => ([], e)
  | .returned e _ => ([], e)
  | .panicked f => ([], some f)

/-- The buffer, while the caller is in the loop. -/
def CallLoc.buf : CallLoc σ α → Option Str
  | .loop b _ => some b
  | .put _ (some (b, _)) => some b
  | _ => none

/-- The caller has closed the pipe. -/
def CallLoc.shut : CallLoc σ α → Bool
  | .closeRes _ => true
  | .join _ => true
  | .returned _ _ => true
  | _ => false

/-- The caller has closed the channel. -/
def CallLoc.shutRes : CallLoc σ α → Bool
  | .join _ => true
  | .returned _ _ => true
  | _ => false

/-- The caller has left the loop without an error. -/
def CallLoc.left : CallLoc σ α → Bool
  | .put _ none => true
  | .closePipe none => true
  | .closeRes none => true
  | .join none => true
  | .returned none _ => true
  | _ => false

structure StreamInv (r : LineReader σ α) (fails : Bool) (text : Str) (t : StreamSt σ α) : Prop where
  res : r.run text = (t.col.got ++ (future r t.caller t.git.unread).1, (future r t.caller t.git.unread).2)
  size : ∀ b, t.caller.buf = some b → b.length ≤ r.max
  long : ∀ b, t.caller.buf = some b → (scan r.max text).2 = (scan r.max (b ++ t.git.unread)).2
  wr : t.wrClosed = true ↔ t.git = .ended
  pend : ∀ p rem, t.git = .write p rem → p ≠ []
  rd : t.rdClosed = t.caller.shut
  rs : t.resClosed = t.caller.shutRes
  col1 : t.resClosed = false → ∃ got, t.col = .collect got
  col2 : ∀ e, t.caller = .join e → ∃ got, t.col = .collect got ∨ t.col = .sendDone got
  col3 : ∀ e got, t.caller = .returned e got → t.col = .ended got
  good : t.git = .exited ∨ t.git = .ended → fails = false
  bad : ∀ rem, t.git = .panicked rem → t.rdClosed = true ∨ (fails = true ∧ rem = [])
  done : t.caller.left = true → t.git = .ended ∨ (scan r.max text).2 = true

theorem afterLine_cases (r : LineReader σ α) (o : Go (σ × List α)) (rest rem : Str) :
    (streamAfterLine o rest).shut = false ∧ (streamAfterLine o rest).shutRes = false ∧ (streamAfterLine o rest).left = false ∧
    (∀ b, (streamAfterLine o rest).buf = some b → b = rest) ∧ (∀ e, streamAfterLine o rest ≠ .join e) ∧ (∀ e g, streamAfterLine o rest ≠ .returned e g) ∧
    future r (streamAfterLine o rest) rem = (match o with
      | .ok (s', xs) => (xs ++ (r.loop (scan r.max (rest ++ rem)).2 s' (scan r.max (rest ++ rem)).1).1, (r.loop (scan r.max (rest ++ rem)).2 s' (scan r.max (rest ++ rem)).1).2)
      | .error f => ([], some f)) := by
  rcases o with (w | w) | ⟨s, xs⟩ <;> simp [streamAfterLine, CallLoc.shut, CallLoc.shutRes, CallLoc.left, CallLoc.buf, future]

theorem afterLoop_cases (r : LineReader σ α) (o : Go (List α)) (rem : Str) :
    (streamAfterLoop o : CallLoc σ α).shut = false ∧ (streamAfterLoop o : CallLoc σ α).shutRes = false ∧ (streamAfterLoop o : CallLoc σ α).buf = none ∧
    (∀ e, (streamAfterLoop o : CallLoc σ α) ≠ .join e) ∧ (∀ e g, (streamAfterLoop o : CallLoc σ α) ≠ .returned e g) ∧
    future r (streamAfterLoop o) rem = (match o with
      | .ok xs => (xs, none)
      | .error f => ([], some f)) := by
  rcases o with (w | w) | xs <;> simp [streamAfterLoop, CallLoc.shut, CallLoc.shutRes, CallLoc.buf, future]

theorem streamInv_init (r : LineReader σ α) (fails : Bool) (text : Str) : StreamInv r fails text (streamInit r text) where
  res := by simp [streamInit, ColLoc.got, future, GitLoc.unread, LineReader.run]
  size := by simp [streamInit, CallLoc.buf]
  long := by simp [streamInit, CallLoc.buf, GitLoc.unread]
  wr := by simp [streamInit]
  pend := by simp [streamInit]
  rd := by simp [streamInit, CallLoc.shut]
  rs := by simp [streamInit, CallLoc.shutRes]
  col1 := by simp [streamInit]
  col2 := by simp [streamInit]
  col3 := by simp [streamInit]
  good := by simp [streamInit]
  bad := by simp [streamInit]
  done := by simp [streamInit, CallLoc.left]

/-- A step of git that does not change what is unread. -/
theorem StreamInv.git {r : LineReader σ α} {fails : Bool} {text : Str} {t : StreamSt σ α} (h : StreamInv r fails text t) (g : GitLoc) (w : Bool)
    (hu : g.unread = t.git.unread) (hw : w = true ↔ g = .ended) (hp : ∀ p rem, g = .write p rem → p ≠ []) (hg : g = .exited ∨ g = .ended → fails = false)
    (hb : ∀ rem, g = .panicked rem → t.rdClosed = true ∨ (fails = true ∧ rem = [])) (he : t.git = .ended → g = .ended) :
    StreamInv r fails text { t with git := g, wrClosed := w } where
  res := by rw [h.res]; simp only [hu]
  size := h.size
  long := by intro b hb; rw [h.long b hb]; simp only [hu]
  wr := hw
  pend := hp
  rd := h.rd
  rs := h.rs
  col1 := h.col1
  col2 := h.col2
  col3 := h.col3
  good := hg
  bad := hb
  done := fun hl => (h.done hl).imp he id

theorem streamInv_step {r : LineReader σ α} {fails : Bool} {text : Str} (hmax : 0 < r.max) {t u : StreamSt σ α} (h : StreamInv r fails text t)
    (hs : StreamStep r fails t u) : StreamInv r fails text u := by
  cases hs with
  | write p rem hg hp =>
    have := h.git (.write p rem) t.wrClosed (by simp [GitLoc.unread, hg]) (by rw [h.wr]; simp [hg]) (by intro p' rem' e; injection e with e1 e2; subst e1; exact hp) (by simp) (by simp) (by simp [hg])
    exact this
  | exit hg hf => exact h.git .exited t.wrClosed (by simp [GitLoc.unread, hg]) (by rw [h.wr]; simp [hg]) (by simp) (by simp [hf]) (by simp) (by simp [hg])
  | fail hg hf => exact h.git (.panicked []) t.wrClosed (by simp [GitLoc.unread, hg]) (by rw [h.wr]; simp [hg]) (by simp) (by simp) (by simp [hf]) (by simp [hg])
  | broken p rem hg hc => exact h.git (.panicked (p ++ rem)) t.wrClosed (by simp [GitLoc.unread, hg]) (by rw [h.wr]; simp [hg]) (by simp) (by simp) (by simp [hc]) (by simp [hg])
  | closeWr hg => exact h.git .ended true (by simp [GitLoc.unread, hg]) (by simp) (by simp) (fun _ => h.good (.inl hg)) (by simp) (by simp [hg])
  | read buf n p rem s hl hb hm hn hg =>
    have hu : (if p = [] then GitLoc.run rem else .write p rem).unread = p ++ rem := by
      by_cases hp : p = [] <;> simp [hp, GitLoc.unread]
    have hne : (if p = [] then GitLoc.run rem else .write p rem) ≠ .ended := by by_cases hp : p = [] <;> simp [hp]
    constructor
    · rw [h.res]
      simp only [hu]
      simp only [hl, hg, future, GitLoc.unread, List.append_assoc]
    · intro b e; simp [CallLoc.buf] at e; subst e; simpa using hm
    · intro b e
      simp [CallLoc.buf] at e; subst e
      rw [h.long buf (by simp [hl, CallLoc.buf])]
      simp only [hu]
      simp only [hg, GitLoc.unread, List.append_assoc]
    · simp only [h.wr, hg, hne]; simp
    · intro p' rem' e
      by_cases hp : p = []
      · simp [hp] at e
      · simp [hp] at e; rw [← e.1]; exact hp
    · rw [h.rd]; simp [hl, CallLoc.shut]
    · rw [h.rs]; simp [hl, CallLoc.shutRes]
    · exact h.col1
    · intro e he; simp at he
    · intro e g he; simp at he
    · intro e; by_cases hp : p = [] <;> simp [hp] at e
    · intro rem' e; by_cases hp : p = [] <;> simp [hp] at e
    · intro e; simp [CallLoc.left] at e
  | line l rest s hl hb =>
    have hsz := h.size _ (by rw [hl]; rfl)
    have hlt : l.length < r.max := by simp at hsz; omega
    obtain ⟨a1, a2, a3, a4, a5, a6, a7⟩ := afterLine_cases r (r.line s (dropCR l)) rest t.git.unread
    have hsc := scan_line (max := r.max) (rest ++ t.git.unread) hb hlt
    constructor
    · rw [h.res]
      simp only [a7]
      simp only [hl, future, List.append_assoc, List.cons_append, hsc, LineReader.loop]
      rcases r.line s (dropCR l) with f | ⟨s', xs⟩ <;> rfl
    · intro b e; rw [a4 b e]; simp at hsz; omega
    · intro b e
      rw [a4 b e, h.long _ (by rw [hl]; rfl)]
      simp only [List.append_assoc, List.cons_append, hsc]
    · exact h.wr
    · exact h.pend
    · rw [h.rd, hl]; exact a1.symm
    · rw [h.rs, hl]; exact a2.symm
    · exact h.col1
    · intro e he; exact absurd he (a5 e)
    · intro e g he; exact absurd he (a6 e g)
    · exact h.good
    · exact h.bad
    · intro e; simp only [a3] at e; cases e
  | tooLong buf s hl hb hm =>
    obtain ⟨a1, a2, a3, a4, a5, a6⟩ := afterLoop_cases (σ := σ) r (r.finish s true) t.git.unread
    have hsc := scan_full hmax t.git.unread hb hm
    have hlong := h.long _ (by rw [hl]; rfl)
    constructor
    · rw [h.res]
      simp only [a6]
      simp only [hl, future, hsc, LineReader.loop]
      rcases r.finish s true with f | xs <;> rfl
    · intro b e; simp only [a3] at e; cases e
    · intro b e; simp only [a3] at e; cases e
    · exact h.wr
    · exact h.pend
    · rw [h.rd, hl]; exact a1.symm
    · rw [h.rs, hl]; exact a2.symm
    · exact h.col1
    · intro e he; exact absurd he (a4 e)
    · intro e g he; exact absurd he (a5 e g)
    · exact h.good
    · exact h.bad
    · intro _; right; rw [hlong, hsc]
  | lastLine buf s hl hb hm hn hw =>
    have hge := h.wr.1 hw
    obtain ⟨a1, a2, a3, a4, a5, a6, a7⟩ := afterLine_cases r (r.line s (dropCR buf)) [] t.git.unread
    have hu : t.git.unread = [] := by rw [hge]; rfl
    have hsc := scan_last hb hn hm
    constructor
    · rw [h.res]
      simp only [a7]
      simp only [hl, future, hu, List.append_nil, hsc, LineReader.loop]
      rcases r.line s (dropCR buf) with f | ⟨s', xs⟩ <;> rfl
    · intro b e; rw [a4 b e]; simp
    · intro b e
      rw [a4 b e, h.long _ (by rw [hl]; rfl)]
      simp only [hu, List.append_nil, hsc]; rfl
    · exact h.wr
    · exact h.pend
    · rw [h.rd, hl]; exact a1.symm
    · rw [h.rs, hl]; exact a2.symm
    · exact h.col1
    · intro e he; exact absurd he (a5 e)
    · intro e g he; exact absurd he (a6 e g)
    · exact h.good
    · exact h.bad
    · intro e; simp only [a3] at e; cases e
  | eof s hl hw =>
    have hge := h.wr.1 hw
    have hu : t.git.unread = [] := by rw [hge]; rfl
    obtain ⟨a1, a2, a3, a4, a5, a6⟩ := afterLoop_cases (σ := σ) r (r.finish s false) t.git.unread
    constructor
    · rw [h.res]
      simp only [a6]
      simp only [hl, future, hu, List.append_nil]
      have : scan r.max [] = ([], false) := rfl
      simp only [this, LineReader.loop]
      rcases r.finish s false with f | xs <;> rfl
    · intro b e; simp only [a3] at e; cases e
    · intro b e; simp only [a3] at e; cases e
    · exact h.wr
    · exact h.pend
    · rw [h.rd, hl]; exact a1.symm
    · rw [h.rs, hl]; exact a2.symm
    · exact h.col1
    · intro e he; exact absurd he (a4 e)
    · intro e g he; exact absurd he (a5 e g)
    · exact h.good
    · exact h.bad
    · intro _; exact .inl hge
  | send x xs got k hl hc =>
    have hrs := h.rs
    rw [hl] at hrs
    constructor
    · rw [h.res, hl, hc]
      rcases k with _ | ⟨b, s⟩ <;> simp [future, ColLoc.got]
    · intro b e; refine h.size b ?_; rw [hl]; rcases k with _ | ⟨b', s⟩ <;> simpa [CallLoc.buf] using e
    · intro b e; refine h.long b ?_; rw [hl]; rcases k with _ | ⟨b', s⟩ <;> simpa [CallLoc.buf] using e
    · exact h.wr
    · exact h.pend
    · rw [h.rd, hl]; rfl
    · rw [h.rs, hl]; rfl
    · intro _; exact ⟨_, rfl⟩
    · intro e he; simp at he
    · intro e g he; simp at he
    · exact h.good
    · exact h.bad
    · intro e; refine h.done ?_; rw [hl]; rcases k with _ | ⟨b', s⟩ <;> simpa [CallLoc.left] using e
  | sent buf s hl =>
    constructor
    · rw [h.res, hl]; simp [future]
    · intro b e; refine h.size b ?_; rw [hl]; simpa [CallLoc.buf] using e
    · intro b e; refine h.long b ?_; rw [hl]; simpa [CallLoc.buf] using e
    · exact h.wr
    · exact h.pend
    · rw [h.rd, hl]; rfl
    · rw [h.rs, hl]; rfl
    · exact h.col1
    · intro e he; simp at he
    · intro e g he; simp at he
    · exact h.good
    · exact h.bad
    · intro e; simp [CallLoc.left] at e
  | sentLast hl =>
    constructor
    · rw [h.res, hl]; simp [future]
    · intro b e; simp [CallLoc.buf] at e
    · intro b e; simp [CallLoc.buf] at e
    · exact h.wr
    · exact h.pend
    · rw [h.rd, hl]; rfl
    · rw [h.rs, hl]; rfl
    · exact h.col1
    · intro e he; simp at he
    · intro e g he; simp at he
    · exact h.good
    · exact h.bad
    · intro _; refine h.done ?_; rw [hl]; rfl
  | closePipe e hl =>
    constructor
    · rw [h.res, hl]; simp [future]
    · intro b e; simp [CallLoc.buf] at e
    · intro b e; simp [CallLoc.buf] at e
    · exact h.wr
    · exact h.pend
    · rfl
    · rw [h.rs, hl]; rfl
    · exact h.col1
    · intro e he; simp at he
    · intro e g he; simp at he
    · exact h.good
    · intro rem _; exact .inl rfl
    · intro e'; refine h.done ?_; rw [hl]; cases e <;> simp_all [CallLoc.left]
  | closeRes e hl =>
    have hrs := h.rs
    rw [hl] at hrs
    obtain ⟨got, hgot⟩ := h.col1 hrs
    constructor
    · rw [h.res, hl]; simp [future]
    · intro b e; simp [CallLoc.buf] at e
    · intro b e; simp [CallLoc.buf] at e
    · exact h.wr
    · exact h.pend
    · rw [h.rd, hl]; rfl
    · rfl
    · intro e; cases e
    · intro e he; exact ⟨got, .inl hgot⟩
    · intro e g he; simp at he
    · exact h.good
    · exact h.bad
    · intro e'; refine h.done ?_; rw [hl]; cases e <;> simp_all [CallLoc.left]
  | colEnd got hc hr =>
    constructor
    · rw [h.res, hc]; simp [ColLoc.got]
    · exact h.size
    · exact h.long
    · exact h.wr
    · exact h.pend
    · exact h.rd
    · exact h.rs
    · intro e; simp only [hr] at e; cases e
    · intro e he; exact ⟨got, .inr rfl⟩
    · intro e g he; rw [h.col3 e g he] at hc; cases hc
    · exact h.good
    · exact h.bad
    · exact h.done
  | join e got hl hc =>
    have hrs := h.rs
    rw [hl] at hrs
    constructor
    · rw [h.res, hl, hc]; simp [future, ColLoc.got]
    · intro b e; simp [CallLoc.buf] at e
    · intro b e; simp [CallLoc.buf] at e
    · exact h.wr
    · exact h.pend
    · rw [h.rd, hl]; rfl
    · rw [h.rs, hl]; rfl
    · intro e'; simp only [hrs, CallLoc.shutRes] at e'; cases e'
    · intro e he; simp at he
    · intro e' g he; injection he with h1 h2; rw [h2]
    · exact h.good
    · exact h.bad
    · intro e'; refine h.done ?_; rw [hl]; cases e <;> simp_all [CallLoc.left]

theorem streamInv_steps {r : LineReader σ α} {fails : Bool} {text : Str} (hmax : 0 < r.max) {n : Nat} {t : StreamSt σ α}
    (hs : StreamSteps r fails n (streamInit r text) t) : StreamInv r fails text t := by
  generalize hi : streamInit r text = i at hs
  induction hs with
  | refl => subst hi; exact streamInv_init r fails text
  | snoc _ h1 ih => exact streamInv_step hmax (ih hi) h1

/-! ## Length of executions -/

def GitLoc.weight : GitLoc → Nat
  | .run rem => 5 * rem.length + 4
  | .write p rem => 5 * (p.length + rem.length) + 3
  | .exited => 1
  | .ended => 0
  | .panicked _ => 0

def CallLoc.weight : CallLoc σ α → Nat
  | .loop b _ => 3 * b.length + 8
  | .put _ (some (b, _)) => 3 * b.length + 9
  | .put _ none => 6
  | .closePipe _ => 5
  | .closeRes _ => 4
  | .join _ => 3
  | .returned _ _ => 0
  | .panicked _ => 0

def ColLoc.weight : ColLoc α → Nat
  | .collect _ => 2
  | .sendDone _ => 1
  | .ended _ => 0

/-- Steps that may still come, when `total` values will be sent. -/
def StreamSt.weight (total : Nat) (t : StreamSt σ α) : Nat := t.git.weight + t.caller.weight + t.col.weight + (total - t.col.got.length)

theorem afterLine_weight (o : Go (σ × List α)) (rest : Str) : (streamAfterLine o rest).weight ≤ 3 * rest.length + 9 := by
  rcases o with (w | w) | ⟨s, xs⟩ <;> simp [streamAfterLine, CallLoc.weight] <;> omega
theorem afterLoop_weight (o : Go (List α)) : (streamAfterLoop o : CallLoc σ α).weight ≤ 6 := by
  rcases o with (w | w) | xs <;> simp [streamAfterLoop, CallLoc.weight]

theorem stream_weight {r : LineReader σ α} {fails : Bool} {text : Str} (hmax : 0 < r.max) {t u : StreamSt σ α} (h : StreamInv r fails text t)
    (hs : StreamStep r fails t u) : u.weight (r.run text).1.length < t.weight (r.run text).1.length := by
  have hu := streamInv_step hmax h hs
  have hlen : (r.run text).1.length = t.col.got.length + (future r t.caller t.git.unread).1.length := by rw [h.res]; simp
  have hlen' : (r.run text).1.length = u.col.got.length + (future r u.caller u.git.unread).1.length := by rw [hu.res]; simp
  generalize (r.run text).1.length = total at *
  unfold StreamSt.weight
  cases hs with
  | write p rem hg hp =>
    have : 0 < p.length := List.length_pos_iff.2 hp
    simp only [hg, GitLoc.weight, List.length_append]; omega
  | exit hg hf => simp only [hg, GitLoc.weight]; simp
  | fail hg hf => simp only [hg, GitLoc.weight]; simp
  | broken p rem hg hc => simp only [hg, GitLoc.weight]; omega
  | closeWr hg => simp only [hg, GitLoc.weight]; omega
  | read buf n p rem s hl hb hm hn hg =>
    have : 0 < n.length := List.length_pos_iff.2 hn
    have hw : (if p = [] then GitLoc.run rem else .write p rem).weight ≤ 5 * (p.length + rem.length) + 4 := by
      by_cases hp : p = [] <;> simp [hp, GitLoc.weight]
    simp only [hg, hl]
    generalize (if p = [] then GitLoc.run rem else .write p rem).weight = W at hw ⊢
    simp only [GitLoc.weight, CallLoc.weight, List.length_append]; omega
  | line l rest s hl hb =>
    have := afterLine_weight (r.line s (dropCR l)) rest
    simp only [hl]
    generalize (streamAfterLine (r.line s (dropCR l)) rest).weight = W at this ⊢
    simp only [CallLoc.weight, List.length_append, List.length_cons]; omega
  | tooLong buf s hl hb hm =>
    have := afterLoop_weight (σ := σ) (r.finish s true)
    simp only [hl]
    generalize (streamAfterLoop (r.finish s true) : CallLoc σ α).weight = W at this ⊢
    simp only [CallLoc.weight]; omega
  | lastLine buf s hl hb hm hn hw =>
    have h0 : 0 < buf.length := List.length_pos_iff.2 hn
    have := afterLine_weight (r.line s (dropCR buf)) []
    simp only [List.length_nil] at this
    simp only [hl]
    generalize (streamAfterLine (r.line s (dropCR buf)) []).weight = W at this ⊢
    simp only [CallLoc.weight]; omega
  | eof s hl hw =>
    have := afterLoop_weight (σ := σ) (r.finish s false)
    simp only [hl]
    generalize (streamAfterLoop (r.finish s false) : CallLoc σ α).weight = W at this ⊢
    simp only [CallLoc.weight]; omega
  | send x xs got k hl hc =>
    simp only [hc, ColLoc.got, List.length_append] at hlen hlen' ⊢
    have : (CallLoc.put (x :: xs) k : CallLoc σ α).weight = (CallLoc.put xs k : CallLoc σ α).weight := by rcases k with _ | ⟨b, s⟩ <;> rfl
    simp only [hl, this, ColLoc.weight] at hlen hlen' ⊢
    simp at hlen' ⊢
    omega
  | sent buf s hl => simp only [hl, CallLoc.weight]; omega
  | sentLast hl => simp only [hl, CallLoc.weight]; omega
  | closePipe e hl => simp only [hl, CallLoc.weight]; omega
  | closeRes e hl => simp only [hl, CallLoc.weight]; omega
  | colEnd got hc hr => simp only [hc, ColLoc.weight, ColLoc.got]; omega
  | join e got hl hc => simp only [hl, hc, CallLoc.weight, ColLoc.weight, ColLoc.got]; omega

theorem stream_bound {r : LineReader σ α} {fails : Bool} {text : Str} (hmax : 0 < r.max) {n : Nat} {t : StreamSt σ α}
    (hs : StreamSteps r fails n (streamInit r text) t) : n + t.weight (r.run text).1.length ≤ 5 * text.length + (r.run text).1.length + 14 := by
  generalize hi : streamInit r text = i at hs
  induction hs with
  | refl =>
    subst hi
    simp [StreamSt.weight, streamInit, GitLoc.weight, CallLoc.weight, ColLoc.weight, ColLoc.got]; omega
  | snoc h0 h1 ih =>
    have := ih hi
    subst hi
    have := stream_weight hmax (streamInv_steps hmax h0) h1
    omega

/-! ## States in which nothing can move -/

/-- What is left when nothing can move. -/
theorem stuck_cases {r : LineReader σ α} {fails : Bool} {text : Str} {t : StreamSt σ α} (h : StreamInv r fails text t) (hs : t.Stuck r fails) :
    (∃ f, t.caller = .panicked f) ∨ (∃ rem, t.git = .panicked rem ∧ ((∃ e got, t.caller = .returned e got) ∨ ∃ b s, t.caller = .loop b s)) ∨
    (t.git = .ended ∧ ∃ e got, t.caller = .returned e got) := by
  -- git can move unless it has ended or panicked or is writing with nobody reading
  have hgit : t.git = .ended ∨ (∃ rem, t.git = .panicked rem) ∨ ∃ p rem, t.git = .write p rem := by
    cases hg : t.git with
    | run rem =>
      cases rem with
      | nil =>
        cases hf : fails with
        | false => subst hf; exact absurd (.exit hg rfl) (hs _)
        | true => subst hf; exact absurd (.fail hg rfl) (hs _)
      | cons b rem => exact absurd (.write [b] rem (by simpa using hg) (by simp)) (hs _)
    | write p rem => exact .inr (.inr ⟨p, rem, rfl⟩)
    | exited => exact absurd (.closeWr hg) (hs _)
    | ended => exact .inl rfl
    | panicked rem => exact .inr (.inl ⟨rem, rfl⟩)
  cases hc : t.caller with
  | loop b s =>
    by_cases hb : (10 : UInt8) ∈ b
    · obtain ⟨l, rest, e, hl⟩ := List.eq_append_cons_of_mem hb
      subst e
      exact absurd (.line l rest s hc hl) (hs _)
    · by_cases hm : r.max ≤ b.length
      · exact absurd (.tooLong b s hc hb hm) (hs _)
      · rcases hgit with hg | ⟨rem, hg⟩ | ⟨p, rem, hg⟩
        · have hw := h.wr.2 hg
          by_cases hn : b = []
          · subst hn; exact absurd (.eof s hc hw) (hs _)
          · exact absurd (.lastLine b s hc hb (by omega) hn hw) (hs _)
        · exact .inr (.inl ⟨rem, hg, .inr ⟨b, s, rfl⟩⟩)
        · have hp := h.pend p rem hg
          cases p with
          | nil => exact absurd rfl hp
          | cons x p => exact absurd (.read b [x] p rem s hc hb (by simp; omega) (by simp) (by simpa using hg)) (hs _)
  | put xs k =>
    cases xs with
    | nil =>
      rcases k with _ | ⟨b, s⟩
      · exact absurd (.sentLast hc) (hs _)
      · exact absurd (.sent b s hc) (hs _)
    | cons x xs =>
      have hr := h.rs
      rw [hc] at hr
      obtain ⟨got, hgot⟩ := h.col1 hr
      exact absurd (.send x xs got k hc hgot) (hs _)
  | closePipe e => exact absurd (.closePipe e hc) (hs _)
  | closeRes e => exact absurd (.closeRes e hc) (hs _)
  | join e =>
    obtain ⟨got, hg | hg⟩ := h.col2 e hc
    · have hr := h.rs
      rw [hc] at hr
      exact absurd (.colEnd got hg hr) (hs _)
    · exact absurd (.join e got hc hg) (hs _)
  | returned e got =>
    rcases hgit with hg | ⟨rem, hg⟩ | ⟨p, rem, hg⟩
    · exact .inr (.inr ⟨hg, e, got, rfl⟩)
    · exact .inr (.inl ⟨rem, hg, .inl ⟨e, got, rfl⟩⟩)
    · have hr := h.rd
      rw [hc] at hr
      exact absurd (.broken p rem hg hr) (hs _)
  | panicked f => exact .inl ⟨f, rfl⟩

end Ripsrc
