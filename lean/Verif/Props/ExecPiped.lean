import Verif.Lib.ExecPiped
import Verif.Spec.Stream
import Verif.Props.CommitMeta
/-!
# C62: streaming the output of git

`ExecPiped` (used for the commit metadata, the log with the patches and the commit graph) runs git in a goroutine that writes to a pipe; its reader may see the output in any pieces.
-/
namespace Ripsrc
open Spec
variable {σ α : Type}

/-- The error a caller is about to return. -/
def CallLoc.err : CallLoc σ α → Option Fault
  | .closePipe e => e
  | .closeRes e => e
  | .join e => e
  | .returned e _ => e
  | _ => none

/-- Panics are not returned, and errors are not panics. -/
def CallLoc.Sorted (c : CallLoc σ α) : Prop := (∀ f, c = .panicked f → ∃ w, f = .panic w) ∧ ∀ w, c.err ≠ some (.panic w)

theorem sorted_afterLine (o : Go (σ × List α)) (rest : Str) : (streamAfterLine o rest).Sorted := by
  rcases o with (w | w) | ⟨s, xs⟩ <;> simp [streamAfterLine, CallLoc.Sorted, CallLoc.err]

theorem sorted_afterLoop (o : Go (List α)) : (streamAfterLoop o : CallLoc σ α).Sorted := by
  rcases o with (w | w) | xs <;> simp [streamAfterLoop, CallLoc.Sorted, CallLoc.err]

theorem caller_sorted {r : LineReader σ α} {fails : Bool} {text : Str} {n : Nat} {t : StreamSt σ α} (hs : StreamSteps r fails n (streamInit r text) t) : t.caller.Sorted := by
  generalize hi : streamInit r text = i at hs
  induction hs with
  | refl => subst hi; simp [streamInit, CallLoc.Sorted, CallLoc.err]
  | snoc h0 h1 ih =>
    have ih := ih hi
    cases h1 with
    | line l rest s _ _ => exact sorted_afterLine _ _
    | lastLine buf s _ _ _ _ _ => exact sorted_afterLine _ _
    | tooLong buf s _ _ _ => exact sorted_afterLoop _
    | eof s _ _ => exact sorted_afterLoop _
    | write _ _ _ _ => exact ih
    | exit _ _ => exact ih
    | fail _ _ => exact ih
    | broken _ _ _ _ => exact ih
    | closeWr _ => exact ih
    | colEnd _ _ _ => exact ih
    | closePipe e hl => rw [hl] at ih; exact ⟨by simp, ih.2⟩
    | closeRes e hl => rw [hl] at ih; exact ⟨by simp, ih.2⟩
    | join e got hl _ => rw [hl] at ih; exact ⟨by simp, ih.2⟩
    | _ => simp [CallLoc.Sorted, CallLoc.err]

/-- **C62 (result).** Whatever the schedule, however the output is divided, whether or not git fails: when the call returns, it returns what the reader would compute from the whole
output of git in one piece. -/
theorem C62_result {r : LineReader σ α} {fails : Bool} {text : Str} (hmax : 0 < r.max) {n : Nat} {t : StreamSt σ α} (hs : StreamSteps r fails n (streamInit r text) t)
    {e : Option Fault} {got : List α} (hr : t.caller = .returned e got) : r.run text = (got, e) := by
  have h := streamInv_steps hmax hs
  rw [h.res, hr, h.col3 e got hr]
  simp [future, ColLoc.got]

/-- **C62 (termination).** Every schedule ends: there are at most this many steps … -/
theorem C62_terminates {r : LineReader σ α} {fails : Bool} {text : Str} (hmax : 0 < r.max) {n : Nat} {t : StreamSt σ α} (hs : StreamSteps r fails n (streamInit r text) t) :
    n ≤ 5 * text.length + (r.run text).1.length + 14 := by
  have := stream_bound hmax hs
  omega

/-- … and every execution can be continued to one in which nothing can move any more. -/
theorem C62_can_end {r : LineReader σ α} {fails : Bool} {text : Str} (hmax : 0 < r.max) {n : Nat} {t : StreamSt σ α} (hs : StreamSteps r fails n (streamInit r text) t) :
    ∃ m u, StreamSteps r fails (n + m) (streamInit r text) u ∧ u.Stuck r fails := by
  suffices H : ∀ k n t, StreamSteps r fails n (streamInit r text) t → t.weight (r.run text).1.length ≤ k → ∃ m u, StreamSteps r fails (n + m) (streamInit r text) u ∧ u.Stuck r fails from
    H _ n t hs (Nat.le_refl _)
  intro k
  induction k with
  | zero =>
    intro n t hs hk
    refine ⟨0, t, hs, fun u hu => ?_⟩
    have := stream_weight hmax (streamInv_steps hmax hs) hu
    omega
  | succ k ih =>
    intro n t hs hk
    by_cases hst : t.Stuck r fails
    · exact ⟨0, t, hs, hst⟩
    · obtain ⟨u, hu⟩ : ∃ u, StreamStep r fails t u := Classical.byContradiction (fun hn => hst (fun u hu => hn ⟨u, hu⟩))
      have := stream_weight hmax (streamInv_steps hmax hs) hu
      obtain ⟨m, v, h1, h2⟩ := ih (n + 1) u (.snoc hs hu) (by omega)
      exact ⟨1 + m, v, by rw [← Nat.add_assoc]; exact h1, h2⟩

/-- A caller that is past the loop has no error, if the reader has none. -/
theorem left_of_shut {r : LineReader σ α} {fails : Bool} {text : Str} {t : StreamSt σ α} (h : StreamInv r fails text t) (hrun : (r.run text).2 = none)
    (hsh : t.caller.shut = true) : t.caller.left = true := by
  have hf : (future r t.caller t.git.unread).2 = none := by rw [h.res] at hrun; exact hrun
  cases hc : t.caller with
  | closeRes e => rw [hc] at hf; simp [future] at hf; subst hf; rfl
  | join e => rw [hc] at hf; simp [future] at hf; subst hf; rfl
  | returned e g => rw [hc] at hf; simp [future] at hf; subst hf; rfl
  | _ => rw [hc] at hsh; cases hsh

/-- **C62 (complete).** If git succeeds, no line is too long for the scanner and the reader finds no error, then no schedule crashes, and every schedule ends with the call returning everything,
without error; the goroutines of git and of the collector have ended. -/
theorem C62_complete {r : LineReader σ α} {text : Str} (hmax : 0 < r.max) (hrun : (r.run text).2 = none) (hlong : (scan r.max text).2 = false) {n : Nat} {t : StreamSt σ α}
    (hs : StreamSteps r false n (streamInit r text) t) :
    ¬ t.Crashed ∧ (t.Stuck r false → t.caller = .returned none (r.run text).1 ∧ t.git = .ended ∧ t.col = .ended (r.run text).1) := by
  have h := streamInv_steps hmax hs
  have hcp : ∀ f, t.caller ≠ .panicked f := by
    intro f hf
    rw [h.res, hf] at hrun
    simp [future] at hrun
  have hgp : ∀ rem, t.git ≠ .panicked rem := by
    intro rem hg
    rcases h.bad rem hg with hb | ⟨hb, _⟩
    · rw [h.rd] at hb
      rcases h.done (left_of_shut h hrun hb) with hd | hd
      · rw [hg] at hd; cases hd
      · rw [hlong] at hd; cases hd
    · cases hb
  refine ⟨?_, fun hst => ?_⟩
  · rintro (⟨rem, hg⟩ | ⟨f, hf⟩)
    · exact hgp rem hg
    · exact hcp f hf
  · rcases stuck_cases h hst with ⟨f, hf⟩ | ⟨rem, hg, _⟩ | ⟨hg, e, got, hc⟩
    · exact absurd hf (hcp f)
    · exact absurd hg (hgp rem)
    · have hres := C62_result hmax hs hc
      rw [hres] at hrun
      simp only at hrun
      subst hrun
      rw [hres]
      exact ⟨hc, hg, h.col3 _ _ hc⟩

/-- **C62 (failing git).** If git fails and the reader would read everything, the call never returns: no incomplete result is mistaken for a complete one. Every schedule ends with a crash of the
program (the panic in the goroutine of `ExecPiped`). -/
theorem C62_git_fails {r : LineReader σ α} {text : Str} (hmax : 0 < r.max) (hrun : (r.run text).2 = none) (hlong : (scan r.max text).2 = false) {n : Nat} {t : StreamSt σ α}
    (hs : StreamSteps r true n (streamInit r text) t) :
    (∀ e got, t.caller ≠ .returned e got) ∧ (t.Stuck r true → t.Crashed) := by
  have h := streamInv_steps hmax hs
  have hne : t.git ≠ .ended := by
    intro hg
    have := h.good (.inr hg)
    cases this
  refine ⟨?_, fun hst => ?_⟩
  · intro e got hc
    have hsh : t.caller.shut = true := by rw [hc]; rfl
    rcases h.done (left_of_shut h hrun hsh) with hd | hd
    · exact hne hd
    · rw [hlong] at hd; cases hd
  · rcases stuck_cases h hst with hf | ⟨rem, hg, _⟩ | ⟨hg, _⟩
    · exact .inr hf
    · exact .inl ⟨rem, hg⟩
    · exact absurd hg hne

/-- **C62 (errors).** If the reader finds an error, every schedule ends with the call returning that error and what was sent before it. If it panics, so does the caller. -/
theorem C62_error {r : LineReader σ α} {text : Str} (hmax : 0 < r.max) {f : Fault} (hrun : (r.run text).2 = some f) {n : Nat} {t : StreamSt σ α}
    (hs : StreamSteps r false n (streamInit r text) t) (hst : t.Stuck r false) :
    (∀ w, f = .error w → t.caller = .returned (some f) (r.run text).1) ∧ (∀ w, f = .panic w → t.caller = .panicked f) := by
  have h := streamInv_steps hmax hs
  have hso := caller_sorted hs
  have hret : ∀ e got, t.caller = .returned e got → t.caller = .returned (some f) (r.run text).1 := by
    intro e got hc
    have hres := C62_result hmax hs hc
    rw [hres] at hrun ⊢
    simp only at hrun
    rw [hc, hrun]
  have hpan : ∀ f', t.caller = .panicked f' → f' = f := by
    intro f' hc
    have := h.res
    rw [hc] at this
    rw [this] at hrun
    simp [future] at hrun
    exact hrun
  have hboth : ∀ e got, t.caller = .returned e got → (∀ w, f = .error w → t.caller = .returned (some f) (r.run text).1) ∧ (∀ w, f = .panic w → t.caller = .panicked f) := by
    intro e got hc
    refine ⟨fun _ _ => hret e got hc, fun w hw => ?_⟩
    have := hso.2 w
    rw [hret e got hc] at this
    exact absurd (by rw [hw]; rfl) this
  rcases stuck_cases h hst with ⟨f', hf⟩ | ⟨rem, hg, ⟨e, got, hc⟩ | ⟨b, s, hc⟩⟩ | ⟨hg, e, got, hc⟩
  · obtain ⟨w, hw⟩ := hso.1 f' hf
    have := hpan f' hf
    subst this
    exact ⟨fun w' hw' => (by rw [hw] at hw'; cases hw'), fun _ _ => hf⟩
  · exact hboth e got hc
  · rcases h.bad rem hg with hb | ⟨hb, _⟩
    · rw [h.rd, hc] at hb; cases hb
    · cases hb
  · exact hboth e got hc

/-! ## Unread output -/

theorem Spec.StopsEarly.length {r : LineReader σ α} {s : σ} {text : Str} (h : StopsEarly r s text) : r.max < text.length := by
  induction h with
  | long l more _ h2 h3 => have := List.length_pos_iff.2 h3; simp; omega
  | fault l more f _ _ _ h4 => simp; omega
  | next l more xs _ _ _ _ ih => simp; omega

theorem first_line_unique {x l : Str} {a b : Str} (hx : (10 : UInt8) ∉ x) (hl : (10 : UInt8) ∉ l) (h : x ++ 10 :: a = l ++ 10 :: b) : x = l ∧ a = b := by
  induction x generalizing l with
  | nil =>
    cases l with
    | nil => simp at h; exact ⟨rfl, h⟩
    | cons c l => simp at h; simp [← h.1] at hl
  | cons c x ih =>
    cases l with
    | nil => simp at h; simp [h.1] at hx
    | cons d l =>
      simp at h hx hl
      obtain ⟨e1, e2⟩ := ih hx.2 hl.2 h.2
      exact ⟨by rw [h.1, e1], e2⟩

theorem Spec.StopsEarly.line {r : LineReader σ α} {s : σ} {x rest : Str} (h : StopsEarly r s (x ++ 10 :: rest)) (hx : (10 : UInt8) ∉ x) (hlen : x.length < r.max) :
    (∃ f, r.line s (dropCR x) = .error f ∧ r.max ≤ rest.length) ∨ ∃ s' xs, r.line s (dropCR x) = .ok (s', xs) ∧ StopsEarly r s' rest := by
  generalize ht : x ++ 10 :: rest = text at h
  cases h with
  | long l more h1 h2 h3 =>
    exfalso
    apply h1
    have : l = (x ++ 10 :: rest).take r.max := by rw [ht, ← h2, List.take_left]
    rw [this, List.take_append]
    refine List.mem_append_right _ ?_
    obtain ⟨k, hk⟩ : ∃ k, r.max - x.length = k + 1 := ⟨r.max - x.length - 1, by omega⟩
    rw [hk]; simp
  | fault l more f h1 h2 h3 h4 =>
    obtain ⟨e1, e2⟩ := first_line_unique hx h1 ht
    subst e1; subst e2
    exact .inl ⟨f, h3, h4⟩
  | next l more xs h1 h2 h3 h4 =>
    obtain ⟨e1, e2⟩ := first_line_unique hx h1 ht
    subst e1; subst e2
    exact .inr ⟨_, xs, h3, h4⟩

/-- Buffer and state of the reader in the loop. -/
def CallLoc.inLoop : CallLoc σ α → Option (Str × σ)
  | .loop b s => some (b, s)
  | .put _ (some k) => some k
  | _ => none

/-- While the reader is in the loop it will stop early; afterwards something is unread. -/
structure EarlyInv (r : LineReader σ α) (t : StreamSt σ α) : Prop where
  inl : ∀ b s, t.caller.inLoop = some (b, s) → StopsEarly r s (b ++ t.git.unread)
  out : t.caller.inLoop = none → t.git.unread ≠ []

theorem buf_inLoop (c : CallLoc σ α) (b : Str) (s : σ) (h : c.inLoop = some (b, s)) : c.buf = some b := by
  cases c with
  | loop b' s' => simp [CallLoc.inLoop] at h; simp [CallLoc.buf, h.1]
  | put xs k => rcases k with _ | ⟨b', s'⟩ <;> simp [CallLoc.inLoop] at h; simp [CallLoc.buf, h.1]
  | _ => simp [CallLoc.inLoop] at h

theorem EarlyInv.unread {r : LineReader σ α} {fails : Bool} {text : Str} {t : StreamSt σ α} (hi : StreamInv r fails text t) (h : EarlyInv r t) : t.git.unread ≠ [] := by
  cases hc : t.caller.inLoop with
  | none => exact h.out hc
  | some k =>
    obtain ⟨b, s⟩ := k
    have h1 := (h.inl b s hc).length
    have h2 := hi.size b (buf_inLoop _ _ _ hc)
    intro hn
    rw [hn] at h1
    simp at h1
    omega

theorem EarlyInv.same {r : LineReader σ α} {t u : StreamSt σ α} (h : EarlyInv r t) (hc : u.caller.inLoop = t.caller.inLoop) (hg : u.git.unread = t.git.unread) : EarlyInv r u :=
  ⟨fun b s hb => by rw [hg]; exact h.inl b s (hc ▸ hb), fun hb => by rw [hg]; exact h.out (hc ▸ hb)⟩

theorem earlyInv_step {r : LineReader σ α} {fails : Bool} {text : Str} {t u : StreamSt σ α} (hi : StreamInv r fails text t) (h : EarlyInv r t)
    (hs : StreamStep r fails t u) : EarlyInv r u := by
  have hun := h.unread hi
  cases hs with
  | write p rem hg hp => exact h.same rfl (by simp [GitLoc.unread, hg])
  | exit hg hf => rw [hg] at hun; exact absurd rfl hun
  | fail hg hf => rw [hg] at hun; exact absurd rfl hun
  | broken p rem hg hc => exact h.same rfl (by simp [GitLoc.unread, hg])
  | closeWr hg => rw [hg] at hun; exact absurd rfl hun
  | read buf n p rem s hl hb hm hn hg =>
    have hu : (if p = [] then GitLoc.run rem else .write p rem).unread = p ++ rem := by
      by_cases hp : p = [] <;> simp [hp, GitLoc.unread]
    have := h.inl buf s (by rw [hl]; rfl)
    rw [hg] at this
    refine ⟨?_, by simp [CallLoc.inLoop]⟩
    intro b s' hb'
    simp [CallLoc.inLoop] at hb'
    obtain ⟨e1, e2⟩ := hb'
    subst e1; subst e2
    simp only [hu]
    simpa [GitLoc.unread] using this
  | line l rest s hl hb =>
    have hsz := hi.size _ (by rw [hl]; rfl)
    simp only [List.length_append, List.length_cons] at hsz
    have := h.inl _ s (by rw [hl]; rfl)
    rw [List.append_assoc, List.cons_append] at this
    rcases this.line hb (by omega) with ⟨f, h1, h2⟩ | ⟨s', xs, h1, h2⟩
    · exact ⟨by rcases f with w | w <;> simp [h1, streamAfterLine, CallLoc.inLoop], fun _ => hun⟩
    · refine ⟨?_, by simp [h1, streamAfterLine, CallLoc.inLoop]⟩
      intro b s0 hb'
      simp [h1, streamAfterLine, CallLoc.inLoop] at hb'
      obtain ⟨e1, e2⟩ := hb'
      subst e1; subst e2
      exact h2
  | tooLong buf s hl hb hm => exact ⟨by rcases r.finish s true with (w | w) | xs <;> simp [streamAfterLoop, CallLoc.inLoop], fun _ => hun⟩
  | lastLine buf s hl hb hm hn hw => rw [hi.wr.1 hw] at hun; exact absurd rfl hun
  | eof s hl hw => rw [hi.wr.1 hw] at hun; exact absurd rfl hun
  | send x xs got k hl hc => exact h.same (by rw [hl]; rcases k with _ | k <;> rfl) rfl
  | sent buf s hl => exact h.same (by rw [hl]; rfl) rfl
  | sentLast hl => exact h.same (by rw [hl]; rfl) rfl
  | closePipe e hl => exact h.same (by rw [hl]; rfl) rfl
  | closeRes e hl => exact h.same (by rw [hl]; rfl) rfl
  | colEnd got hc hr => exact h.same rfl rfl
  | join e got hl hc => exact h.same (by rw [hl]; rfl) rfl

theorem earlyInv_steps {r : LineReader σ α} {fails : Bool} {text : Str} (hmax : 0 < r.max) (he : StopsEarly r r.start text) {n : Nat} {t : StreamSt σ α}
    (hs : StreamSteps r fails n (streamInit r text) t) : EarlyInv r t := by
  generalize hi : streamInit r text = i at hs
  induction hs with
  | refl =>
    subst hi
    refine ⟨?_, by simp [streamInit, CallLoc.inLoop]⟩
    intro b s hb
    simp [streamInit, CallLoc.inLoop] at hb
    obtain ⟨e1, e2⟩ := hb
    subst e1; subst e2
    simpa [streamInit, GitLoc.unread] using he
  | snoc h0 h1 ih => subst hi; exact earlyInv_step (streamInv_steps hmax h0) (ih rfl) h1

/-- **C62 (finding).** A reader that stops early closes the pipe under the running git: every schedule then ends with a crash of the program, even where the call returns a result or an error
before it (the crash comes from the goroutine of `ExecPiped`, so the caller cannot prevent it). -/
theorem C62_unread_output_crashes {r : LineReader σ α} {fails : Bool} {text : Str} (hmax : 0 < r.max) (he : StopsEarly r r.start text) {n : Nat} {t : StreamSt σ α}
    (hs : StreamSteps r fails n (streamInit r text) t) (hst : t.Stuck r fails) : t.Crashed := by
  have hi := streamInv_steps hmax hs
  have hun := (earlyInv_steps hmax he hs).unread hi
  rcases stuck_cases hi hst with hf | ⟨rem, hg, _⟩ | ⟨hg, _⟩
  · exact .inr hf
  · exact .inl ⟨rem, hg⟩
  · rw [hg] at hun; exact absurd rfl hun

end Ripsrc
