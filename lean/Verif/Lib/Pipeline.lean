import Verif.Model.Pipeline
import Verif.Lib.Conc
import Verif.Lib.RunLog
/-!
# The goroutines of `Code`: discipline and a canonical schedule
-/
namespace Ripsrc
open Conc

variable {τ : Type}

/-- The goroutine of a control state. -/
def PLoc.role : PLoc τ → PRole
  | .cSlice | .cCode | .cByCommit | .cRun | .loop _ | .drain _ | .joinRun _ _ | .closeGitRes _ _ | .joinByCommit _ _ | .closeRes2 _ _
  | .joinCode _ _ | .closeRes _ _ | .joinSlice _ _ | .returned _ _ _ => .caller
  | .sending _ _ => .caller
  | .parse _ | .parseDone | .parsed => .parser
  | .codeRecv _ _ | .codeHead _ _ _ _ | .codeRecs _ _ _ | .codeDone | .codeEnd => .code
  | .flatRecv | .flatRange _ | .flatSend _ _ | .flatDone | .flatEnd => .flat
  | .collect _ | .collectEnd _ | .collected _ => .collect
  | .panicked r => r

def PChan.wr : PChan → PRole
  | .res => .flat | .res2 => .code | .gitRes => .caller | .commits => .parser | .doneRun => .parser | .doneByCommit => .code | .doneCode => .flat
  | .doneSlice => .collect | .blames _ => .code
def PChan.rd : PChan → PRole
  | .res => .collect | .res2 => .flat | .gitRes => .code | .commits => .caller | .doneRun => .caller | .doneByCommit => .caller | .doneCode => .caller
  | .doneSlice => .caller | .blames _ => .flat
def PChan.cw : PChan → PRole
  | .res => .caller | .res2 => .caller | .gitRes => .caller | .commits => .parser | .blames _ => .code | _ => .caller

/-- The caller is past the end of the goroutine of `CodeByCommit`. -/
def PLoc.afterCode : PLoc τ → Bool
  | .closeRes2 _ _ | .joinCode _ _ | .closeRes _ _ | .joinSlice _ _ | .returned _ _ _ => true
  | _ => false
/-- The caller is past the end of the goroutine of `Code`. -/
def PLoc.afterFlat : PLoc τ → Bool
  | .closeRes _ _ | .joinSlice _ _ | .returned _ _ _ => true
  | _ => false
/-- The caller has not yet started the goroutine of `CodeByCommit`. -/
def PLoc.early : PLoc τ → Bool
  | .cSlice | .cCode | .cByCommit => true
  | _ => false

/-- The invariant behind the discipline. -/
structure PipeInv (s : State PRole PChan (PLoc τ)) : Prop where
  code : ∀ l, s.procs .caller = some l → l.afterCode = true → s.procs .code = none ∨ s.procs .code = some .codeEnd
  flat : ∀ l, s.procs .caller = some l → l.afterFlat = true → s.procs .flat = some .flatEnd
  early : ∀ l, s.procs .caller = some l → l.early = true → s.procs .code = none
  c1 : s.closed .doneByCommit = false
  c2 : s.closed .doneCode = false

theorem after_loc (k : PAfter) : (k.loc : PLoc τ).role = .caller ∧ (k.loc : PLoc τ).afterCode = false ∧ (k.loc : PLoc τ).afterFlat = false := by
  cases k <;> exact ⟨rfl, rfl, rfl⟩
theorem onFirst_loc (p : Pipe τ) (st : Option Proc) (c : LogCommit) : (p.onFirst st c).role = .caller ∧ (p.onFirst st c).afterCode = false ∧
    (p.onFirst st c).afterFlat = false := by
  cases st with
  | some s => exact ⟨rfl, rfl, rfl⟩
  | none => unfold Pipe.onFirst; cases initCheckpoints p.opts p.read <;> exact ⟨rfl, rfl, rfl⟩
theorem onEnd_loc (p : Pipe τ) (st : Option Proc) : (p.onEnd st).role = .caller ∧ (p.onEnd st).afterCode = false ∧ (p.onEnd st).afterFlat = false := by
  cases st with
  | none => exact ⟨rfl, rfl, rfl⟩
  | some s =>
    by_cases h : s.mergeParts.length > 0
    · simp only [Pipe.onEnd, if_pos h]
      cases s.finishMerge p.env <;> exact ⟨rfl, rfl, rfl⟩
    · simp only [Pipe.onEnd, if_neg h]
      exact ⟨rfl, rfl, rfl⟩
theorem onResult_role (p : Pipe τ) (n : Nat) (cache : GoMap Str Str) (r : Result) : (p.onResult n cache r).role = .code := by
  unfold Pipe.onResult
  cases GoMap.get p.metas r.commit with
  | none => rfl
  | some c => simp only; cases codeInfoFiles p.cl p.scc (p.orders n) p.metas cache r <;> rfl

def PRole.sp : PRole → PRole := fun _ => .caller

theorem pipe_send (p : Pipe τ) {l c v k} (h : p.act l = .send c v k) : c.wr = l.role ∧ k.role = l.role := by
  cases l with
  | sending rs k' => cases rs <;> simp [Pipe.act] at h; obtain ⟨rfl, rfl, rfl⟩ := h; exact ⟨rfl, rfl⟩
  | parse rs => cases rs <;> simp [Pipe.act] at h; obtain ⟨rfl, rfl, rfl⟩ := h; exact ⟨rfl, rfl⟩
  | codeRecs _ _ rs => cases rs <;> simp [Pipe.act] at h; obtain ⟨rfl, rfl, rfl⟩ := h; exact ⟨rfl, rfl⟩
  | parseDone =>
    simp only [Pipe.act] at h
    injection h with h1 h2 h3
    subst h1 h3
    refine ⟨rfl, ?_⟩
    cases (parseSent p.text).2 <;> rfl
  | cByCommit => simp only [Pipe.act] at h; cases hp : p.pre <;> simp [hp] at h
  | cRun => simp only [Pipe.act] at h; cases hp : p.openErr <;> simp [hp] at h
  | _ => simp [Pipe.act] at h <;> (obtain ⟨rfl, rfl, rfl⟩ := h; exact ⟨rfl, rfl⟩)

theorem pipe_recv (p : Pipe τ) {l c f} (h : p.act l = .recv c f) : c.rd = l.role ∧ ∀ o, (f o).role = l.role := by
  cases l with
  | sending rs k' => cases rs <;> simp [Pipe.act] at h
  | parse rs => cases rs <;> simp [Pipe.act] at h
  | codeRecs _ _ rs => cases rs <;> simp [Pipe.act] at h
  | cByCommit => simp only [Pipe.act] at h; cases hp : p.pre <;> simp [hp] at h
  | cRun => simp only [Pipe.act] at h; cases hp : p.openErr <;> simp [hp] at h
  | loop st =>
    simp only [Pipe.act] at h
    injection h with h1 h2
    subst h1 h2
    refine ⟨rfl, ?_⟩
    intro o
    rcases o with _ | v
    · exact (onEnd_loc p st).1
    · cases v <;> first | rfl | exact (onFirst_loc p st _).1
  | codeRecv n cache =>
    simp only [Pipe.act] at h
    injection h with h1 h2
    subst h1 h2
    refine ⟨rfl, ?_⟩
    intro o
    rcases o with _ | v
    · rfl
    · cases v <;> first | rfl | exact onResult_role p n cache _
  | _ =>
    simp only [Pipe.act, reduceCtorEq] at h <;>
    (injection h with h1 h2
     subst h1 h2
     refine ⟨rfl, ?_⟩
     intro o
     rcases o with _ | v
     · rfl
     · first | rfl | (cases v <;> rfl))

theorem pipe_close (p : Pipe τ) {l c k} (h : p.act l = .close c k) : c.cw = l.role ∧ k.role = l.role ∧ c ≠ .doneByCommit ∧ c ≠ .doneCode := by
  cases l with
  | sending rs k' => cases rs <;> simp [Pipe.act] at h
  | parse rs => cases rs <;> simp [Pipe.act] at h; obtain ⟨rfl, rfl⟩ := h; exact ⟨rfl, rfl, by simp, by simp⟩
  | codeRecs _ _ rs => cases rs <;> simp [Pipe.act] at h; obtain ⟨rfl, rfl⟩ := h; exact ⟨rfl, rfl, by simp, by simp⟩
  | cByCommit => simp only [Pipe.act] at h; cases hp : p.pre <;> simp [hp] at h
  | cRun => simp only [Pipe.act] at h; cases hp : p.openErr <;> simp [hp] at h
  | _ => simp [Pipe.act] at h <;> (obtain ⟨rfl, rfl⟩ := h; exact ⟨rfl, rfl, by simp, by simp⟩)

theorem pipe_go (p : Pipe τ) {l n g k} (h : p.act l = .go n g k) : PRole.caller = l.role ∧ g.role = n ∧ k.role = l.role ∧ k.afterCode = false ∧ k.afterFlat = false := by
  cases l with
  | sending rs k' => cases rs <;> simp [Pipe.act] at h
  | parse rs => cases rs <;> simp [Pipe.act] at h
  | codeRecs _ _ rs => cases rs <;> simp [Pipe.act] at h
  | cByCommit =>
    simp only [Pipe.act] at h; cases hp : p.pre <;> simp [hp] at h
    obtain ⟨rfl, rfl, rfl⟩ := h; exact ⟨rfl, rfl, rfl, rfl, rfl⟩
  | cRun =>
    simp only [Pipe.act] at h; cases hp : p.openErr <;> simp [hp] at h
    obtain ⟨rfl, rfl, rfl⟩ := h; exact ⟨rfl, rfl, rfl, rfl, rfl⟩
  | _ => simp [Pipe.act] at h <;> (obtain ⟨rfl, rfl, rfl⟩ := h; exact ⟨rfl, rfl, rfl, rfl, rfl⟩)

theorem pipe_wait (p : Pipe τ) {l rs k} (h : p.act l = .wait rs k) : False := by
  cases l with
  | sending rs k' => cases rs <;> simp [Pipe.act] at h
  | parse rs => cases rs <;> simp [Pipe.act] at h
  | codeRecs _ _ rs => cases rs <;> simp [Pipe.act] at h
  | cByCommit => simp only [Pipe.act] at h; cases hp : p.pre <;> simp [hp] at h
  | cRun => simp only [Pipe.act] at h; cases hp : p.openErr <;> simp [hp] at h
  | _ => simp [Pipe.act] at h

theorem pipe_tau (p : Pipe τ) {l k} (h : p.act l = .tau k) : l.role = .caller ∧ k.role = l.role ∧ k.early = false ∧ k.afterFlat = false ∧
    (k.afterCode = true → l.early = true) := by
  cases l with
  | sending rs k' =>
    cases rs <;> simp [Pipe.act] at h
    subst h
    have := after_loc (τ := τ) k'
    refine ⟨rfl, this.1, ?_, this.2.2, ?_⟩
    · cases k' <;> rfl
    · rw [this.2.1]; simp
  | parse rs => cases rs <;> simp [Pipe.act] at h
  | codeRecs _ _ rs => cases rs <;> simp [Pipe.act] at h
  | cByCommit => simp only [Pipe.act] at h; cases hp : p.pre <;> simp [hp] at h; subst h; exact ⟨rfl, rfl, rfl, rfl, fun _ => rfl⟩
  | cRun => simp only [Pipe.act] at h; cases hp : p.openErr <;> simp [hp] at h; subst h; exact ⟨rfl, rfl, rfl, rfl, by simp [PLoc.afterCode]⟩
  | _ => simp [Pipe.act] at h

/-- Only the caller has states that the invariant speaks of. -/
theorem role_of_after {l : PLoc τ} (h : l.afterCode = true ∨ l.afterFlat = true ∨ l.early = true) : l.role = .caller := by
  cases l <;> simp [PLoc.afterCode, PLoc.afterFlat, PLoc.early] at h <;> rfl

theorem afterFlat_afterCode {l : PLoc τ} (h : l.afterFlat = true) : l.afterCode = true := by
  cases l <;> simp [PLoc.afterFlat] at h <;> rfl

theorem onFirst_early (p : Pipe τ) (st : Option Proc) (c : LogCommit) : (p.onFirst st c).early = false := by
  cases st with
  | some s => rfl
  | none => unfold Pipe.onFirst; cases initCheckpoints p.opts p.read <;> rfl
theorem onEnd_early (p : Pipe τ) (st : Option Proc) : (p.onEnd st).early = false := by
  cases st with
  | none => rfl
  | some s =>
    by_cases h : s.mergeParts.length > 0
    · simp only [Pipe.onEnd, if_pos h]
      cases s.finishMerge p.env <;> rfl
    · simp only [Pipe.onEnd, if_neg h]
      rfl

/-- Steps of the caller by a receive. -/
theorem pipe_recv_caller (p : Pipe τ) {l c f} (h : p.act l = .recv c f) (hl : l.role = .caller) (o : Option (PVal τ)) :
    (f o).early = false ∧ ((f o).afterCode = true → l.afterCode = true ∨ c = .doneByCommit) ∧ ((f o).afterFlat = true → l.afterFlat = true ∨ c = .doneCode) := by
  cases l with
  | sending rs k' => cases rs <;> simp [Pipe.act] at h
  | parse rs => cases rs <;> simp [Pipe.act] at h
  | codeRecs _ _ rs => cases rs <;> simp [Pipe.act] at h
  | cByCommit => simp only [Pipe.act] at h; cases hp : p.pre <;> simp [hp] at h
  | cRun => simp only [Pipe.act] at h; cases hp : p.openErr <;> simp [hp] at h
  | codeRecv n cache => cases hl
  | flatRecv => cases hl
  | flatRange => cases hl
  | collect => cases hl
  | loop st =>
    simp only [Pipe.act] at h
    injection h with h1 h2
    subst h1 h2
    rcases o with _ | v
    · have := onEnd_loc p st
      exact ⟨onEnd_early p st, by simp [this], by simp [this]⟩
    · cases v with
      | commit c =>
        have := onFirst_loc p st c
        exact ⟨onFirst_early p st c, by simp [this], by simp [this]⟩
      | _ => exact ⟨rfl, by simp [PLoc.afterCode], by simp [PLoc.afterFlat]⟩
  | _ =>
    simp only [Pipe.act, reduceCtorEq] at h <;>
    (injection h with h1 h2
     subst h1 h2
     rcases o with _ | v
     · refine ⟨rfl, ?_, ?_⟩ <;> simp [PLoc.afterCode, PLoc.afterFlat]
     · first
       | (refine ⟨rfl, ?_, ?_⟩ <;> simp [PLoc.afterCode, PLoc.afterFlat])
       | (cases v <;> (refine ⟨rfl, ?_, ?_⟩ <;> simp [PLoc.afterCode, PLoc.afterFlat])))

theorem pipe_close_caller (p : Pipe τ) {l c k} (h : p.act l = .close c k) (hl : l.role = .caller) :
    k.early = false ∧ (k.afterCode = true → l.afterCode = true) ∧ (k.afterFlat = true → l.afterFlat = true) := by
  cases l with
  | sending rs k' => cases rs <;> simp [Pipe.act] at h
  | parse rs => cases hl
  | codeRecs _ _ rs => cases hl
  | cByCommit => simp only [Pipe.act] at h; cases hp : p.pre <;> simp [hp] at h
  | cRun => simp only [Pipe.act] at h; cases hp : p.openErr <;> simp [hp] at h
  | _ => simp [Pipe.act] at h <;> (obtain ⟨rfl, rfl⟩ := h; refine ⟨rfl, ?_, ?_⟩ <;> simp [PLoc.afterCode, PLoc.afterFlat])

theorem pipe_send_caller (p : Pipe τ) {l c v k} (h : p.act l = .send c v k) (hl : l.role = .caller) :
    k.early = false ∧ k.afterCode = false ∧ k.afterFlat = false := by
  cases l with
  | sending rs k' => cases rs <;> simp [Pipe.act] at h; obtain ⟨rfl, rfl, rfl⟩ := h; exact ⟨rfl, rfl, rfl⟩
  | parse rs => cases hl
  | codeRecs _ _ rs => cases hl
  | cByCommit => simp only [Pipe.act] at h; cases hp : p.pre <;> simp [hp] at h
  | cRun => simp only [Pipe.act] at h; cases hp : p.openErr <;> simp [hp] at h
  | _ => first | (cases hl; done) | (simp [Pipe.act] at h; done)

theorem pipe_send_done (p : Pipe τ) {l c v k} (h : p.act l = .send c v k) :
    (c = .doneByCommit → k = .codeEnd) ∧ (c = .doneCode → k = .flatEnd) := by
  cases l with
  | sending rs k' => cases rs <;> simp [Pipe.act] at h; obtain ⟨rfl, rfl, rfl⟩ := h; simp
  | parse rs => cases rs <;> simp [Pipe.act] at h; obtain ⟨rfl, rfl, rfl⟩ := h; simp
  | codeRecs _ _ rs => cases rs <;> simp [Pipe.act] at h; obtain ⟨rfl, rfl, rfl⟩ := h; simp
  | cByCommit => simp only [Pipe.act] at h; cases hp : p.pre <;> simp [hp] at h
  | cRun => simp only [Pipe.act] at h; cases hp : p.openErr <;> simp [hp] at h
  | parseDone =>
    simp only [Pipe.act] at h
    injection h with h1 h2 h3
    subst h1; simp
  | _ => simp [Pipe.act] at h <;> (obtain ⟨rfl, rfl, rfl⟩ := h; simp)

/-- What a step does to a goroutine. -/
theorem PipeInv.step (p : Pipe τ) {s t : State PRole PChan (PLoc τ)} (hp : Placed PLoc.role s) (hI : PipeInv s) (h : Step p.act s t) : PipeInv t := by
  -- a goroutine in `codeEnd`/`flatEnd` does not move
  have hend : ∀ {l : PLoc τ}, l = .codeEnd ∨ l = .flatEnd → p.act l = .halt := by rintro l (rfl | rfl) <;> rfl
  cases h with
  | @tau r l k h1 h2 =>
    obtain ⟨a1, a2, a3, a4, a5⟩ := pipe_tau p h2
    have hr : r = .caller := by rw [← hp _ _ h1, a1]
    subst hr
    constructor
    · intro l' hl' ha
      simp only [set_procs, if_true, Option.some.injEq] at hl'
      subst hl'
      simp only [set_procs, reduceCtorEq, if_false]
      exact .inl (hI.early _ h1 (a5 ha))
    · intro l' hl' ha
      simp only [set_procs, if_true, Option.some.injEq] at hl'
      subst hl'
      rw [a4] at ha; cases ha
    · intro l' hl' ha
      simp only [set_procs, if_true, Option.some.injEq] at hl'
      subst hl'
      rw [a3] at ha; cases ha
    · exact hI.c1
    · exact hI.c2
  | @sync pr q l m c v k f h1 h2 h3 h4 h5 =>
    have hl := hp _ _ h1
    have hm := hp _ _ h3
    have hne : pr ≠ q := by rintro rfl; rw [h1] at h3; cases h3; rw [h2] at h4; cases h4
    have hk := (pipe_send p h2).2
    have hf := (pipe_recv p h4).2 (some v)
    have hwr := (pipe_send p h2).1
    have hd := pipe_send_done p h2
    -- the goroutines `code` and `flat` have not ended when they move
    have hmov : ∀ x e, (e = PLoc.codeEnd ∨ e = PLoc.flatEnd) → s.procs x = some e → x ≠ pr ∧ x ≠ q := by
      intro x e he hx
      constructor <;> rintro rfl
      · rw [h1] at hx; cases hx; rw [hend he] at h2; cases h2
      · rw [h3] at hx; cases hx; rw [hend he] at h4; cases h4
    have keep : ∀ x e, (e = PLoc.codeEnd ∨ e = PLoc.flatEnd) → s.procs x = some e → ((s.set pr k).set q (f (some v))).procs x = some e := by
      intro x e he hx
      have := hmov x e he hx
      rw [set_procs, if_neg this.2, set_procs, if_neg this.1]; exact hx
    have keepN : ∀ x, s.procs x = none → ((s.set pr k).set q (f (some v))).procs x = none := by
      intro x hx
      rw [set_procs, if_neg, set_procs, if_neg]; exact hx
      · rintro rfl; rw [h1] at hx; cases hx
      · rintro rfl; rw [h3] at hx; cases hx
    -- the new state of the caller
    have hcaller : ∀ l', ((s.set pr k).set q (f (some v))).procs .caller = some l' →
        (l'.early = true → ∃ l0, s.procs .caller = some l0 ∧ l0.early = true) ∧
        (l'.afterCode = true → (∃ l0, s.procs .caller = some l0 ∧ l0.afterCode = true) ∨ (pr = .code ∧ k = .codeEnd ∧ q = .caller)) ∧
        (l'.afterFlat = true → (∃ l0, s.procs .caller = some l0 ∧ l0.afterFlat = true) ∨ (pr = .flat ∧ k = .flatEnd ∧ q = .caller)) := by
      intro l' hl'
      by_cases hq : q = .caller
      · subst hq
        simp only [set_procs, if_true, Option.some.injEq] at hl'
        subst hl'
        obtain ⟨b1, b2, b3⟩ := pipe_recv_caller p h4 hm (some v)
        refine ⟨by simp [b1], fun h => ?_, fun h => ?_⟩
        · rcases b2 h with h | rfl
          · exact .inl ⟨_, h3, h⟩
          · exact .inr ⟨by rw [← hl, ← hwr]; rfl, hd.1 rfl, rfl⟩
        · rcases b3 h with h | rfl
          · exact .inl ⟨_, h3, h⟩
          · exact .inr ⟨by rw [← hl, ← hwr]; rfl, hd.2 rfl, rfl⟩
      · rw [set_procs, if_neg (Ne.symm hq)] at hl'
        by_cases hpr : pr = .caller
        · subst hpr
          simp only [set_procs, if_true, Option.some.injEq] at hl'
          subst hl'
          obtain ⟨b1, b2, b3⟩ := pipe_send_caller p h2 hl
          simp [b1, b2, b3]
        · rw [set_procs, if_neg (Ne.symm hpr)] at hl'
          exact ⟨fun h => ⟨_, hl', h⟩, fun h => .inl ⟨_, hl', h⟩, fun h => .inl ⟨_, hl', h⟩⟩
    constructor
    · intro l' hl' ha
      rcases (hcaller l' hl').2.1 ha with ⟨l0, h0, h0'⟩ | ⟨rfl, rfl, rfl⟩
      · rcases hI.code l0 h0 h0' with h | h
        · exact .inl (keepN _ h)
        · exact .inr (keep _ _ (.inl rfl) h)
      · right; simp [set_procs]
    · intro l' hl' ha
      rcases (hcaller l' hl').2.2 ha with ⟨l0, h0, h0'⟩ | ⟨rfl, rfl, rfl⟩
      · exact keep _ _ (.inr rfl) (hI.flat l0 h0 h0')
      · simp [set_procs]
    · intro l' hl' ha
      obtain ⟨l0, h0, h0'⟩ := (hcaller l' hl').1 ha
      exact keepN _ (hI.early l0 h0 h0')
    · exact hI.c1
    · exact hI.c2
  | @recvClosed q m c f h1 h2 h3 =>
    have hm := hp _ _ h1
    have keep : ∀ x e, (e = PLoc.codeEnd ∨ e = PLoc.flatEnd) → s.procs x = some e → (s.set q (f none)).procs x = some e := by
      intro x e he hx
      rw [set_procs, if_neg]; exact hx
      rintro rfl
      rw [h1] at hx; cases hx; rw [hend he] at h2; cases h2
    have keepN : ∀ x, s.procs x = none → (s.set q (f none)).procs x = none := by
      intro x hx
      rw [set_procs, if_neg]; exact hx
      rintro rfl; rw [h1] at hx; cases hx
    have hcaller : ∀ l', (s.set q (f none)).procs .caller = some l' →
        (l'.early = true → ∃ l0, s.procs .caller = some l0 ∧ l0.early = true) ∧
        (l'.afterCode = true → (∃ l0, s.procs .caller = some l0 ∧ l0.afterCode = true)) ∧
        (l'.afterFlat = true → (∃ l0, s.procs .caller = some l0 ∧ l0.afterFlat = true)) := by
      intro l' hl'
      by_cases hq : q = .caller
      · subst hq
        simp only [set_procs, if_true, Option.some.injEq] at hl'
        subst hl'
        obtain ⟨b1, b2, b3⟩ := pipe_recv_caller p h2 hm none
        refine ⟨by simp [b1], fun h => ?_, fun h => ?_⟩
        · rcases b2 h with h | rfl
          · exact ⟨_, h1, h⟩
          · rw [hI.c1] at h3; cases h3
        · rcases b3 h with h | rfl
          · exact ⟨_, h1, h⟩
          · rw [hI.c2] at h3; cases h3
      · rw [set_procs, if_neg (Ne.symm hq)] at hl'
        exact ⟨fun h => ⟨_, hl', h⟩, fun h => ⟨_, hl', h⟩, fun h => ⟨_, hl', h⟩⟩
    constructor
    · intro l' hl' ha
      obtain ⟨l0, h0, h0'⟩ := (hcaller l' hl').2.1 ha
      rcases hI.code l0 h0 h0' with h | h
      · exact .inl (keepN _ h)
      · exact .inr (keep _ _ (.inl rfl) h)
    · intro l' hl' ha
      obtain ⟨l0, h0, h0'⟩ := (hcaller l' hl').2.2 ha
      exact keep _ _ (.inr rfl) (hI.flat l0 h0 h0')
    · intro l' hl' ha
      obtain ⟨l0, h0, h0'⟩ := (hcaller l' hl').1 ha
      exact keepN _ (hI.early l0 h0 h0')
    · exact hI.c1
    · exact hI.c2
  | @close q m c k h1 h2 h3 =>
    have hm := hp _ _ h1
    have hne := (pipe_close p h2).2.2
    have keep : ∀ x e, (e = PLoc.codeEnd ∨ e = PLoc.flatEnd) → s.procs x = some e → (s.set q k).procs x = some e := by
      intro x e he hx
      rw [set_procs, if_neg]; exact hx
      rintro rfl
      rw [h1] at hx; cases hx; rw [hend he] at h2; cases h2
    have keepN : ∀ x, s.procs x = none → (s.set q k).procs x = none := by
      intro x hx
      rw [set_procs, if_neg]; exact hx
      rintro rfl; rw [h1] at hx; cases hx
    have hcaller : ∀ l', (s.set q k).procs .caller = some l' →
        (l'.early = true → ∃ l0, s.procs .caller = some l0 ∧ l0.early = true) ∧
        (l'.afterCode = true → (∃ l0, s.procs .caller = some l0 ∧ l0.afterCode = true)) ∧
        (l'.afterFlat = true → (∃ l0, s.procs .caller = some l0 ∧ l0.afterFlat = true)) := by
      intro l' hl'
      by_cases hq : q = .caller
      · subst hq
        simp only [set_procs, if_true, Option.some.injEq] at hl'
        subst hl'
        obtain ⟨b1, b2, b3⟩ := pipe_close_caller p h2 hm
        exact ⟨by simp [b1], fun h => ⟨_, h1, b2 h⟩, fun h => ⟨_, h1, b3 h⟩⟩
      · rw [set_procs, if_neg (Ne.symm hq)] at hl'
        exact ⟨fun h => ⟨_, hl', h⟩, fun h => ⟨_, hl', h⟩, fun h => ⟨_, hl', h⟩⟩
    constructor
    · intro l' hl' ha
      obtain ⟨l0, h0, h0'⟩ := (hcaller l' hl').2.1 ha
      rcases hI.code l0 h0 h0' with h | h
      · exact .inl (keepN _ h)
      · exact .inr (keep _ _ (.inl rfl) h)
    · intro l' hl' ha
      obtain ⟨l0, h0, h0'⟩ := (hcaller l' hl').2.2 ha
      exact keep _ _ (.inr rfl) (hI.flat l0 h0 h0')
    · intro l' hl' ha
      obtain ⟨l0, h0, h0'⟩ := (hcaller l' hl').1 ha
      exact keepN _ (hI.early l0 h0 h0')
    · rw [shut_closed, if_neg (Ne.symm hne.1)]; exact hI.c1
    · rw [shut_closed, if_neg (Ne.symm hne.2)]; exact hI.c2
  | @go q m n g k h1 h2 h3 =>
    obtain ⟨a1, a2, a3, a4, a5⟩ := pipe_go p h2
    have hr : q = .caller := by rw [← hp _ _ h1, a1]
    subst hr
    have hk : ∀ l', ((s.set n g).set .caller k).procs .caller = some l' → l' = k := by
      intro l' hl'
      simp only [set_procs, if_true, Option.some.injEq] at hl'
      exact hl'.symm
    constructor
    · intro l' hl' ha
      rw [hk _ hl', a4] at ha; cases ha
    · intro l' hl' ha
      rw [hk _ hl', a5] at ha; cases ha
    · intro l' hl' ha
      rw [hk _ hl'] at ha
      -- the next state is still early: the goroutine that was started is not `code`
      have : n ≠ .code ∧ m.early = true := by
        cases m with
        | cSlice => simp [Pipe.act] at h2; simp [← h2.1]; rfl
        | cCode => simp [Pipe.act] at h2; simp [← h2.1]; rfl
        | cByCommit =>
          simp only [Pipe.act] at h2; cases hp : p.pre <;> simp [hp] at h2
          rw [← h2.2.2] at ha; cases ha
        | cRun =>
          simp only [Pipe.act] at h2; cases hp : p.openErr <;> simp [hp] at h2
          rw [← h2.2.2] at ha; cases ha
        | sending rs k' => cases rs <;> simp [Pipe.act] at h2
        | parse rs => cases rs <;> simp [Pipe.act] at h2
        | codeRecs _ _ rs => cases rs <;> simp [Pipe.act] at h2
        | _ => simp [Pipe.act] at h2
      rw [set_procs, if_neg (by simp), set_procs, if_neg (Ne.symm this.1)]
      exact hI.early _ h1 this.2
    · exact hI.c1
    · exact hI.c2
  | wait h1 h2 h3 => exact (pipe_wait p h2).elim

theorem pipe_owned (p : Pipe τ) : Owned p.act PLoc.role PChan.wr PChan.rd PChan.cw PRole.sp PipeInv where
  inv := fun hp hI h => hI.step p hp h
  quiet := by
    intro s r l m c k v k' hp hI hr hl hm hms
    have hcw := (pipe_close p hl).1
    have hrole := hp _ _ hr
    rw [hrole] at hcw
    -- which channels are closed by a goroutine that does not send on them
    cases l with
    | sending rs k' => cases rs <;> simp [Pipe.act] at hl
    | parse rs =>
      cases rs <;> simp [Pipe.act] at hl
      obtain ⟨rfl, rfl⟩ := hl
      have : r = .parser := hrole.symm
      subst this
      change s.procs .parser = some m at hm
      rw [hr] at hm; cases hm
      simp [Pipe.act] at hms
    | codeRecs n cache rs =>
      cases rs <;> simp [Pipe.act] at hl
      obtain ⟨rfl, rfl⟩ := hl
      have : r = .code := hrole.symm
      subst this
      change s.procs .code = some m at hm
      rw [hr] at hm; cases hm
      simp [Pipe.act] at hms
    | cByCommit => simp only [Pipe.act] at hl; cases hp : p.pre <;> simp [hp] at hl
    | cRun => simp only [Pipe.act] at hl; cases hp : p.openErr <;> simp [hp] at hl
    | closeGitRes w e =>
      simp [Pipe.act] at hl
      obtain ⟨rfl, rfl⟩ := hl
      have : r = .caller := hrole.symm
      subst this
      change s.procs .caller = some m at hm
      rw [hr] at hm; cases hm
      simp [Pipe.act] at hms
    | closeRes2 w e =>
      simp [Pipe.act] at hl
      obtain ⟨rfl, rfl⟩ := hl
      have : r = .caller := hrole.symm
      subst this
      change s.procs .code = some m at hm
      rcases hI.code _ hr rfl with h | h
      · rw [h] at hm; cases hm
      · rw [h] at hm; cases hm; simp [Pipe.act] at hms
    | closeRes w e =>
      simp [Pipe.act] at hl
      obtain ⟨rfl, rfl⟩ := hl
      have : r = .caller := hrole.symm
      subst this
      change s.procs .flat = some m at hm
      rw [hI.flat _ hr rfl] at hm; cases hm
      simp [Pipe.act] at hms
    | _ => simp [Pipe.act] at hl
  send := pipe_send p
  recv := pipe_recv p
  close := fun h => ⟨(pipe_close p h).1, (pipe_close p h).2.1⟩
  go := fun h => ⟨(pipe_go p h).1, (pipe_go p h).2.1, (pipe_go p h).2.2.1⟩
  wait := fun h => (pipe_wait p h).elim
  tau := fun h => (pipe_tau p h).2.1

end Ripsrc
