import Verif.Lib.OutletInv
import Verif.Lib.Pipeline
import Verif.Lib.Pool
/-!
# The conditions of Lib/OutletInv.lean hold for the goroutines of `Code` and `Branches`
-/
namespace Ripsrc
open Conc

section
variable {τ : Type}

/-- `CodeSlice`. -/
def Pipe.sl (p : Pipe τ) : Sl PRole PChan (PVal τ) (PLoc τ) (CodeRecord τ) (Option (Repo × Str) × Option Fault) where
  act := p.act
  caller := .caller
  who := .collect
  out := .res
  dn := .doneSlice
  l0 := .cSlice
  start := .cCode
  col := .collect
  fin := .collectEnd
  fin' := .collected
  join := fun e => .joinSlice e.1 e.2
  ret := fun e g => .returned e.1 e.2 g
  val := .record
  sl := .slice

/-- None of the start, the wait and the loop. -/
def PLoc.plain : PLoc τ → Bool
  | .cSlice | .joinSlice _ _ | .collect _ => false
  | _ => true

theorem PLoc.plain_sl (p : Pipe τ) {k : PLoc τ} (h : k.plain = true) : p.sl.Plain k where
  l0 := by rintro rfl; cases h
  join := by rintro e rfl; cases h
  col := by rintro g rfl; cases h

theorem after_plain (k : PAfter) : (k.loc : PLoc τ).plain = true := by cases k <;> rfl
theorem onFirst_plain (p : Pipe τ) (st : Option Proc) (c : LogCommit) : (p.onFirst st c).plain = true := by
  cases st with
  | some s => rfl
  | none => unfold Pipe.onFirst; cases initCheckpoints p.opts p.read <;> rfl
theorem onEnd_plain (p : Pipe τ) (st : Option Proc) : (p.onEnd st).plain = true := by
  cases st with
  | none => rfl
  | some s =>
    by_cases h : s.mergeParts.length > 0
    · simp only [Pipe.onEnd, if_pos h]
      cases s.finishMerge p.env <;> rfl
    · simp only [Pipe.onEnd, if_neg h]
      rfl
theorem onResult_plain (p : Pipe τ) (n : Nat) (cache : GoMap Str Str) (r : Result) : (p.onResult n cache r).plain = true := by
  unfold Pipe.onResult
  split
  · rfl
  · split <;> rfl

theorem pipe_recv_plain (p : Pipe τ) {l c f} (h : p.act l = .recv c f) (o : Option (PVal τ)) :
    (f o).plain = true ∨ c = .res ∧ o ≠ none ∧ l.role = .collect ∧ ∃ g, f o = .collect g := by
  cases l with
  | sending rs k' => cases rs <;> simp [Pipe.act] at h
  | parse rs => cases rs <;> simp [Pipe.act] at h
  | codeRecs _ _ rs => cases rs <;> simp [Pipe.act] at h
  | cByCommit => simp only [Pipe.act] at h; cases hp : p.pre <;> simp [hp] at h
  | cRun => simp only [Pipe.act] at h; cases hp : p.openErr <;> simp [hp] at h
  | loop st =>
    simp only [Pipe.act, Act.recv.injEq] at h
    obtain ⟨rfl, rfl⟩ := h
    left
    rcases o with _ | (_ | _ | _ | _ | _ | _) <;> first | rfl | exact onFirst_plain _ _ _ | exact onEnd_plain _ _
  | codeRecv n cache =>
    simp only [Pipe.act, Act.recv.injEq] at h
    obtain ⟨rfl, rfl⟩ := h
    left
    rcases o with _ | (_ | _ | _ | _ | _ | _) <;> first | rfl | exact onResult_plain _ _ _ _
  | collect got =>
    simp only [Pipe.act, Act.recv.injEq] at h
    obtain ⟨rfl, rfl⟩ := h
    rcases o with _ | (_ | _ | _ | _ | _ | _) <;> first | exact .inl rfl | exact .inr ⟨rfl, by simp, rfl, _, rfl⟩
  | _ =>
    first
    | (simp only [Pipe.act, Act.recv.injEq] at h
       obtain ⟨rfl, rfl⟩ := h
       left
       rcases o with _ | (_ | _ | _ | _ | _ | _) <;> rfl)
    | (simp [Pipe.act] at h)

theorem pipe_local (p : Pipe τ) : p.sl.Local PLoc.role where
  ne := by simp [Pipe.sl]
  aL0 := rfl
  aCol := fun g => ⟨_, rfl, fun _ => rfl, rfl⟩
  aFin := fun _ => rfl
  aFin' := fun _ => rfl
  aJoin := fun e => ⟨_, rfl, fun _ => rfl⟩
  aRet := fun _ _ => rfl
  vals := by
    intro l v k h
    change p.act l = .send .res v k at h
    cases l with
    | sending rs k' => cases rs <;> simp [Pipe.act] at h
    | parse rs => cases rs <;> simp [Pipe.act] at h
    | codeRecs _ _ rs => cases rs <;> simp [Pipe.act] at h
    | cByCommit => simp only [Pipe.act] at h; cases hp : p.pre <;> simp [hp] at h
    | cRun => simp only [Pipe.act] at h; cases hp : p.openErr <;> simp [hp] at h
    | flatSend i r =>
      simp only [Pipe.act, Act.send.injEq] at h
      exact ⟨r, h.2.1.symm⟩
    | _ => simp [Pipe.act] at h
  goWho := by
    intro l g k h
    change p.act l = .go .collect g k at h
    cases l with
    | sending rs k' => cases rs <;> simp [Pipe.act] at h
    | parse rs => cases rs <;> simp [Pipe.act] at h
    | codeRecs _ _ rs => cases rs <;> simp [Pipe.act] at h
    | cByCommit => simp only [Pipe.act] at h; cases hp : p.pre <;> simp [hp] at h
    | cRun => simp only [Pipe.act] at h; cases hp : p.openErr <;> simp [hp] at h
    | cSlice => rfl
    | _ => simp [Pipe.act] at h
  noWait := fun l rs k h => (pipe_wait p h).elim
  role0 := rfl
  join0 := by intro e h; cases h
  joinCol := by intro e g h; cases h
  col0 := by intro g h; cases h
  dnOut := by simp [Pipe.sl]
  tau := by
    intro l k h
    refine ⟨(pipe_tau p h).2.1, PLoc.plain_sl p ?_⟩
    change p.act l = .tau k at h
    cases l with
    | sending rs k' => cases rs <;> simp [Pipe.act] at h; subst h; exact after_plain _
    | parse rs => cases rs <;> simp [Pipe.act] at h
    | codeRecs _ _ rs => cases rs <;> simp [Pipe.act] at h
    | cByCommit => simp only [Pipe.act] at h; cases hp : p.pre <;> simp [hp] at h; subst h; rfl
    | cRun => simp only [Pipe.act] at h; cases hp : p.openErr <;> simp [hp] at h; subst h; rfl
    | _ => simp [Pipe.act] at h
  send := by
    intro l c v k h
    have h0 := pipe_send p h
    refine ⟨h0.2, PLoc.plain_sl p ?_, ?_⟩
    · change p.act l = .send c v k at h
      cases l with
      | sending rs k' => cases rs <;> simp [Pipe.act] at h; rw [← h.2.2]; rfl
      | parse rs => cases rs <;> simp [Pipe.act] at h; rw [← h.2.2]; rfl
      | codeRecs _ _ rs => cases rs <;> simp [Pipe.act] at h; rw [← h.2.2]; rfl
      | cByCommit => simp only [Pipe.act] at h; cases hp : p.pre <;> simp [hp] at h
      | cRun => simp only [Pipe.act] at h; cases hp : p.openErr <;> simp [hp] at h
      | parseDone =>
        simp only [Pipe.act, Act.send.injEq] at h
        rw [← h.2.2]
        cases (parseSent p.text).2 <;> rfl
      | _ => simp [Pipe.act] at h <;> (rw [← h.2.2]; rfl)
    · rintro rfl
      exact h0.1.symm
  recv := by
    intro l c f o h
    refine ⟨(pipe_recv p h).2 o, ?_⟩
    rcases pipe_recv_plain p h o with h1 | ⟨rfl, h2, h3, g, h4⟩
    · have := PLoc.plain_sl p h1
      exact ⟨this.l0, this.join, fun g hg => absurd hg (this.col g)⟩
    · exact ⟨(by rw [h4]; intro h; cases h), (by rw [h4]; intro e h; cases h), fun _ _ => ⟨rfl, h2, h3⟩⟩
  close := by
    intro l c k h
    refine ⟨(pipe_close p h).2.1, ?_⟩
    change p.act l = .close c k at h
    cases l with
    | sending rs k' => cases rs <;> simp [Pipe.act] at h
    | parse rs =>
      cases rs <;> simp [Pipe.act] at h
      obtain ⟨rfl, rfl⟩ := h
      exact ⟨(by simp [Pipe.sl]), (by simp [Pipe.sl]), fun _ => PLoc.plain_sl p rfl⟩
    | codeRecs _ _ rs =>
      cases rs <;> simp [Pipe.act] at h
      obtain ⟨rfl, rfl⟩ := h
      exact ⟨(by simp [Pipe.sl]), (by simp [Pipe.sl]), fun _ => PLoc.plain_sl p rfl⟩
    | cByCommit => simp only [Pipe.act] at h; cases hp : p.pre <;> simp [hp] at h
    | cRun => simp only [Pipe.act] at h; cases hp : p.openErr <;> simp [hp] at h
    | closeRes w e =>
      simp only [Pipe.act, Act.close.injEq] at h
      obtain ⟨rfl, rfl⟩ := h
      exact ⟨(by simp [Pipe.sl]), fun _ => ⟨rfl, (w, e), rfl⟩, fun h => absurd rfl h⟩
    | _ =>
      simp [Pipe.act] at h <;>
      (obtain ⟨rfl, rfl⟩ := h
       exact ⟨(by simp [Pipe.sl]), (by simp [Pipe.sl]), fun _ => PLoc.plain_sl p rfl⟩)
  go := by
    intro l n g k h
    have h0 := pipe_go p h
    refine ⟨h0.2.1, h0.2.2.1, ?_⟩
    change p.act l = .go n g k at h
    cases l with
    | sending rs k' => cases rs <;> simp [Pipe.act] at h
    | parse rs => cases rs <;> simp [Pipe.act] at h
    | codeRecs _ _ rs => cases rs <;> simp [Pipe.act] at h
    | cByCommit =>
      simp only [Pipe.act] at h; cases hp : p.pre <;> simp [hp] at h
      obtain ⟨rfl, rfl, rfl⟩ := h
      exact ⟨PLoc.plain_sl p rfl, (by simp [Pipe.sl]), (by simp [Pipe.sl]), (by simp [Pipe.sl])⟩
    | cRun =>
      simp only [Pipe.act] at h; cases hp : p.openErr <;> simp [hp] at h
      obtain ⟨rfl, rfl, rfl⟩ := h
      exact ⟨PLoc.plain_sl p rfl, (by simp [Pipe.sl]), (by simp [Pipe.sl]), (by simp [Pipe.sl])⟩
    | cSlice =>
      simp only [Pipe.act, Act.go.injEq] at h
      obtain ⟨rfl, rfl, rfl⟩ := h
      exact ⟨PLoc.plain_sl p rfl, (by simp [Pipe.sl]), (by simp [Pipe.sl]), fun _ _ => rfl⟩
    | _ =>
      simp [Pipe.act] at h <;>
      (obtain ⟨rfl, rfl, rfl⟩ := h
       exact ⟨PLoc.plain_sl p rfl, (by simp [Pipe.sl]), (by simp [Pipe.sl]), (by simp [Pipe.sl])⟩)
  wait := fun l rs k h => (pipe_wait p h).elim
end

/-- `BranchesSlice`. -/
def Pool.sl (p : Pool) : Sl BRole BChan BVal BLoc Branch (Option Fault) where
  act := p.act
  caller := .caller
  who := .collect
  out := .res
  dn := .doneCollect
  l0 := .cSlice
  start := .cBranches
  col := .collect
  fin := .collectEnd
  fin' := .collected
  join := .joinCollect
  ret := .returned
  val := .branch
  sl := .slice

/-- None of the start, the wait and the loop. -/
def BLoc.plain : BLoc → Bool
  | .cSlice | .joinCollect _ | .collect _ => false
  | _ => true

theorem BLoc.plain_sl (p : Pool) {k : BLoc} (h : k.plain = true) : p.sl.Plain k where
  l0 := by rintro rfl; cases h
  join := by rintro e rfl; cases h
  col := by rintro g rfl; cases h

theorem failRun_plain (e : Fault) : (failRun e).plain = true ∧ (failRun e).role = .caller := by cases e <;> exact ⟨rfl, rfl⟩
theorem failPre_plain (e : Fault) : (failPre e).plain = true ∧ (failPre e).role = .caller := by cases e <;> exact ⟨rfl, rfl⟩
theorem onRun_plain (p : Pool) : p.onRun.plain = true ∧ p.onRun.role = .caller := by
  unfold Pool.onRun
  split
  · exact failRun_plain _
  · split
    · split
      · exact failRun_plain _
      · split
        · exact failRun_plain _
        · exact ⟨rfl, rfl⟩
    · exact ⟨rfl, rfl⟩
theorem onWork_plain (p : Pool) (dh : Str) : (p.onWork dh).plain = true ∧ (p.onWork dh).role = .caller := by
  unfold Pool.onWork
  split
  · exact failRun_plain _
  · split
    · exact failRun_plain _
    · exact ⟨rfl, rfl⟩
theorem onItem_plain (p : Pool) (i : Nat) (dh : Str) (reach : List Str) (x : Str × Str) : (p.onItem i dh reach x).plain = true ∧ (p.onItem i dh reach x).role = .worker i := by
  unfold Pool.onItem
  split <;> exact ⟨rfl, rfl⟩

theorem pool_recv (p : Pool) {l c f} (h : p.act l = .recv c f) (o : Option BVal) :
    (f o).role = l.role ∧ ((f o).plain = true ∨ c = .res ∧ o ≠ none ∧ l.role = .collect ∧ ∃ g, f o = .collect g) := by
  cases l with
  | feed rs => cases rs <;> simp [Pool.act] at h
  | cBranches => simp only [Pool.act] at h; cases hp : p.pre <;> simp [hp] at h
  | spawn dh reach i => simp only [Pool.act] at h; split at h <;> cases h
  | work i dh reach =>
    simp only [Pool.act, Act.recv.injEq] at h
    obtain ⟨rfl, rfl⟩ := h
    rcases o with _ | (_ | _ | _ | _) <;> first | exact ⟨rfl, .inl rfl⟩ | exact ⟨(onItem_plain _ _ _ _ _).2, .inl (onItem_plain _ _ _ _ _).1⟩
  | collect got =>
    simp only [Pool.act, Act.recv.injEq] at h
    obtain ⟨rfl, rfl⟩ := h
    rcases o with _ | (_ | _ | _ | _) <;> first | exact ⟨rfl, .inl rfl⟩ | exact ⟨rfl, .inr ⟨rfl, by simp, rfl, _, rfl⟩⟩
  | _ =>
    first
    | (simp only [Pool.act, Act.recv.injEq] at h
       obtain ⟨rfl, rfl⟩ := h
       rcases o with _ | (_ | _ | _ | _) <;> exact ⟨rfl, .inl rfl⟩)
    | (simp [Pool.act] at h)

theorem pool_local (p : Pool) : p.sl.Local BLoc.role where
  ne := by simp [Pool.sl]
  aL0 := rfl
  aCol := fun g => ⟨_, rfl, fun _ => rfl, rfl⟩
  aFin := fun _ => rfl
  aFin' := fun _ => rfl
  aJoin := fun e => ⟨_, rfl, fun _ => rfl⟩
  aRet := fun _ _ => rfl
  vals := by
    intro l v k h
    change p.act l = .send .res v k at h
    cases l with
    | feed rs => cases rs <;> simp [Pool.act] at h
    | cBranches => simp only [Pool.act] at h; cases hp : p.pre <;> simp [hp] at h
    | spawn dh reach i => simp only [Pool.act] at h; split at h <;> cases h
    | fwdSend b =>
      simp only [Pool.act, Act.send.injEq] at h
      exact ⟨b, h.2.1.symm⟩
    | _ => simp [Pool.act] at h
  goWho := by
    intro l g k h
    change p.act l = .go .collect g k at h
    cases l with
    | feed rs => cases rs <;> simp [Pool.act] at h
    | cBranches => simp only [Pool.act] at h; cases hp : p.pre <;> simp [hp] at h
    | spawn dh reach i => simp only [Pool.act] at h; split at h <;> simp at h
    | cSlice => rfl
    | _ => simp [Pool.act] at h
  noWait := by
    intro l rs k h
    change p.act l = .wait rs k at h
    cases l with
    | feed rs => cases rs <;> simp [Pool.act] at h
    | cBranches => simp only [Pool.act] at h; cases hp : p.pre <;> simp [hp] at h
    | spawn dh reach i =>
      simp only [Pool.act] at h
      split at h
      · cases h
      · cases h
        simp [Pool.sl]
    | _ => simp [Pool.act] at h
  role0 := rfl
  join0 := by intro e h; cases h
  joinCol := by intro e g h; cases h
  col0 := by intro g h; cases h
  dnOut := by simp [Pool.sl]
  tau := by
    intro l k h
    change p.act l = .tau k at h
    cases l with
    | feed rs => cases rs <;> simp [Pool.act] at h
    | cBranches =>
      simp only [Pool.act] at h; cases hp : p.pre <;> simp [hp] at h; subst h
      exact ⟨(failPre_plain _).2, BLoc.plain_sl p (failPre_plain _).1⟩
    | cRun => simp only [Pool.act, Act.tau.injEq] at h; subst h; exact ⟨(onRun_plain p).2, BLoc.plain_sl p (onRun_plain p).1⟩
    | cWork dh => simp only [Pool.act, Act.tau.injEq] at h; subst h; exact ⟨(onWork_plain p dh).2, BLoc.plain_sl p (onWork_plain p dh).1⟩
    | spawn dh reach i => simp only [Pool.act] at h; split at h <;> cases h
    | _ => simp [Pool.act] at h
  send := by
    intro l c v k h
    change p.act l = .send c v k at h
    cases l with
    | feed rs => cases rs <;> simp [Pool.act] at h; obtain ⟨rfl, rfl, rfl⟩ := h; exact ⟨rfl, BLoc.plain_sl p rfl, by simp [Pool.sl]⟩
    | cBranches => simp only [Pool.act] at h; cases hp : p.pre <;> simp [hp] at h
    | spawn dh reach i => simp only [Pool.act] at h; split at h <;> cases h
    | collectEnd got => simp only [Pool.act, Act.send.injEq] at h; obtain ⟨rfl, rfl, rfl⟩ := h; exact ⟨rfl, BLoc.plain_sl p rfl, fun _ => rfl⟩
    | _ => simp [Pool.act] at h <;> (obtain ⟨rfl, rfl, rfl⟩ := h; exact ⟨rfl, BLoc.plain_sl p rfl, by simp [Pool.sl]⟩)
  recv := by
    intro l c f o h
    obtain ⟨hr, h0⟩ := pool_recv p h o
    refine ⟨hr, ?_⟩
    rcases h0 with h1 | ⟨rfl, h2, h3, g, h4⟩
    · have := BLoc.plain_sl p h1
      exact ⟨this.l0, this.join, fun g hg => absurd hg (this.col g)⟩
    · exact ⟨(by rw [h4]; intro h; cases h), (by rw [h4]; intro e h; cases h), fun _ _ => ⟨rfl, h2, h3⟩⟩
  close := by
    intro l c k h
    change p.act l = .close c k at h
    cases l with
    | feed rs =>
      cases rs <;> simp [Pool.act] at h
      obtain ⟨rfl, rfl⟩ := h
      exact ⟨rfl, (by simp [Pool.sl]), (by simp [Pool.sl]), fun _ => BLoc.plain_sl p rfl⟩
    | cBranches => simp only [Pool.act] at h; cases hp : p.pre <;> simp [hp] at h
    | spawn dh reach i => simp only [Pool.act] at h; split at h <;> cases h
    | closeRes e =>
      simp only [Pool.act, Act.close.injEq] at h
      obtain ⟨rfl, rfl⟩ := h
      exact ⟨rfl, (by simp [Pool.sl]), fun _ => ⟨rfl, e, rfl⟩, fun h => absurd rfl h⟩
    | _ =>
      simp [Pool.act] at h <;>
      (obtain ⟨rfl, rfl⟩ := h
       exact ⟨rfl, (by simp [Pool.sl]), (by simp [Pool.sl]), fun _ => BLoc.plain_sl p rfl⟩)
  go := by
    intro l n g k h
    change p.act l = .go n g k at h
    cases l with
    | feed rs => cases rs <;> simp [Pool.act] at h
    | cBranches =>
      simp only [Pool.act] at h; cases hp : p.pre <;> simp [hp] at h
      obtain ⟨rfl, rfl, rfl⟩ := h
      exact ⟨rfl, rfl, BLoc.plain_sl p rfl, (by simp [Pool.sl]), (by simp [Pool.sl]), (by simp [Pool.sl])⟩
    | spawn dh reach i =>
      simp only [Pool.act] at h
      split at h
      · cases h
        exact ⟨rfl, rfl, BLoc.plain_sl p rfl, (by simp [Pool.sl]), (by simp [Pool.sl]), (by simp [Pool.sl])⟩
      · cases h
    | cSlice =>
      simp only [Pool.act, Act.go.injEq] at h
      obtain ⟨rfl, rfl, rfl⟩ := h
      exact ⟨rfl, rfl, BLoc.plain_sl p rfl, (by simp [Pool.sl]), (by simp [Pool.sl]), fun _ _ => rfl⟩
    | _ =>
      simp [Pool.act] at h <;>
      (obtain ⟨rfl, rfl, rfl⟩ := h
       exact ⟨rfl, rfl, BLoc.plain_sl p rfl, (by simp [Pool.sl]), (by simp [Pool.sl]), (by simp [Pool.sl])⟩)
  wait := by
    intro l rs k h
    change p.act l = .wait rs k at h
    cases l with
    | feed rs => cases rs <;> simp [Pool.act] at h
    | cBranches => simp only [Pool.act] at h; cases hp : p.pre <;> simp [hp] at h
    | spawn dh reach i =>
      simp only [Pool.act] at h
      split at h
      · cases h
      · cases h
        exact ⟨rfl, BLoc.plain_sl p rfl⟩
    | _ => simp [Pool.act] at h

end Ripsrc
