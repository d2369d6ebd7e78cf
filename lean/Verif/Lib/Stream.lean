import Verif.Model.Stream
import Verif.Props.Pipeline
/-!
# `CodeByCommit` and its consumer: the moves and the invariant
-/
namespace Ripsrc
open Conc
open Spec (Seen Want)

variable {τ : Type}

/-- A state of the call and its consumer, by its parts. -/
def mkS (a : PLoc τ) (b c : Option (PLoc τ)) (cl : PChan → Bool) (h : List (CodeSeen τ)) : SState τ := ⟨pst (some a) b c none none cl, h⟩

/-- The moves, one by one. -/
inductive Mv (p : Pipe τ) (ready : List (CodeSeen τ) → Want → Prop) : SState τ → SState τ → Prop where
  | preErr {b c cl h e} : p.pre = some e → Mv p ready (mkS .cByCommit b c cl h) (mkS (.closeRes2 none (some (.error e))) b c cl h)
  | startCode {b cl h} : p.pre = none → Mv p ready (mkS .cByCommit b none cl h) (mkS .cRun b (some (.codeRecv 0 [])) cl h)
  | openErr {b c cl h e} : p.openErr = some e → Mv p ready (mkS .cRun b c cl h) (mkS (.closeGitRes none (some (.error e))) b c cl h)
  | startParser {c cl h} : p.openErr = none → Mv p ready (mkS .cRun none c cl h) (mkS (.loop none) (some (.parse (parseSent p.text).1)) c cl h)
  | recvCommit {st x cs c cl h} : cl .commits = false → Mv p ready (mkS (.loop st) (some (.parse (x :: cs))) c cl h) (mkS (p.onFirst st x) (some (.parse cs)) c cl h)
  | drainCommit {e x cs c cl h} : cl .commits = false → Mv p ready (mkS (.drain e) (some (.parse (x :: cs))) c cl h) (mkS (.drain e) (some (.parse cs)) c cl h)
  | loopEnd {st b c cl h} : cl .commits = true → Mv p ready (mkS (.loop st) b c cl h) (mkS (p.onEnd st) b c cl h)
  | drainEnd {e b c cl h} : cl .commits = true → Mv p ready (mkS (.drain e) b c cl h) (mkS (.joinRun none (some e)) b c cl h)
  | sent {k b c cl h} : Mv p ready (mkS (.sending [] k) b c cl h) (mkS k.loc b c cl h)
  | result {r rs k b n cache cl h} : cl .gitRes = false →
      Mv p ready (mkS (.sending (r :: rs) k) b (some (.codeRecv n cache)) cl h) (mkS (.sending rs k) b (some (p.onResult n cache r)) cl h)
  | closeCommits {a c cl h} : cl .commits = false → Mv p ready (mkS a (some (.parse [])) c cl h) (mkS a (some .parseDone) c (upd cl .commits true) h)
  | joinRun {w e c cl h} : Mv p ready (mkS (.joinRun w e) (some .parseDone) c cl h) (mkS (.closeGitRes w e) (some p.parserEnd) c cl h)
  | closeGitRes {w e b c cl h} : cl .gitRes = false → Mv p ready (mkS (.closeGitRes w e) b c cl h) (mkS (.joinByCommit w e) b c (upd cl .gitRes true) h)
  | codeStop {a b n cache cl h} : cl .gitRes = true → Mv p ready (mkS a b (some (.codeRecv n cache)) cl h) (mkS a b (some .codeDone) cl h)
  | joinByCommit {w e b cl h} : Mv p ready (mkS (.joinByCommit w e) b (some .codeDone) cl h) (mkS (.closeRes2 w e) b (some .codeEnd) cl h)
  | closeRes2 {w e b c cl h} : cl .res2 = false → Mv p ready (mkS (.closeRes2 w e) b c cl h) (mkS (.joinCode w e) b c (upd cl .res2 true) h)
  | closeBlames {a b n cache cl h} : cl (.blames n) = false →
      Mv p ready (mkS a b (some (.codeRecs n cache [])) cl h) (mkS a b (some (.codeRecv (n + 1) cache)) (upd cl (.blames n) true) h)
  | head {a b n cache x recs cl h} : ready h .commit → cl .res2 = false →
      Mv p ready (mkS a b (some (.codeHead n cache x recs)) cl h) (mkS a b (some (.codeRecs n cache recs)) cl (h ++ [.commit x n]))
  | record {a b n cache r recs cl h} : ready h (.blames n) → cl (.blames n) = false →
      Mv p ready (mkS a b (some (.codeRecs n cache (r :: recs))) cl h) (mkS a b (some (.codeRecs n cache recs)) cl (h ++ [.record n r]))
  | seeRes {a b c cl h} : ready h .commit → cl .res2 = true → Mv p ready (mkS a b c cl h) (mkS a b c cl (h ++ [.resClosed]))
  | seeBlames {a b c cl h i} : ready h (.blames i) → cl (.blames i) = true → Mv p ready (mkS a b c cl h) (mkS a b c cl (h ++ [.blamesClosed i]))

section inv
variable {p : Pipe τ} {l k : PLoc τ} {v : PVal τ} {f : Option (PVal τ) → PLoc τ}

theorem send_gitRes (h : p.act l = .send .gitRes v k) : ∃ r rs a, l = .sending (r :: rs) a ∧ v = .result r ∧ k = .sending rs a := by
  cases l with
  | sending rs a => cases rs <;> simp [Pipe.act] at h; obtain ⟨rfl, rfl⟩ := h; exact ⟨_, _, _, rfl, rfl, rfl⟩
  | parse rs => cases rs <;> simp [Pipe.act] at h
  | codeRecs _ _ rs => cases rs <;> simp [Pipe.act] at h
  | cByCommit => simp only [Pipe.act] at h; cases hp : p.pre <;> simp [hp] at h
  | cRun => simp only [Pipe.act] at h; cases hp : p.openErr <;> simp [hp] at h
  | _ => simp [Pipe.act] at h

theorem send_commits (h : p.act l = .send .commits v k) : ∃ r rs, l = .parse (r :: rs) ∧ v = .commit r ∧ k = .parse rs := by
  cases l with
  | sending rs a => cases rs <;> simp [Pipe.act] at h
  | parse rs => cases rs <;> simp [Pipe.act] at h; obtain ⟨rfl, rfl⟩ := h; exact ⟨_, _, rfl, rfl, rfl⟩
  | codeRecs _ _ rs => cases rs <;> simp [Pipe.act] at h
  | cByCommit => simp only [Pipe.act] at h; cases hp : p.pre <;> simp [hp] at h
  | cRun => simp only [Pipe.act] at h; cases hp : p.openErr <;> simp [hp] at h
  | _ => simp [Pipe.act] at h

theorem send_doneRun (h : p.act l = .send .doneRun v k) : l = .parseDone ∧ k = p.parserEnd := by
  cases l with
  | sending rs a => cases rs <;> simp [Pipe.act] at h
  | parse rs => cases rs <;> simp [Pipe.act] at h
  | codeRecs _ _ rs => cases rs <;> simp [Pipe.act] at h
  | cByCommit => simp only [Pipe.act] at h; cases hp : p.pre <;> simp [hp] at h
  | cRun => simp only [Pipe.act] at h; cases hp : p.openErr <;> simp [hp] at h
  | parseDone => simp only [Pipe.act] at h; injection h with h1 h2 h3; exact ⟨rfl, h3.symm⟩
  | _ => simp [Pipe.act] at h

theorem send_doneByCommit (h : p.act l = .send .doneByCommit v k) : l = .codeDone ∧ k = .codeEnd := by
  cases l with
  | sending rs a => cases rs <;> simp [Pipe.act] at h
  | parse rs => cases rs <;> simp [Pipe.act] at h
  | codeRecs _ _ rs => cases rs <;> simp [Pipe.act] at h
  | cByCommit => simp only [Pipe.act] at h; cases hp : p.pre <;> simp [hp] at h
  | cRun => simp only [Pipe.act] at h; cases hp : p.openErr <;> simp [hp] at h
  | _ => simp [Pipe.act] at h <;> (obtain ⟨rfl, rfl⟩ := h; exact ⟨rfl, rfl⟩)

theorem send_res2 (h : p.act l = .send .res2 v k) : ∃ n cache c recs, l = .codeHead n cache c recs ∧ v = .commitCode c n ∧ k = .codeRecs n cache recs := by
  cases l with
  | sending rs a => cases rs <;> simp [Pipe.act] at h
  | parse rs => cases rs <;> simp [Pipe.act] at h
  | codeRecs _ _ rs => cases rs <;> simp [Pipe.act] at h
  | cByCommit => simp only [Pipe.act] at h; cases hp : p.pre <;> simp [hp] at h
  | cRun => simp only [Pipe.act] at h; cases hp : p.openErr <;> simp [hp] at h
  | _ => simp [Pipe.act] at h <;> (obtain ⟨rfl, rfl⟩ := h; exact ⟨_, _, _, _, rfl, rfl, rfl⟩)

theorem send_blames {i : Nat} (h : p.act l = .send (.blames i) v k) : ∃ cache r recs, l = .codeRecs i cache (r :: recs) ∧ v = .record r ∧ k = .codeRecs i cache recs := by
  cases l with
  | sending rs a => cases rs <;> simp [Pipe.act] at h
  | parse rs => cases rs <;> simp [Pipe.act] at h
  | codeRecs _ _ rs => cases rs <;> simp [Pipe.act] at h; obtain ⟨rfl, rfl, rfl⟩ := h; exact ⟨_, _, _, rfl, rfl, rfl⟩
  | cByCommit => simp only [Pipe.act] at h; cases hp : p.pre <;> simp [hp] at h
  | cRun => simp only [Pipe.act] at h; cases hp : p.openErr <;> simp [hp] at h
  | _ => simp [Pipe.act] at h

theorem recv_commits (h : p.act l = .recv .commits f) : (∃ st, l = .loop st) ∨ ∃ e, l = .drain e := by
  cases l with
  | sending rs a => cases rs <;> simp [Pipe.act] at h
  | parse rs => cases rs <;> simp [Pipe.act] at h
  | codeRecs _ _ rs => cases rs <;> simp [Pipe.act] at h
  | cByCommit => simp only [Pipe.act] at h; cases hp : p.pre <;> simp [hp] at h
  | cRun => simp only [Pipe.act] at h; cases hp : p.openErr <;> simp [hp] at h
  | _ => simp [Pipe.act] at h <;> simp

theorem recv_gitRes (h : p.act l = .recv .gitRes f) : ∃ n cache, l = .codeRecv n cache := by
  cases l with
  | sending rs a => cases rs <;> simp [Pipe.act] at h
  | parse rs => cases rs <;> simp [Pipe.act] at h
  | codeRecs _ _ rs => cases rs <;> simp [Pipe.act] at h
  | cByCommit => simp only [Pipe.act] at h; cases hp : p.pre <;> simp [hp] at h
  | cRun => simp only [Pipe.act] at h; cases hp : p.openErr <;> simp [hp] at h
  | _ => simp [Pipe.act] at h <;> simp

theorem recv_doneRun (h : p.act l = .recv .doneRun f) : ∃ w e, l = .joinRun w e := by
  cases l with
  | sending rs a => cases rs <;> simp [Pipe.act] at h
  | parse rs => cases rs <;> simp [Pipe.act] at h
  | codeRecs _ _ rs => cases rs <;> simp [Pipe.act] at h
  | cByCommit => simp only [Pipe.act] at h; cases hp : p.pre <;> simp [hp] at h
  | cRun => simp only [Pipe.act] at h; cases hp : p.openErr <;> simp [hp] at h
  | _ => simp [Pipe.act] at h <;> simp

theorem recv_doneByCommit (h : p.act l = .recv .doneByCommit f) : ∃ w e, l = .joinByCommit w e := by
  cases l with
  | sending rs a => cases rs <;> simp [Pipe.act] at h
  | parse rs => cases rs <;> simp [Pipe.act] at h
  | codeRecs _ _ rs => cases rs <;> simp [Pipe.act] at h
  | cByCommit => simp only [Pipe.act] at h; cases hp : p.pre <;> simp [hp] at h
  | cRun => simp only [Pipe.act] at h; cases hp : p.openErr <;> simp [hp] at h
  | _ => simp [Pipe.act] at h <;> simp

end inv

/-- The phase of the caller. -/
def PLoc.ph : PLoc τ → Nat
  | .cByCommit => 0 | .cRun => 1 | .loop _ => 2 | .sending _ _ => 2 | .drain _ => 2 | .joinRun _ _ => 3 | .closeGitRes _ _ => 4 | .joinByCommit _ _ => 5
  | .closeRes2 _ _ => 6 | .joinCode _ _ => 7 | .panicked _ => 8 | _ => 9

/-- The roles of the parts. -/
structure Parts (a : PLoc τ) (b c : Option (PLoc τ)) (cl : PChan → Bool) : Prop where
  ra : a.role = .caller
  rb : ∀ l, b = some l → l.role = .parser
  rc : ∀ l, c = some l → l.role = .code
  ph9 : a.ph ≠ 9
  doneRun : cl .doneRun = false
  doneByCommit : cl .doneByCommit = false
  doneCode : cl .doneCode = false
  doneSlice : cl .doneSlice = false

theorem Parts.placed {a : PLoc τ} {b c : Option (PLoc τ)} {cl : PChan → Bool} (h : Parts a b c cl) : Placed PLoc.role (pst (some a) b c none none cl) := by
  intro r l hl
  cases r with
  | caller => cases hl; exact h.ra
  | parser => exact h.rb l hl
  | code => exact h.rc l hl
  | flat => cases hl
  | collect => cases hl

theorem mk_ext {a a' : PLoc τ} {b b' c c' : Option (PLoc τ)} {cl cl' : PChan → Bool} {h h' : List (CodeSeen τ)} (e1 : a = a') (e2 : b = b') (e3 : c = c') (e4 : cl = cl') (e5 : h = h') :
    mkS a b c cl h = mkS a' b' c' cl' h' := by subst e1 e2 e3 e4 e5; rfl

theorem SState.ext' {s : State PRole PChan (PLoc τ)} {h : List (CodeSeen τ)} {a : PLoc τ} {b c : Option (PLoc τ)} {cl : PChan → Bool} (h1 : s.procs .caller = some a)
    (h2 : s.procs .parser = b) (h3 : s.procs .code = c) (h4 : s.procs .flat = none) (h5 : s.procs .collect = none) (h6 : s.closed = cl) :
    (⟨s, h⟩ : SState τ) = mkS a b c cl h := by
  unfold mkS
  congr 1
  exact pst_ext h1 h2 h3 h4 h5 h6

/-- Every step is one of the moves. -/
theorem mv_of_step {p : Pipe τ} {ready : List (CodeSeen τ) → Want → Prop} {a : PLoc τ} {b c : Option (PLoc τ)} {cl : PChan → Bool} {h : List (CodeSeen τ)} {y : SState τ}
    (hp : Parts a b c cl) (hs : SStep p ready (mkS a b c cl h) y) : Mv p ready (mkS a b c cl h) y := by
  have hpl := hp.placed
  unfold mkS at hs
  generalize hS : pst (some a) b c none none cl = S at hs
  cases hs with
  | inner hst =>
    cases hst with
    | @tau r l k h1 h2 =>
      have hr := hpl r l (by rw [hS]; exact h1)
      rw [(pipe_tau p h2).1] at hr
      subst hr hS
      cases h1
      cases a with
      | sending rs k' =>
        cases rs <;> simp [Pipe.act] at h2
        subst h2
        rw [SState.ext' (a := PAfter.loc k') (b := b) (c := c) (cl := cl) rfl rfl rfl rfl rfl rfl]
        exact .sent
      | parse rs => cases rs <;> simp [Pipe.act] at h2
      | codeRecs _ _ rs => cases rs <;> simp [Pipe.act] at h2
      | cByCommit =>
        simp only [Pipe.act] at h2; cases hp : p.pre <;> simp [hp] at h2; subst h2
        rename_i e
        rw [SState.ext' (a := .closeRes2 none (some (.error e))) (b := b) (c := c) (cl := cl) rfl rfl rfl rfl rfl rfl]
        exact .preErr hp
      | cRun =>
        simp only [Pipe.act] at h2; cases hp : p.openErr <;> simp [hp] at h2; subst h2
        rename_i e
        rw [SState.ext' (a := .closeGitRes none (some (.error e))) (b := b) (c := c) (cl := cl) rfl rfl rfl rfl rfl rfl]
        exact .openErr hp
      | _ => simp [Pipe.act] at h2
    | @sync pr q l m ch v k f h1 h2 h3 h4 h5 =>
      have hl := hpl pr l (by rw [hS]; exact h1)
      have hm := hpl q m (by rw [hS]; exact h3)
      have hwr := (pipe_send p h2).1.trans hl
      have hrd := (pipe_recv p h4).1.trans hm
      subst hS
      cases ch with
      | res => simp only [PChan.wr] at hwr; subst hwr; cases h1
      | res2 => simp only [PChan.rd] at hrd; subst hrd; cases h3
      | blames i => simp only [PChan.rd] at hrd; subst hrd; cases h3
      | doneCode => simp only [PChan.wr] at hwr; subst hwr; cases h1
      | doneSlice => simp only [PChan.wr] at hwr; subst hwr; cases h1
      | gitRes =>
        simp only [PChan.wr] at hwr; simp only [PChan.rd] at hrd; subst hwr hrd
        obtain ⟨r, rs, k', rfl, rfl, rfl⟩ := send_gitRes h2
        obtain ⟨n, cache, rfl⟩ := recv_gitRes h4
        simp only [Pipe.act] at h4; cases h4
        cases h1; cases h3
        rw [SState.ext' (a := .sending rs k') (b := b) (c := some (p.onResult n cache r)) (cl := cl) rfl rfl rfl rfl rfl rfl]
        exact .result h5
      | commits =>
        simp only [PChan.wr] at hwr; simp only [PChan.rd] at hrd; subst hwr hrd
        obtain ⟨r, rs, rfl, rfl, rfl⟩ := send_commits h2
        rcases recv_commits h4 with ⟨st, rfl⟩ | ⟨e, rfl⟩
        · simp only [Pipe.act] at h4; cases h4
          cases h1; cases h3
          rw [SState.ext' (a := p.onFirst st r) (b := some (.parse rs)) (c := c) (cl := cl) rfl rfl rfl rfl rfl rfl]
          exact .recvCommit h5
        · simp only [Pipe.act] at h4; cases h4
          cases h1; cases h3
          rw [SState.ext' (a := .drain e) (b := some (.parse rs)) (c := c) (cl := cl) rfl rfl rfl rfl rfl rfl]
          exact .drainCommit h5
      | doneRun =>
        simp only [PChan.wr] at hwr; simp only [PChan.rd] at hrd; subst hwr hrd
        obtain ⟨rfl, rfl⟩ := send_doneRun h2
        obtain ⟨w, e, rfl⟩ := recv_doneRun h4
        simp only [Pipe.act] at h4; cases h4
        cases h1; cases h3
        rw [SState.ext' (a := .closeGitRes w e) (b := some p.parserEnd) (c := c) (cl := cl) rfl rfl rfl rfl rfl rfl]
        exact .joinRun
      | doneByCommit =>
        simp only [PChan.wr] at hwr; simp only [PChan.rd] at hrd; subst hwr hrd
        obtain ⟨rfl, rfl⟩ := send_doneByCommit h2
        obtain ⟨w, e, rfl⟩ := recv_doneByCommit h4
        simp only [Pipe.act] at h4; cases h4
        cases h1; cases h3
        rw [SState.ext' (a := .closeRes2 w e) (b := b) (c := some .codeEnd) (cl := cl) rfl rfl rfl rfl rfl rfl]
        exact .joinByCommit
    | @recvClosed q m ch f h1 h2 h3 =>
      have hm := hpl q m (by rw [hS]; exact h1)
      have hrd := (pipe_recv p h2).1.trans hm
      subst hS
      cases ch with
      | res => simp only [PChan.rd] at hrd; subst hrd; cases h1
      | res2 => simp only [PChan.rd] at hrd; subst hrd; cases h1
      | blames i => simp only [PChan.rd] at hrd; subst hrd; cases h1
      | doneRun => rw [show (pst (some a) b c none none cl).closed .doneRun = cl .doneRun from rfl, hp.doneRun] at h3; cases h3
      | doneByCommit => rw [show (pst (some a) b c none none cl).closed .doneByCommit = cl .doneByCommit from rfl, hp.doneByCommit] at h3; cases h3
      | doneCode => rw [show (pst (some a) b c none none cl).closed .doneCode = cl .doneCode from rfl, hp.doneCode] at h3; cases h3
      | doneSlice => rw [show (pst (some a) b c none none cl).closed .doneSlice = cl .doneSlice from rfl, hp.doneSlice] at h3; cases h3
      | gitRes =>
        simp only [PChan.rd] at hrd; subst hrd
        obtain ⟨n, cache, rfl⟩ := recv_gitRes h2
        simp only [Pipe.act] at h2; cases h2
        cases h1
        rw [SState.ext' (a := a) (b := b) (c := some .codeDone) (cl := cl) rfl rfl rfl rfl rfl rfl]
        exact .codeStop h3
      | commits =>
        simp only [PChan.rd] at hrd; subst hrd
        rcases recv_commits h2 with ⟨st, rfl⟩ | ⟨e, rfl⟩
        · simp only [Pipe.act] at h2; cases h2
          cases h1
          rw [SState.ext' (a := p.onEnd st) (b := b) (c := c) (cl := cl) rfl rfl rfl rfl rfl rfl]
          exact .loopEnd h3
        · simp only [Pipe.act] at h2; cases h2
          cases h1
          rw [SState.ext' (a := .joinRun none (some e)) (b := b) (c := c) (cl := cl) rfl rfl rfl rfl rfl rfl]
          exact .drainEnd h3
    | @close r l ch k h1 h2 h3 =>
      have hr := hpl r l (by rw [hS]; exact h1)
      subst hS
      cases l with
      | sending rs k' => cases rs <;> simp [Pipe.act] at h2
      | cByCommit => simp only [Pipe.act] at h2; cases hp : p.pre <;> simp [hp] at h2
      | cRun => simp only [Pipe.act] at h2; cases hp : p.openErr <;> simp [hp] at h2
      | parse rs =>
        cases rs <;> simp [Pipe.act] at h2
        obtain ⟨rfl, rfl⟩ := h2
        simp only [PLoc.role] at hr; subst hr
        cases h1
        rw [SState.ext' (a := a) (b := some .parseDone) (c := c) (cl := upd cl .commits true) rfl rfl rfl rfl rfl rfl]
        exact .closeCommits h3
      | codeRecs n cache rs =>
        cases rs <;> simp [Pipe.act] at h2
        obtain ⟨rfl, rfl⟩ := h2
        simp only [PLoc.role] at hr; subst hr
        cases h1
        rw [SState.ext' (a := a) (b := b) (c := some (.codeRecv (n + 1) cache)) (cl := upd cl (.blames n) true) rfl rfl rfl rfl rfl rfl]
        exact .closeBlames h3
      | closeGitRes w e =>
        simp [Pipe.act] at h2
        obtain ⟨rfl, rfl⟩ := h2
        simp only [PLoc.role] at hr; subst hr
        cases h1
        rw [SState.ext' (a := .joinByCommit w e) (b := b) (c := c) (cl := upd cl .gitRes true) rfl rfl rfl rfl rfl rfl]
        exact .closeGitRes h3
      | closeRes2 w e =>
        simp [Pipe.act] at h2
        obtain ⟨rfl, rfl⟩ := h2
        simp only [PLoc.role] at hr; subst hr
        cases h1
        rw [SState.ext' (a := .joinCode w e) (b := b) (c := c) (cl := upd cl .res2 true) rfl rfl rfl rfl rfl rfl]
        exact .closeRes2 h3
      | closeRes w e =>
        simp only [PLoc.role] at hr; subst hr
        cases h1
        exact absurd rfl hp.ph9
      | _ => simp [Pipe.act] at h2
    | @go r l n g k h1 h2 h3 =>
      have hr := hpl r l (by rw [hS]; exact h1)
      rw [← (pipe_go p h2).1] at hr
      subst hr hS
      cases h1
      cases a with
      | cSlice => exact absurd rfl hp.ph9
      | cCode => exact absurd rfl hp.ph9
      | cByCommit =>
        simp only [Pipe.act] at h2; cases hq : p.pre <;> simp [hq] at h2
        obtain ⟨rfl, rfl, rfl⟩ := h2
        have hc : c = none := h3
        subst hc
        rw [SState.ext' (a := .cRun) (b := b) (c := some (.codeRecv 0 [])) (cl := cl) rfl rfl rfl rfl rfl rfl]
        exact .startCode hq
      | cRun =>
        simp only [Pipe.act] at h2; cases hq : p.openErr <;> simp [hq] at h2
        obtain ⟨rfl, rfl, rfl⟩ := h2
        have hc : b = none := h3
        subst hc
        rw [SState.ext' (a := .loop none) (b := some (.parse (parseSent p.text).1)) (c := c) (cl := cl) rfl rfl rfl rfl rfl rfl]
        exact .startParser hq
      | sending rs k' => cases rs <;> simp [Pipe.act] at h2
      | parse rs => cases rs <;> simp [Pipe.act] at h2
      | codeRecs _ _ rs => cases rs <;> simp [Pipe.act] at h2
      | _ => simp [Pipe.act] at h2
    | wait h1 h2 h3 => exact (pipe_wait p h2).elim
  | @commit _ _ r l x i k hr h1 h2 h3 =>
    have hl := hpl r l (by rw [hS]; exact h1)
    have hwr := (pipe_send p h2).1.trans hl
    simp only [PChan.wr] at hwr
    subst hwr hS
    obtain ⟨n, cache, x', recs, rfl, hv, rfl⟩ := send_res2 h2
    cases hv
    cases h1
    rw [SState.ext' (a := a) (b := b) (c := some (.codeRecs i cache recs)) (cl := cl) rfl rfl rfl rfl rfl rfl]
    exact .head hr h3
  | @record _ _ r l i v k hr h1 h2 h3 =>
    have hl := hpl r l (by rw [hS]; exact h1)
    have hwr := (pipe_send p h2).1.trans hl
    simp only [PChan.wr] at hwr
    subst hwr hS
    obtain ⟨cache, x', recs, rfl, hv, rfl⟩ := send_blames h2
    cases hv
    cases h1
    rw [SState.ext' (a := a) (b := b) (c := some (.codeRecs i cache recs)) (cl := cl) rfl rfl rfl rfl rfl rfl]
    exact .record hr h3
  | resClosed hr h3 => subst hS; exact .seeRes hr h3
  | blamesClosed hr h3 => subst hS; exact .seeBlames hr h3

/-! ### What is still to come -/

/-- How a fault ends: an error is returned, a panic is not. -/
def Fault.fate : Fault → Option (Option (Repo × Str) × Option Fault)
  | .error w => some (none, some (.error w))
  | .panic _ => none

/-- The results that the loop of `Run` still sends, and what it returns (`none`: it panics). -/
def Pipe.futSome (p : Pipe τ) (s : Proc) (cs : List LogCommit) : List Result × Option (Option (Repo × Str) × Option Fault) :=
  match s.loop p.env cs with
  | (s', some e) => (s'.sent.drop s.sent.length, e.fate)
  | (s', none) =>
    if s'.mergeParts.length > 0 then
      match s'.finishMerge p.env with
      | .error _ => (s'.sent.drop s.sent.length, none)
      | .ok s2 => (s2.sent.drop s.sent.length, some (some (s2.repo, s2.lastProcessed), p.writeErr.map .error))
    else (s'.sent.drop s.sent.length, some (some (s'.repo, s'.lastProcessed), p.writeErr.map .error))

def Pipe.futLoop (p : Pipe τ) : Option Proc → List LogCommit → List Result × Option (Option (Repo × Str) × Option Fault)
  | some s, cs => p.futSome s cs
  | none, [] => ([], some (none, none))
  | none, c :: cs => match initCheckpoints p.opts p.read with
    | .error e => ([], e.fate)
    | .ok repo => p.futSome { graph := p.graph, repo := repo } (c :: cs)

def Pipe.futK (p : Pipe τ) : PAfter → List LogCommit → List Result × Option (Option (Repo × Str) × Option Fault)
  | .loop s, cs => p.futSome s cs
  | .drain e, _ => ([], some (none, some e))
  | .panic, _ => ([], none)
  | .end w e, _ => ([], some (w, e))

/-- The results that the caller still sends, and what it returns. -/
def Pipe.fut (p : Pipe τ) : PLoc τ → List LogCommit → List Result × Option (Option (Repo × Str) × Option Fault)
  | .cByCommit, cs => match p.pre with
    | some e => ([], some (none, some (.error e)))
    | none => match p.openErr with
      | some e => ([], some (none, some (.error e)))
      | none => p.futLoop none cs
  | .cRun, cs => match p.openErr with
      | some e => ([], some (none, some (.error e)))
      | none => p.futLoop none cs
  | .loop st, cs => p.futLoop st cs
  | .sending rs k, cs => (rs ++ (p.futK k cs).1, (p.futK k cs).2)
  | .drain e, _ => ([], some (none, some e))
  | .joinRun w e, _ | .closeGitRes w e, _ | .joinByCommit w e, _ | .closeRes2 w e, _ | .joinCode w e, _ => ([], some (w, e))
  | _, _ => ([], none)

theorem fut_loc (p : Pipe τ) (k : PAfter) (cs : List LogCommit) : p.fut k.loc cs = p.futK k cs := by cases k <;> rfl

theorem futK_fault (p : Pipe τ) (e : Fault) (cs : List LogCommit) : p.futK (.fault e) cs = ([], e.fate) := by cases e <;> rfl

theorem fut_onCommit (p : Pipe τ) (s : Proc) (c : LogCommit) (cs : List LogCommit) : p.fut (p.onCommit s c) cs = p.futSome s (c :: cs) := by
  unfold Pipe.onCommit Pipe.futSome
  rw [Proc.loop]
  cases hc : s.commit p.env c with
  | mk s1 f =>
    have h1 := commit_prefix hc
    cases f with
    | some e => simp [Pipe.fut, futK_fault]
    | none =>
      simp only [Pipe.fut, Pipe.futK, Pipe.futSome]
      cases hl : s1.loop p.env cs with
      | mk s2 f2 =>
        have h2 := loop_prefix _ hl
        have h3 := drop_split h1 h2
        cases f2 with
        | some e => simp [h3]
        | none =>
          simp only
          by_cases hm : s2.mergeParts.length > 0
          · simp only [if_pos hm]
            cases hf : s2.finishMerge p.env with
            | error e => simp [h3]
            | ok s3 =>
              simp only
              rw [drop_split h1 (prefix_trans h2 (finishMerge_prefix hf))]
          · simp [if_neg hm, h3]

theorem fut_onFirst (p : Pipe τ) (st : Option Proc) (c : LogCommit) (cs : List LogCommit) : p.fut (p.onFirst st c) cs = p.futLoop st (c :: cs) := by
  cases st with
  | some s => exact fut_onCommit p s c cs
  | none =>
    unfold Pipe.onFirst Pipe.futLoop
    cases initCheckpoints p.opts p.read with
    | error e => simp [Pipe.fut, futK_fault]
    | ok repo => exact fut_onCommit p _ c cs

theorem fut_onEnd (p : Pipe τ) (st : Option Proc) : p.fut (p.onEnd st) [] = p.futLoop st [] := by
  cases st with
  | none => rfl
  | some s =>
    simp only [Pipe.onEnd, Pipe.futLoop, Pipe.futSome, Proc.loop]
    by_cases hm : s.mergeParts.length > 0
    · simp only [if_pos hm]
      cases hf : s.finishMerge p.env with
      | error e => simp [Pipe.fut]
      | ok s3 => simp [Pipe.fut, Pipe.futK]
    · simp [if_neg hm, Pipe.fut]

/-- All results of a call. -/
def Pipe.results (p : Pipe τ) : List Result := match p.pre, p.openErr with
  | none, none => p.out.sent
  | _, _ => []

theorem futLoop_run (p : Pipe τ) (hpre : p.pre = none) (hopen : p.openErr = none) (log : List LogCommit) (hlog : (parseSent p.text).1 = log) :
    (p.futLoop none log).1 = p.out.sent ∧ ((∀ w, p.out.fault ≠ some (.panic w)) → (p.futLoop none log).2 = some (p.out.written, p.err)) := by
  simp only [Pipe.out, Pipe.err, hpre, hopen, hlog]
  cases log with
  | nil => simp [Pipe.futLoop, run]
  | cons c cs =>
    simp only [Pipe.futLoop, run]
    cases hi : initCheckpoints p.opts p.read with
    | error e => cases e <;> simp [Fault.fate]
    | ok repo =>
      simp only [Pipe.futSome]
      cases hl : Proc.loop p.env { graph := p.graph, repo := repo } (c :: cs) with
      | mk s f =>
        cases f with
        | some e => cases e <;> simp [Fault.fate]
        | none =>
          simp only
          by_cases hm : s.mergeParts.length > 0
          · simp only [if_pos hm]
            cases hf : s.finishMerge p.env with
            | error e =>
              have : ∃ w, e = .panic w := by
                unfold Proc.finishMerge at hf
                split at hf <;> cases hf
                exact ⟨_, rfl⟩
              obtain ⟨w, rfl⟩ := this
              simp
            | ok s3 => simp
          · simp [if_neg hm]

theorem futLoop_panic (p : Pipe τ) (hpre : p.pre = none) (hopen : p.openErr = none) {w : String} (hp : p.out.fault = some (.panic w)) :
    (p.futLoop none (parseSent p.text).1).2 = none := by
  simp only [Pipe.out] at hp
  cases hlog : (parseSent p.text).1 with
  | nil => rw [hlog] at hp; cases hp
  | cons c cs =>
    simp only [Pipe.futLoop]
    simp only [hlog, run] at hp
    cases hi : initCheckpoints p.opts p.read with
    | error e => rw [hi] at hp; cases hp; rfl
    | ok repo =>
      simp only [hi] at hp
      simp only [Pipe.futSome]
      cases hl : Proc.loop p.env { graph := p.graph, repo := repo } (c :: cs) with
      | mk s f =>
        cases f with
        | some e => rw [hl] at hp; cases hp; rfl
        | none =>
          simp only [hl] at hp
          simp only
          by_cases hm : s.mergeParts.length > 0
          · simp only [if_pos hm] at hp ⊢
            cases hf : s.finishMerge p.env with
            | error e => rfl
            | ok s3 => rw [hf] at hp; cases hp
          · simp [if_neg hm] at hp

theorem fut_init (p : Pipe τ) : (p.fut .cByCommit (parseSent p.text).1).1 = p.results ∧
    ((p.pre = none → p.openErr = none → ∀ w, p.out.fault ≠ some (.panic w)) →
      (p.fut .cByCommit (parseSent p.text).1).2 = some (if p.pre = none ∧ p.openErr = none then p.out.written else none, p.err)) := by
  unfold Pipe.fut Pipe.results
  cases hpre : p.pre with
  | some e => simp [Pipe.err, hpre]
  | none =>
    cases hopen : p.openErr with
    | some e => simp [Pipe.err, hpre, hopen]
    | none =>
      have := futLoop_run p hpre hopen _ rfl
      refine ⟨this.1, fun h => ?_⟩
      simpa using this.2 (h rfl rfl)

/-! ### What the goroutine of `CodeByCommit` sends -/

/-- The commits with their records, up to the first panic. -/
def Pipe.streamed (p : Pipe τ) : Nat → GoMap Str Str → List Result → List (MetaCommit τ × List (CodeRecord τ))
  | _, _, [] => []
  | n, cache, r :: rs => match GoMap.get p.metas r.commit with
    | none => []
    | some c => match codeInfoFiles p.cl p.scc (p.orders n) p.metas cache r with
      | .error _ => []
      | .ok (recs, cache) => (c, recs) :: p.streamed (n + 1) cache rs

theorem streamed_ok (p : Pipe τ) : ∀ (rs : List Result) (n : Nat) (cache : GoMap Str Str) (out : List (MetaCommit τ × List (CodeRecord τ))),
    codeByCommit p.cl p.scc p.orders p.metas n cache rs = .ok out ↔ (p.streamed n cache rs = out ∧ out.length = rs.length) := by
  intro rs
  induction rs with
  | nil =>
    intro n cache out
    simp only [codeByCommit, Pipe.streamed, Except.ok.injEq, List.length_nil, List.length_eq_zero_iff]
    exact ⟨fun h => ⟨h, h ▸ rfl⟩, fun h => h.1⟩
  | cons r rs ih =>
    intro n cache out
    simp only [codeByCommit, Pipe.streamed]
    cases hm : GoMap.get p.metas r.commit with
    | none => simp; intro h; subst h; simp
    | some c =>
      simp only [bind, Except.bind, pure, Except.pure]
      cases hf : codeInfoFiles p.cl p.scc (p.orders n) p.metas cache r with
      | error e => simp; intro h; subst h; simp
      | ok x =>
        obtain ⟨recs, cache1⟩ := x
        simp only
        cases hr : codeByCommit p.cl p.scc p.orders p.metas (n + 1) cache1 rs with
        | error e =>
          simp only [reduceCtorEq, List.length_cons, false_iff, not_and]
          intro h hl
          subst h
          have := (ih (n + 1) cache1 _).2 ⟨rfl, by simpa using hl⟩
          rw [hr] at this
          cases this
        | ok o =>
          obtain ⟨h1, h2⟩ := (ih (n + 1) cache1 o).1 hr
          simp only [Except.ok.injEq, h1]
          exact ⟨fun h => ⟨h, by subst h; simp [h2]⟩, fun h => h.1⟩

open Spec

theorem streamFrom_append {M R : Type} : ∀ (x y : List (M × List R)) (i : Nat), streamFrom i (x ++ y) = streamFrom i x ++ streamFrom (i + x.length) y
  | [], y, i => by simp [streamFrom]
  | (c, rs) :: x, y, i => by
    simp only [List.cons_append, streamFrom, streamFrom_append x y (i + 1), List.length_cons, List.append_assoc]
    rw [show i + 1 + x.length = i + (x.length + 1) by omega]

theorem commitStream_split {M R : Type} {out : List (M × List R)} {n : Nat} {c : M} {rs : List R} {rest : List (M × List R)} (h : (c, rs) :: rest = out.drop n) :
    n < out.length ∧ stream out = stream (out.take n) ++ .commit c n :: rs.map (Seen.record n) ++ streamFrom (n + 1) rest ∧
      stream (out.take (n + 1)) = stream (out.take n) ++ .commit c n :: rs.map (Seen.record n) ∧ rest = out.drop (n + 1) := by
  have hn : n < out.length := by
    have := congrArg List.length h
    simp at this
    omega
  have hrest : rest = out.drop (n + 1) := by
    have := congrArg List.tail h
    simpa using this
  have hlen : (out.take n).length = n := by simp; omega
  refine ⟨hn, ?_, ?_, hrest⟩
  · have : out = out.take n ++ ((c, rs) :: rest) := by rw [h]; simp
    have h2 := congrArg (streamFrom 0) this
    rw [streamFrom_append, hlen, Nat.zero_add] at h2
    simp only [streamFrom] at h2
    unfold stream
    rw [h2]; simp
  · have : out.take (n + 1) = out.take n ++ [(c, rs)] := by
      rw [List.take_add_one]
      congr 1
      have : out[n]? = some (c, rs) := by
        have := congrArg List.head? h
        simpa using this.symm
      rw [this]; rfl
    have h2 := congrArg (streamFrom 0) this
    rw [streamFrom_append, hlen, Nat.zero_add] at h2
    simp only [streamFrom, List.append_nil] at h2
    exact h2

/-- Where the goroutine of `CodeByCommit` is: `F` are the results that it has not received, `n` is the number of channels `Blames` that it has closed, `R` is what
it has sent to the consumer. -/
inductive CodeAt (p : Pipe τ) (out : List (MetaCommit τ × List (CodeRecord τ))) : List Result → Option (PLoc τ) → Nat → List (CodeSeen τ) → Prop where
  | none {F} : p.streamed 0 [] F = out → F.length = p.results.length → CodeAt p out F none 0 []
  | recv {F n cache} : p.streamed n cache F = out.drop n → n ≤ out.length → F.length + n = p.results.length →
      CodeAt p out F (some (.codeRecv n cache)) n (stream (out.take n))
  | head {F n cache c recs} : (c, recs) :: p.streamed (n + 1) cache F = out.drop n → F.length + n + 1 = p.results.length →
      CodeAt p out F (some (.codeHead n cache c recs)) n (stream (out.take n))
  | recs {F n cache c done recs} : (c, done ++ recs) :: p.streamed (n + 1) cache F = out.drop n → F.length + n + 1 = p.results.length →
      CodeAt p out F (some (.codeRecs n cache recs)) n (stream (out.take n) ++ .commit c n :: done.map (Seen.record n))
  | done {F} : F = [] → out.length = p.results.length → CodeAt p out F (some .codeDone) out.length (stream out)
  | ended {F} : F = [] → out.length = p.results.length → CodeAt p out F (some .codeEnd) out.length (stream out)
  | panicked {F} : out.length < p.results.length → CodeAt p out F (some (.panicked .code)) out.length (stream out)

/-- The caller has not seen the end of the commits. -/
def PLoc.running : PLoc τ → Bool
  | .loop _ | .drain _ | .panicked _ => true
  | .sending _ (.end _ _) => false
  | .sending _ _ => true
  | _ => false

/-- The commits that the log parser has not sent. -/
def Pipe.todo (p : Pipe τ) : Option (PLoc τ) → List LogCommit
  | none => (parseSent p.text).1
  | some (.parse cs) => cs
  | _ => []

def ParOk (p : Pipe τ) (a : PLoc τ) (cl : PChan → Bool) : Option (PLoc τ) → Prop
  | none => cl .commits = false ∧ (a.ph = 0 ∨ a.ph = 1 ∨ a.ph = 4 ∨ a.ph = 5 ∨ a.ph = 6 ∨ a.ph = 7)
  | some (.parse _) => cl .commits = false ∧ a.running = true
  | some .parseDone => cl .commits = true ∧ (a.ph = 2 ∨ a.ph = 3 ∨ a.ph = 8)
  | some l => l = p.parserEnd ∧ (a.ph = 4 ∨ a.ph = 5 ∨ a.ph = 6 ∨ a.ph = 7)

def CodOk (a : PLoc τ) (cl : PChan → Bool) : Option (PLoc τ) → Prop
  | none => cl .gitRes = false ∧ (a.ph = 0 ∨ a.ph = 6 ∨ a.ph = 7)
  | some .codeDone => cl .gitRes = true ∧ a.ph = 5
  | some .codeEnd => cl .gitRes = true ∧ (a.ph = 6 ∨ a.ph = 7)
  | some _ => (a.ph = 1 ∨ a.ph = 2 ∨ a.ph = 3 ∨ a.ph = 4 ∨ a.ph = 5 ∨ a.ph = 8) ∧ (cl .gitRes = true ↔ a.ph = 5)

/-- The invariant. -/
structure SInv (p : Pipe τ) (out : List (MetaCommit τ × List (CodeRecord τ))) (a : PLoc τ) (b c : Option (PLoc τ)) (cl : PChan → Bool) (h : List (CodeSeen τ)) : Prop where
  parts : Parts a b c cl
  par : ParOk p a cl b
  cod : CodOk a cl c
  res2 : cl .res2 = true ↔ a.ph = 7
  data : ∃ n R, CodeAt p out (p.fut a (p.todo b)).1 c n R ∧ received h = R ∧ ∀ i, cl (.blames i) = true ↔ i < n
  fate : (p.fut a (p.todo b)).2 = (p.fut .cByCommit (parseSent p.text).1).2
  hb : ∀ i, Seen.blamesClosed i ∈ h → cl (.blames i) = true
  hr : Seen.resClosed ∈ h → cl .res2 = true

theorem CodeAt.prefix {p : Pipe τ} {out F c n R} (h : CodeAt p out F c n R) : R <+: stream out ∧ n ≤ out.length ∧ ∀ i, i < n → stream (out.take (i + 1)) <+: R := by
  have mono : ∀ {i m : Nat}, i ≤ m → (stream (out.take i)) <+: stream (out.take m) := by
    intro i m him
    refine ⟨streamFrom (0 + (out.take i).length) ((out.take m).drop i), ?_⟩
    unfold stream
    rw [← streamFrom_append]
    congr 1
    have : out.take i = (out.take m).take i := by rw [List.take_take]; congr 1; omega
    rw [this]; simp
  have full : ∀ {i : Nat}, (stream (out.take i)) <+: stream out := by
    intro i
    have := mono (i := i) (m := max i out.length) (by omega)
    rwa [List.take_of_length_le (l := out) (i := max i out.length) (by omega)] at this
  cases h with
  | none h => exact ⟨List.nil_prefix, by omega, by simp⟩
  | recv h1 h2 => exact ⟨full, h2, fun i hi => mono hi⟩
  | head h1 => exact ⟨full, by have := (commitStream_split h1).1; omega, fun i hi => mono hi⟩
  | recs h1 =>
    obtain ⟨a, b, _, _⟩ := commitStream_split h1
    refine ⟨?_, by omega, fun i hi => (mono hi).trans (List.prefix_append _ _)⟩
    rw [b, List.map_append, List.append_assoc, List.prefix_append_right_inj, List.cons_append, List.append_assoc]
    exact (List.prefix_cons_inj _).2 (List.prefix_append _ _)
  | done => exact ⟨List.prefix_refl _, Nat.le_refl _, fun i hi => full⟩
  | ended => exact ⟨List.prefix_refl _, Nat.le_refl _, fun i hi => full⟩
  | panicked => exact ⟨List.prefix_refl _, Nat.le_refl _, fun i hi => full⟩

theorem SInv.right {p : Pipe τ} {out a b c cl h} (hI : SInv p out a b c cl h) : RightHistory out h := by
  obtain ⟨n, R, hd, hR, hcl⟩ := hI.data
  obtain ⟨h1, h2, h3⟩ := hd.prefix
  refine ⟨hR ▸ h1, ?_, ?_⟩
  · intro i hi
    have := (hcl i).1 (hI.hb i hi)
    exact ⟨by omega, hR ▸ h3 i this⟩
  · intro hi
    have h7 := hI.res2.1 (hI.hr hi)
    have hc := hI.cod
    rw [hR]
    have hF : (p.fut a (p.todo b)).1 = [] := by
      have := hI.parts.ra
      cases a <;> simp [PLoc.ph] at h7
      rfl
    rw [hF] at hd
    cases hd with
    | none h => rw [← h]; rfl
    | done => rfl
    | ended => rfl
    | _ => simp [CodOk, h7] at hc

theorem mkS_inj {a a' : PLoc τ} {b b' c c' : Option (PLoc τ)} {cl cl' : PChan → Bool} {h h' : List (CodeSeen τ)} (e : mkS a b c cl h = mkS a' b' c' cl' h') :
    a = a' ∧ b = b' ∧ c = c' ∧ cl = cl' ∧ h = h' := by
  unfold mkS at e
  injection e with e1 e2
  have ep := congrArg State.procs e1
  have ec := congrArg State.closed e1
  have e3 := congrFun ep .caller
  have e4 := congrFun ep .parser
  have e5 := congrFun ep .code
  refine ⟨?_, e4, e5, ec, e2⟩
  injection e3

theorem received_append {M R : Type} (h : List (Seen M R)) (o : Seen M R) : received (h ++ [o]) = received h ++ (if o.isValue then [o] else []) := by
  unfold received
  rw [List.filter_append]
  congr 1
  cases o <;> rfl

theorem running_ph {a : PLoc τ} (h : a.running = true) : a.ph = 2 ∨ a.ph = 8 := by
  cases a <;> simp [PLoc.running] at h <;> simp [PLoc.ph]

theorem onFirst_running (p : Pipe τ) (st : Option Proc) (c : LogCommit) : (p.onFirst st c).running = true ∧ (p.onFirst st c).ph = 2 := by
  have hc : ∀ s : Proc, (p.onCommit s c).running = true ∧ (p.onCommit s c).ph = 2 := by
    intro s
    unfold Pipe.onCommit
    cases s.commit p.env c with
    | mk s' f => cases f with
      | none => exact ⟨rfl, rfl⟩
      | some e => cases e <;> exact ⟨rfl, rfl⟩
  cases st with
  | some s => exact hc s
  | none =>
    unfold Pipe.onFirst
    cases initCheckpoints p.opts p.read with
    | ok r => exact hc _
    | error e => cases e <;> exact ⟨rfl, rfl⟩

theorem onEnd_ph (p : Pipe τ) (st : Option Proc) : (p.onEnd st).ph = 2 ∨ (p.onEnd st).ph = 3 ∨ (p.onEnd st).ph = 8 := by
  cases st with
  | none => exact .inr (.inl rfl)
  | some s =>
    by_cases h : s.mergeParts.length > 0
    · simp only [Pipe.onEnd, if_pos h]
      cases s.finishMerge p.env <;> simp [PLoc.ph]
    · simp [Pipe.onEnd, if_neg h, PLoc.ph]

theorem Parts.next {a a' : PLoc τ} {b b' c c' : Option (PLoc τ)} {cl cl' : PChan → Bool} (h : Parts a b c cl) (h1 : a'.role = .caller) (h2 : a'.ph ≠ 9)
    (h3 : ∀ l, b' = some l → l.role = .parser) (h4 : ∀ l, c' = some l → l.role = .code)
    (h5 : cl' .doneRun = cl .doneRun ∧ cl' .doneByCommit = cl .doneByCommit ∧ cl' .doneCode = cl .doneCode ∧ cl' .doneSlice = cl .doneSlice) : Parts a' b' c' cl' where
  ra := h1
  rb := h3
  rc := h4
  ph9 := h2
  doneRun := h5.1.trans h.doneRun
  doneByCommit := h5.2.1.trans h.doneByCommit
  doneCode := h5.2.2.1.trans h.doneCode
  doneSlice := h5.2.2.2.trans h.doneSlice

/-- Moves of the caller and the log parser. -/
theorem SInv.caller {p : Pipe τ} {out a b c cl h} (hI : SInv p out a b c cl h) {a' : PLoc τ} {b' : Option (PLoc τ)} {cl' : PChan → Bool}
    (h1 : a'.role = .caller) (h2 : a'.ph ≠ 9) (h3 : ∀ l, b' = some l → l.role = .parser)
    (h5 : cl' .doneRun = cl .doneRun ∧ cl' .doneByCommit = cl .doneByCommit ∧ cl' .doneCode = cl .doneCode ∧ cl' .doneSlice = cl .doneSlice)
    (hpar : ParOk p a' cl' b') (hcod : CodOk a' cl' c) (hbl : ∀ i, cl' (.blames i) = cl (.blames i)) (hmono : cl .res2 = true → cl' .res2 = true)
    (hres : cl' .res2 = true ↔ a'.ph = 7) (hfut : p.fut a' (p.todo b') = p.fut a (p.todo b)) : SInv p out a' b' c cl' h where
  parts := hI.parts.next h1 h2 h3 hI.parts.rc h5
  par := hpar
  cod := hcod
  res2 := hres
  data := by
    obtain ⟨n, R, hd, hR, hcl⟩ := hI.data
    exact ⟨n, R, by rw [hfut]; exact hd, hR, fun i => by rw [hbl]; exact hcl i⟩
  fate := by rw [hfut]; exact hI.fate
  hb := fun i hi => by rw [hbl]; exact hI.hb i hi
  hr := fun hi => hmono (hI.hr hi)

theorem CodOk.keep {a a' : PLoc τ} {c : Option (PLoc τ)} {cl cl' : PChan → Bool} (h : CodOk a cl c) (h1 : a.ph = 1 ∨ a.ph = 2 ∨ a.ph = 3 ∨ a.ph = 4)
    (h2 : a'.ph = 2 ∨ a'.ph = 3 ∨ a'.ph = 4 ∨ a'.ph = 8) (h3 : cl' .gitRes = cl .gitRes) : CodOk a' cl' c := by
  rcases c with _ | l
  · simp only [CodOk] at h; omega
  · cases l <;> simp only [CodOk] at h ⊢ <;> rw [h3] <;> first | omega | (refine ⟨by omega, ?_⟩; rw [h.2]; omega)

/-- Moves of the goroutine of `CodeByCommit`, alone or with the consumer. -/
theorem SInv.code {p : Pipe τ} {out a b c cl h} (hI : SInv p out a b c cl h) {c' : Option (PLoc τ)} {cl' : PChan → Bool} {h' : List (CodeSeen τ)}
    (h3 : ∀ l, c' = some l → l.role = .code)
    (hcl : ∀ x, (∀ i, x ≠ .blames i) → cl' x = cl x) (hmono : ∀ i, cl (.blames i) = true → cl' (.blames i) = true)
    (hcod : CodOk a cl' c')
    (hdata : ∃ n R, CodeAt p out (p.fut a (p.todo b)).1 c' n R ∧ received h' = R ∧ ∀ i, cl' (.blames i) = true ↔ i < n)
    (hh : ∀ o ∈ h', o.isValue = false → o ∈ h) : SInv p out a b c' cl' h' where
  parts := hI.parts.next hI.parts.ra hI.parts.ph9 hI.parts.rb h3 ⟨hcl _ (by simp), hcl _ (by simp), hcl _ (by simp), hcl _ (by simp)⟩
  par := by
    have := hI.par
    rcases b with _ | l
    · simp only [ParOk] at this ⊢; rw [hcl _ (by simp)]; exact this
    · cases l <;> simp only [ParOk] at this ⊢ <;> first | (rw [hcl _ (by simp)]; exact this) | exact this
  cod := hcod
  res2 := by rw [hcl _ (by simp)]; exact hI.res2
  data := hdata
  fate := hI.fate
  hb := fun i hi => hmono i (hI.hb i (hh _ hi rfl))
  hr := fun hi => by rw [hcl _ (by simp)]; exact hI.hr (hh _ hi rfl)

/-- The observations of the consumer alone. -/
theorem SInv.see {p : Pipe τ} {out a b c cl h} (hI : SInv p out a b c cl h) {o : CodeSeen τ} (ho : o.isValue = false)
    (hb : ∀ i, o = .blamesClosed i → cl (.blames i) = true) (hr : o = .resClosed → cl .res2 = true) : SInv p out a b c cl (h ++ [o]) where
  parts := hI.parts
  par := hI.par
  cod := hI.cod
  res2 := hI.res2
  data := by
    obtain ⟨n, R, hd, hR, hcl⟩ := hI.data
    exact ⟨n, R, hd, by rw [received_append, ho, hR]; simp, hcl⟩
  fate := hI.fate
  hb := by
    intro i hi
    simp only [List.mem_append, List.mem_singleton] at hi
    rcases hi with hi | hi
    · exact hI.hb i hi
    · exact hb i hi.symm
  hr := by
    intro hi
    simp only [List.mem_append, List.mem_singleton] at hi
    rcases hi with hi | hi
    · exact hI.hr hi
    · exact hr hi.symm

theorem parserEnd_role (p : Pipe τ) : (p.parserEnd).role = .parser := by
  unfold Pipe.parserEnd; cases (parseSent p.text).2 <;> rfl

theorem parOk_end (p : Pipe τ) {a : PLoc τ} {cl : PChan → Bool} (h : a.ph = 4 ∨ a.ph = 5 ∨ a.ph = 6 ∨ a.ph = 7) : ParOk p a cl (some p.parserEnd) := by
  unfold Pipe.parserEnd
  cases hp : (parseSent p.text).2 <;> simp only [ParOk, Pipe.parserEnd, hp, true_and] <;> exact h

theorem upd_other {cl : PChan → Bool} {x y : PChan} (h : x ≠ y) : upd cl y true x = cl x := upd_ne _ _ h

/-- One move keeps the invariant. -/
theorem SInv.move {p : Pipe τ} {ready : List (CodeSeen τ) → Want → Prop} {out a b c cl h} {y : SState τ} (hI : SInv p out a b c cl h) (hm : Mv p ready (mkS a b c cl h) y) :
    ∃ a' b' c' cl' h', y = mkS a' b' c' cl' h' ∧ SInv p out a' b' c' cl' h' := by
  generalize hx : mkS a b c cl h = x at hm
  have hpar := hI.par
  have hcod := hI.cod
  have hres2 := hI.res2
  obtain ⟨n, R, hd, hR, hcl⟩ := hI.data
  have hsame : cl .doneRun = cl .doneRun ∧ cl .doneByCommit = cl .doneByCommit ∧ cl .doneCode = cl .doneCode ∧ cl .doneSlice = cl .doneSlice := ⟨rfl, rfl, rfl, rfl⟩
  cases hm with
  | preErr he =>
    obtain ⟨rfl, rfl, rfl, rfl, rfl⟩ := mkS_inj hx
    refine ⟨_, _, _, _, _, rfl, hI.caller rfl (by simp [PLoc.ph]) hI.parts.rb hsame ?_ ?_ (fun _ => rfl) id ?_ ?_⟩
    · rcases b with _ | l
      · exact ⟨hpar.1, by simp [PLoc.ph]⟩
      · cases l <;> simp [ParOk, PLoc.ph, PLoc.running] at hpar
    · rcases c with _ | l
      · exact ⟨hcod.1, by simp [PLoc.ph]⟩
      · cases l <;> simp [CodOk, PLoc.ph] at hcod
    · rw [hres2]; simp [PLoc.ph]
    · simp [Pipe.fut, he]
  | startCode he =>
    obtain ⟨rfl, rfl, rfl, rfl, rfl⟩ := mkS_inj hx
    refine ⟨_, _, _, _, _, rfl, ?_⟩
    cases hd with
    | none hd hlen =>
    refine
      { parts := hI.parts.next rfl (by simp [PLoc.ph]) hI.parts.rb (by intro l hl; cases hl; rfl) hsame
        par := ?_
        cod := ?_
        res2 := by rw [hres2]; simp [PLoc.ph]
        data := ?_
        fate := ?_
        hb := hI.hb
        hr := hI.hr }
    · rcases b with _ | l
      · exact ⟨hpar.1, by simp [PLoc.ph]⟩
      · cases l <;> simp [ParOk, PLoc.ph, PLoc.running] at hpar
    · exact ⟨by simp [PLoc.ph], by rw [hcod.1]; simp [PLoc.ph]⟩
    · have hf : p.fut .cRun (p.todo b) = p.fut .cByCommit (p.todo b) := by simp [Pipe.fut, he]
      rw [hf]
      exact ⟨0, _, .recv hd (Nat.zero_le _) hlen, hR, hcl⟩
    · have hf : p.fut .cRun (p.todo b) = p.fut .cByCommit (p.todo b) := by simp [Pipe.fut, he]
      rw [hf]; exact hI.fate
  | openErr he =>
    obtain ⟨rfl, rfl, rfl, rfl, rfl⟩ := mkS_inj hx
    refine ⟨_, _, _, _, _, rfl, hI.caller rfl (by simp [PLoc.ph]) hI.parts.rb hsame ?_ (hcod.keep (by simp [PLoc.ph]) (by simp [PLoc.ph]) rfl) (fun _ => rfl) id ?_ ?_⟩
    · rcases b with _ | l
      · exact ⟨hpar.1, by simp [PLoc.ph]⟩
      · cases l <;> simp [ParOk, PLoc.ph, PLoc.running] at hpar
    · rw [hres2]; simp [PLoc.ph]
    · simp [Pipe.fut, he]
  | startParser he =>
    obtain ⟨rfl, rfl, rfl, rfl, rfl⟩ := mkS_inj hx
    refine ⟨_, _, _, _, _, rfl, hI.caller rfl (by simp [PLoc.ph]) (by intro l hl; cases hl; rfl) hsame ⟨hpar.1, rfl⟩
      (hcod.keep (by simp [PLoc.ph]) (by simp [PLoc.ph]) rfl) (fun _ => rfl) id ?_ ?_⟩
    · rw [hres2]; simp [PLoc.ph]
    · simp [Pipe.fut, he, Pipe.todo]
  | @recvCommit st x cs _ _ _ he =>
    obtain ⟨rfl, rfl, rfl, rfl, rfl⟩ := mkS_inj hx
    obtain ⟨hrun, hph⟩ := onFirst_running p st x
    refine ⟨_, _, _, _, _, rfl, hI.caller (onFirst_loc p st x).1 (by rw [hph]; simp) (by intro l hl; cases hl; rfl) hsame ⟨hpar.1, hrun⟩
      (hcod.keep (by simp [PLoc.ph]) (by simp [hph]) rfl) (fun _ => rfl) id ?_ ?_⟩
    · rw [hres2, hph]; simp [PLoc.ph]
    · simp only [Pipe.todo, fut_onFirst]; rfl
  | drainCommit he =>
    obtain ⟨rfl, rfl, rfl, rfl, rfl⟩ := mkS_inj hx
    refine ⟨_, _, _, _, _, rfl, hI.caller rfl (by simp [PLoc.ph]) (by intro l hl; cases hl; rfl) hsame ⟨hpar.1, rfl⟩
      (hcod.keep (by simp [PLoc.ph]) (by simp [PLoc.ph]) rfl) (fun _ => rfl) id ?_ rfl⟩
    rw [hres2]
  | @loopEnd st _ _ _ _ he =>
    obtain ⟨rfl, rfl, rfl, rfl, rfl⟩ := mkS_inj hx
    have hph := onEnd_ph p st
    have hph4 : (p.onEnd st).ph = 2 ∨ (p.onEnd st).ph = 3 ∨ (p.onEnd st).ph = 4 ∨ (p.onEnd st).ph = 8 := by omega
    have hb : p.todo b = [] ∧ b = some .parseDone := by
      rcases b with _ | l
      · simp [ParOk, he] at hpar
      · cases l <;> simp [ParOk, he, PLoc.ph] at hpar <;> exact ⟨rfl, rfl⟩
    obtain ⟨hb1, rfl⟩ := hb
    refine ⟨_, _, _, _, _, rfl, hI.caller (onEnd_loc p st).1 (by omega) hI.parts.rb hsame ⟨he, hph⟩
      (hcod.keep (by simp [PLoc.ph]) hph4 rfl) (fun _ => rfl) id ?_ ?_⟩
    · rw [hres2, show (PLoc.loop st : PLoc τ).ph = 2 from rfl]; omega
    · rw [hb1, fut_onEnd]; rfl
  | drainEnd he =>
    obtain ⟨rfl, rfl, rfl, rfl, rfl⟩ := mkS_inj hx
    have hb : b = some .parseDone := by
      rcases b with _ | l
      · simp [ParOk, he] at hpar
      · cases l <;> simp [ParOk, he, PLoc.ph] at hpar <;> rfl
    subst hb
    refine ⟨_, _, _, _, _, rfl, hI.caller rfl (by simp [PLoc.ph]) hI.parts.rb hsame ⟨he, by simp [PLoc.ph]⟩
      (hcod.keep (by simp [PLoc.ph]) (by simp [PLoc.ph]) rfl) (fun _ => rfl) id ?_ rfl⟩
    rw [hres2]; simp [PLoc.ph]
  | @sent k _ _ _ _ =>
    obtain ⟨rfl, rfl, rfl, rfl, rfl⟩ := mkS_inj hx
    have hph : (k.loc : PLoc τ).ph = 2 ∨ (k.loc : PLoc τ).ph = 3 ∨ (k.loc : PLoc τ).ph = 8 := by cases k <;> simp [PAfter.loc, PLoc.ph]
    have hph4 : (k.loc : PLoc τ).ph = 2 ∨ (k.loc : PLoc τ).ph = 3 ∨ (k.loc : PLoc τ).ph = 4 ∨ (k.loc : PLoc τ).ph = 8 := by omega
    refine ⟨_, _, _, _, _, rfl, hI.caller (after_loc k).1 (by omega) hI.parts.rb hsame ?_
      (hcod.keep (by simp [PLoc.ph]) hph4 rfl) (fun _ => rfl) id ?_ ?_⟩
    · rcases b with _ | l
      · simp [ParOk, PLoc.ph] at hpar
      · cases l <;> simp [ParOk, PLoc.ph] at hpar
        · refine ⟨hpar.1, ?_⟩
          cases k <;> simp_all [PLoc.running, PAfter.loc]
        · exact ⟨hpar, hph⟩
    · rw [hres2, show (PLoc.sending [] k : PLoc τ).ph = 2 from rfl]; omega
    · rw [fut_loc]; simp [Pipe.fut]
  | @result r rs k _ n' cache _ _ he =>
    obtain ⟨rfl, rfl, rfl, rfl, rfl⟩ := mkS_inj hx
    refine ⟨_, _, _, _, _, rfl, ?_⟩
    cases hd with
    | recv hd hle hlen =>
    have hF : (p.fut (.sending (r :: rs) k) (p.todo b)).1 = r :: (p.fut (.sending rs k) (p.todo b)).1 := rfl
    rw [hF] at hd hlen
    refine
      { parts := hI.parts.next rfl (by simp [PLoc.ph]) hI.parts.rb (by intro l hl; cases hl; exact onResult_role p _ _ _) hsame
        par := ?_
        cod := ?_
        res2 := hres2
        data := ?_
        fate := hI.fate
        hb := hI.hb
        hr := hI.hr }
    · rcases b with _ | l
      · exact hpar
      · cases l <;> first | exact hpar | (refine ⟨hpar.1, ?_⟩; have := hpar.2; cases k <;> simp_all [PLoc.running])
    · have : cl .gitRes = true ↔ (PLoc.sending rs k : PLoc τ).ph = 5 := by simp [he, PLoc.ph]
      unfold Pipe.onResult
      cases GoMap.get p.metas r.commit with
      | none => exact ⟨by simp [PLoc.ph], this⟩
      | some m => simp only; cases codeInfoFiles p.cl p.scc (p.orders n) p.metas cache r <;> exact ⟨by simp [PLoc.ph], this⟩
    · simp only [Pipe.streamed] at hd
      unfold Pipe.onResult
      have hpanic : [] = out.drop n → CodeAt p out (p.fut (.sending rs k) (p.todo b)).1 (some (.panicked .code)) n (stream (out.take n)) := by
        intro h0
        have hn0 : out.length ≤ n := by
          have := congrArg List.length h0
          simp at this; omega
        have hn1 : n = out.length := by omega
        subst hn1
        rw [List.take_length]
        exact .panicked (by simp at hlen; omega)
      cases hm : GoMap.get p.metas r.commit with
      | none =>
        rw [hm] at hd
        exact ⟨_, _, hpanic hd, hR, hcl⟩
      | some m =>
        simp only [hm] at hd
        simp only
        cases hf : codeInfoFiles p.cl p.scc (p.orders n) p.metas cache r with
        | error e =>
          rw [hf] at hd
          exact ⟨_, _, hpanic hd, hR, hcl⟩
        | ok x =>
          obtain ⟨recs, cache1⟩ := x
          rw [hf] at hd
          exact ⟨_, _, .head hd (by simp at hlen; omega), hR, hcl⟩
  | closeCommits he =>
    obtain ⟨rfl, rfl, rfl, rfl, rfl⟩ := mkS_inj hx
    refine ⟨_, _, _, _, _, rfl, hI.caller hI.parts.ra hI.parts.ph9 (by intro l hl; cases hl; rfl) ?_ ⟨upd_same _ _ _, ?_⟩ ?_ ?_ ?_ ?_ rfl⟩
    · exact ⟨upd_other (by simp), upd_other (by simp), upd_other (by simp), upd_other (by simp)⟩
    · have := running_ph hpar.2; omega
    · rcases c with _ | l
      · exact ⟨by rw [upd_other (by simp)]; exact hcod.1, hcod.2⟩
      · cases l <;> simp only [CodOk] at hcod ⊢ <;> rw [upd_other (by simp)] <;> exact hcod
    · intro i; exact upd_other (by simp)
    · rw [upd_other (by simp)]; exact id
    · rw [upd_other (by simp)]; exact hres2
  | joinRun =>
    obtain ⟨rfl, rfl, rfl, rfl, rfl⟩ := mkS_inj hx
    refine ⟨_, _, _, _, _, rfl, hI.caller rfl (by simp [PLoc.ph]) (by intro l hl; cases hl; exact parserEnd_role p) hsame (parOk_end p (by simp [PLoc.ph]))
      (hcod.keep (by simp [PLoc.ph]) (by simp [PLoc.ph]) rfl) (fun _ => rfl) id ?_ rfl⟩
    rw [hres2]; simp [PLoc.ph]
  | closeGitRes he =>
    obtain ⟨rfl, rfl, rfl, rfl, rfl⟩ := mkS_inj hx
    refine ⟨_, _, _, _, _, rfl, hI.caller rfl (by simp [PLoc.ph]) hI.parts.rb ?_ ?_ ?_ ?_ ?_ ?_ rfl⟩
    · exact ⟨upd_other (by simp), upd_other (by simp), upd_other (by simp), upd_other (by simp)⟩
    · rcases b with _ | l
      · exact ⟨by rw [upd_other (by simp)]; exact hpar.1, by simp [PLoc.ph]⟩
      · cases l <;> simp [ParOk, PLoc.ph, PLoc.running] at hpar ⊢ <;> exact hpar
    · rcases c with _ | l
      · simp [CodOk, PLoc.ph] at hcod
      · cases l <;> simp [CodOk, PLoc.ph, upd] at hcod ⊢
    · intro i; exact upd_other (by simp)
    · rw [upd_other (by simp)]; exact id
    · rw [upd_other (by simp), hres2]; simp [PLoc.ph]
  | codeStop he =>
    obtain ⟨rfl, rfl, rfl, rfl, rfl⟩ := mkS_inj hx
    refine ⟨_, _, _, _, _, rfl, hI.code (by intro l hl; cases hl; rfl) (fun _ _ => rfl) (fun _ => id) ⟨he, hcod.2.1 he⟩ ?_ (fun _ h _ => h)⟩
    have h5 := hcod.2.1 he
    have hF : (p.fut a (p.todo b)).1 = [] := by
      cases a <;> simp [PLoc.ph] at h5
      rfl
    cases hd with
    | recv hd hle hlen =>
    rw [hF] at hd hlen ⊢
    have hn : n = out.length := by
      have := congrArg List.length hd
      simp [Pipe.streamed] at this; omega
    subst hn
    rw [List.take_length] at hR
    exact ⟨_, _, .done rfl (by simpa using hlen), hR, hcl⟩
  | joinByCommit =>
    obtain ⟨rfl, rfl, rfl, rfl, rfl⟩ := mkS_inj hx
    refine ⟨_, _, _, _, _, rfl, ?_⟩
    have hI2 : SInv p out (.joinByCommit _ _) b (some .codeDone) cl h := hI
    cases hd with
    | done hd hlen =>
    refine
      { parts := hI.parts.next rfl (by simp [PLoc.ph]) hI.parts.rb (by intro l hl; cases hl; rfl) hsame
        par := ?_
        cod := ⟨hcod.1, by simp [PLoc.ph]⟩
        res2 := by rw [hres2]; simp [PLoc.ph]
        data := ⟨_, _, .ended rfl hlen, hR, hcl⟩
        fate := hI.fate
        hb := hI.hb
        hr := hI.hr }
    rcases b with _ | l
    · exact ⟨hpar.1, by simp [PLoc.ph]⟩
    · cases l <;> simp [ParOk, PLoc.ph, PLoc.running] at hpar ⊢ <;> exact hpar
  | closeRes2 he =>
    obtain ⟨rfl, rfl, rfl, rfl, rfl⟩ := mkS_inj hx
    refine ⟨_, _, _, _, _, rfl, hI.caller rfl (by simp [PLoc.ph]) hI.parts.rb ?_ ?_ ?_ ?_ ?_ ?_ rfl⟩
    · exact ⟨upd_other (by simp), upd_other (by simp), upd_other (by simp), upd_other (by simp)⟩
    · rcases b with _ | l
      · exact ⟨by rw [upd_other (by simp)]; exact hpar.1, by simp [PLoc.ph]⟩
      · cases l <;> simp [ParOk, PLoc.ph, PLoc.running] at hpar ⊢ <;> exact hpar
    · rcases c with _ | l
      · exact ⟨by rw [upd_other (by simp)]; exact hcod.1, by simp [PLoc.ph]⟩
      · cases l <;> simp [CodOk, PLoc.ph] at hcod
        exact ⟨by rw [upd_other (by simp)]; exact hcod, by simp [PLoc.ph]⟩
    · intro i; exact upd_other (by simp)
    · intro _; exact upd_same _ _ _
    · simp [upd, PLoc.ph]
  | @closeBlames _ _ n' cache _ _ he =>
    obtain ⟨rfl, rfl, rfl, rfl, rfl⟩ := mkS_inj hx
    refine ⟨_, _, _, _, _, rfl, hI.code (by intro l hl; cases hl; rfl) (fun x hx => upd_other (hx n')) ?_ ?_ ?_ (fun _ h _ => h)⟩
    · intro i hi
      by_cases h : i = n'
      · subst h; exact upd_same _ _ _
      · rw [upd_other (by simp [h])]; exact hi
    · exact ⟨hcod.1, by rw [upd_other (by simp)]; exact hcod.2⟩
    · cases hd with
      | @recs _ _ c' done _ hd hlen =>
      obtain ⟨h1, h2, h3, h4⟩ := commitStream_split hd
      refine ⟨n + 1, stream (out.take (n + 1)), .recv h4 (by omega) (by omega), ?_, ?_⟩
      · rw [h3, hR, List.append_nil]
      · intro i
        by_cases h : i = n
        · subst h; simp [upd_same]
        · rw [upd_other (by simp [h]), hcl]; omega
  | @head _ _ n' cache x recs _ _ hready he =>
    obtain ⟨rfl, rfl, rfl, rfl, rfl⟩ := mkS_inj hx
    refine ⟨_, _, _, _, _, rfl, hI.code (by intro l hl; cases hl; rfl) (fun _ _ => rfl) (fun _ => id) hcod ?_ ?_⟩
    · cases hd with
      | head hd hlen =>
      refine ⟨n, _, .recs (done := []) hd hlen, ?_, hcl⟩
      rw [received_append, hR]; rfl
    · intro o ho hv
      simp only [List.mem_append, List.mem_singleton] at ho
      rcases ho with ho | rfl
      · exact ho
      · cases hv
  | @record _ _ n' cache r recs _ _ hready he =>
    obtain ⟨rfl, rfl, rfl, rfl, rfl⟩ := mkS_inj hx
    refine ⟨_, _, _, _, _, rfl, hI.code (by intro l hl; cases hl; rfl) (fun _ _ => rfl) (fun _ => id) hcod ?_ ?_⟩
    · cases hd with
      | @recs _ _ c' done _ hd hlen =>
      refine ⟨n, _, .recs (c := c') (done := done ++ [r]) (by rw [← hd]; simp) hlen, ?_, hcl⟩
      rw [received_append, hR]; simp [Seen.isValue]
    · intro o ho hv
      simp only [List.mem_append, List.mem_singleton] at ho
      rcases ho with ho | rfl
      · exact ho
      · cases hv
  | seeRes hready he =>
    obtain ⟨rfl, rfl, rfl, rfl, rfl⟩ := mkS_inj hx
    exact ⟨_, _, _, _, _, rfl, hI.see rfl (by intro i h; cases h) (fun _ => he)⟩
  | @seeBlames _ _ _ _ _ i hready he =>
    obtain ⟨rfl, rfl, rfl, rfl, rfl⟩ := mkS_inj hx
    exact ⟨_, _, _, _, _, rfl, hI.see rfl (by intro j h; cases h; exact he) (by intro h; cases h)⟩

theorem mkS_init : (SState.init : SState τ) = mkS .cByCommit none none (fun _ => false) [] := by
  unfold SState.init
  exact SState.ext' rfl rfl rfl rfl rfl rfl

theorem SInv.init (p : Pipe τ) : SInv p (p.streamed 0 [] p.results) .cByCommit none none (fun _ => false) [] where
  parts := ⟨rfl, by simp, by simp, by simp [PLoc.ph], rfl, rfl, rfl, rfl⟩
  par := ⟨rfl, by simp [PLoc.ph]⟩
  cod := ⟨rfl, by simp [PLoc.ph]⟩
  res2 := by simp [PLoc.ph]
  data := by
    refine ⟨0, [], ?_, rfl, by simp⟩
    have : (p.fut .cByCommit (p.todo none)).1 = p.results := (fut_init p).1
    rw [this]
    exact .none rfl rfl
  fate := rfl
  hb := by simp
  hr := by simp

theorem SStep.seen {p : Pipe τ} {ready : List (CodeSeen τ) → Want → Prop} {x y : SState τ} (h : SStep p ready x y) : y.seen = x.seen ∨ ∃ o, y.seen = x.seen ++ [o] := by
  cases h with
  | inner => exact .inl rfl
  | _ => exact .inr ⟨_, rfl⟩

/-- A step makes at most one observation, on a channel that the consumer is ready to receive from. -/
theorem SStep.observes {p : Pipe τ} {ready : List (CodeSeen τ) → Want → Prop} {x y : SState τ} (h : SStep p ready x y) :
    y.seen = x.seen ∨ ∃ o, y.seen = x.seen ++ [o] ∧ ready x.seen o.on := by
  cases h with
  | inner => exact .inl rfl
  | commit h => exact .inr ⟨_, rfl, h⟩
  | record h => exact .inr ⟨_, rfl, h⟩
  | resClosed h => exact .inr ⟨_, rfl, h⟩
  | blamesClosed h => exact .inr ⟨_, rfl, h⟩

/-- What holds of all reachable states. -/
theorem SSteps.inv {p : Pipe τ} {ready : List (CodeSeen τ) → Want → Prop} {out m} {x y : SState τ} (hs : SSteps p ready m x y)
    (hx : ∃ a b c cl h, x = mkS a b c cl h ∧ SInv p out a b c cl h) (hr : ∀ h', h' <+: x.seen → RightHistory out h') :
    (∃ a b c cl h, y = mkS a b c cl h ∧ SInv p out a b c cl h) ∧ ∀ h', h' <+: y.seen → RightHistory out h' := by
  induction hs with
  | refl => exact ⟨hx, hr⟩
  | @cons n x y z h1 h2 ih =>
    obtain ⟨a, b, c, cl, h, rfl, hI⟩ := hx
    obtain ⟨a', b', c', cl', h', rfl, hI'⟩ := hI.move (mv_of_step hI.parts h1)
    refine ih ⟨_, _, _, _, _, rfl, hI'⟩ ?_
    intro g hg
    rcases h1.seen with h3 | ⟨o, h3⟩
    · rw [h3] at hg; exact hr g hg
    · rw [h3] at hg
      rcases List.prefix_concat_iff.1 hg with rfl | hg
      · have := hI'.right
        have h4 : h' = h ++ [o] := h3
        rw [h4] at this; exact this
      · exact hr g hg

theorem reachable_inv {p : Pipe τ} {ready : List (CodeSeen τ) → Want → Prop} {m} {x : SState τ} (hs : SSteps p ready m SState.init x) :
    (∃ a b c cl h, x = mkS a b c cl h ∧ SInv p (p.streamed 0 [] p.results) a b c cl h) ∧ ∀ h', h' <+: x.seen → RightHistory (p.streamed 0 [] p.results) h' := by
  refine hs.inv ⟨_, _, _, _, _, mkS_init, SInv.init p⟩ ?_
  intro h' hh
  have : h' = [] := by simpa [SState.init] using hh
  subst this
  exact (SInv.init p).right

/-- The moves are steps. -/
theorem step_of_mv {p : Pipe τ} {ready : List (CodeSeen τ) → Want → Prop} {x y : SState τ} (h : Mv p ready x y)
    (hc1 : x.st.closed .doneRun = false) (hc2 : x.st.closed .doneByCommit = false) : SStep p ready x y := by
  cases h with
  | preErr he => exact .inner (st_caller_tau (by simp only [Pipe.act, he]))
  | startCode he => exact .inner (st_go_code (by simp only [Pipe.act, he]))
  | openErr he => exact .inner (st_caller_tau (by simp only [Pipe.act, he]))
  | startParser he => exact .inner (st_go_parser (by simp only [Pipe.act, he]))
  | @recvCommit st x cs c cl h he => exact .inner (st_parser_caller (l := .parse (x :: cs)) (m := .loop st) (c := c) (d := none) (e := none) rfl rfl he)
  | @drainCommit e x cs c cl h he => exact .inner (st_parser_caller (l := .parse (x :: cs)) (m := .drain e) (c := c) (d := none) (e := none) rfl rfl he)
  | loopEnd he => exact .inner (st_caller_closed (l := .loop _) rfl he)
  | drainEnd he => exact .inner (st_caller_closed (l := .drain _) rfl he)
  | sent => exact .inner (st_caller_tau rfl)
  | @result r rs k b n cache cl h he => exact .inner (st_caller_code (l := .sending (r :: rs) k) (m := .codeRecv n cache) (b := b) (d := none) (e := none) rfl rfl he)
  | closeCommits he => exact .inner (st_parser_close rfl he)
  | @joinRun w e c cl h => exact .inner (st_parser_caller (l := .parseDone) (m := .joinRun w e) (c := c) (d := none) (e := none) rfl rfl hc1)
  | closeGitRes he => exact .inner (st_caller_close rfl he)
  | codeStop he => exact .inner (st_code_closed (l := .codeRecv _ _) rfl he)
  | @joinByCommit w e b cl h => exact .inner (st_code_caller (l := .codeDone) (m := .joinByCommit w e) (b := b) (d := none) (e := none) rfl rfl hc2)
  | closeRes2 he => exact .inner (st_caller_close rfl he)
  | closeBlames he => exact .inner (st_code_close rfl he)
  | @head a b n cache x recs cl h hr he =>
    have e : (⟨(pst (some a) b (some (.codeHead n cache x recs)) none none cl).set .code (.codeRecs n cache recs), h ++ [.commit x n]⟩ : SState τ) =
      mkS a b (some (.codeRecs n cache recs)) cl (h ++ [.commit x n]) := SState.ext' rfl rfl rfl rfl rfl rfl
    rw [← e]
    exact SStep.commit (r := .code) hr rfl rfl he
  | @record a b n cache r recs cl h hr he =>
    have e : (⟨(pst (some a) b (some (.codeRecs n cache (r :: recs))) none none cl).set .code (.codeRecs n cache recs), h ++ [.record n r]⟩ : SState τ) =
      mkS a b (some (.codeRecs n cache recs)) cl (h ++ [.record n r]) := SState.ext' rfl rfl rfl rfl rfl rfl
    rw [← e]
    exact SStep.record (r := .code) hr rfl rfl he
  | seeRes hr he => exact .resClosed hr he
  | seeBlames hr he => exact .blamesClosed hr he

theorem mem_streamFrom {M R : Type} : ∀ (out : List (M × List R)) (j : Nat) (c : M) (i : Nat), Seen.commit c i ∈ streamFrom j out → j ≤ i ∧ i < j + out.length
  | [], j, c, i, h => by simp [streamFrom] at h
  | (d, rs) :: out, j, c, i, h => by
    simp only [streamFrom, List.cons_append, List.mem_cons, List.mem_append, List.mem_map] at h
    rcases h with h | ⟨r, _, h⟩ | h
    · cases h; simp
    · cases h
    · have := mem_streamFrom out (j + 1) c i h
      simp only [List.length_cons]; omega

theorem mem_streamFrom' {M R : Type} : ∀ (out : List (M × List R)) (j i : Nat) (hi : i < out.length), Seen.commit out[i].1 (j + i) ∈ streamFrom j out
  | [], _, _, hi => absurd hi (by simp)
  | (c, rs) :: out, j, 0, _ => by simp [streamFrom]
  | (c, rs) :: out, j, i + 1, hi => by
    have := mem_streamFrom' out (j + 1) i (by simpa using hi)
    rw [show j + 1 + i = j + (i + 1) by omega] at this
    simp only [streamFrom, List.cons_append, List.mem_cons, List.mem_append, List.getElem_cons_succ]
    exact .inr (.inr this)

theorem mem_stream {M R : Type} (out : List (M × List R)) (i : Nat) (hi : i < out.length) : Seen.commit out[i].1 i ∈ stream out := by
  have := mem_streamFrom' out 0 i hi
  simpa [stream] using this

theorem mem_received {M R : Type} {h : List (Seen M R)} {c : M} {i : Nat} : Seen.commit c i ∈ received h ↔ Seen.commit c i ∈ h := by
  unfold received
  rw [List.mem_filter]
  exact ⟨fun h => h.1, fun h => ⟨h, rfl⟩⟩

/-- The end: the call has returned, its goroutines too, the consumer has seen the end of every channel. -/
structure Final (p : Pipe τ) (a : PLoc τ) (b c : Option (PLoc τ)) (h : List (CodeSeen τ)) : Prop where
  caller : ∃ w e, a = .joinCode w e
  parser : b = none ∨ b = some p.parserEnd
  code : c = none ∨ c = some .codeEnd
  seen : Seen.resClosed ∈ h ∧ ∀ x i, Seen.commit x i ∈ h → Seen.blamesClosed i ∈ h

/-- With a consumer that drains, some goroutine or the consumer can move, everything is done, or a goroutine has panicked. -/
theorem SInv.progress' {p : Pipe τ} {ready : List (CodeSeen τ) → Want → Prop} (hdr : Drains ready) {out a b c cl h} (hI : SInv p out a b c cl h) :
    (Final p a b c h ∨ ∃ y, Mv p ready (mkS a b c cl h) y) ∨ (∃ r, a = .panicked r) ∨ c = some (.panicked .code) := by
  by_cases hnp : c = some (.panicked .code)
  · exact .inr (.inr hnp)
  by_cases hna : ∃ r, a = .panicked r
  · exact .inr (.inl hna)
  left
  have hpar := hI.par
  have hcod := hI.cod
  have hres2 := hI.res2
  obtain ⟨n, R, hd, hR, hcl⟩ := hI.data
  -- a commit whose channel the consumer has not read to the end
  have hopen : ∀ x i, Seen.commit x i ∈ h → Seen.blamesClosed i ∉ h → i < n → ∃ y, Mv p ready (mkS a b c cl h) y := by
    intro x i h1 h2 h3
    exact ⟨_, .seeBlames (hdr.blames h x i h1 h2) ((hcl i).2 h3)⟩
  -- the goroutine of `CodeByCommit` sends to the consumer
  have hhead : ∀ n' cache x recs, c = some (.codeHead n' cache x recs) → ∃ y, Mv p ready (mkS a b c cl h) y := by
    rintro n' cache x recs rfl
    by_cases hall : ∀ x i, Seen.commit x i ∈ h → Seen.blamesClosed i ∈ h
    · have hr2 : cl .res2 = false := by
        cases hc : cl .res2 with
        | false => rfl
        | true =>
          have h7 := hres2.1 hc
          have := hcod.1
          omega
      refine ⟨_, .head (hdr.commits h hall ?_) hr2⟩
      intro hm
      rw [hI.hr hm] at hr2; cases hr2
    · simp only [Classical.not_forall] at hall
      obtain ⟨y, i, h1, h2⟩ := hall
      refine hopen y i h1 h2 ?_
      cases hd with
      | head hd _ =>
      rw [← mem_received, hR] at h1
      have := (mem_streamFrom _ _ _ _ h1).2
      have h3 : (out.take n).length ≤ n := by simp; omega
      omega
  have hrecs : ∀ n' cache recs, c = some (.codeRecs n' cache recs) → ∃ y, Mv p ready (mkS a b c cl h) y := by
    rintro n' cache recs rfl
    cases hd with
    | @recs _ _ x done _ hd _ =>
    have hb : cl (.blames n) = false := by
      cases hc : cl (.blames n) with
      | false => rfl
      | true => have := (hcl n).1 hc; omega
    cases recs with
    | nil => exact ⟨_, .closeBlames hb⟩
    | cons r recs =>
      refine ⟨_, .record (hdr.blames h x n ?_ ?_) hb⟩
      · rw [← mem_received, hR]; simp
      · intro hm; rw [hI.hb n hm] at hb; cases hb
  cases a with
  | cByCommit =>
    right
    have hc : c = none := by
      rcases c with _ | l
      · rfl
      · cases l <;> simp [CodOk, PLoc.ph] at hcod
    subst hc
    cases he : p.pre with
    | none => exact ⟨_, .startCode he⟩
    | some e => exact ⟨_, .preErr he⟩
  | cRun =>
    right
    have hb : b = none := by
      rcases b with _ | l
      · rfl
      · cases l <;> simp [ParOk, PLoc.ph, PLoc.running] at hpar
    subst hb
    cases he : p.openErr with
    | none => exact ⟨_, .startParser he⟩
    | some e => exact ⟨_, .openErr he⟩
  | loop st =>
    right
    rcases b with _ | l
    · simp [ParOk, PLoc.ph] at hpar
    · cases l <;> simp [ParOk, PLoc.ph] at hpar
      · rename_i cs
        cases cs with
        | nil => exact ⟨_, .closeCommits hpar.1⟩
        | cons x cs => exact ⟨_, .recvCommit hpar.1⟩
      · exact ⟨_, .loopEnd hpar⟩
  | drain e =>
    right
    rcases b with _ | l
    · simp [ParOk, PLoc.ph] at hpar
    · cases l <;> simp [ParOk, PLoc.ph] at hpar
      · rename_i cs
        cases cs with
        | nil => exact ⟨_, .closeCommits hpar.1⟩
        | cons x cs => exact ⟨_, .drainCommit hpar.1⟩
      · exact ⟨_, .drainEnd hpar⟩
  | sending rs k =>
    right
    cases rs with
    | nil => exact ⟨_, .sent⟩
    | cons r rs =>
      rcases c with _ | l
      · simp [CodOk, PLoc.ph] at hcod
      · have hl := hI.parts.rc l rfl
        cases l with
        | codeRecv n' cache =>
          refine ⟨_, .result ?_⟩
          cases hc : cl .gitRes with
          | false => rfl
          | true => have := hcod.2.1 hc; simp [PLoc.ph] at this
        | codeHead n' cache x recs => exact hhead _ _ _ _ rfl
        | codeRecs n' cache recs => exact hrecs _ _ _ rfl
        | codeDone => simp [CodOk, PLoc.ph] at hcod
        | codeEnd => simp [CodOk, PLoc.ph] at hcod
        | panicked r => simp only [PLoc.role] at hl; subst hl; exact absurd rfl hnp
        | _ => cases hl
  | joinRun w e =>
    right
    rcases b with _ | l
    · simp [ParOk, PLoc.ph] at hpar
    · cases l <;> simp [ParOk, PLoc.ph, PLoc.running] at hpar
      exact ⟨_, .joinRun⟩
  | closeGitRes w e =>
    right
    refine ⟨_, .closeGitRes ?_⟩
    rcases c with _ | l
    · exact hcod.1
    · cases l <;> simp [CodOk, PLoc.ph] at hcod <;> exact hcod
  | joinByCommit w e =>
    right
    rcases c with _ | l
    · simp [CodOk, PLoc.ph] at hcod
    · have hl := hI.parts.rc l rfl
      cases l with
      | codeRecv n' cache => exact ⟨_, .codeStop (hcod.2.2 rfl)⟩
      | codeHead n' cache x recs => exact hhead _ _ _ _ rfl
      | codeRecs n' cache recs => exact hrecs _ _ _ rfl
      | codeDone => exact ⟨_, .joinByCommit⟩
      | codeEnd => simp [CodOk, PLoc.ph] at hcod
      | panicked r => simp only [PLoc.role] at hl; subst hl; exact absurd rfl hnp
      | _ => cases hl
  | closeRes2 w e =>
    right
    refine ⟨_, .closeRes2 ?_⟩
    cases hc : cl .res2 with
    | false => rfl
    | true => have := hres2.1 hc; simp [PLoc.ph] at this
  | joinCode w e =>
    have hr2 : cl .res2 = true := hres2.2 rfl
    have hc : c = none ∨ c = some .codeEnd := by
      rcases c with _ | l
      · exact .inl rfl
      · cases l <;> simp [CodOk, PLoc.ph] at hcod
        exact .inr rfl
    have hb : b = none ∨ b = some p.parserEnd := by
      rcases b with _ | l
      · exact .inl rfl
      · cases l <;> simp [ParOk, PLoc.ph, PLoc.running] at hpar <;> exact .inr (by rw [← hpar])
    by_cases hall : ∀ x i, Seen.commit x i ∈ h → Seen.blamesClosed i ∈ h
    · by_cases hrc : Seen.resClosed ∈ h
      · exact .inl ⟨⟨w, e, rfl⟩, hb, hc, hrc, hall⟩
      · exact .inr ⟨_, .seeRes (hdr.commits h hall hrc) hr2⟩
    · right
      simp only [Classical.not_forall] at hall
      obtain ⟨y, i, h1, h2⟩ := hall
      refine hopen y i h1 h2 ?_
      rw [← mem_received, hR] at h1
      cases hd with
      | none => simp at h1
      | ended => have := (mem_streamFrom _ _ _ _ h1).2; omega
      | _ => simp at hc
  | panicked r =>
    exact absurd ⟨r, rfl⟩ hna
  | _ => exact absurd rfl hI.parts.ph9

/-- With a consumer that drains, some goroutine or the consumer can move, or everything is done. -/
theorem SInv.progress {p : Pipe τ} {ready : List (CodeSeen τ) → Want → Prop} (hdr : Drains ready) {out a b c cl h} (hI : SInv p out a b c cl h)
    (hfate : (p.fut .cByCommit (parseSent p.text).1).2 ≠ none) (hlen : out.length = p.results.length) :
    Final p a b c h ∨ ∃ y, Mv p ready (mkS a b c cl h) y := by
  rcases hI.progress' hdr with h1 | ⟨r, rfl⟩ | rfl
  · exact h1
  · exfalso
    apply hfate
    rw [← hI.fate]; rfl
  · exfalso
    obtain ⟨n, R, hd, _, _⟩ := hI.data
    cases hd with
    | panicked h => omega

/-! ### Every schedule ends -/

def weight (l : List (MetaCommit τ × List (CodeRecord τ))) : Nat := (l.map (fun x => x.2.length + 3)).sum

/-- Steps left for the log parser. -/
def Pipe.mPar (p : Pipe τ) : Option (PLoc τ) → Nat
  | none => (parseSent p.text).1.length + 3
  | some (.parse cs) => cs.length + 2
  | some .parseDone => 1
  | _ => 0
/-- Steps left for the caller. -/
def mCal : Option (PLoc τ) → Nat
  | some .cByCommit => 13 | some .cRun => 12 | some (.loop _) => 9 | some (.sending _ (.end _ _)) => 8 | some (.sending _ _) => 10 | some (.drain _) => 8
  | some (.joinRun _ _) => 7 | some (.closeGitRes _ _) => 6 | some (.joinByCommit _ _) => 5 | some (.closeRes2 _ _) => 4 | some (.joinCode _ _) => 3 | _ => 0
/-- Steps left for the goroutine of `CodeByCommit`. -/
def mCode (out : List (MetaCommit τ × List (CodeRecord τ))) : Option (PLoc τ) → Nat
  | none => weight out + 3
  | some (.codeRecv n _) => weight (out.drop n) + 2
  | some (.codeHead n _ _ recs) => recs.length + 2 + weight (out.drop (n + 1)) + 2
  | some (.codeRecs n _ recs) => recs.length + 1 + weight (out.drop (n + 1)) + 2
  | some .codeDone => 1
  | _ => 0
/-- The end of the channel of the `i`-th commit was seen. -/
def sawB {M R : Type} (h : List (Seen M R)) (i : Nat) : Bool := h.any (fun | .blamesClosed j => j == i | _ => false)
def sawR {M R : Type} (h : List (Seen M R)) : Bool := h.any (fun | .resClosed => true | _ => false)
/-- Ends of channels that the consumer has not seen. -/
def mSee {M R : Type} (k : Nat) (h : List (Seen M R)) : Nat := (if sawR h then 0 else 1) + ((List.range k).filter (fun i => !sawB h i)).length

def Pipe.measure (p : Pipe τ) (out : List (MetaCommit τ × List (CodeRecord τ))) (x : SState τ) : Nat :=
  3 * p.mPar (x.st.procs .parser) + mCal (x.st.procs .caller) + mCode out (x.st.procs .code) + mSee out.length x.seen

theorem sawB_iff {M R : Type} {h : List (Seen M R)} {i : Nat} : sawB h i = true ↔ Seen.blamesClosed i ∈ h := by
  unfold sawB
  rw [List.any_eq_true]
  constructor
  · rintro ⟨o, ho, h1⟩
    cases o <;> simp at h1
    subst h1; exact ho
  · intro h1; exact ⟨_, h1, by simp⟩
theorem sawR_iff {M R : Type} {h : List (Seen M R)} : sawR h = true ↔ Seen.resClosed ∈ h := by
  unfold sawR
  rw [List.any_eq_true]
  constructor
  · rintro ⟨o, ho, h1⟩
    cases o <;> simp at h1
    exact ho
  · intro h1; exact ⟨_, h1, by simp⟩

theorem mSee_value {M R : Type} (k : Nat) (h : List (Seen M R)) {o : Seen M R} (ho : o.isValue = true) : mSee k (h ++ [o]) = mSee k h := by
  have h1 : sawR (h ++ [o]) = sawR h := by cases o <;> simp [Seen.isValue] at ho <;> simp [sawR]
  have h2 : sawB (h ++ [o]) = sawB h := by funext i; cases o <;> simp [Seen.isValue] at ho <;> simp [sawB]
  simp [mSee, h1, h2]

theorem filter_lt {k i : Nat} (f g : Nat → Bool) (hi : i < k) (h1 : f i = true) (h2 : g i = false) (h : ∀ j, g j = true → f j = true) :
    ((List.range k).filter g).length < ((List.range k).filter f).length := by
  induction k with
  | zero => omega
  | succ k ih =>
    rw [List.range_succ, List.filter_append, List.filter_append, List.length_append, List.length_append]
    have hle : ∀ k, ((List.range k).filter g).length ≤ ((List.range k).filter f).length := by
      intro k
      rw [← List.countP_eq_length_filter, ← List.countP_eq_length_filter]
      exact List.countP_mono_left (fun x _ hx => h x hx)
    by_cases hk : i = k
    · subst hk
      have := hle i
      simp [h1, h2]; omega
    · have := ih (by omega)
      have h3 : ([k].filter g).length ≤ ([k].filter f).length := by
        rw [← List.countP_eq_length_filter, ← List.countP_eq_length_filter]
        exact List.countP_mono_left (fun x _ hx => h x hx)
      omega

theorem mSee_blames {M R : Type} {k i : Nat} {h : List (Seen M R)} (hi : i < k) (hn : Seen.blamesClosed i ∉ h) : mSee k (h ++ [.blamesClosed i]) < mSee k h := by
  have h1 : sawR (h ++ [(.blamesClosed i : Seen M R)]) = sawR h := by simp [sawR]
  have h2 : ((List.range k).filter (fun j => !sawB (h ++ [(.blamesClosed i : Seen M R)]) j)).length < ((List.range k).filter (fun j => !sawB h j)).length := by
    refine filter_lt _ _ hi ?_ ?_ ?_
    · cases hs : sawB h i with
      | false => rfl
      | true => exact absurd (sawB_iff.1 hs) hn
    · have : sawB (h ++ [(.blamesClosed i : Seen M R)]) i = true := sawB_iff.2 (by simp)
      simp [this]
    · intro j hj
      cases hs : sawB h j with
      | false => rfl
      | true =>
        have : sawB (h ++ [(.blamesClosed i : Seen M R)]) j = true := sawB_iff.2 (List.mem_append_left _ (sawB_iff.1 hs))
        simp [this] at hj
  simp only [mSee, h1]
  omega

theorem mSee_res {M R : Type} {k : Nat} {h : List (Seen M R)} (hn : Seen.resClosed ∉ h) : mSee k (h ++ [.resClosed]) < mSee k h := by
  have h1 : sawR (h ++ [(.resClosed : Seen M R)]) = true := sawR_iff.2 (by simp)
  have h0 : sawR h = false := by
    cases hs : sawR h with
    | false => rfl
    | true => exact absurd (sawR_iff.1 hs) hn
  have h2 : sawB (h ++ [(.resClosed : Seen M R)]) = sawB h := by funext i; simp [sawB]
  simp [mSee, h1, h2, h0]

theorem mCal_onFirst (p : Pipe τ) (st : Option Proc) (c : LogCommit) : mCal (some (p.onFirst st c)) ≤ 10 := by
  have := onFirst_running p st c
  generalize p.onFirst st c = l at *
  cases l <;> simp [PLoc.ph] at this <;> first | (simp [mCal]; done) | skip
  rename_i k; cases k <;> simp [mCal]

theorem mCal_onEnd (p : Pipe τ) (st : Option Proc) : mCal (some (p.onEnd st)) ≤ 8 := by
  cases st with
  | none => simp [Pipe.onEnd, mCal]
  | some s =>
    by_cases h : s.mergeParts.length > 0
    · simp only [Pipe.onEnd, if_pos h]
      cases s.finishMerge p.env <;> simp [mCal]
    · simp [Pipe.onEnd, if_neg h, mCal]

/-- Every move of the goroutines, or of a consumer that does not read a channel that it found closed, uses up one of finitely many steps. -/
theorem SInv.decreases {p : Pipe τ} {ready : List (CodeSeen τ) → Want → Prop} (hdr : Drains ready) {out a b c cl h} {y : SState τ} (hI : SInv p out a b c cl h)
    (hm : Mv p ready (mkS a b c cl h) y) : p.measure out y < p.measure out (mkS a b c cl h) := by
  generalize hx : mkS a b c cl h = x at hm
  obtain ⟨n, R, hd, hR, hcl⟩ := hI.data
  cases hm with
  | preErr he => simp only [Pipe.measure, mkS, pst, mCal]; omega
  | startCode he => simp only [Pipe.measure, mkS, pst, mCal, mCode, List.drop_zero]; omega
  | openErr he => simp only [Pipe.measure, mkS, pst, mCal]; omega
  | startParser he => simp only [Pipe.measure, mkS, pst, mCal, Pipe.mPar]; omega
  | @recvCommit st x cs _ _ _ he =>
    have := mCal_onFirst p st x
    simp only [Pipe.measure, mkS, pst, Pipe.mPar, List.length_cons, show mCal (some (.loop st) : Option (PLoc τ)) = 9 from rfl]; omega
  | drainCommit he => simp only [Pipe.measure, mkS, pst, mCal, Pipe.mPar, List.length_cons]; omega
  | @loopEnd st _ _ _ _ he =>
    have := mCal_onEnd p st
    simp only [Pipe.measure, mkS, pst, show mCal (some (.loop st) : Option (PLoc τ)) = 9 from rfl]; omega
  | drainEnd he => simp only [Pipe.measure, mkS, pst, mCal]; omega
  | @sent k _ _ _ _ =>
    have : mCal (some (k.loc : PLoc τ)) < mCal (some (.sending [] k) : Option (PLoc τ)) := by cases k <;> simp [PAfter.loc, mCal]
    simp only [Pipe.measure, mkS, pst]; omega
  | @result r rs k _ n' cache _ _ he =>
    obtain ⟨rfl, rfl, rfl, rfl, rfl⟩ := mkS_inj hx
    have h1 : mCal (some (.sending (r :: rs) k) : Option (PLoc τ)) = mCal (some (.sending rs k) : Option (PLoc τ)) := by cases k <;> rfl
    have h2 : mCode out (some (p.onResult n' cache r)) < mCode out (some (.codeRecv n' cache)) := by
      cases hd with
      | recv hd _ _ =>
      have hF : (p.fut (.sending (r :: rs) k) (p.todo b)).1 = r :: (p.fut (.sending rs k) (p.todo b)).1 := rfl
      rw [hF] at hd
      simp only [Pipe.streamed] at hd
      unfold Pipe.onResult
      cases hm : GoMap.get p.metas r.commit with
      | none => simp [mCode]
      | some m =>
        simp only [hm] at hd ⊢
        cases hf : codeInfoFiles p.cl p.scc (p.orders n) p.metas cache r with
        | error e => simp [mCode]
        | ok x =>
          obtain ⟨recs, cache1⟩ := x
          simp only [hf] at hd
          obtain ⟨_, _, _, h4⟩ := commitStream_split hd
          simp only [mCode]
          rw [← hd, h4]
          simp only [weight, List.map_cons, List.sum_cons]
          omega
    simp only [Pipe.measure, mkS, pst, h1]; omega
  | closeCommits he => simp only [Pipe.measure, mkS, pst, Pipe.mPar, List.length_nil]; omega
  | joinRun =>
    have : p.mPar (some p.parserEnd) = 0 := by
      unfold Pipe.parserEnd; cases (parseSent p.text).2 <;> rfl
    simp only [Pipe.measure, mkS, pst, this, show p.mPar (some .parseDone) = 1 from rfl, mCal]; omega
  | closeGitRes he => simp only [Pipe.measure, mkS, pst, mCal]; omega
  | codeStop he => simp only [Pipe.measure, mkS, pst, mCode]; omega
  | joinByCommit => simp only [Pipe.measure, mkS, pst, mCal, mCode]; omega
  | closeRes2 he => simp only [Pipe.measure, mkS, pst, mCal]; omega
  | closeBlames he => simp only [Pipe.measure, mkS, pst, mCode, List.length_nil]; omega
  | head hr he => simp only [Pipe.measure, mkS, pst, mCode, mSee_value _ _ (show Seen.isValue (.commit _ _ : CodeSeen τ) = true from rfl)]; omega
  | record hr he => simp only [Pipe.measure, mkS, pst, mCode, mSee_value _ _ (show Seen.isValue (.record _ _ : CodeSeen τ) = true from rfl), List.length_cons]; omega
  | seeRes hr he =>
    obtain ⟨rfl, rfl, rfl, rfl, rfl⟩ := mkS_inj hx
    have := mSee_res (k := out.length) (hdr.once _ hr)
    simp only [Pipe.measure, mkS]; omega
  | @seeBlames _ _ _ _ _ i hr he =>
    obtain ⟨rfl, rfl, rfl, rfl, rfl⟩ := mkS_inj hx
    have hi := (hcl i).1 he
    have := mSee_blames (k := out.length) (i := i) (by have := hd.prefix.2.1; omega) (hdr.onceBlames _ _ hr).2
    simp only [Pipe.measure, mkS]; omega

theorem SSteps.bound {p : Pipe τ} {ready : List (CodeSeen τ) → Want → Prop} (hdr : Drains ready) {out m} {x y : SState τ} (hs : SSteps p ready m x y)
    (hx : ∃ a b c cl h, x = mkS a b c cl h ∧ SInv p out a b c cl h) : m + p.measure out y ≤ p.measure out x := by
  induction hs with
  | refl => omega
  | cons h1 h2 ih =>
    obtain ⟨a, b, c, cl, h, rfl, hI⟩ := hx
    have hmv := mv_of_step hI.parts h1
    have := hI.decreases hdr hmv
    obtain ⟨a', b', c', cl', h', rfl, hI'⟩ := hI.move hmv
    have := ih ⟨_, _, _, _, _, rfl, hI'⟩
    omega

/-- No goroutine panics. -/
theorem SInv.not_crashed {p : Pipe τ} {out a b c cl h} (hI : SInv p out a b c cl h) (hfate : (p.fut .cByCommit (parseSent p.text).1).2 ≠ none)
    (hlen : out.length = p.results.length) (hparse : (parseSent p.text).2 = none) : ¬ Crashed p.act (mkS a b c cl h).st := by
  have hpar := hI.par
  have hcod := hI.cod
  have hres2 := hI.res2
  have hf := hI.fate
  obtain ⟨n, R, hd, hR, hcl⟩ := hI.data
  rintro ⟨r, l, hl, hc⟩
  have hbl : cl (.blames n) = false := by
    cases hc : cl (.blames n) with
    | false => rfl
    | true => have := (hcl n).1 hc; omega
  cases r with
  | flat => cases hl
  | collect => cases hl
  | caller =>
    cases hl
    rcases hc with hc | ⟨x, v, k, hc, hx⟩ | ⟨x, k, hc, hx⟩
    · have hra := hI.parts.ra
      have h9 := hI.parts.ph9
      cases a with
      | panicked r => apply hfate; rw [← hf]; rfl
      | sending rs k => cases rs <;> simp [Pipe.act] at hc
      | cByCommit => simp only [Pipe.act] at hc; cases hp : p.pre <;> simp [hp] at hc
      | cRun => simp only [Pipe.act] at hc; cases hp : p.openErr <;> simp [hp] at hc
      | _ => first | (cases hra; done) | (simp [Pipe.act] at hc; done)
    · have hwr := (pipe_send p hc).1.trans hI.parts.ra
      cases x <;> simp [PChan.wr] at hwr
      obtain ⟨r, rs, k', rfl, _, _⟩ := send_gitRes hc
      change cl .gitRes = true at hx
      rcases c with _ | l
      · simp [CodOk, PLoc.ph] at hcod
      · cases l <;> simp [CodOk, PLoc.ph] at hcod <;> simp [hcod] at hx
    · have hra := hI.parts.ra
      have h9 := hI.parts.ph9
      cases a with
      | sending rs k => cases rs <;> simp [Pipe.act] at hc
      | cByCommit => simp only [Pipe.act] at hc; cases hp : p.pre <;> simp [hp] at hc
      | cRun => simp only [Pipe.act] at hc; cases hp : p.openErr <;> simp [hp] at hc
      | closeGitRes w e =>
        simp [Pipe.act] at hc
        obtain ⟨rfl, rfl⟩ := hc
        change cl .gitRes = true at hx
        rcases c with _ | l
        · simp [CodOk, PLoc.ph] at hcod
        · cases l <;> simp [CodOk, PLoc.ph] at hcod <;> simp [hcod] at hx
      | closeRes2 w e =>
        simp [Pipe.act] at hc
        obtain ⟨rfl, rfl⟩ := hc
        have := hres2.1 hx
        simp [PLoc.ph] at this
      | closeRes w e => exact h9 rfl
      | _ => first | (cases hra; done) | (simp [Pipe.act] at hc; done)
  | parser =>
    have hl : b = some l := hl
    subst hl
    have hrb := hI.parts.rb l rfl
    cases l with
    | parse cs =>
      change cl .commits = false ∧ _ at hpar
      cases cs with
      | nil =>
        simp [Pipe.act] at hc
        change cl .commits = true at hc
        rw [hpar.1] at hc; cases hc
      | cons x cs =>
        simp [Pipe.act] at hc
        change cl .commits = true at hc
        rw [hpar.1] at hc; cases hc
    | parseDone =>
      simp [Pipe.act] at hc
      change cl .doneRun = true at hc
      rw [hI.parts.doneRun] at hc; cases hc
    | parsed => simp [Pipe.act] at hc
    | panicked r =>
      simp only [ParOk] at hpar
      have := hpar.1
      simp [Pipe.parserEnd, hparse] at this
    | _ => cases hrb
  | code =>
    have hl : c = some l := hl
    subst hl
    have hrc := hI.parts.rc l rfl
    cases l with
    | codeRecv n' cache => simp [Pipe.act] at hc
    | codeHead n' cache x recs =>
      simp [Pipe.act] at hc
      change cl .res2 = true at hc
      have h7 := hres2.1 hc
      have := hcod.1
      omega
    | codeRecs n' cache recs =>
      cases hd with
      | recs hd _ =>
      cases recs with
      | nil =>
        simp [Pipe.act] at hc
        change cl (.blames n) = true at hc
        rw [hbl] at hc; cases hc
      | cons r recs =>
        simp [Pipe.act] at hc
        change cl (.blames n) = true at hc
        rw [hbl] at hc; cases hc
    | codeDone =>
      simp [Pipe.act] at hc
      change cl .doneByCommit = true at hc
      rw [hI.parts.doneByCommit] at hc; cases hc
    | codeEnd => simp [Pipe.act] at hc
    | panicked r =>
      simp only [PLoc.role] at hrc
      subst hrc
      cases hd with
      | panicked h => omega
    | _ => cases hrc

end Ripsrc
