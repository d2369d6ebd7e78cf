import Verif.Props.SharedObject
/-!
# C88: calls one after the other

The model of calls at the same time (Model/SharedObject.lean) and the model of calls one after the other (Model/Ripsrc.lean) agree when no two calls look for the commit graph at the same time.
-/
namespace Ripsrc
open Conc Relation Spec

section
variable {τ : Type} {c : ObjEnv τ}

/-- The call has got its graph, or has failed; it does not touch the object any more. -/
def ObjLoc.Past : ObjLoc → Prop
  | .branches .. => True
  | .code .. => True
  | _ => False

/-- The object as a later call finds it. -/
def SharedObj.obj (s : SharedObj) : RipsrcObj := { commitGraph := s.field.map s.deref }

/-- What the call does, for an object on which no other call is under way. -/
def ObjEnv.expected (c : ObjEnv τ) (i : Nat) (s : RipsrcObj) : RipsrcObj × Option Fault :=
  if c.isCode i then codePre (c.env i) (c.out i) s else branchesPre (c.env i) (c.out i) c.u s

theorem expected_check {i : Nat} (h : c.begin i = .check) (s : RipsrcObj) : c.expected i s = buildCommitGraph (c.env i) (c.out i) s := by
  unfold ObjEnv.begin at h
  unfold ObjEnv.expected codePre branchesPre
  split at h
  · unfold ObjEnv.failed at h; split at h <;> cases h
  · rename_i h1
    split at h
    · unfold ObjEnv.failed at h; split at h <;> cases h
    · rename_i h2
      simp only [h2]
      split
      · rfl
      · rename_i h3
        rw [if_neg (fun h4 => h1 ⟨by simpa using h3, h4⟩)]

/-- A call ends before `buildCommitGraph` or goes on. -/
theorem begin_cases (c : ObjEnv τ) (i : Nat) (s : RipsrcObj) : c.begin i = .check ∨ ∃ f, c.begin i = c.failed i f ∧ c.expected i s = (s, some f) := by
  unfold ObjEnv.begin ObjEnv.expected codePre branchesPre
  split
  · rename_i h
    exact .inr ⟨_, rfl, by rw [if_neg (by simp [h.1]), if_pos h.2]⟩
  · rename_i h
    cases gitexecPrepare (c.out i) with
    | error f =>
      refine .inr ⟨f, rfl, ?_⟩
      simp only
      split
      · rfl
      · rename_i h3
        rw [if_neg (fun h4 => h ⟨by simpa using h3, h4⟩)]
    | ok u => exact .inl rfl

/-- The object while the call `i` is the only one that looks for the graph; `s0`: when it began. -/
inductive OneCall (c : ObjEnv τ) (i : Nat) (s0 : SharedObj) : SharedObj → Option ObjLoc → Prop where
  | none : OneCall c i s0 s0 none
  | start : OneCall c i s0 s0 (some .start)
  | check : c.begin i = .check → OneCall c i s0 s0 (some .check)
  | store : c.begin i = .check → s0.field = none → OneCall c i s0 s0 (some .store)
  | read : c.begin i = .check → s0.field = none → OneCall c i s0 { graphs := s0.graphs ++ [.empty], field := some s0.graphs.length } (some .read)
  | parents : c.begin i = .check → s0.field = none → OneCall c i s0 { graphs := s0.graphs ++ [.empty], field := some s0.graphs.length } (some (.parents s0.graphs.length))
  | clear {text m} : c.begin i = .check → s0.field = none → (c.out i).log = some text → parentsRun text = .ok m →
      OneCall c i s0 { graphs := s0.graphs ++ [{ parents := m, children := [] }], field := some s0.graphs.length } (some (.clear s0.graphs.length))
  | kids {text m done todo} : c.begin i = .check → s0.field = none → (c.out i).log = some text → parentsRun text = .ok m → done ++ todo = (c.env i).iter m →
      OneCall c i s0 { graphs := s0.graphs ++ [{ parents := m, children := done.foldl childrenStep [] }], field := some s0.graphs.length } (some (.kids s0.graphs.length todo))
  | use {s q} : c.expected i s0.obj = (s.obj, none) → s.field = some q → OneCall c i s0 s (some .use)
  | branches {s q pre k st} : c.isCode i = false → c.expected i s0.obj = (s.obj, pre) → (pre = none → s.field = some q) →
      Steps (callPool (c.env i) (c.out i) c.u pre (s.deref q)).act k Pool.init st → OneCall c i s0 s (some (.branches q pre st))
  | code {s q pre} : c.isCode i = true → c.expected i s0.obj = (s.obj, pre) → (pre = none → s.field = some q) → OneCall c i s0 s (some (.code q pre))

theorem oneCall_failed {i : Nat} {s0 s : SharedObj} {f : Fault} (h : c.expected i s0.obj = (s.obj, some f)) : OneCall c i s0 s (some (c.failed i f)) := by
  unfold ObjEnv.failed
  cases hc : c.isCode i with
  | true => exact .code hc h (by simp)
  | false => exact .branches hc h (by simp) .refl

theorem deref_last (l : List Graph) (g : Graph) (f : Option Nat) : SharedObj.deref { graphs := l ++ [g], field := f } l.length = g := by
  simp [SharedObj.deref]

theorem put_last (l : List Graph) (g g' : Graph) (f : Option Nat) : SharedObj.put { graphs := l ++ [g], field := f } l.length g' = { graphs := l ++ [g'], field := f } := by
  simp [SharedObj.put]

theorem oneCall_step {i : Nat} {s0 : SharedObj} {x y : ObjSt} (hst : ObjStep c x y) (ih : OneCall c i s0 x.sh (x.calls i))
    (hx : ∀ j, j ≠ i → x.calls j = none ∨ ∃ l, x.calls j = some l ∧ l.Past) (hy : ∀ j, j ≠ i → y.calls j = none ∨ ∃ l, y.calls j = some l ∧ l.Past) :
    OneCall c i s0 y.sh (y.calls i) := by
  have self : ∀ (y : ObjSt) (l : ObjLoc), (y.go i l).calls i = some l := fun y l => by rw [go_calls, if_pos rfl]
  have other : ∀ {j} {y : ObjSt} {l : ObjLoc}, j ≠ i → (y.go j l).calls i = y.calls i := fun {j y l} h => by rw [go_calls, if_neg (Ne.symm h)]
  have only : ∀ {j l}, x.calls j = some l → ¬ l.Past → j = i := by
    intro j l hl hp
    by_cases e : j = i
    · exact e
    · rcases hx j e with h | ⟨l', h, h'⟩ <;> rw [hl] at h <;> cases h
      exact absurd h' hp
  cases hst with
  | @call j h1 =>
    by_cases e : j = i
    · subst e
      rw [self, go_sh]
      rw [h1] at ih
      generalize x.sh = s at ih
      cases ih
      exact .start
    · rcases hy j e with h | ⟨l, h, h'⟩
      · rw [go_calls, if_pos rfl] at h; cases h
      · rw [go_calls, if_pos rfl] at h; cases h; exact h'.elim
  | @begin j h1 =>
    obtain rfl := only h1 id
    rw [self, go_sh]
    rw [h1] at ih
    generalize x.sh = s at ih
    cases ih
    rcases begin_cases c j s0.obj with h2 | ⟨f, h2, h3⟩
    · rw [h2]; exact .check h2
    · rw [h2]; exact oneCall_failed h3
  | @checkNil j h1 h2 =>
    obtain rfl := only h1 id
    rw [self, go_sh]
    rw [h1] at ih
    generalize x.sh = s at ih h2
    cases ih
    rename_i hb
    exact .store hb h2
  | @checkSet j q h1 h2 =>
    obtain rfl := only h1 id
    rw [self, go_sh]
    rw [h1] at ih
    generalize x.sh = s at ih h2
    cases ih
    rename_i hb
    refine .use ?_ h2
    rw [expected_check hb]
    simp only [buildCommitGraph, SharedObj.obj, h2, Option.map_some]
  | @store j h1 =>
    obtain rfl := only h1 id
    rw [self, go_sh]
    rw [h1] at ih
    simp only
    generalize x.sh = s at ih
    cases ih
    rename_i hb hf
    exact .read hb hf
  | @read j q h1 h2 =>
    obtain rfl := only h1 id
    rw [self, go_sh]
    rw [h1] at ih
    generalize x.sh = s at ih h2
    cases ih
    rename_i hb hf
    cases h2
    exact .parents hb hf
  | @parents j q text m' h1 h2 h3 =>
    obtain rfl := only h1 id
    rw [self, go_sh]
    rw [h1] at ih
    simp only
    generalize x.sh = s at ih
    cases ih
    rename_i hb hf
    rw [deref_last, put_last]
    exact .clear hb hf h2 h3
  | @parentsError j q text f h1 h2 h3 =>
    obtain rfl := only h1 id
    rw [self, go_sh]
    rw [h1] at ih
    generalize x.sh = s at ih
    cases ih
    rename_i hb hf
    apply oneCall_failed
    rw [expected_check hb]
    simp only [buildCommitGraph, SharedObj.obj, hf, Option.map_none, graphRead, h2, h3, bind, Except.bind, Option.map_some, deref_last]
    rfl
  | @parentsPanic j q h1 h2 =>
    obtain rfl := only h1 id
    rw [self, go_sh]
    rw [h1] at ih
    generalize x.sh = s at ih
    cases ih
    rename_i hb hf
    apply oneCall_failed
    rw [expected_check hb]
    simp only [buildCommitGraph, SharedObj.obj, hf, Option.map_none, graphRead, h2, Option.map_some, deref_last]
    rfl
  | @clear j q h1 =>
    obtain rfl := only h1 id
    rw [self, go_sh]
    rw [h1] at ih
    simp only
    generalize x.sh = s at ih
    cases ih
    rename_i hb hf hl hp
    rw [deref_last, put_last]
    exact .kids (done := []) hb hf hl hp rfl
  | @kids j q a todo h1 =>
    obtain rfl := only h1 id
    rw [self, go_sh]
    rw [h1] at ih
    simp only
    generalize x.sh = s at ih
    cases ih
    rename_i done hb hf hl hp hd
    rw [deref_last, put_last]
    have := OneCall.kids (done := done ++ [a]) (todo := todo) hb hf hl hp (by rw [← hd]; simp)
    rw [List.foldl_append] at this
    exact this
  | @sort j q h1 =>
    obtain rfl := only h1 id
    rw [self, go_sh]
    rw [h1] at ih
    simp only
    generalize x.sh = s at ih
    cases ih
    rename_i done hb hf hl hp hd
    rw [List.append_nil] at hd
    subst hd
    rw [deref_last, put_last]
    refine .use ?_ rfl
    rw [expected_check hb]
    simp only [buildCommitGraph, SharedObj.obj, hf, Option.map_none, graphRead, hl, hp, bind, Except.bind, Option.map_some, deref_last]
    rfl
  | @use j q h1 h2 =>
    obtain rfl := only h1 id
    rw [self, go_sh]
    rw [h1] at ih
    generalize x.sh = s at ih h2
    cases ih
    rename_i q' he hf
    cases hc : c.isCode j with
    | true => exact .code hc he (fun _ => h2)
    | false => exact .branches hc he (fun _ => h2) .refl
  | @run j q pre s t h1 h2 =>
    by_cases e : j = i
    · subst e
      rw [self, go_sh]
      rw [h1] at ih
      generalize x.sh = s at ih h2
      cases ih
      rename_i h3 h4 h5 hk
      exact .branches h3 h4 h5 (hk.snoc h2)
    · rw [go_sh, other e]; exact ih

theorem past_step {x y : ObjSt} (hst : ObjStep c x y) {j : Nat} {l : ObjLoc} (hl : x.calls j = some l) (hp : l.Past) : ∃ l', y.calls j = some l' ∧ l'.Past := by
  have key : ∀ {z : ObjSt} {i : Nat} {l1 l2 : ObjLoc}, z.calls = x.calls → x.calls i = some l1 → (¬ l1.Past ∨ l2.Past) → ∃ l', (z.go i l2).calls j = some l' ∧ l'.Past := by
    intro z i l1 l2 hz h1 h2
    rw [go_calls]
    split
    · rename_i e; subst e
      rw [hl] at h1; cases h1
      exact ⟨_, rfl, h2.resolve_left (fun h => h hp)⟩
    · rw [hz]; exact ⟨l, hl, hp⟩
  cases hst with
  | @call i h1 =>
    rw [go_calls]
    split
    · rename_i e; subst e; rw [hl] at h1; cases h1
    · exact ⟨l, hl, hp⟩
  | begin h1 => exact key rfl h1 (.inl id)
  | checkNil h1 _ => exact key rfl h1 (.inl id)
  | checkSet h1 _ => exact key rfl h1 (.inl id)
  | store h1 => exact key rfl h1 (.inl id)
  | read h1 _ => exact key rfl h1 (.inl id)
  | parents h1 _ _ => exact key rfl h1 (.inl id)
  | parentsError h1 _ _ => exact key rfl h1 (.inl id)
  | parentsPanic h1 _ => exact key rfl h1 (.inl id)
  | clear h1 => exact key rfl h1 (.inl id)
  | kids h1 => exact key rfl h1 (.inl id)
  | sort h1 => exact key rfl h1 (.inl id)
  | use h1 _ => exact key rfl h1 (.inl id)
  | run h1 _ => exact key rfl h1 (.inr trivial)

/-- **C88 (one after the other).** Whatever git prints and whatever happened to the object before: let the call `i` begin when every other call that has begun has got its graph (or failed), and let no further call begin
until `i` has got its graph (or failed) too; the other calls may go on. Then the call leaves the object as in the model of calls one after the other (C58, C59), fails with the same error, and a call of
`Branches` runs the same worker pool. -/
theorem C88_one_after_the_other {i m : Nat} {x y : ObjSt} (hi : x.calls i = none) (hx : ∀ j, j ≠ i → x.calls j = none ∨ ∃ l, x.calls j = some l ∧ l.Past)
    (hxy : ObjSteps c m x y) (hy : ∀ j, j ≠ i → x.calls j = none → y.calls j = none) :
    (∀ q pre st, y.calls i = some (.branches q pre st) → c.isCode i = false ∧
      (branchesCall (c.env i) (c.out i) c.u x.sh.obj).1 = y.sh.obj ∧ (branchesCall (c.env i) (c.out i) c.u x.sh.obj).2.pre = pre ∧
      (pre = none → ∃ k, Steps (branchesCall (c.env i) (c.out i) c.u x.sh.obj).2.act k Pool.init st)) ∧
    (∀ q pre, y.calls i = some (.code q pre) → c.isCode i = true ∧ codePre (c.env i) (c.out i) x.sh.obj = (y.sh.obj, pre) ∧
      (pre = none → y.sh.obj.commitGraph = some (y.sh.deref q))) := by
  have hinv : (∀ j, j ≠ i → y.calls j = none ∨ ∃ l, y.calls j = some l ∧ l.Past) ∧ OneCall c i x.sh y.sh (y.calls i) := by
    induction hxy with
    | refl => exact ⟨hx, by rw [hi]; exact .none⟩
    | @snoc n x0 y0 z hs hst ih =>
      have hy0 : ∀ j, j ≠ i → x0.calls j = none → y0.calls j = none := fun j hj h => hst.none_before (hy j hj h)
      obtain ⟨h1, h2⟩ := ih hi hx hy0
      have hz : ∀ j, j ≠ i → z.calls j = none ∨ ∃ l, z.calls j = some l ∧ l.Past := by
        intro j hj
        rcases h1 j hj with h | ⟨l, h, h'⟩
        · rcases hx j hj with h3 | ⟨l, h3, h4⟩
          · exact .inl (hy j hj h3)
          · exfalso
            have : ∀ {n : Nat} {a b : ObjSt}, ObjSteps c n a b → (∃ l, a.calls j = some l ∧ l.Past) → ∃ l, b.calls j = some l ∧ l.Past := by
              intro n a b hab
              induction hab with
              | refl => exact id
              | snoc _ hs ih => intro h; obtain ⟨l, h5, h6⟩ := ih h; exact past_step hs h5 h6
            obtain ⟨l', h5, _⟩ := this hs ⟨l, h3, h4⟩
            rw [h] at h5; cases h5
        · exact .inr (past_step hst h h')
      exact ⟨hz, oneCall_step hst h2 h1 hz⟩
  have hone := hinv.2
  constructor
  · intro q pre st h
    rw [h] at hone
    generalize hsy : y.sh = s at hone
    cases hone
    rename_i k h1 h2 h4 hk
    have he : branchesPre (c.env i) (c.out i) c.u x.sh.obj = (s.obj, pre) := by
      rw [← h2]; unfold ObjEnv.expected; rw [if_neg (by simp [h1])]
    refine ⟨h1, ?_, ?_, ?_⟩
    · show (branchesPre _ _ _ _).1 = _; rw [he]
    · show (branchesPre _ _ _ _).2 = _; rw [he]
    · intro hp
      refine ⟨k, ?_⟩
      have : (branchesCall (c.env i) (c.out i) c.u x.sh.obj).2 = callPool (c.env i) (c.out i) c.u pre (s.deref q) := by
        have hg : s.obj.commitGraph.getD { parents := [], children := [] } = s.deref q := by simp only [SharedObj.obj, h4 hp, Option.map_some, Option.getD_some]
        unfold callPool branchesCall
        simp only [he, hg]
      rw [this]
      exact hk
  · intro q pre h
    rw [h] at hone
    generalize hsy : y.sh = s at hone
    cases hone
    rename_i h1 h2 h3
    refine ⟨h1, ?_, fun hp => by simp only [SharedObj.obj, h3 hp, Option.map_some]⟩
    rw [← h2]; unfold ObjEnv.expected; rw [if_pos h1]

end

/-! ## The hypotheses can be met -/

/-- git prints something else than commits. -/
def exObjEnv3 : ObjEnv Str := { exObjEnv with isCode := fun _ => false, out := fun _ => { exOut1 with log := some b!"x" } }

set_option maxRecDepth 100000 in
theorem exObjEnv3_begin (i : Nat) : exObjEnv3.begin i = .check := by
  have h : gitexecPrepare (exObjEnv3.out i) = .ok () := rfl
  unfold ObjEnv.begin
  rw [h]
  rfl

set_option maxRecDepth 100000 in
theorem exObjEnv3_error : ∃ f, parentsRun b!"x" = .error f := ⟨_, rfl⟩

/-- The first call fails when it reads the graph; the second one, made after that, finds an object with an empty graph and goes on with it. -/
example : ∃ n m x y st, ObjSteps exObjEnv3 n .fresh x ∧ (∀ j, j ≠ 1 → x.calls j = none ∨ ∃ l, x.calls j = some l ∧ l.Past) ∧ x.calls 1 = none ∧ ObjSteps exObjEnv3 m x y ∧
    (∀ j, j ≠ 1 → x.calls j = none → y.calls j = none) ∧ y.calls 1 = some (.branches 0 none st) ∧ x.sh.obj.commitGraph = some .empty := by
  obtain ⟨f, hf⟩ := exObjEnv3_error
  have s1 : ObjSteps exObjEnv3 1 .fresh _ := ObjSteps.refl.snoc (.call (i := 0) rfl)
  have s2 := s1.snoc (.begin (i := 0) (by rw [go_calls, if_pos rfl]))
  rw [exObjEnv3_begin] at s2
  have s3 := s2.snoc (.checkNil (i := 0) (by rw [go_calls, if_pos rfl]) rfl)
  have s4 := s3.snoc (.store (i := 0) (by rw [go_calls, if_pos rfl]))
  have s5 := s4.snoc (.read (i := 0) (q := 0) (by rw [go_calls, if_pos rfl]) rfl)
  have s6 := s5.snoc (.parentsError (i := 0) (q := 0) (by rw [go_calls, if_pos rfl]) rfl hf)
  generalize hx : ObjSt.go _ 0 (exObjEnv3.failed 0 f) = x at s6
  have hn : ∀ j, j ≠ 0 → x.calls j = none := by
    intro j hj
    rw [← hx]
    simp only [go_calls, if_neg hj]
    rfl
  have h0 : x.calls 0 = some (.branches 0 (some f) Pool.init) := by rw [← hx, go_calls, if_pos rfl]; rfl
  have hsh : x.sh = { graphs := [.empty], field := some 0 } := by rw [← hx]; rfl
  have t1 : ObjSteps exObjEnv3 1 x _ := ObjSteps.refl.snoc (.call (i := 1) (hn 1 (by decide)))
  have t2 := t1.snoc (.begin (i := 1) (by rw [go_calls, if_pos rfl]))
  rw [exObjEnv3_begin] at t2
  have t3 := t2.snoc (.checkSet (i := 1) (q := 0) (by rw [go_calls, if_pos rfl]) (by simp only [go_sh, hsh]))
  have t4 := t3.snoc (.use (i := 1) (q := 0) (by rw [go_calls, if_pos rfl]) (by simp only [go_sh, hsh]))
  refine ⟨_, _, x, _, _, s6, ?_, hn 1 (by decide), t4, ?_, by rw [go_calls, if_pos rfl]; rfl, by rw [hsh]; rfl⟩
  · intro j _
    by_cases e : j = 0
    · subst e; exact .inr ⟨_, h0, trivial⟩
    · exact .inl (hn j e)
  · intro j hj h
    simp only [go_calls, if_neg hj]
    exact h

end Ripsrc
