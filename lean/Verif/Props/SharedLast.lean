import Verif.Props.SharedSequential
/-!
# C88: the last call that reads the graph

Whatever calls at the same time left in the graph: a call that waits for git while every other call is done with the object replaces it.
-/
namespace Ripsrc
open Conc Relation Spec

section
variable {τ : Type} {c : ObjEnv τ}

/-- The pointer that a call has got is one to a graph that was allocated. -/
def ObjLoc.Valid (n : Nat) : ObjLoc → Prop
  | .parents q => q < n
  | .clear q => q < n
  | .kids q _ => q < n
  | _ => True

/-- Pointers are valid. -/
structure ValidObj (x : ObjSt) : Prop where
  field : ∀ q, x.sh.field = some q → q < x.sh.graphs.length
  calls : ∀ i l, x.calls i = some l → l.Valid x.sh.graphs.length

theorem ObjLoc.Valid.mono {n m : Nat} {l : ObjLoc} (h : l.Valid n) (hnm : n ≤ m) : l.Valid m := by
  cases l <;> first | exact Nat.lt_of_lt_of_le h hnm | trivial

theorem ValidObj.go {x : ObjSt} (h : ValidObj x) {i : Nat} {l : ObjLoc} (hl : l.Valid x.sh.graphs.length) : ValidObj (x.go i l) where
  field := h.field
  calls := by
    intro j l' hj
    rw [go_calls] at hj
    split at hj
    · cases hj; exact hl
    · exact h.calls j l' hj

theorem ValidObj.put {x : ObjSt} (h : ValidObj x) (q : Nat) (g : Graph) : ValidObj { x with sh := x.sh.put q g } where
  field := fun p hp => by simpa [SharedObj.put] using h.field p hp
  calls := fun j l hl => by simpa [SharedObj.put] using h.calls j l hl

theorem valid_failed (c : ObjEnv τ) (i n : Nat) (f : Fault) : (c.failed i f).Valid n := by
  unfold ObjEnv.failed; split <;> trivial

theorem valid_begin (c : ObjEnv τ) (i n : Nat) : (c.begin i).Valid n := by
  rcases begin_cases c i {} with h | ⟨f, h, _⟩ <;> rw [h]
  · trivial
  · exact valid_failed c i n f

theorem ValidObj.step {x y : ObjSt} (h : ValidObj x) (hst : ObjStep c x y) : ValidObj y := by
  have len : ∀ (s : SharedObj) (q : Nat) (g : Graph), (s.put q g).graphs.length = s.graphs.length := fun s q g => by simp [SharedObj.put]
  cases hst with
  | call _ => exact h.go trivial
  | begin _ => exact h.go (valid_begin _ _ _)
  | checkNil _ _ => exact h.go trivial
  | checkSet _ _ => exact h.go trivial
  | store h1 =>
    refine ValidObj.go ⟨?_, ?_⟩ trivial
    · intro q hq; cases hq; simp
    · intro j l hl; exact (h.calls j l hl).mono (by simp)
  | read _ h2 => exact h.go (h.field _ h2)
  | parents h1 _ _ => exact (h.put _ _).go (by simp only [len]; have := h.calls _ _ h1; exact this)
  | parentsError _ _ _ => exact h.go (valid_failed _ _ _ _)
  | parentsPanic _ _ => exact h.go (valid_failed _ _ _ _)
  | clear h1 => exact (h.put _ _).go (by simp only [len]; have := h.calls _ _ h1; exact this)
  | kids h1 => exact (h.put _ _).go (by simp only [len]; have := h.calls _ _ h1; exact this)
  | sort h1 => exact (h.put _ _).go trivial
  | use _ _ => exact h.go (by split <;> trivial)
  | run _ _ => exact h.go trivial

theorem valid_reach {n : Nat} {x : ObjSt} (hx : ObjSteps c n .fresh x) : ValidObj x := by
  generalize h0 : ObjSt.fresh = x0 at hx
  induction hx with
  | refl => subst h0; exact ⟨fun q h => (nomatch h), fun i l h => (nomatch h)⟩
  | snoc _ hst ih => exact (ih h0).step hst

theorem deref_put {s : SharedObj} {q : Nat} (h : q < s.graphs.length) (g : Graph) : (s.put q g).deref q = g := by
  simp [SharedObj.put, SharedObj.deref, h]

theorem deref_put_ne {s : SharedObj} {q p : Nat} (h : p ≠ q) (g : Graph) : (s.put q g).deref p = s.deref p := by
  simp [SharedObj.put, SharedObj.deref, List.getElem?_set, Ne.symm h]

/-- The object while the call `i` reads the graph and every other call is done with the object; `s0`: when it waited for git. -/
structure LastRead (c : ObjEnv τ) (i q : Nat) (s0 : SharedObj) (m : GoMap Str (List Str)) (s : SharedObj) (l : Option ObjLoc) : Prop where
  field : s.field = s0.field
  len : s.graphs.length = s0.graphs.length
  others : ∀ p, p ≠ q → s.deref p = s0.deref p
  loc : l = some (.parents q) ∨
    (l = some (.clear q) ∧ (s.deref q).parents = m) ∨
    (∃ done todo, l = some (.kids q todo) ∧ done ++ todo = (c.env i).iter m ∧ s.deref q = { parents := m, children := done.foldl childrenStep [] }) ∨
    (s.deref q = Graph.newFromMap m ((c.env i).iter m) ∧
      (l = some .use ∨ (∃ p, l = some (.code p none) ∧ s0.field = some p) ∨ ∃ p st, l = some (.branches p none st) ∧ s0.field = some p))

theorem lastRead_put {i q : Nat} {s0 s : SharedObj} {m : GoMap Str (List Str)} {l l' : Option ObjLoc} (h : LastRead c i q s0 m s l) {g : Graph} (hloc : l' = some (.parents q) ∨
    (l' = some (.clear q) ∧ ((s.put q g).deref q).parents = m) ∨
    (∃ done todo, l' = some (.kids q todo) ∧ done ++ todo = (c.env i).iter m ∧ (s.put q g).deref q = { parents := m, children := done.foldl childrenStep [] }) ∨
    ((s.put q g).deref q = Graph.newFromMap m ((c.env i).iter m) ∧
      (l' = some .use ∨ (∃ p, l' = some (.code p none) ∧ s0.field = some p) ∨ ∃ p st, l' = some (.branches p none st) ∧ s0.field = some p))) :
    LastRead c i q s0 m (s.put q g) l' :=
  ⟨h.field, by rw [← h.len]; simp [SharedObj.put], fun p hp => by rw [deref_put_ne hp]; exact h.others p hp, hloc⟩

theorem lastRead_step {i q : Nat} {s0 : SharedObj} (hq : q < s0.graphs.length) {text : Str} {m : GoMap Str (List Str)} (hlog : (c.out i).log = some text) (hm : parentsRun text = .ok m) {x y : ObjSt}
    (hst : ObjStep c x y) (ih : LastRead c i q s0 m x.sh (x.calls i)) (hx : ∀ j, j ≠ i → x.calls j = none ∨ ∃ l, x.calls j = some l ∧ l.Past)
    (hy : ∀ j, j ≠ i → y.calls j = none ∨ ∃ l, y.calls j = some l ∧ l.Past) : LastRead c i q s0 m y.sh (y.calls i) := by
  have self : ∀ (y : ObjSt) (l : ObjLoc), (y.go i l).calls i = some l := fun y l => by rw [go_calls, if_pos rfl]
  have other : ∀ {j} {y : ObjSt} {l : ObjLoc}, j ≠ i → (y.go j l).calls i = y.calls i := fun {j y l} h => by rw [go_calls, if_neg (Ne.symm h)]
  have only : ∀ {j l}, x.calls j = some l → ¬ l.Past → j = i := by
    intro j l hl hp
    by_cases e : j = i
    · exact e
    · rcases hx j e with h | ⟨l', h, h'⟩ <;> rw [hl] at h <;> cases h
      exact absurd h' hp
  have hqs : q < x.sh.graphs.length := by rw [ih.len]; exact hq
  have hloc := ih.loc
  cases hst with
  | @call j h1 =>
    by_cases e : j = i
    · subst e
      rw [h1] at hloc
      simp at hloc
    · rcases hy j e with h | ⟨l, h, h'⟩
      · rw [go_calls, if_pos rfl] at h; cases h
      · rw [go_calls, if_pos rfl] at h; cases h; exact h'.elim
  | @begin j h1 => obtain rfl := only h1 id; rw [h1] at hloc; simp at hloc
  | @checkNil j h1 h2 => obtain rfl := only h1 id; rw [h1] at hloc; simp at hloc
  | @checkSet j p h1 h2 => obtain rfl := only h1 id; rw [h1] at hloc; simp at hloc
  | @store j h1 => obtain rfl := only h1 id; rw [h1] at hloc; simp at hloc
  | @read j p h1 h2 => obtain rfl := only h1 id; rw [h1] at hloc; simp at hloc
  | @parents j p text' m' h1 h2 h3 =>
    obtain rfl := only h1 id
    rw [h1] at hloc
    simp at hloc
    subst hloc
    rw [hlog] at h2; cases h2
    rw [hm] at h3; cases h3
    rw [self, go_sh]
    exact lastRead_put ih (.inr (.inl ⟨rfl, by rw [deref_put hqs]⟩))
  | @parentsError j p text' f h1 h2 h3 =>
    obtain rfl := only h1 id
    rw [hlog] at h2; cases h2
    rw [hm] at h3; cases h3
  | @parentsPanic j p h1 h2 =>
    obtain rfl := only h1 id
    rw [hlog] at h2; cases h2
  | @clear j p h1 =>
    obtain rfl := only h1 id
    rw [h1] at hloc
    simp at hloc
    obtain ⟨rfl, hp⟩ := hloc
    rw [self, go_sh]
    exact lastRead_put ih (.inr (.inr (.inl ⟨[], _, rfl, by rw [hp]; rfl, by rw [deref_put hqs]; simp only [hp]; rfl⟩)))
  | @kids j p a todo h1 =>
    obtain rfl := only h1 id
    rw [h1] at hloc
    rcases hloc with h | ⟨h, _⟩ | ⟨done, todo', h, hd, hg⟩ | ⟨_, h | ⟨_, h, _⟩ | ⟨_, _, h, _⟩⟩ <;> cases h
    rw [self, go_sh]
    refine lastRead_put ih (.inr (.inr (.inl ⟨done ++ [a], todo, rfl, by rw [← hd]; simp, ?_⟩)))
    rw [deref_put hqs, hg, List.foldl_append]
    rfl
  | @sort j p h1 =>
    obtain rfl := only h1 id
    rw [h1] at hloc
    rcases hloc with h | ⟨h, _⟩ | ⟨done, todo', h, hd, hg⟩ | ⟨_, h | ⟨_, h, _⟩ | ⟨_, _, h, _⟩⟩ <;> cases h
    rw [self, go_sh]
    refine lastRead_put ih (.inr (.inr (.inr ⟨?_, .inl rfl⟩)))
    rw [deref_put hqs, hg]
    rw [List.append_nil] at hd
    subst hd
    rfl
  | @use j p h1 h2 =>
    obtain rfl := only h1 id
    rw [h1] at hloc
    simp at hloc
    rw [self, go_sh]
    refine ⟨ih.field, ih.len, ih.others, .inr (.inr (.inr ⟨hloc, .inr ?_⟩))⟩
    rw [ih.field] at h2
    split
    · exact .inl ⟨p, rfl, h2⟩
    · exact .inr ⟨p, _, rfl, h2⟩
  | @run j p pre s t h1 h2 =>
    by_cases e : j = i
    · subst e
      rw [h1] at hloc
      rcases hloc with h | ⟨h, _⟩ | ⟨_, _, h, _⟩ | ⟨hg, h | ⟨_, h, _⟩ | ⟨_, _, h, hf⟩⟩ <;> cases h
      rw [self, go_sh]
      exact ⟨ih.field, ih.len, ih.others, .inr (.inr (.inr ⟨hg, .inr (.inr ⟨p, t, rfl, hf⟩)⟩))⟩
    · rw [go_sh, other e]; exact ih

/-- **C88 (the last call that reads).** Whatever calls have done to an object, at the same time or not, and whatever graph they left: let the call `i` wait for git while every other call has got its graph (or failed), and let no further
call begin until `i` has got its graph. If git succeeds and its output can be read, then after that the graph that `i` reads into is exactly the graph of this output, nothing is left of what was in it before, the other graphs and
the field of the object are as they were, and `i` goes on with the graph the field points to. -/
theorem C88_last_reader {i n k q : Nat} {x y : ObjSt} (hreach : ObjSteps c n .fresh x) (hi : x.calls i = some (.parents q)) (hx : ∀ j, j ≠ i → x.calls j = none ∨ ∃ l, x.calls j = some l ∧ l.Past)
    (hxy : ObjSteps c k x y) (hy : ∀ j, j ≠ i → x.calls j = none → y.calls j = none) {text : Str} {m : GoMap Str (List Str)} (hlog : (c.out i).log = some text) (hm : parentsRun text = .ok m)
    {l : ObjLoc} (hl : y.calls i = some l) (hpast : l.Past) :
    y.sh.deref q = Graph.newFromMap m ((c.env i).iter m) ∧ (∀ p, p ≠ q → y.sh.deref p = x.sh.deref p) ∧ y.sh.field = x.sh.field ∧
      ∃ p, x.sh.field = some p ∧ (l = .code p none ∨ ∃ st, l = .branches p none st) := by
  have hq : q < x.sh.graphs.length := (valid_reach hreach).calls i _ hi
  have hinv : (∀ j, j ≠ i → y.calls j = none ∨ ∃ l, y.calls j = some l ∧ l.Past) ∧ LastRead c i q x.sh m y.sh (y.calls i) := by
    clear hl hpast hreach
    induction hxy with
    | refl => exact ⟨hx, ⟨rfl, rfl, fun _ _ => rfl, .inl hi⟩⟩
    | @snoc n x0 y0 z hs hst ih =>
      have hy0 : ∀ j, j ≠ i → x0.calls j = none → y0.calls j = none := fun j hj h => hst.none_before (hy j hj h)
      obtain ⟨h1, h2⟩ := ih hi hx hy0 hq
      have hz : ∀ j, j ≠ i → z.calls j = none ∨ ∃ l, z.calls j = some l ∧ l.Past := by
        intro j hj
        rcases h1 j hj with h | ⟨l, h, h'⟩
        · rcases hx j hj with h3 | ⟨l, h3, h4⟩
          · exact .inl (hy j hj h3)
          · exfalso
            have : ∀ {n : Nat} {a b : ObjSt}, ObjSteps c n a b → (∃ l, a.calls j = some l ∧ l.Past) → ∃ l, b.calls j = some l ∧ l.Past := by
              intro n a b hab
              induction hab with
              | refl => exact id
              | snoc _ hs ih => intro h; obtain ⟨l, h5, h6⟩ := ih h; exact past_step hs h5 h6
            obtain ⟨l', h5, _⟩ := this hs ⟨l, h3, h4⟩
            rw [h] at h5; cases h5
        · exact .inr (past_step hst h h')
      exact ⟨hz, lastRead_step hq hlog hm hst h2 h1 hz⟩
  obtain ⟨-, h1, h2, h3, h4⟩ := hinv
  rw [hl] at h4
  rcases h4 with h4 | ⟨h4, _⟩ | ⟨d, t, h4, _⟩ | ⟨hg, h4 | ⟨p, h4, hf⟩ | ⟨p, st, h4, hf⟩⟩ <;> cases h4 <;> try exact hpast.elim
  · exact ⟨hg, h3, h1, p, hf, .inl rfl⟩
  · exact ⟨hg, h3, h1, p, hf, .inr ⟨st, rfl⟩⟩

end

/-! ## The hypotheses can be met -/

/-- Two calls; git prints another commit for each. -/
def exObjEnv4 : ObjEnv Str := { exObjEnv with isCode := fun _ => true, env := fun _ => { exEnv1 with iter := id }, out := fun i => { exOut1 with log := some (if i = 0 then b!"b@" else b!"a@") } }

set_option maxRecDepth 100000 in
theorem exObjEnv4_begin (i : Nat) : exObjEnv4.begin i = .check := by
  have h : gitexecPrepare (exObjEnv4.out i) = .ok () := rfl
  unfold ObjEnv.begin
  rw [h]
  rfl

/-- Two first calls at the same time read into the same graph, and the second one is the last: afterwards the graph is its own. -/
example : ∃ n k x y, ObjSteps exObjEnv4 n .fresh x ∧ x.calls 1 = some (.parents 1) ∧ (∀ j, j ≠ 1 → x.calls j = none ∨ ∃ l, x.calls j = some l ∧ l.Past) ∧ ObjSteps exObjEnv4 k x y ∧
    (∀ j, j ≠ 1 → x.calls j = none → y.calls j = none) ∧ y.calls 1 = some (.code 1 none) ∧
    x.sh.deref 1 = { parents := [(b!"b", [])], children := [(b!"b", [])] } ∧ y.sh.deref 1 = { parents := [(b!"a", [])], children := [(b!"a", [])] } := by
  have s1 : ObjSteps exObjEnv4 1 .fresh _ := ObjSteps.refl.snoc (.call (i := 0) rfl)
  have s2 := s1.snoc (.begin (i := 0) rfl)
  rw [exObjEnv4_begin] at s2
  have s3 := s2.snoc (.checkNil (i := 0) rfl rfl)
  have s4 := s3.snoc (.call (i := 1) rfl)
  have s5 := s4.snoc (.begin (i := 1) rfl)
  rw [exObjEnv4_begin] at s5
  have s6 := s5.snoc (.checkNil (i := 1) rfl rfl)
  have s7 := s6.snoc (.store (i := 0) rfl)
  have s8 := s7.snoc (.store (i := 1) rfl)
  have s9 := s8.snoc (.read (i := 0) (q := 1) rfl rfl)
  have s10 := s9.snoc (.read (i := 1) (q := 1) rfl rfl)
  have s11 := s10.snoc (.parents (i := 0) (q := 1) (text := b!"b@") (m := [(b!"b", [])]) rfl rfl rfl)
  have s12 := s11.snoc (.clear (i := 0) (q := 1) rfl)
  have s13 := s12.snoc (.kids (i := 0) (q := 1) (a := (b!"b", [])) (todo := []) rfl)
  have s14 := s13.snoc (.sort (i := 0) (q := 1) rfl)
  have s15 := s14.snoc (.use (i := 0) (q := 1) rfl rfl)
  generalize hX : ObjSt.go _ 0 (if exObjEnv4.isCode 0 = true then ObjLoc.code 1 none else ObjLoc.branches 1 none Pool.init) = x at s15
  have h1 : x.calls 1 = some (.parents 1) := by rw [← hX]; rfl
  have h0 : x.calls 0 = some (.code 1 none) := by rw [← hX]; rfl
  have hsh : x.sh = { graphs := [.empty, { parents := [(b!"b", [])], children := [(b!"b", [])] }], field := some 1 } := by rw [← hX]; rfl
  have hn : ∀ j, j ≠ 0 → j ≠ 1 → x.calls j = none := by
    intro j hj hj'
    rw [← hX]
    simp only [go_calls, if_neg hj, if_neg hj']
    rfl
  clear hX
  obtain ⟨sh, calls⟩ := x
  simp only at hsh
  subst hsh
  have t1 : ObjSteps exObjEnv4 1 _ _ := ObjSteps.refl.snoc (.parents (i := 1) (q := 1) (text := b!"a@") (m := [(b!"a", [])]) h1 rfl rfl)
  have t2 := t1.snoc (.clear (i := 1) (q := 1) rfl)
  have t3 := t2.snoc (.kids (i := 1) (q := 1) (a := (b!"a", [])) (todo := []) rfl)
  have t4 := t3.snoc (.sort (i := 1) (q := 1) rfl)
  have t5 := t4.snoc (.use (i := 1) (q := 1) rfl rfl)
  refine ⟨_, _, _, _, s15, h1, ?_, t5, ?_, rfl, rfl, rfl⟩
  · intro j hj
    by_cases e : j = 0
    · subst e; exact .inr ⟨_, h0, trivial⟩
    · exact .inl (hn j e hj)
  · intro j hj h
    simp only [go_calls, if_neg hj]
    exact h

end Ripsrc
