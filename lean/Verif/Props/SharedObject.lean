import Verif.Model.SharedObject
import Verif.Props.Ripsrc
/-!
# C88: calls on one object at the same time
-/
namespace Ripsrc
open Conc Relation Spec

section
variable {τ : Type} {c : ObjEnv τ} {r : GitRepo}

/-- All calls find the same repository. -/
structure ObjEnv.On (c : ObjEnv τ) (r : GitRepo) : Prop where
  all : c.u.allBranches = true
  ok : r.Ok c.u.useOrigin
  possible : ∀ i, (c.env i).Possible
  prints : ∀ i, r.Prints c.u.useOrigin (c.out i)
  dates : ∀ i, ∀ x ∈ r.refs, ∃ t, (c.env i).parseDate x.date = some t

theorem go_calls (x : ObjSt) (i j : Nat) (l : ObjLoc) : (x.go i l).calls j = if j = i then some l else x.calls j := rfl

theorem go_sh (x : ObjSt) (i : Nat) (l : ObjLoc) : (x.go i l).sh = x.sh := rfl

theorem ObjSteps.trans {n m : Nat} {x y z : ObjSt} (h : ObjSteps c n x y) (h2 : ObjSteps c m y z) : ObjSteps c (n + m) x z := by
  induction h2 with
  | refl => exact h
  | snoc _ hs ih => exact .snoc (ih h) hs

/-- A call that has begun does not become one that has not. -/
theorem ObjStep.none_before {x y : ObjSt} (h : ObjStep c x y) {j : Nat} (hj : y.calls j = none) : x.calls j = none := by
  have go : ∀ {z : ObjSt} {i : Nat} {l : ObjLoc}, z.calls = x.calls → (z.go i l).calls j = none → x.calls j = none := by
    intro z i l hz h
    rw [go_calls] at h
    split at h
    · cases h
    · rw [← hz]; exact h
  cases h <;> exact go rfl hj

theorem begin_check (h : c.On r) (i : Nat) : c.begin i = .check := by
  unfold ObjEnv.begin
  rw [if_neg (by simp [h.all]), prepare_repo h.ok (h.prints i)]

/-- The object while only the call `i` runs. -/
inductive Alone (c : ObjEnv τ) (i : Nat) (m : GoMap Str (List Str)) : SharedObj → Option ObjLoc → Prop where
  | none : Alone c i m {} none
  | start : Alone c i m {} (some .start)
  | check : Alone c i m {} (some .check)
  | store : Alone c i m {} (some .store)
  | read : Alone c i m { graphs := [.empty], field := some 0 } (some .read)
  | parents : Alone c i m { graphs := [.empty], field := some 0 } (some (.parents 0))
  | clear : Alone c i m { graphs := [{ parents := m, children := [] }], field := some 0 } (some (.clear 0))
  | kids {done todo} : done ++ todo = (c.env i).iter m →
      Alone c i m { graphs := [{ parents := m, children := done.foldl childrenStep [] }], field := some 0 } (some (.kids 0 todo))
  | use : Alone c i m { graphs := [Graph.newFromMap m ((c.env i).iter m)], field := some 0 } (some .use)
  | branches {k st} : Steps (callPool (c.env i) (c.out i) c.u none (Graph.newFromMap m ((c.env i).iter m))).act k Pool.init st → 
      Alone c i m { graphs := [Graph.newFromMap m ((c.env i).iter m)], field := some 0 } (some (.branches 0 none st))
  | code : Alone c i m { graphs := [Graph.newFromMap m ((c.env i).iter m)], field := some 0 } (some (.code 0 none))

theorem alone_reach (h : c.On r) {m : GoMap Str (List Str)} (hm : parentsRun (parentsText r.commits) = .ok m) {i n : Nat} {x : ObjSt} (hx : ObjSteps c n .fresh x)
    (ho : ∀ j, j ≠ i → x.calls j = none) : Alone c i m x.sh (x.calls i) := by
  generalize h0 : ObjSt.fresh = x0 at hx
  induction hx with
  | refl => subst h0; exact .none
  | @snoc n x0 x z hxx hst ih =>
    have hbefore : ∀ j, j ≠ i → x.calls j = none := fun j hj => hst.none_before (ho j hj)
    have ih := ih hbefore h0
    have only : ∀ {j l}, x.calls j = some l → j = i := by
      intro j l hl
      by_cases e : j = i
      · exact e
      · rw [hbefore j e] at hl; cases hl
    have onlyz : ∀ {j}, z.calls j ≠ none → j = i := by
      intro j hl
      by_cases e : j = i
      · exact e
      · exact absurd (ho j e) hl
    have self : ∀ (y : ObjSt) (l : ObjLoc), (y.go i l).calls i = some l := fun y l => by rw [go_calls, if_pos rfl]
    have hlog : (c.out i).log = some (parentsText r.commits) := (h.prints i).log
    cases hst with
    | @call j h1 =>
      obtain rfl : j = i := onlyz (by rw [go_calls, if_pos rfl]; simp)
      rw [self, go_sh]
      rw [h1] at ih
      generalize x.sh = s at ih
      cases ih
      exact .start
    | @begin j h1 =>
      obtain rfl := only h1
      rw [self, go_sh, begin_check h]
      rw [h1] at ih
      generalize x.sh = s at ih
      cases ih
      exact .check
    | @checkNil j h1 h2 =>
      obtain rfl := only h1
      rw [self, go_sh]
      rw [h1] at ih
      generalize x.sh = s at ih
      cases ih
      exact .store
    | @checkSet j q h1 h2 =>
      obtain rfl := only h1
      rw [h1] at ih
      generalize x.sh = s at ih h2
      cases ih
      cases h2
    | @store j h1 =>
      obtain rfl := only h1
      rw [self, go_sh]
      rw [h1] at ih
      simp only
      generalize x.sh = s at ih
      cases ih
      exact .read
    | @read j q h1 h2 =>
      obtain rfl := only h1
      rw [self, go_sh]
      rw [h1] at ih
      generalize x.sh = s at ih h2
      cases ih
      cases h2
      exact .parents
    | @parents j q text m' h1 h2 h3 =>
      obtain rfl := only h1
      rw [self, go_sh]
      rw [hlog] at h2; cases h2
      rw [hm] at h3; cases h3
      rw [h1] at ih
      simp only
      generalize x.sh = s at ih
      cases ih
      exact .clear
    | @parentsError j q text f h1 h2 h3 =>
      obtain rfl := only h1
      rw [hlog] at h2; cases h2
      rw [hm] at h3; cases h3
    | @parentsPanic j q h1 h2 =>
      obtain rfl := only h1
      rw [hlog] at h2; cases h2
    | @clear j q h1 =>
      obtain rfl := only h1
      rw [self, go_sh]
      rw [h1] at ih
      simp only
      generalize x.sh = s at ih
      cases ih
      exact .kids (done := []) rfl
    | @kids j q a todo h1 =>
      obtain rfl := only h1
      rw [self, go_sh]
      rw [h1] at ih
      simp only
      generalize x.sh = s at ih
      cases ih
      rename_i done hd
      have := Alone.kids (c := c) (i := j) (m := m) (done := done ++ [a]) (todo := todo) (by rw [← hd]; simp)
      rw [List.foldl_append] at this
      exact this
    | @sort j q h1 =>
      obtain rfl := only h1
      rw [self, go_sh]
      rw [h1] at ih
      simp only
      generalize x.sh = s at ih
      cases ih
      rename_i done hd
      rw [List.append_nil] at hd
      subst hd
      exact .use
    | @use j q h1 h2 =>
      obtain rfl := only h1
      rw [self, go_sh]
      rw [h1] at ih
      generalize x.sh = s at ih h2
      cases ih
      cases h2
      cases c.isCode j
      · exact .branches .refl
      · exact .code
    | @run j q pre s t h1 h2 =>
      obtain rfl := only h1
      rw [self, go_sh]
      rw [h1] at ih
      generalize x.sh = s at ih h2
      cases ih
      rename_i hk
      exact .branches (hk.snoc h2)

/-- The graph has been read, and every call is before `buildCommitGraph` or uses it. -/
structure SettledObj (c : ObjEnv τ) (g : Graph) (x : ObjSt) : Prop where
  field : x.sh.field = some 0
  graph : x.sh.deref 0 = g
  calls : ∀ i l, x.calls i = some l → l = .start ∨ l = .check ∨ l = .use ∨ l = .code 0 none ∨
    ∃ k st, l = .branches 0 none st ∧ Steps (callPool (c.env i) (c.out i) c.u none g).act k Pool.init st

theorem SettledObj.go {g : Graph} {x : ObjSt} (h : SettledObj c g x) {i : Nat} {l : ObjLoc} (hl : l = .start ∨ l = .check ∨ l = .use ∨ l = .code 0 none ∨
    ∃ k st, l = .branches 0 none st ∧ Steps (callPool (c.env i) (c.out i) c.u none g).act k Pool.init st) : SettledObj c g (x.go i l) where
  field := h.field
  graph := h.graph
  calls := by
    intro j l' hj
    rw [go_calls] at hj
    split at hj
    · rename_i e; subst e; cases hj; exact hl
    · exact h.calls j l' hj

theorem SettledObj.step (hc : c.On r) {g : Graph} {x y : ObjSt} (h : SettledObj c g x) (hst : ObjStep c x y) : SettledObj c g y := by
  cases hst with
  | call _ => exact h.go (.inl rfl)
  | begin _ => rw [begin_check hc]; exact h.go (.inr (.inl rfl))
  | checkNil _ h2 => rw [h.field] at h2; cases h2
  | checkSet _ _ => exact h.go (.inr (.inr (.inl rfl)))
  | store h1 => have := h.calls _ _ h1; simp at this
  | read h1 _ => have := h.calls _ _ h1; simp at this
  | parents h1 _ _ => have := h.calls _ _ h1; simp at this
  | parentsError h1 _ _ => have := h.calls _ _ h1; simp at this
  | parentsPanic h1 _ => have := h.calls _ _ h1; simp at this
  | clear h1 => have := h.calls _ _ h1; simp at this
  | kids h1 => have := h.calls _ _ h1; simp at this
  | sort h1 => have := h.calls _ _ h1; simp at this
  | @use i q h1 h2 =>
    rw [h.field] at h2; cases h2
    cases c.isCode i
    · exact h.go (.inr (.inr (.inr (.inr ⟨0, _, rfl, .refl⟩))))
    · exact h.go (.inr (.inr (.inr (.inl rfl))))
  | @run i q pre s t h1 h2 =>
    rcases h.calls _ _ h1 with h3 | h3 | h3 | h3 | ⟨k, st, h3, h4⟩ <;> cases h3
    rw [h.graph] at h2
    exact h.go (.inr (.inr (.inr (.inr ⟨_, _, rfl, h4.snoc h2⟩))))

/-- A call of `Branches` on an object with this graph. -/
theorem callPool_eq {e : BranchesEnv τ} {o : GitOut} {u : UserOpts} (hu : u.allBranches = true) (hr : r.Ok u.useOrigin) (ho : r.Prints u.useOrigin o) {s : RipsrcObj} {g : Graph}
    (hs : s.commitGraph = some g) : (branchesCall e o u s).2 = callPool e o u none g := by
  have hpre : branchesPre e o u s = (s, none) := by
    unfold branchesPre
    rw [if_neg (by simp [hu]), prepare_repo hr ho]
    simp only [buildCommitGraph, hs]
  unfold callPool branchesCall
  simp only [hpre, hs, Option.getD_some]

/-- **C88.** Calls on one object at the same time, the first of which has read the commit graph before any other began: then any number of calls of `Branches` and `Code`, begun at any time, in every
schedule: every call has the graph of the repository; no call of `Branches` crashes; each can go on until it is done, after a bounded number of steps of its own; and when it is done, it has
returned the records of C58. -/
theorem C88_after_first (h : c.On r) {i n m : Nat} {x y : ObjSt} (hx : ObjSteps c n .fresh x) (ho : ∀ j, j ≠ i → x.calls j = none)
    (hi : (∃ q pre st, x.calls i = some (.branches q pre st)) ∨ ∃ q pre, x.calls i = some (.code q pre)) (hy : ObjSteps c m x y) :
    (∀ j q pre, y.calls j = some (.code q pre) → pre = none ∧ RipsrcObj.Holds { commitGraph := some (y.sh.deref q) } r) ∧
    ∀ j q pre st, y.calls j = some (.branches q pre st) →
      let p := callPool (c.env j) (c.out j) c.u pre (y.sh.deref q)
      (∃ k N, k ≤ N ∧ Steps p.act k Pool.init st ∧ ∀ k' st', Steps p.act k' Pool.init st' → k' ≤ N) ∧
      ¬ Crashed p.act st ∧
      (∃ k v, Steps p.act k st v ∧ Stuck p.act v) ∧
      (Stuck p.act st → AllReturned p.act st ∧ ∃ d bs, st.procs .caller = some (.returned none (d :: bs)) ∧
        r.DefaultRecord (c.env j).sha d ∧ (∀ b ∈ bs, r.BranchRecord (c.env j).sha b) ∧
        ∃ prs : List Str, prs.Nodup ∧ (∀ a, a ∈ prs ↔ a ∈ c.u.prs ∧ r.Has a) ∧
          (bs.map (fun b => (b.name, b.headSHA))).Perm (r.wanted c.u.useOrigin ++ prs.map (fun a => ([], a)))) := by
  obtain ⟨mm, hread, hm⟩ := graphRead_repo (e := c.env i) h.ok (h.prints i)
  have hal := alone_reach h hm hx ho
  -- the object as left by a first call
  have hs : (branchesCall (c.env i) (c.out i) c.u {}).1.commitGraph = some (Graph.newFromMap mm ((c.env i).iter mm)) := by
    show (branchesPre (c.env i) (c.out i) c.u {}).1.commitGraph = _
    unfold branchesPre
    rw [if_neg (by simp [h.all]), prepare_repo h.ok (h.prints i)]
    simp only [buildCommitGraph, hread]
  have hused : UsedOn (τ := τ) r c.u (branchesCall (c.env i) (c.out i) c.u {}).1 := .call .new (h.possible i) (h.prints i)
  have hset : SettledObj c (Graph.newFromMap mm ((c.env i).iter mm)) x := by
    have key : x.sh = { graphs := [Graph.newFromMap mm ((c.env i).iter mm)], field := some 0 } ∧ (x.calls i = some (.code 0 none) ∨
        ∃ k st, x.calls i = some (.branches 0 none st) ∧ Steps (callPool (c.env i) (c.out i) c.u none (Graph.newFromMap mm ((c.env i).iter mm))).act k Pool.init st) := by
      rcases hi with ⟨q, pre, st, hi⟩ | ⟨q, pre, hi⟩ <;> rw [hi] at hal ⊢ <;> generalize x.sh = s at hal <;> cases hal
      · rename_i hk; exact ⟨rfl, .inr ⟨_, _, rfl, hk⟩⟩
      · exact ⟨rfl, .inl rfl⟩
    refine ⟨by rw [key.1], by rw [key.1]; rfl, ?_⟩
    intro j l hl
    by_cases e : j = i
    · subst e
      rcases key.2 with h1 | ⟨k, st, h1, h2⟩ <;> rw [hl] at h1 <;> cases h1
      · simp
      · exact .inr (.inr (.inr (.inr ⟨k, st, rfl, h2⟩)))
    · rw [ho j e] at hl; cases hl
  have hsety : SettledObj c (Graph.newFromMap mm ((c.env i).iter mm)) y := by
    clear hx ho hi hal
    induction hy with
    | refl => exact hset
    | snoc _ hs ih => exact (ih hset).step h hs
  constructor
  · intro j q pre hj
    rcases hsety.calls _ _ hj with h3 | h3 | h3 | h3 | ⟨k, st, h3, h4⟩ <;> cases h3
    exact ⟨rfl, mm, (c.env i).iter mm, by rw [hsety.graph], hm, (h.possible i).iter mm⟩
  · intro j q pre st hj
    rcases hsety.calls _ _ hj with h3 | h3 | h3 | h3 | ⟨k, st, h3, h4⟩ <;> cases h3
    simp only [hsety.graph]
    have := C58_branches_of_repo (h.possible j) h.all h.ok (h.prints j) (h.dates j) hused
    rw [callPool_eq h.all h.ok (h.prints j) hs] at this
    obtain ⟨⟨N, hN⟩, hall⟩ := this
    exact ⟨⟨k, N, hN _ _ h4, h4, hN⟩, hall _ _ h4⟩

/-- **C88 (overlapping first calls).** On a new object, for every repository: when a call is made while the first call, of `Branches` or `Code`, waits for git to print the commits, the second call, of `Branches`, can
crash the program: it uses the graph that has not been read. -/
theorem C88_overlap_crashes (h : c.On r) {i j : Nat} (hij : i ≠ j) (hj : c.isCode j = false) :
    ∃ n y q pre st, ObjSteps c n .fresh y ∧ y.calls j = some (.branches q pre st) ∧ Crashed (callPool (c.env j) (c.out j) c.u pre (y.sh.deref q)).act st ∧
      y.calls i = some (.parents q) := by
  have hji : j ≠ i := Ne.symm hij
  have s1 : ObjSteps c 1 .fresh _ := ObjSteps.refl.snoc (.call (i := i) rfl)
  have s2 := s1.snoc (.begin (i := i) (by rw [go_calls, if_pos rfl]))
  rw [begin_check h] at s2
  have s3 := s2.snoc (.checkNil (i := i) (by rw [go_calls, if_pos rfl]) rfl)
  have s4 := s3.snoc (.store (i := i) (by rw [go_calls, if_pos rfl]))
  have s5 := s4.snoc (.read (i := i) (q := 0) (by rw [go_calls, if_pos rfl]) rfl)
  have s6 := s5.snoc (.call (i := j) (by simp only [go_calls, if_neg hji]; rfl))
  have s7 := s6.snoc (.begin (i := j) (by rw [go_calls, if_pos rfl]))
  rw [begin_check h] at s7
  have s8 := s7.snoc (.checkSet (i := j) (q := 0) (by rw [go_calls, if_pos rfl]) rfl)
  have s9 := s8.snoc (.use (i := j) (q := 0) (by rw [go_calls, if_pos rfl]) rfl)
  rw [hj] at s9
  generalize hz : ObjSt.go _ j (if false = true then ObjLoc.code 0 none else .branches 0 none Pool.init) = z at s9
  have hz1 : z.calls j = some (.branches 0 none Pool.init) := by rw [← hz, go_calls, if_pos rfl]; rfl
  have hz2 : z.sh.deref 0 = .empty := by rw [← hz]; rfl
  have hz3 : z.calls i = some (.parents 0) := by rw [← hz]; simp only [go_calls, if_neg hij, if_pos]
  clear hz
  -- a lone run of the pool is a run here
  have lift : ∀ {k st}, Steps (callPool (c.env j) (c.out j) c.u none .empty).act k Pool.init st →
      ∃ n y, ObjSteps c n .fresh y ∧ y.calls j = some (.branches 0 none st) ∧ y.sh.deref 0 = .empty ∧ y.calls i = some (.parents 0) := by
    intro k st hk
    refine hk.inv (P := fun st => ∃ n y, ObjSteps c n .fresh y ∧ y.calls j = some (.branches 0 none st) ∧ y.sh.deref 0 = .empty ∧ y.calls i = some (.parents 0)) ?_
      ⟨_, z, s9, hz1, hz2, hz3⟩
    rintro a b ⟨n, y, hy, h1, h2, h3⟩ hab
    exact ⟨_, _, hy.snoc (.run h1 (by rw [h2]; exact hab)), by rw [go_calls, if_pos rfl], h2, by rw [go_calls, if_neg hij]; exact h3⟩
  have hcr := C59_stale_graph_crashes (e := c.env j) h.all h.ok (h.prints j) (s := { commitGraph := some .empty }) (g := .empty) rfl
    (by simp [Graph.Known, Graph.empty, GoMap.get])
  rw [callPool_eq h.all h.ok (h.prints j) rfl] at hcr
  -- run until nothing moves
  have : ∀ f k st, Steps (callPool (c.env j) (c.out j) c.u none .empty).act k Pool.init st → k + f = 4 →
      ∃ k st, Steps (callPool (c.env j) (c.out j) c.u none .empty).act k Pool.init st ∧ Stuck (callPool (c.env j) (c.out j) c.u none .empty).act st := by
    intro f
    induction f with
    | zero => intro k st hk hf; exact absurd (hcr _ _ hk).1 (by omega)
    | succ f ih =>
      intro k st hk hf
      by_cases hs : Stuck (callPool (c.env j) (c.out j) c.u none .empty).act st
      · exact ⟨k, st, hk, hs⟩
      · have : ∃ t, Conc.Step (callPool (c.env j) (c.out j) c.u none .empty).act st t := by
          apply Classical.byContradiction
          intro hn
          exact hs (fun t ht => hn ⟨t, ht⟩)
        obtain ⟨t, ht⟩ := this
        exact ih _ _ (hk.snoc ht) (by omega)
  obtain ⟨k, st, hk, hs⟩ := this 4 0 _ .refl rfl
  obtain ⟨n, y, hy, h1, h2, h3⟩ := lift hk
  exact ⟨n, y, 0, none, st, hy, h1, by rw [h2]; exact (hcr _ _ hk).2 hs, h3⟩

/-- The loop over the parents. -/
theorem kids_run {i q : Nat} : ∀ (todo : List (Str × List Str)) {n : Nat} {x : ObjSt}, ObjSteps c n .fresh x → x.calls i = some (.kids q todo) →
    ∃ n y, ObjSteps c n .fresh y ∧ y.calls i = some .use ∧ y.sh.field = x.sh.field ∧ ∀ j, j ≠ i → y.calls j = x.calls j
  | [], _, x, hx, hi => ⟨_, _, hx.snoc (.sort hi), by rw [go_calls, if_pos rfl], rfl, fun j hj => by rw [go_calls, if_neg hj]⟩
  | a :: todo, _, x, hx, hi => by
    obtain ⟨n, y, h1, h2, h3, h4⟩ := kids_run todo (hx.snoc (.kids hi)) (by rw [go_calls, if_pos rfl])
    exact ⟨n, y, h1, h2, h3, fun j hj => by rw [h4 j hj, go_calls, if_neg hj]⟩

/-- For every repository there are executions as in `C88_after_first`. -/
theorem first_possible (h : c.On r) (i : Nat) : ∃ n x, ObjSteps c n .fresh x ∧ (∀ j, j ≠ i → x.calls j = none) ∧
    ((∃ q pre st, x.calls i = some (.branches q pre st)) ∨ ∃ q pre, x.calls i = some (.code q pre)) := by
  obtain ⟨mm, _, hm⟩ := graphRead_repo (e := c.env i) h.ok (h.prints i)
  have s1 : ObjSteps c 1 .fresh _ := ObjSteps.refl.snoc (.call (i := i) rfl)
  have s2 := s1.snoc (.begin (i := i) (by rw [go_calls, if_pos rfl]))
  rw [begin_check h] at s2
  have s3 := s2.snoc (.checkNil (i := i) (by rw [go_calls, if_pos rfl]) rfl)
  have s4 := s3.snoc (.store (i := i) (by rw [go_calls, if_pos rfl]))
  have s5 := s4.snoc (.read (i := i) (q := 0) (by rw [go_calls, if_pos rfl]) rfl)
  have s6 := s5.snoc (.parents (i := i) (q := 0) (by rw [go_calls, if_pos rfl]) (h.prints i).log hm)
  have s7 := s6.snoc (.clear (i := i) (q := 0) (by rw [go_calls, if_pos rfl]))
  obtain ⟨n, y, h1, h2, h3, h4⟩ := kids_run _ s7 (by rw [go_calls, if_pos rfl])
  have h5 : y.sh.field = some 0 := by rw [h3]; rfl
  refine ⟨_, _, h1.snoc (.use h2 h5), ?_, ?_⟩
  · intro j hj
    rw [go_calls, if_neg hj, h4 j hj]
    simp only [go_calls, if_neg hj]
    rfl
  · rw [go_calls, if_pos rfl]
    cases c.isCode i
    · exact .inl ⟨_, _, _, rfl⟩
    · exact .inr ⟨_, _, rfl⟩

end

/-- Calls with an odd number are calls of `Code`. -/
def exObjEnv : ObjEnv Str where
  isCode := fun i => i % 2 == 1
  u := { prs := [exSHA 99, exSHA 100] }
  env := fun _ => exEnv1
  out := fun _ => exOut1

theorem exObjEnv_on : exObjEnv.On exRepo1 where
  all := rfl
  ok := exRepo1_ok
  possible := fun _ => exEnv1_possible
  prints := fun _ => exRepo1_prints
  dates := fun _ x _ => ⟨x.date, rfl⟩

/-- The hypotheses are met; and on the example repository a second call can crash the program. -/
example : ∃ n x, ObjSteps exObjEnv n .fresh x ∧ (∀ j, j ≠ 1 → x.calls j = none) ∧
    ((∃ q pre st, x.calls 1 = some (.branches q pre st)) ∨ ∃ q pre, x.calls 1 = some (.code q pre)) := first_possible exObjEnv_on 1

example : ∃ n y q pre st, ObjSteps exObjEnv n .fresh y ∧ y.calls 2 = some (.branches q pre st) ∧
    Crashed (callPool exEnv1 exOut1 exObjEnv.u pre (y.sh.deref q)).act st ∧ y.calls 1 = some (.parents q) := C88_overlap_crashes exObjEnv_on (i := 1) (j := 2) (by decide) rfl

/-! ### A wrong record -/

/-- As `exEnv1`, but the loop over the three commits of `exRepo1` comes to the commit of the current branch last. -/
def exEnv2 : BranchesEnv Str :=
  { exEnv1 with iter := fun m => match m with | [a, b, d] => [a, d, b] | m => m }

theorem exEnv2_possible : exEnv2.Possible where
  cpu := by decide
  iter := by
    intro m
    show (match m with | [a, b, d] => [a, d, b] | m => m).Perm m
    split
    · exact (List.perm_cons _).2 (List.Perm.swap _ _ _)
    · exact .refl _
  sort := exEnv1_possible.sort
  prOrder := exEnv1_possible.prOrder
  perms := exEnv1_possible.perms

def exObjEnv2 : ObjEnv Str where
  isCode := fun _ => false
  u := {}
  env := fun _ => exEnv2
  out := fun _ => exOut1

theorem exObjEnv2_on : exObjEnv2.On exRepo1 where
  all := rfl
  ok := exRepo1_ok
  possible := fun _ => exEnv2_possible
  prints := fun _ => exRepo1_prints
  dates := fun _ x _ => ⟨x.date, rfl⟩

/-- The graph before the last round of the loop. -/
def exHalf : Graph := { parents := exRepo1.commits, children := [exSHA 97, exSHA 99].map (fun h => (h, if h = exSHA 97 then [exSHA 99] else [])) }

def exHalfPool : Pool := callPool exEnv2 exOut1 {} none exHalf

set_option maxRecDepth 100000 in
theorem exHalf_parents : parentsRun (parentsText exRepo1.commits) = .ok exRepo1.commits := by decide +kernel

set_option maxRecDepth 100000 in
theorem exHalf_run : ∃ d, exHalfPool.onRun = .sendDefault d (exSHA 98) := ⟨_, rfl⟩

set_option maxRecDepth 100000 in
theorem exHalf_reach : newReachableFromHead exHalf (exSHA 98) = .ok [exSHA 98, exSHA 97] := by decide +kernel

set_option maxRecDepth 100000 in
theorem exHalf_names : exHalfPool.names = .ok [(b!"dev", exSHA 99), (b!"old", exSHA 97)] := by decide +kernel

set_option maxRecDepth 100000 in
theorem exHalf_dev : ∃ b, processBranch exHalfPool.sha exHalf (exSHA 98) [exSHA 98, exSHA 97] (exHalfPool.perms (b!"dev", exSHA 99)) b!"dev" (exSHA 99) = .ok (some b) := ⟨_, rfl⟩

set_option maxRecDepth 100000 in
theorem exHalf_old : ∃ b, processBranch exHalfPool.sha exHalf (exSHA 98) [exSHA 98, exSHA 97] (exHalfPool.perms (b!"old", exSHA 97)) b!"old" (exSHA 97) = .ok (some b) ∧
  b.isMerged = true ∧ b.mergeCommit = [] ∧ b.headSHA = exSHA 97 := ⟨_, rfl, rfl, rfl, rfl⟩

theorem exHalf_plan : ∃ d, Plan exHalfPool (some d) (exSHA 98) [exSHA 98, exSHA 97] [(b!"dev", exSHA 99), (b!"old", exSHA 97)] := by
  obtain ⟨d, hd⟩ := exHalf_run
  refine ⟨d, rfl, hd, ?_, ?_, by decide⟩
  · unfold Pool.onWork
    rw [show exHalfPool.graph = exHalf from rfl, exHalf_reach]
    rw [show exHalfPool.prOnly = false from rfl]
    simp only [Bool.false_eq_true, if_false, exHalf_names]
    rfl
  · intro x hx
    rcases List.mem_cons.1 hx with rfl | hx
    · obtain ⟨b, hb⟩ := exHalf_dev
      exact ⟨_, hb⟩
    · obtain rfl := List.mem_singleton.1 hx
      obtain ⟨b, hb, _⟩ := exHalf_old
      exact ⟨_, hb⟩

set_option maxRecDepth 100000 in
/-- **C88 (overlapping first calls, no crash).** When a second call of `Branches` overlaps with the end of reading the graph, it can return without an error and with a wrong record: here the branch `old`, whose head is an
ancestor of the head of the current branch, is merged but has no merge commit. -/
theorem C88_overlap_wrong_record : ∃ n y q st d bs b, ObjSteps exObjEnv2 n .fresh y ∧ y.calls 1 = some (.branches q none st) ∧
    st.procs .caller = some (.returned none (d :: bs)) ∧ b ∈ bs ∧ b.isMerged = true ∧ b.mergeCommit = [] ∧ ¬ exRepo1.BranchRecord exEnv2.sha b := by
  have h := exObjEnv2_on
  obtain ⟨d, hpl⟩ := exHalf_plan
  obtain ⟨k, v, hk, hv⟩ := poolEnds hpl (.refl (s := Pool.init))
  obtain ⟨_, bs, hret, hperm, hhead⟩ := poolEnd hpl hk hv
  obtain ⟨b, hb, hmerged, hmc, hsha⟩ := exHalf_old
  -- the first call, up to the last round of the loop
  have s1 : ObjSteps exObjEnv2 1 .fresh _ := ObjSteps.refl.snoc (.call (i := 0) rfl)
  have s2 := s1.snoc (.begin (i := 0) (by rw [go_calls, if_pos rfl]))
  rw [begin_check h] at s2
  have s3 := s2.snoc (.checkNil (i := 0) (by rw [go_calls, if_pos rfl]) rfl)
  have s4 := s3.snoc (.store (i := 0) (by rw [go_calls, if_pos rfl]))
  have s5 := s4.snoc (.read (i := 0) (q := 0) (by rw [go_calls, if_pos rfl]) rfl)
  have s6 := s5.snoc (.parents (i := 0) (q := 0) (by rw [go_calls, if_pos rfl]) (h.prints 0).log exHalf_parents)
  have s7 := s6.snoc (.clear (i := 0) (q := 0) (by rw [go_calls, if_pos rfl]))
  have s8 := s7.snoc (.kids (i := 0) (q := 0) (a := (exSHA 97, [])) (todo := [(exSHA 99, [exSHA 97]), (exSHA 98, [exSHA 97])]) rfl)
  have s9 := s8.snoc (.kids (i := 0) (q := 0) (a := (exSHA 99, [exSHA 97])) (todo := [(exSHA 98, [exSHA 97])]) rfl)
  -- the second call
  have t1 := s9.snoc (.call (i := 1) rfl)
  have t2 := t1.snoc (.begin (i := 1) (by rw [go_calls, if_pos rfl]))
  rw [begin_check h] at t2
  have t3 := t2.snoc (.checkSet (i := 1) (q := 0) (by rw [go_calls, if_pos rfl]) rfl)
  have t4 := t3.snoc (.use (i := 1) (q := 0) (by rw [go_calls, if_pos rfl]) rfl)
  have lift : ∀ {k st}, Steps exHalfPool.act k Pool.init st → ∃ n y, ObjSteps exObjEnv2 n .fresh y ∧ y.calls 1 = some (.branches 0 none st) ∧ y.sh.deref 0 = exHalf := by
    intro k st hk
    refine hk.inv (P := fun st => ∃ n y, ObjSteps exObjEnv2 n .fresh y ∧ y.calls 1 = some (.branches 0 none st) ∧ y.sh.deref 0 = exHalf) ?_ ⟨_, _, t4, rfl, ?_⟩
    · rintro a b ⟨n, y, hy, h1, h2⟩ hab
      exact ⟨_, _, hy.snoc (.run h1 (by rw [h2]; exact hab)), by rw [go_calls, if_pos rfl], h2⟩
    · rfl
  obtain ⟨n, y, hy, h1, _⟩ := lift hk
  have hd := hhead d rfl
  cases bs with
  | nil => cases hd
  | cons d' bs =>
    have hdd : d' = d := by simpa using hd
    subst hdd
    have hp2 : bs.Perm ([(b!"dev", exSHA 99), (b!"old", exSHA 97)].filterMap (exHalfPool.recordOf (exSHA 98) [exSHA 98, exSHA 97])) :=
      (List.perm_cons _).1 hperm
    refine ⟨n, y, 0, v, d', bs, b, hy, h1, hret, ?_, hmerged, hmc, ?_⟩
    · rw [hp2.mem_iff, List.mem_filterMap]
      refine ⟨(b!"old", exSHA 97), by simp, ?_⟩
      unfold Pool.recordOf
      rw [show exHalfPool.graph = exHalf from rfl, hb]
    · intro hr
      have := (hr.mergeCommit.1 hmerged (by rw [hsha]; decide)).1
      rw [hmc] at this
      obtain ⟨ps, h1, _⟩ := this
      simp [exRepo1, exSHA] at h1

end Ripsrc
