import Verif.Props.SharedSequential
import Verif.Props.StaleGraph
/-!
# C89: commits made between two calls on one object

The second call uses the graph that the first call has read (`/repo/ripsrc/ripsrc.go:93-95`), whatever git prints now.
-/
namespace Ripsrc
open Conc Relation Spec

section
variable {τ : Type} {c : ObjEnv τ}

/-- The object has a graph, and no call is between looking for one and using it. -/
structure OldGraph (q : Nat) (g : Graph) (x : ObjSt) : Prop where
  field : x.sh.field = some q
  graph : x.sh.deref q = g
  calls : ∀ i l, x.calls i = some l → l = .start ∨ l = .check ∨ l = .use ∨ (∃ q' pre, l = .code q' pre ∧ (pre = none → q' = q)) ∨
    ∃ q' pre st, l = .branches q' pre st ∧ (pre = none → q' = q)

theorem OldGraph.go {q : Nat} {g : Graph} {x : ObjSt} (h : OldGraph q g x) {i : Nat} {l : ObjLoc}
    (hl : l = .start ∨ l = .check ∨ l = .use ∨ (∃ q' pre, l = .code q' pre ∧ (pre = none → q' = q)) ∨ ∃ q' pre st, l = .branches q' pre st ∧ (pre = none → q' = q)) :
    OldGraph q g (x.go i l) where
  field := h.field
  graph := h.graph
  calls := by
    intro j l' hj
    rw [go_calls] at hj
    split at hj
    · cases hj; exact hl
    · exact h.calls j l' hj

theorem failed_old (q : Nat) (i : Nat) (f : Fault) : (∃ q' pre, c.failed i f = .code q' pre ∧ (pre = none → q' = q)) ∨ ∃ q' pre st, c.failed i f = .branches q' pre st ∧ (pre = none → q' = q) := by
  unfold ObjEnv.failed
  split
  · exact .inl ⟨_, _, rfl, fun h => by cases h⟩
  · exact .inr ⟨_, _, _, rfl, fun h => by cases h⟩

theorem OldGraph.step {q : Nat} {g : Graph} {x y : ObjSt} (h : OldGraph q g x) (hst : ObjStep c x y) : OldGraph q g y := by
  cases hst with
  | call _ => exact h.go (.inl rfl)
  | @begin i h1 =>
    apply h.go
    unfold ObjEnv.begin
    split
    · exact .inr (.inr (.inr (failed_old q i _)))
    · split
      · exact .inr (.inr (.inr (failed_old q i _)))
      · exact .inr (.inl rfl)
  | checkNil _ h2 => rw [h.field] at h2; cases h2
  | checkSet _ _ => exact h.go (.inr (.inr (.inl rfl)))
  | store h1 => have := h.calls _ _ h1; simp at this
  | read h1 _ => have := h.calls _ _ h1; simp at this
  | parents h1 _ _ => have := h.calls _ _ h1; simp at this
  | parentsError h1 _ _ => have := h.calls _ _ h1; simp at this
  | parentsPanic h1 _ => have := h.calls _ _ h1; simp at this
  | clear h1 => have := h.calls _ _ h1; simp at this
  | kids h1 => have := h.calls _ _ h1; simp at this
  | sort h1 => have := h.calls _ _ h1; simp at this
  | @use i q' h1 h2 =>
    rw [h.field] at h2; cases h2
    apply h.go
    cases c.isCode i
    · exact .inr (.inr (.inr (.inr ⟨_, _, _, rfl, fun _ => rfl⟩)))
    · exact .inr (.inr (.inr (.inl ⟨_, _, rfl, fun _ => rfl⟩)))
  | @run i q' pre s t h1 h2 =>
    apply h.go
    rcases h.calls _ _ h1 with h3 | h3 | h3 | ⟨_, _, h3, _⟩ | ⟨_, _, _, h3, h4⟩ <;> cases h3
    exact .inr (.inr (.inr (.inr ⟨_, _, _, rfl, h4⟩)))

theorem OldGraph.steps {q : Nat} {g : Graph} {n : Nat} {x y : ObjSt} (h : OldGraph q g x) (hst : ObjSteps c n x y) : OldGraph q g y := by
  induction hst with
  | refl => exact h
  | snoc _ hs ih => exact (ih h).step hs

theorem oneCall_fresh {i n : Nat} {x : ObjSt} (hx : ObjSteps c n .fresh x) (ho : ∀ j, j ≠ i → x.calls j = none) : OneCall c i {} x.sh (x.calls i) := by
  generalize h0 : ObjSt.fresh = x0 at hx
  induction hx with
  | refl => subst h0; exact .none
  | snoc _ hst ih =>
    have hb := fun j hj => hst.none_before (ho j hj)
    exact oneCall_step hst (ih hb h0) (fun j hj => .inl (hb j hj)) (fun j hj => .inl (ho j hj))

/-- What the first call finds. -/
theorem expected_fresh {i : Nat} {s : RipsrcObj} (h : c.expected i {} = (s, none)) :
    ∃ text m, (c.out i).log = some text ∧ parentsRun text = .ok m ∧ s.commitGraph = some (Graph.newFromMap m ((c.env i).iter m)) := by
  have hb : buildCommitGraph (c.env i) (c.out i) {} = (s, none) := by
    unfold ObjEnv.expected codePre branchesPre at h
    split at h
    · split at h
      · cases h
      · exact h
    · split at h
      · cases h
      · split at h
        · cases h
        · exact h
  unfold buildCommitGraph graphRead at hb
  cases hl : (c.out i).log with
  | none => simp [hl] at hb
  | some text =>
    cases hp : parentsRun text with
    | error f => simp [hl, hp, bind, Except.bind] at hb
    | ok m =>
      simp only [hl, hp, bind, Except.bind, Prod.mk.injEq, and_true] at hb
      exact ⟨text, m, rfl, hp, by rw [← hb]⟩

/-- **C89 (the graph of the first call).** Let the first call on an object have got its commit graph before any other call begins. Then every call that gets a graph gets the one that git printed for the
first call, whatever git prints for the later calls and in every schedule. -/
theorem C89_first_graph {i n m : Nat} {x y : ObjSt} (hx : ObjSteps c n .fresh x) (ho : ∀ j, j ≠ i → x.calls j = none)
    (hi : (∃ q st, x.calls i = some (.branches q none st)) ∨ ∃ q, x.calls i = some (.code q none)) (hy : ObjSteps c m x y) :
    ∃ text g, (c.out i).log = some text ∧ parentsRun text = .ok g ∧
      ∀ j q, (y.calls j = some (.code q none) ∨ ∃ st, y.calls j = some (.branches q none st)) → y.sh.deref q = Graph.newFromMap g ((c.env i).iter g) := by
  have hone := oneCall_fresh hx ho
  have hobj : ∃ q l, x.calls i = some l ∧ x.sh.field = some q ∧ c.expected i {} = (x.sh.obj, none) ∧ ((∃ pre, l = .code q pre ∧ pre = none) ∨ ∃ pre st, l = .branches q pre st ∧ pre = none) := by
    rcases hi with ⟨q, st, hi⟩ | ⟨q, hi⟩ <;> rw [hi] at hone ⊢ <;> generalize x.sh = s at hone <;> cases hone
    · rename_i h1 h2 h3 h4
      exact ⟨q, _, rfl, h3 rfl, h2, .inr ⟨_, _, rfl, rfl⟩⟩
    · rename_i h1 h2 h3
      exact ⟨q, _, rfl, h3 rfl, h2, .inl ⟨_, rfl, rfl⟩⟩
  obtain ⟨q, l, hl, hf, he, hl2⟩ := hobj
  obtain ⟨text, g, h1, h2, h3⟩ := expected_fresh he
  refine ⟨text, g, h1, h2, ?_⟩
  have hold : OldGraph q (Graph.newFromMap g ((c.env i).iter g)) x := by
    refine ⟨hf, ?_, ?_⟩
    · simpa [SharedObj.obj, hf] using h3
    · intro j l' hj
      by_cases e : j = i
      · subst e
        rw [hl] at hj; cases hj
        rcases hl2 with ⟨_, rfl, _⟩ | ⟨_, _, rfl, _⟩
        · exact .inr (.inr (.inr (.inl ⟨_, _, rfl, fun _ => rfl⟩)))
        · exact .inr (.inr (.inr (.inr ⟨_, _, _, rfl, fun _ => rfl⟩)))
      · rw [ho j e] at hj; cases hj
  have holdy := hold.steps hy
  intro j q' hj
  have hq : q' = q := by
    rcases hj with hj | ⟨st, hj⟩ <;> rcases holdy.calls _ _ hj with h | h | h | ⟨_, _, h, h'⟩ | ⟨_, _, _, h, h'⟩ <;> cases h <;> exact h' rfl
  rw [hq]
  exact holdy.graph

/-- **C89 (a second call of `Code`).** The first call on an object has read the commits `old`. Then commits are made, the first of which, `d`, changes or renames a text file. A second call of `Code` on this object, made after
that, does not return in any schedule: the program ends in a panic, although git and the repository are fine. (A call on a new object succeeds: C24.) -/
theorem C89_second_call {i j n m : Nat} {x y : ObjSt} (hx : ObjSteps c n .fresh x) (ho : ∀ j, j ≠ i → x.calls j = none)
    (hi : (∃ q st, x.calls i = some (.branches q none st)) ∨ ∃ q, x.calls i = some (.code q none)) (hy : ObjSteps c m x y) {q : Nat} (hj : y.calls j = some (.code q none))
    {old : List (Str × List Str)} (hold : (c.out i).log = some (parentsText old)) (hhash : ∀ a ∈ old, IsHash a.1 ∧ ∀ p ∈ a.2, IsHash p) (hsame : ∀ a ∈ old, ∀ b ∈ old, a.1 = b.1 → a = b)
    (hshort : ∀ a ∈ old, (parentsLineOf a).length < 1000000) (hiter : ∀ m, ((c.env i).iter m).Perm m)
    {σ : Type} (p : Pipe σ) (hpre : p.pre = none) (hopen : p.openErr = none) (hopts : p.opts = {}) (hgraph : p.graph = y.sh.deref q)
    {H a r : History} {d : HCommit} (hH : History.Ok [] H) (hsplit : H = a ++ d :: r) (hknown : ∀ x ∈ a, (x.hash, x.parents) ∈ old) (hnew : ∀ ps, (d.hash, ps) ∉ old)
    {G : Str → Str → List Str} (hsorts : SortsHunks p.env.srt) (horders : ∀ n k l, (p.env.order n k l).Perm l) (hblame : BlameWorks H G p.env.blameOut)
    {es : List LogEntry} (hlog : LogOf H es) (htext : p.text = logText es) {cs : List FileChange} (hcs : cs ∈ d.diffs) {f : FileChange} (hf : f ∈ cs) (hneed : f.NeedsOld) :
    ∀ n u, Conc.Steps p.act n Pipe.init u →
      (∀ w e res, u.procs .caller ≠ some (.returned w e res)) ∧ (∃ v, Conc.Reach p.act u v ∧ Conc.Crashed p.act v) ∧ (Conc.Stuck p.act u → Conc.Crashed p.act u) := by
  obtain ⟨text, g, h1, h2, h3⟩ := C89_first_graph hx ho hi hy
  rw [hold] at h1; cases h1
  obtain ⟨g', k1, k2, k3⟩ := C12_graph_reader old hhash hsame hshort
  rw [h2] at k1; cases k1
  refine C89_crash p hpre hopen hopts (hgraph.trans (h3 j q (.inl hj))) (H := H) (G := G) (a := a) (r := r) (c := d) ?_ hlog htext hcs hf hneed
  refine ⟨hsorts, horders, hH, hblame, k2, hiter _, hsplit, fun x hx => (k3 _ _).2 (hknown x hx), ?_⟩
  cases hg : GoMap.get g d.hash with
  | none => rfl
  | some ps => exact absurd ((k3 _ _).1 hg) (hnew ps)

end

/-! ## The hypotheses can be met -/

namespace ExStale

/-- Two calls of `Code`. For the first one git prints the commits `c1` and `c2`, for the second one all five. -/
def calls : ObjEnv Str where
  isCode := fun _ => true
  u := {}
  env := fun _ => exEnv1
  out := fun i => { exOut1 with log := some (parentsText (if i = 0 then graph2 else Ex.parents)) }

theorem calls_begin (i : Nat) : calls.begin i = .check := by
  have h : gitexecPrepare (calls.out i) = .ok () := rfl
  unfold ObjEnv.begin
  rw [h]
  rfl

theorem calls_parents : parentsRun (parentsText graph2) = .ok graph2 := by decide +kernel

/-- The first call gets its graph, then the second call begins and gets one. -/
theorem calls_run : ∃ n m x y, ObjSteps calls n .fresh x ∧ (∀ j, j ≠ 0 → x.calls j = none) ∧ x.calls 0 = some (.code 0 none) ∧ ObjSteps calls m x y ∧ y.calls 1 = some (.code 0 none) := by
  have s1 : ObjSteps calls 1 .fresh _ := ObjSteps.refl.snoc (.call (i := 0) rfl)
  have s2 := s1.snoc (.begin (i := 0) (by rw [go_calls, if_pos rfl]))
  rw [calls_begin] at s2
  have s3 := s2.snoc (.checkNil (i := 0) (by rw [go_calls, if_pos rfl]) rfl)
  have s4 := s3.snoc (.store (i := 0) (by rw [go_calls, if_pos rfl]))
  have s5 := s4.snoc (.read (i := 0) (q := 0) (by rw [go_calls, if_pos rfl]) rfl)
  have s6 := s5.snoc (.parents (i := 0) (q := 0) (by rw [go_calls, if_pos rfl]) rfl calls_parents)
  have s7 := s6.snoc (.clear (i := 0) (q := 0) (by rw [go_calls, if_pos rfl]))
  have s8 := s7.snoc (.kids (i := 0) (q := 0) (a := (b!"c2", [b!"c1"])) (todo := [(b!"c1", [])]) (by rw [go_calls, if_pos rfl]; rfl))
  have s9 := s8.snoc (.kids (i := 0) (q := 0) (a := (b!"c1", [])) (todo := []) (by rw [go_calls, if_pos rfl]))
  have s10 := s9.snoc (.sort (i := 0) (q := 0) (by rw [go_calls, if_pos rfl]))
  have s11 := s10.snoc (.use (i := 0) (q := 0) (by rw [go_calls, if_pos rfl]) rfl)
  generalize hx : ObjSt.go _ 0 (if calls.isCode 0 then ObjLoc.code 0 none else .branches 0 none Pool.init) = x at s11
  have hn : ∀ j, j ≠ 0 → x.calls j = none := by
    intro j hj
    rw [← hx]
    simp only [go_calls, if_neg hj]
    rfl
  have h0 : x.calls 0 = some (.code 0 none) := by rw [← hx, go_calls, if_pos rfl]; rfl
  have hf : x.sh.field = some 0 := by rw [← hx]; rfl
  have t1 : ObjSteps calls 1 x _ := ObjSteps.refl.snoc (.call (i := 1) (hn 1 (by decide)))
  have t2 := t1.snoc (.begin (i := 1) (by rw [go_calls, if_pos rfl]))
  rw [calls_begin] at t2
  have t3 := t2.snoc (.checkSet (i := 1) (q := 0) (by rw [go_calls, if_pos rfl]) (by simp only [go_sh, hf]))
  have t4 := t3.snoc (.use (i := 1) (q := 0) (by rw [go_calls, if_pos rfl]) (by simp only [go_sh, hf]))
  exact ⟨_, _, x, _, s11, hn, h0, t4, by rw [go_calls, if_pos rfl]; rfl⟩

/-- The second call of `Code` does not return: `c3`, which changes `f`, is newer than the graph of the object. -/
example : ∃ n m x y q, ObjSteps calls n .fresh x ∧ x.calls 1 = none ∧ ObjSteps calls m x y ∧ y.calls 1 = some (.code q none) ∧
    ∀ n u, Conc.Steps ({ exPipe with graph := y.sh.deref q } : Pipe Nat).act n Pipe.init u → ∀ w e res, u.procs .caller ≠ some (.returned w e res) := by
  obtain ⟨n, m, x, y, h1, h2, h3, h4, h5⟩ := calls_run
  refine ⟨n, m, x, y, 0, h1, h2 1 (by decide), h4, h5, fun k u hs => ?_⟩
  refine (C89_second_call h1 h2 (.inr ⟨0, h3⟩) h4 h5 (old := graph2) rfl (by decide) (by decide) (by decide) (fun m => List.reverse_perm m)
    ({ exPipe with graph := y.sh.deref 0 } : Pipe Nat) rfl rfl rfl rfl (H := Ex.H) (a := [Ex.c1, Ex.c2]) (d := Ex.c3) (r := [Ex.c4, Ex.c5]) Ex.history_ok rfl (by decide) ?_
    isort_sortsHunks (fun _ _ _ => .refl _) Ex.blame_works ex_log rfl (cs := [Ex.appendF b!"f" b!"a" [b!"b"]]) (by simp [Ex.c3]) (List.mem_singleton.2 rfl) needs3 k u hs).1
  intro ps hps
  have : (b!"c3" : Str) ∈ graph2.map Prod.fst := List.mem_map.2 ⟨_, hps, rfl⟩
  revert this
  decide

end ExStale
end Ripsrc
