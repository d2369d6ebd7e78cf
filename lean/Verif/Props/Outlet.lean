import Verif.Lib.OutletUse
import Verif.Props.Pipeline
import Verif.Props.Pool
import Verif.Props.Whole
/-!
# C86: `Code` and `Branches` with any consumer

`CodeSteps p ready n Pipe.open x`: some `n` steps of the goroutines of a call of `Code(ctx, res)` and of its consumer lead to `x`; the consumer is any program, given by the
histories after which it is ready to receive. `x.seen` is what it has received, `x.over` whether it has found `res` closed. What the call should deliver is what the
variant that returns a slice returns: `AlwaysReturns` (Props/Pipeline.lean) for `CodeSlice`, `BranchesAlways` for `BranchesSlice`.
-/
namespace Ripsrc
open Conc

section
variable {τ : Type}

theorem code_always {p : Pipe τ} {w : Option (Repo × Str)} {e : Option Fault} {records : List (CodeRecord τ)} (h : AlwaysReturns p w e records) :
    ∃ N, p.sl.Always (fun we g => we = (w, e) ∧ g = records) N := by
  obtain ⟨N, hN⟩ := h
  refine ⟨N, fun m u hu => (hN m u hu).1, fun m u hu => (hN m u hu).2.2.1, fun m u hu hs => ?_⟩
  obtain ⟨h1, h2⟩ := (hN m u hu).2.2.2.2 hs
  exact ⟨h1, (w, e), records, h2, rfl, rfl⟩

/-- **C86, `Code`.** If `CodeSlice` always returns `records`, the error `e` and the checkpoint `w`, then with any consumer, however the goroutines are scheduled: the number of steps is bounded; no
goroutine panics; what was received is always a beginning of `records`; `res` is found closed only after all of them; and when the call has returned, all of
them were received, the error is `e` and the checkpoint `w`. -/
theorem C86_code_stream {p : Pipe τ} {w : Option (Repo × Str)} {e : Option Fault} {records : List (CodeRecord τ)} (h : AlwaysReturns p w e records) :
    ∃ N, ∀ (ready : List (CodeRecord τ) → Prop) n x, CodeSteps p ready n Pipe.open x →
      n ≤ N ∧ ¬ Crashed p.act x.st ∧ x.seen <+: records ∧ (x.over = true → x.seen = records) ∧
      ∀ w' e', CodeReturned x w' e' → w' = w ∧ e' = e ∧ x.seen = records := by
  obtain ⟨N, hA⟩ := code_always h
  have hS := (pipe_local p).ok
  refine ⟨N, fun ready n x hx => ?_⟩
  have hret : ∀ w' e', CodeReturned x w' e' → w' = w ∧ e' = e ∧ x.seen = records := by
    intro w' e' hr
    obtain ⟨we, g, h1, rfl, rfl⟩ := open_join hS hA hx (e := (w', e')) hr
    have h1 : (PLoc.returned w e g : PLoc τ) = .returned w' e' x.seen := h1
    cases h1
    exact ⟨rfl, rfl, rfl⟩
  refine ⟨open_bound hS hA hx, ?_, ?_, ?_, hret⟩
  · obtain ⟨_, _, m, hm, _⟩ := open_sim hS hx
    exact open_not_crashed hS hx (hA.ok _ _ hm)
  · obtain ⟨y, hy, we, we', g, h1, rfl, rfl⟩ := open_prefix hS hA hx
    have h1 : (PLoc.returned w e g : PLoc τ) = .returned we.1 we.2 y.seen := h1
    cases h1
    exact hy
  · intro ho
    obtain ⟨we, h1⟩ := open_over hS hx ho
    exact (hret we.1 we.2 h1).2.2

/-- **C86, `Code`.** With a consumer that keeps receiving until it finds `res` closed: when nothing can move any more, the call has returned, all other goroutines have ended, and the
consumer has received all records and found `res` closed. -/
theorem C86_code_drained {p : Pipe τ} {w : Option (Repo × Str)} {e : Option Fault} {records : List (CodeRecord τ)} (h : AlwaysReturns p w e records)
    {ready : List (CodeRecord τ) → Prop} (hr : ∀ h, h <+: records → ready h) {n : Nat} {x : OState PRole PChan (PLoc τ) (CodeRecord τ)} (hx : CodeSteps p ready n Pipe.open x)
    (hst : x.Stuck p.act .res PVal.record ready) :
    CodeReturned x w e ∧ x.over = true ∧ x.seen = records ∧ ∀ r l, r ≠ .caller → x.st.procs r = some l → p.act l = .halt := by
  obtain ⟨N, hall⟩ := C86_code_stream h
  obtain ⟨N', hA⟩ := code_always h
  have hx' := hall ready n x hx
  obtain ⟨we, h1, h2, _, _, h3⟩ := open_end (pipe_local p).ok (fun m u h1 h2 => (hA.fin m u h1 h2).1) hx (hr _ hx'.2.2.1) hst
  obtain ⟨rfl, rfl, h4⟩ := hx'.2.2.2.2 we.1 we.2 h1
  exact ⟨h1, h2, h4, h3⟩

/-- **C86, `Code`.** A consumer that stops receiving before the last record receives nothing more, and the call never returns. -/
theorem C86_code_abandoned {p : Pipe τ} {w : Option (Repo × Str)} {e : Option Fault} {records : List (CodeRecord τ)} (h : AlwaysReturns p w e records)
    {ready : List (CodeRecord τ) → Prop} {n : Nat} {x : OState PRole PChan (PLoc τ) (CodeRecord τ)} (hx : CodeSteps p ready n Pipe.open x) (hstop : ¬ ready x.seen)
    (hmore : x.seen ≠ records) {k : Nat} {y : OState PRole PChan (PLoc τ) (CodeRecord τ)} (hy : CodeSteps p ready k x y) :
    y.seen = x.seen ∧ ∀ w' e', ¬ CodeReturned y w' e' := by
  obtain ⟨N, hall⟩ := C86_code_stream h
  have e1 := hy.seen.2 hstop
  refine ⟨e1, fun w' e' hret => ?_⟩
  have := ((hall ready _ y (hx.append hy)).2.2.2.2 w' e' hret).2.2
  exact hmore (by rw [← e1, this])

/-- Such consumers: one that takes the first `k` records and then stops. The goroutines end up waiting for it, with the call not returned. -/
theorem code_stops {p : Pipe τ} {w : Option (Repo × Str)} {e : Option Fault} {records : List (CodeRecord τ)} (h : AlwaysReturns p w e records) {k : Nat} (hk : k < records.length) :
    ∃ n x, CodeSteps p (fun h => h.length < k) n Pipe.open x ∧ x.Stuck p.act .res PVal.record (fun h => h.length < k) ∧ x.seen = records.take k := by
  obtain ⟨N, hall⟩ := C86_code_stream h
  obtain ⟨N', hA⟩ := code_always h
  obtain ⟨n, x, hx, _, hs⟩ := open_ends (pipe_local p).ok hA (ready := fun h => h.length < k) (x := Pipe.open) .refl
  have hx1 := hall _ n x hx
  have hle : ∀ {n x}, CodeSteps p (fun h => h.length < k) n Pipe.open x → x.seen.length ≤ k := by
    intro n x hx
    generalize h0 : (Pipe.open : OState PRole PChan (PLoc τ) (CodeRecord τ)) = x0 at hx
    induction hx with
    | refl => subst h0; simp [Pipe.open]
    | snoc _ hs ih =>
      have ih := ih h0
      cases hs with
      | inner _ => exact ih
      | take h1 _ _ _ => simp only [List.length_append, List.length_singleton]; omega
      | over _ _ => exact ih
  have hlen : x.seen.length = k := by
    apply Classical.byContradiction
    intro hne
    have hlt : x.seen.length < k := by have := hle hx; omega
    obtain ⟨_, h1, _⟩ := open_end (pipe_local p).ok (fun m u h1 h2 => (hA.fin m u h1 h2).1) hx hlt hs
    have := (hx1.2.2.2.2 _ _ h1).2.2
    rw [this] at hlt
    omega
  refine ⟨n, x, hx, hs, ?_⟩
  obtain ⟨t, ht⟩ := hx1.2.2.1
  rw [← ht, ← hlen, List.take_left]
end

/-- Every schedule of a call of `BranchesSlice` is finite, without a panic, and ends with all goroutines returned and a right result. -/
def BranchesAlways (p : Pool) (Right : Option Fault → List Branch → Prop) : Prop :=
  (∃ N, ∀ m u, Steps p.act m Pool.init u → m ≤ N) ∧
  ∀ m u, Steps p.act m Pool.init u → ¬ Crashed p.act u ∧
    (Stuck p.act u → AllReturned p.act u ∧ ∃ e bs, u.procs .caller = some (.returned e bs) ∧ Right e bs)

/-- The records of a call of `Branches` that goes well (the conclusion of C22): that of the default branch, if it is wanted, then one for each branch and each known
pull request, in some order. -/
def BranchesComplete (p : Pool) (name dh first : Str) (branches : List (Str × Str)) (all : List Branch) : Prop :=
  ∃ cs ds bs, all = ds ++ bs ∧ getAllCommits p.graph dh = .ok cs ∧
    ds = (if p.prOnly = false ∧ p.includeDefault = true then
      [{ branchID := branchID p.sha name [], name := name, headSHA := dh, isDefault := true, commits := cs, firstCommit := first }] else []) ∧
    (∃ prs : List Str, prs.Nodup ∧ (∀ s, s ∈ prs ↔ s ∈ p.prs ∧ p.graph.Known s) ∧ (bs.map Branch.key).Perm (branches ++ prs.map (fun s => ([], s)))) ∧
    ∀ b ∈ bs, ∀ perm : List Str → List Str, (∀ s, (perm s).Perm s) → runBranch p.sha p.graph dh perm b.name b.headSHA = .ok (some b)

theorem branches_always_good (p : Pool) {parents : GoMap Str (List Str)} (hwf : parents.WF) {order : List (Str × List Str)} (horder : order.Perm parents)
    (hg : p.graph = Graph.newFromMap parents order) (hac : p.graph.Acyclic) (hcomp : p.graph.Complete)
    (hperms : ∀ x s, (p.perms x s).Perm s) (hpr : ∀ s, (p.prOrder s).Perm s)
    {name dh first : Str} {branches : List (Str × Str)}
    (hpre : p.pre = none) (hdef : p.getDefault = .ok (name, dh)) (hfirst : p.prOnly = false → p.includeDefault = true → p.firstCommit = .ok first)
    (hnames : p.prOnly = false → p.names = .ok branches) (honly : p.prOnly = true → branches = [])
    (hkd : p.graph.Known dh) (hkb : ∀ x ∈ branches, p.graph.Known x.2) (hworkers : 1 ≤ p.concurrency ∨ p.concurrency = 0 ∧ 1 ≤ p.numCPU) :
    BranchesAlways p (fun e bs => e = none ∧ BranchesComplete p name dh first branches bs) := by
  have h := C22_worker_pool p hwf horder hg hac hcomp hperms hpr hpre hdef hfirst hnames honly hkd hkb hworkers
  refine ⟨h.1, fun m u hu => ⟨(h.2 m u hu).1, fun hs => ?_⟩⟩
  obtain ⟨h1, cs, ds, bs, h2, h3, h4, h5, h6⟩ := (h.2 m u hu).2.2 hs
  exact ⟨h1, none, ds ++ bs, h2, rfl, cs, ds, bs, rfl, h3, h4, h5, h6⟩

theorem branches_always_error {p : Pool} {e : Fault} {ds : List Branch} (hf : CallFails p e ds) : BranchesAlways p (fun e' bs => e' = some e ∧ bs = ds) := by
  have h := C22_error p hf
  refine ⟨⟨12, fun m u hu => (h m u hu).1⟩, fun m u hu => ⟨(h m u hu).2.1, fun hs => ?_⟩⟩
  obtain ⟨h1, h2⟩ := (h m u hu).2.2.2 hs
  exact ⟨h1, _, _, h2, rfl, rfl⟩

theorem branches_always {p : Pool} {Right : Option Fault → List Branch → Prop} (h : BranchesAlways p Right) : ∃ N, p.sl.Always Right N := by
  obtain ⟨⟨N, hN⟩, h2⟩ := h
  exact ⟨N, fun m u hu => hN m u hu, fun m u hu => (h2 m u hu).1, fun m u hu hs => (h2 m u hu).2 hs⟩

/-- **C86, `Branches`.** If `BranchesSlice` always ends with a right result, then with any consumer, however the goroutines are scheduled: the number of steps is bounded; no goroutine
panics; what was received is always the beginning of a right result; and when the call has returned or `res` is found closed, what was received is a right result, with the
error that is returned. -/
theorem C86_branches_stream {p : Pool} {Right : Option Fault → List Branch → Prop} (h : BranchesAlways p Right) :
    ∃ N, ∀ (ready : List Branch → Prop) n x, BranchSteps p ready n Pool.open x →
      n ≤ N ∧ ¬ Crashed p.act x.st ∧ (∃ e bs, Right e bs ∧ x.seen <+: bs) ∧ (x.over = true → ∃ e, Right e x.seen) ∧
      ∀ e, BranchesReturned x e → Right e x.seen := by
  obtain ⟨N, hA⟩ := branches_always h
  have hS := (pool_local p).ok
  refine ⟨N, fun ready n x hx => ?_⟩
  have hret : ∀ e, BranchesReturned x e → Right e x.seen := by
    intro e hr
    obtain ⟨e', g, h1, h2⟩ := open_join hS hA hx (e := e) hr
    have h1 : (BLoc.returned e' g : BLoc) = .returned e x.seen := h1
    cases h1
    exact h2
  refine ⟨open_bound hS hA hx, ?_, ?_, ?_, hret⟩
  · obtain ⟨_, _, m, hm, _⟩ := open_sim hS hx
    exact open_not_crashed hS hx (hA.ok _ _ hm)
  · obtain ⟨y, hy, e, e', g, h1, h2⟩ := open_prefix hS hA hx
    have h1 : (BLoc.returned e' g : BLoc) = .returned e y.seen := h1
    cases h1
    exact ⟨_, _, h2, hy⟩
  · intro ho
    obtain ⟨e, h1⟩ := open_over hS hx ho
    exact ⟨e, hret e h1⟩

/-- **C86, `Branches`.** With a consumer that keeps receiving: when nothing can move any more, the call has returned, all other goroutines have ended, and the consumer has
received a right result and found `res` closed. -/
theorem C86_branches_drained {p : Pool} {Right : Option Fault → List Branch → Prop} (h : BranchesAlways p Right) {ready : List Branch → Prop} {n : Nat}
    {x : OState BRole BChan BLoc Branch} (hx : BranchSteps p ready n Pool.open x) (hr : ready x.seen) (hst : x.Stuck p.act .res BVal.branch ready) :
    (∃ e, BranchesReturned x e ∧ Right e x.seen) ∧ x.over = true ∧ ∀ r l, r ≠ .caller → x.st.procs r = some l → p.act l = .halt := by
  obtain ⟨N, hall⟩ := C86_branches_stream h
  obtain ⟨N', hA⟩ := branches_always h
  obtain ⟨e, h1, h2, _, _, h3⟩ := open_end (pool_local p).ok (fun m u h1 h2 => (hA.fin m u h1 h2).1) hx hr hst
  exact ⟨⟨e, h1, (hall ready n x hx).2.2.2.2 e h1⟩, h2, h3⟩

/-- **C86, `Branches`.** A consumer that stops receiving before the last record receives nothing more, and the call never returns. -/
theorem C86_branches_abandoned {p : Pool} {Right : Option Fault → List Branch → Prop} (h : BranchesAlways p Right) {ready : List Branch → Prop} {n : Nat}
    {x : OState BRole BChan BLoc Branch} (hx : BranchSteps p ready n Pool.open x) (hstop : ¬ ready x.seen) (hmore : ∀ e, ¬ Right e x.seen) {k : Nat}
    {y : OState BRole BChan BLoc Branch} (hy : BranchSteps p ready k x y) : y.seen = x.seen ∧ ∀ e, ¬ BranchesReturned y e := by
  obtain ⟨N, hall⟩ := C86_branches_stream h
  have e1 := hy.seen.2 hstop
  refine ⟨e1, fun e hret => ?_⟩
  have := (hall ready _ y (hx.append hy)).2.2.2.2 e hret
  rw [e1] at this
  exact hmore e this

/-- The example history: the consumer that stops before the last record has received the others; the call never returns. -/
example : ∃ (w : Repo × Str) (records : List (CodeRecord Nat)), AlwaysReturns exPipe (some w) none records ∧ 0 < records.length ∧
    ∃ n x, CodeSteps exPipe (fun h => h.length < records.length - 1) n Pipe.open x ∧ x.seen = records.dropLast ∧
      ∀ k y, CodeSteps exPipe (fun h => h.length < records.length - 1) k x y → ∀ w' e', ¬ CodeReturned y w' e' := by
  obtain ⟨w, out, h1, h2, h3, h4⟩ := C57_code_of_a_history Ex.setting ex_log (by decide) (fun _ => .ok []) (exCl_lawful false)
    (fun p c _ => exCl_license p c) exScc (fun _ fs => fs) (fun _ _ => .refl _) exWholeMetas exWholeMetas_of
  change AlwaysReturns exPipe (some w) none (out.flatMap (·.2)) at h1
  obtain ⟨o, ho⟩ : ∃ o, out[3]? = some o := ⟨_, List.getElem?_eq_getElem (h := (by rw [h3]; decide : 3 < out.length))⟩
  obtain ⟨mc, recs⟩ := o
  have := h4 3 Ex.c4 mc recs rfl ho
  have hg : b!"g" ∈ recs.map (·.filename) := by
    have hmc := this.commit.1
    cases hmc
    exact (this.paths _).2 ⟨by decide, .inl ⟨by decide, ⟨_, List.mem_cons_self, by decide⟩, .inr (.inl (by decide))⟩, by decide⟩
  obtain ⟨rec, hrec, _⟩ := List.mem_map.1 hg
  have hpos : 0 < (out.flatMap (·.2)).length := List.length_pos_of_mem (List.mem_flatMap.2 ⟨_, List.mem_of_getElem? ho, hrec⟩)
  refine ⟨w, _, h1, hpos, ?_⟩
  obtain ⟨n, x, hx, _, hseen⟩ := code_stops h1 (k := (out.flatMap (·.2)).length - 1) (by omega)
  rw [← List.dropLast_eq_take] at hseen
  refine ⟨n, x, hx, hseen, fun k y hy => (C86_code_abandoned h1 hx ?_ ?_ hy).2⟩
  · rw [hseen]; simp
  · rw [hseen]
    intro he
    have := congrArg List.length he
    rw [List.length_dropLast] at this
    omega

/-- … and the one that keeps receiving has received all of them. -/
example : ∃ (w : Repo × Str) (records : List (CodeRecord Nat)) (n : Nat) (x : _), CodeSteps exPipe (fun _ => True) n Pipe.open x ∧ CodeReturned x (some w) none ∧ x.seen = records ∧ x.over = true := by
  obtain ⟨w, out, h1, h2, h3, h4⟩ := C57_code_of_a_history Ex.setting ex_log (by decide) (fun _ => .ok []) (exCl_lawful false)
    (fun p c _ => exCl_license p c) exScc (fun _ fs => fs) (fun _ _ => .refl _) exWholeMetas exWholeMetas_of
  change AlwaysReturns exPipe (some w) none (out.flatMap (·.2)) at h1
  obtain ⟨N', hA⟩ := code_always h1
  obtain ⟨n, x, hx, _, hs⟩ := open_ends (pipe_local exPipe).ok hA (ready := fun _ => True) (x := Pipe.open) .refl
  obtain ⟨e1, e2, e3, _⟩ := C86_code_drained h1 (fun _ _ => trivial) hx hs
  exact ⟨w, _, n, x, hx, e1, e3, e2⟩

theorem exPool_always (c : Int) (hc : 0 ≤ c) :
    BranchesAlways (exPool c) (fun e bs => e = none ∧ BranchesComplete (exPool c) b!"master" b!"m3" b!"m1" [(b!"br", b!"b2"), (b!"old", b!"m2")] bs) :=
  branches_always_good (exPool c) (parents := [(b!"m1", []), (b!"m2", [b!"m1"]), (b!"m3", [b!"m2"]), (b!"b1", [b!"m1"]), (b!"b2", [b!"b1"])])
    (by decide) (List.Perm.refl _) rfl exGraph_acyclic exGraph_complete (fun _ _ => List.Perm.refl _) (fun s => List.reverse_perm s)
    (name := b!"master") (dh := b!"m3") (first := b!"m1") (branches := [(b!"br", b!"b2"), (b!"old", b!"m2")]) rfl rfl (fun _ _ => rfl) (fun _ => rfl) (by simp [exPool])
    (show exGraph.Known b!"m3" by unfold Graph.Known; decide)
    (show ∀ x ∈ [(b!"br", b!"b2"), (b!"old", b!"m2")], exGraph.Known x.2 by unfold Graph.Known; decide) (by simp only [exPool]; omega)

/-- The example pool, for any number of workers: a consumer that reads nothing blocks the call for ever … -/
example (c : Int) (hc : 0 ≤ c) : ∀ k y, BranchSteps (exPool c) (fun _ => False) k Pool.open y → y.seen = [] ∧ ∀ e, ¬ BranchesReturned y e := by
  intro k y hy
  refine C86_branches_abandoned (exPool_always c hc) (x := Pool.open) .refl id ?_ hy
  rintro e ⟨_, cs, ds, bs, h1, _, h2, _⟩
  rw [if_pos ⟨rfl, rfl⟩] at h2
  rw [h2] at h1
  cases h1

/-- … and one that keeps receiving gets all records. -/
example (c : Int) (hc : 0 ≤ c) : ∃ n x, BranchSteps (exPool c) (fun _ => True) n Pool.open x ∧ BranchesReturned x none ∧ x.over = true ∧
    BranchesComplete (exPool c) b!"master" b!"m3" b!"m1" [(b!"br", b!"b2"), (b!"old", b!"m2")] x.seen := by
  obtain ⟨N', hA⟩ := branches_always (exPool_always c hc)
  obtain ⟨n, x, hx, _, hs⟩ := open_ends (pool_local (exPool c)).ok hA (ready := fun _ => True) (x := Pool.open) .refl
  obtain ⟨⟨e, e1, rfl, e2⟩, e3, _⟩ := C86_branches_drained (exPool_always c hc) hx trivial hs
  exact ⟨n, x, hx, e1, e3, e2⟩

end Ripsrc
