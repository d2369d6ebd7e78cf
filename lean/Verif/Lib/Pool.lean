import Verif.Lib.Conc
import Verif.Model.Pool
/-!
# The worker pool: steps, invariant, conserved quantities
-/
namespace Ripsrc
open Conc

/-- The outcome of an item. -/
def Pool.recordOf (p : Pool) (dh : Str) (reach : List Str) (x : Str × Str) : Option Branch :=
  match processBranch p.sha p.graph dh reach (p.perms x) x.1 x.2 with
  | .ok o => o
  | .error _ => none

/-- A call that goes well: what `Run` prepares. -/
structure Plan (p : Pool) (d : Option Branch) (dh : Str) (reach : List Str) (items : List (Str × Str)) : Prop where
  pre : p.pre = none
  run : p.onRun = match d with | some b => .sendDefault b dh | none => .cWork dh
  work : p.onWork dh = .startFeeder dh reach items
  item : ∀ x ∈ items, ∃ o, processBranch p.sha p.graph dh reach (p.perms x) x.1 x.2 = .ok o
  workers : 0 < p.workers

/-- The goroutine of a control state. -/
def BLoc.role : BLoc → BRole
  | .cSlice | .cBranches | .cRun | .sendDefault _ _ | .cWork _ | .startFeeder _ _ _ | .spawn _ _ _ | .closeRes2 _ | .joinFwd _ | .closeRes _ | .joinCollect _
  | .returned _ _ => .caller
  | .feed _ | .fed => .feeder
  | .work i _ _ | .emit i _ _ _ | .workEnd i => .worker i
  | .fwdRecv | .fwdSend _ | .fwdDone | .fwdEnd => .fwd
  | .collect _ | .collectEnd _ | .collected _ => .collect
  | .panicked r => r

section
variable {p : Pool} {d : Option Branch} {dh : Str} {reach : List Str} {items : List (Str × Str)}

/-- The control states of a call that goes well. -/
def Good (p : Pool) (d : Option Branch) (dh : Str) (reach : List Str) (items : List (Str × Str)) : BLoc → Prop
  | .sendDefault b h => d = some b ∧ h = dh
  | .cWork h => h = dh
  | .startFeeder h r xs => h = dh ∧ r = reach ∧ xs = items
  | .spawn h r i => h = dh ∧ r = reach ∧ i ≤ p.workers
  | .closeRes2 e | .joinFwd e | .closeRes e | .joinCollect e | .returned e _ => e = none
  | .feed xs => ∀ x ∈ xs, x ∈ items
  | .work _ h r | .emit _ h r _ => h = dh ∧ r = reach
  | .panicked _ => False
  | _ => True

/-- After an item. -/
def afterItem (p : Pool) (dh : Str) (reach : List Str) (i : Nat) (x : Str × Str) : BLoc :=
  match p.recordOf dh reach x with
  | none => .work i dh reach
  | some b => .emit i dh reach b

/-- The steps of a call that goes well. -/
inductive BStep (p : Pool) (d : Option Branch) (dh : Str) (reach : List Str) (items : List (Str × Str)) (s : State BRole BChan BLoc) : State BRole BChan BLoc → Prop where
  | goCollect : s.procs .caller = some .cSlice → s.procs .collect = none → BStep p d dh reach items s ((s.set .collect (.collect [])).set .caller .cBranches)
  | goFwd : s.procs .caller = some .cBranches → s.procs .fwd = none → BStep p d dh reach items s ((s.set .fwd .fwdRecv).set .caller .cRun)
  | run1 {b} : s.procs .caller = some .cRun → d = some b → BStep p d dh reach items s (s.set .caller (.sendDefault b dh))
  | run2 : s.procs .caller = some .cRun → d = none → BStep p d dh reach items s (s.set .caller (.cWork dh))
  | sendDefault {b} : s.procs .caller = some (.sendDefault b dh) → d = some b → s.procs .fwd = some .fwdRecv → s.closed .res2 = false →
      BStep p d dh reach items s ((s.set .caller (.cWork dh)).set .fwd (.fwdSend b))
  | work : s.procs .caller = some (.cWork dh) → BStep p d dh reach items s (s.set .caller (.startFeeder dh reach items))
  | goFeeder : s.procs .caller = some (.startFeeder dh reach items) → s.procs .feeder = none →
      BStep p d dh reach items s ((s.set .feeder (.feed items)).set .caller (.spawn dh reach 0))
  | goWorker {i} : s.procs .caller = some (.spawn dh reach i) → i < p.workers → s.procs (.worker i) = none →
      BStep p d dh reach items s ((s.set (.worker i) (.work i dh reach)).set .caller (.spawn dh reach (i + 1)))
  | wait : s.procs .caller = some (.spawn dh reach p.workers) → (∀ i < p.workers, s.procs (.worker i) = some (.workEnd i)) →
      BStep p d dh reach items s (s.set .caller (.closeRes2 none))
  | closeRes2 : s.procs .caller = some (.closeRes2 none) → s.closed .res2 = false → BStep p d dh reach items s ((s.set .caller (.joinFwd none)).shut .res2)
  | joinFwd : s.procs .caller = some (.joinFwd none) → s.procs .fwd = some .fwdDone → BStep p d dh reach items s ((s.set .fwd .fwdEnd).set .caller (.closeRes none))
  | closeRes : s.procs .caller = some (.closeRes none) → s.closed .res = false → BStep p d dh reach items s ((s.set .caller (.joinCollect none)).shut .res)
  | joinCollect {got} : s.procs .caller = some (.joinCollect none) → s.procs .collect = some (.collectEnd got) →
      BStep p d dh reach items s ((s.set .collect (.collected got)).set .caller (.returned none got))
  | feed {x xs i} : s.procs .feeder = some (.feed (x :: xs)) → s.procs (.worker i) = some (.work i dh reach) → x ∈ items → (∀ y ∈ xs, y ∈ items) → s.closed .work = false →
      BStep p d dh reach items s ((s.set .feeder (.feed xs)).set (.worker i) (afterItem p dh reach i x))
  | feedClose : s.procs .feeder = some (.feed []) → s.closed .work = false → BStep p d dh reach items s ((s.set .feeder .fed).shut .work)
  | workEnd {i} : s.procs (.worker i) = some (.work i dh reach) → s.closed .work = true → BStep p d dh reach items s (s.set (.worker i) (.workEnd i))
  | emit {i b} : s.procs (.worker i) = some (.emit i dh reach b) → s.procs .fwd = some .fwdRecv → s.closed .res2 = false →
      BStep p d dh reach items s ((s.set (.worker i) (.work i dh reach)).set .fwd (.fwdSend b))
  | fwdDone : s.procs .fwd = some .fwdRecv → s.closed .res2 = true → BStep p d dh reach items s (s.set .fwd .fwdDone)
  | fwdSend {b got} : s.procs .fwd = some (.fwdSend b) → s.procs .collect = some (.collect got) → s.closed .res = false →
      BStep p d dh reach items s ((s.set .fwd .fwdRecv).set .collect (.collect (got ++ [b])))
  | collectEnd {got} : s.procs .collect = some (.collect got) → s.closed .res = true → BStep p d dh reach items s (s.set .collect (.collectEnd got))

theorem onItem_ok (h : Plan p d dh reach items) {x : Str × Str} (hx : x ∈ items) (i : Nat) : p.onItem i dh reach x = afterItem p dh reach i x := by
  obtain ⟨o, ho⟩ := h.item x hx
  unfold Pool.onItem afterItem Pool.recordOf
  rw [ho]
  cases o <;> rfl

/-- Every step of a well placed state is one of these. -/
theorem bstep (h : Plan p d dh reach items) {s t : State BRole BChan BLoc} (hp : Placed BLoc.role s)
    (hg : ∀ r l, s.procs r = some l → Good p d dh reach items l) (hd : s.closed .doneFwd = false ∧ s.closed .doneCollect = false) (hst : Step p.act s t) : BStep p d dh reach items s t := by
  cases hst with
  | tau h1 h2 =>
    rename_i r l k
    have hr := hp _ _ h1
    have hgl := hg _ _ h1
    cases l with
    | cRun =>
      simp only [Pool.act] at h2
      cases hr
      have := h.run
      cases hdd : d with
      | none => rw [hdd] at this; simp only at this; rw [this] at h2; cases h2; exact hdd ▸ .run2 h1 hdd
      | some b => rw [hdd] at this; simp only at this; rw [this] at h2; cases h2; exact hdd ▸ .run1 h1 hdd
    | cWork h' =>
      cases hr; cases hgl
      simp only [Pool.act, h.work] at h2
      cases h2
      exact .work h1
    | cBranches => simp [Pool.act, h.pre] at h2
    | spawn _ _ i => simp only [Pool.act] at h2; split at h2 <;> cases h2
    | feed xs => cases xs <;> simp [Pool.act] at h2
    | _ => simp [Pool.act] at h2
  | sync h1 h2 h3 h4 h5 =>
    rename_i r q l m c v k f
    have hr := hp _ _ h1
    have hgl := hg _ _ h1
    have hq := hp _ _ h3
    have hgm := hg _ _ h3
    cases l with
    | sendDefault b dh' =>
      simp only [Pool.act] at h2; cases h2; cases hr
      obtain ⟨hd', rfl⟩ := hgl
      cases m with
      | fwdRecv => simp only [Pool.act] at h4; cases h4; cases hq; exact .sendDefault h1 hd' h3 h5
      | feed xs => cases xs <;> simp [Pool.act] at h4
      | spawn _ _ i => simp only [Pool.act] at h4; split at h4 <;> cases h4
      | cBranches => simp [Pool.act, h.pre] at h4
      | _ => simp [Pool.act] at h4
    | feed xs =>
      cases xs with
      | nil => simp [Pool.act] at h2
      | cons x xs =>
        simp only [Pool.act] at h2; cases h2; cases hr
        cases m with
        | work i dh' reach' =>
          simp only [Pool.act] at h4; cases h4; cases hq
          obtain ⟨rfl, rfl⟩ := hgm
          simp only
          rw [onItem_ok h (hgl x List.mem_cons_self)]
          exact .feed h1 h3 (hgl x List.mem_cons_self) (fun y hy => hgl y (List.mem_cons_of_mem _ hy)) h5
        | feed xs => cases xs <;> simp [Pool.act] at h4
        | spawn _ _ i => simp only [Pool.act] at h4; split at h4 <;> cases h4
        | cBranches => simp [Pool.act, h.pre] at h4
        | _ => simp [Pool.act] at h4
    | emit i dh' reach' b =>
      simp only [Pool.act] at h2; cases h2; cases hr
      obtain ⟨rfl, rfl⟩ := hgl
      cases m with
      | fwdRecv => simp only [Pool.act] at h4; cases h4; cases hq; exact .emit h1 h3 h5
      | feed xs => cases xs <;> simp [Pool.act] at h4
      | spawn _ _ i => simp only [Pool.act] at h4; split at h4 <;> cases h4
      | cBranches => simp [Pool.act, h.pre] at h4
      | _ => simp [Pool.act] at h4
    | fwdSend b =>
      simp only [Pool.act] at h2; cases h2; cases hr
      cases m with
      | collect got => simp only [Pool.act] at h4; cases h4; cases hq; exact .fwdSend h1 h3 h5
      | feed xs => cases xs <;> simp [Pool.act] at h4
      | spawn _ _ i => simp only [Pool.act] at h4; split at h4 <;> cases h4
      | cBranches => simp [Pool.act, h.pre] at h4
      | _ => simp [Pool.act] at h4
    | fwdDone =>
      simp only [Pool.act] at h2; cases h2; cases hr
      cases m with
      | joinFwd e => simp only [Pool.act] at h4; cases h4; cases hq; cases hgm; exact .joinFwd h3 h1
      | feed xs => cases xs <;> simp [Pool.act] at h4
      | spawn _ _ i => simp only [Pool.act] at h4; split at h4 <;> cases h4
      | cBranches => simp [Pool.act, h.pre] at h4
      | _ => simp [Pool.act] at h4
    | collectEnd got =>
      simp only [Pool.act] at h2; cases h2; cases hr
      cases m with
      | joinCollect e => simp only [Pool.act] at h4; cases h4; cases hq; cases hgm; exact .joinCollect h3 h1
      | feed xs => cases xs <;> simp [Pool.act] at h4
      | spawn _ _ i => simp only [Pool.act] at h4; split at h4 <;> cases h4
      | cBranches => simp [Pool.act, h.pre] at h4
      | _ => simp [Pool.act] at h4
    | spawn _ _ i => simp only [Pool.act] at h2; split at h2 <;> cases h2
    | cBranches => simp [Pool.act, h.pre] at h2
    | _ => simp [Pool.act] at h2
  | recvClosed h1 h2 h3 =>
    rename_i q m c f
    have hq := hp _ _ h1
    have hgm := hg _ _ h1
    cases m with
    | work i dh' reach' => simp only [Pool.act] at h2; cases h2; cases hq; obtain ⟨rfl, rfl⟩ := hgm; exact .workEnd h1 h3
    | fwdRecv => simp only [Pool.act] at h2; cases h2; cases hq; exact .fwdDone h1 h3
    | collect got => simp only [Pool.act] at h2; cases h2; cases hq; exact .collectEnd h1 h3
    | joinFwd e => simp only [Pool.act] at h2; cases h2; rw [hd.1] at h3; cases h3
    | joinCollect e => simp only [Pool.act] at h2; cases h2; rw [hd.2] at h3; cases h3
    | feed xs => cases xs <;> simp [Pool.act] at h2
    | spawn _ _ i => simp only [Pool.act] at h2; split at h2 <;> cases h2
    | cBranches => simp [Pool.act, h.pre] at h2
    | _ => simp [Pool.act] at h2
  | close h1 h2 h3 =>
    rename_i r l c k
    have hr := hp _ _ h1
    have hgl := hg _ _ h1
    cases l with
    | closeRes2 e => simp only [Pool.act] at h2; cases h2; cases hr; cases hgl; exact .closeRes2 h1 h3
    | closeRes e => simp only [Pool.act] at h2; cases h2; cases hr; cases hgl; exact .closeRes h1 h3
    | feed xs =>
      cases xs with
      | nil => simp only [Pool.act] at h2; cases h2; cases hr; exact .feedClose h1 h3
      | cons x xs => simp [Pool.act] at h2
    | spawn _ _ i => simp only [Pool.act] at h2; split at h2 <;> cases h2
    | cBranches => simp [Pool.act, h.pre] at h2
    | _ => simp [Pool.act] at h2
  | go h1 h2 h3 =>
    rename_i r l n g k
    have hr := hp _ _ h1
    have hgl := hg _ _ h1
    cases l with
    | cSlice => simp only [Pool.act] at h2; cases h2; cases hr; exact .goCollect h1 h3
    | cBranches => simp only [Pool.act, h.pre] at h2; cases h2; cases hr; exact .goFwd h1 h3
    | startFeeder dh' reach' xs => simp only [Pool.act] at h2; cases h2; cases hr; obtain ⟨rfl, rfl, rfl⟩ := hgl; exact .goFeeder h1 h3
    | spawn dh' reach' i =>
      obtain ⟨rfl, rfl, _⟩ := hgl
      simp only [Pool.act] at h2
      split at h2
      · cases h2; cases hr; exact .goWorker h1 (by assumption) h3
      · cases h2
    | feed xs => cases xs <;> simp [Pool.act] at h2
    | _ => simp [Pool.act] at h2
  | wait h1 h2 h3 =>
    rename_i r l rs k
    have hr := hp _ _ h1
    have hgl := hg _ _ h1
    cases l with
    | spawn dh' reach' i =>
      obtain ⟨rfl, rfl, hi⟩ := hgl
      simp only [Pool.act] at h2
      split at h2
      · cases h2
      · cases h2; cases hr
        have : i = p.workers := by omega
        subst this
        refine .wait h1 ?_
        intro i hi
        obtain ⟨m, hm, hh⟩ := h3 (.worker i) (List.mem_map.2 ⟨i, List.mem_range.2 hi, rfl⟩)
        have hrole := hp _ _ hm
        rw [hm]
        cases m with
        | workEnd j => cases hrole; rfl
        | work j _ _ => simp [Pool.act] at hh
        | emit j _ _ _ => simp [Pool.act] at hh
        | panicked r => simp [Pool.act] at hh
        | _ => cases hrole
    | feed xs => cases xs <;> simp [Pool.act] at h2
    | cBranches => simp [Pool.act, h.pre] at h2
    | _ => simp [Pool.act] at h2

/-- How far the caller is. -/
def BLoc.stage : BLoc → Nat
  | .cSlice => 0
  | .cBranches => 1
  | .cRun => 2
  | .sendDefault _ _ => 3
  | .cWork _ => 4
  | .startFeeder _ _ _ => 5
  | .spawn _ _ _ => 6
  | .closeRes2 _ => 7
  | .joinFwd _ => 8
  | .closeRes _ => 9
  | .joinCollect _ => 10
  | .returned _ _ => 11
  | _ => 12

/-- The number of workers that the caller has started. -/
def BLoc.spawned (p : Pool) : BLoc → Nat
  | .spawn _ _ i => i
  | .closeRes2 _ | .joinFwd _ | .closeRes _ | .joinCollect _ | .returned _ _ => p.workers
  | _ => 0

/-- The invariant of a call that goes well; `a` is the control state of the caller. -/
structure PoolInv (p : Pool) (d : Option Branch) (dh : Str) (reach : List Str) (items : List (Str × Str)) (s : State BRole BChan BLoc) (a : BLoc) : Prop where
  caller : s.procs .caller = some a
  placed : Placed BLoc.role s
  good : ∀ r l, s.procs r = some l → Good p d dh reach items l
  collectS : s.procs .collect = none ↔ a.stage < 1
  fwdS : s.procs .fwd = none ↔ a.stage < 2
  feederS : s.procs .feeder = none ↔ a.stage < 6
  workerS : ∀ i, s.procs (.worker i) = none ↔ a.spawned p ≤ i
  cWork : s.closed .work = true ↔ s.procs .feeder = some .fed
  cRes2 : s.closed .res2 = true ↔ 8 ≤ a.stage
  cRes : s.closed .res = true ↔ 10 ≤ a.stage
  cFwd : s.closed .doneFwd = false
  cCol : s.closed .doneCollect = false
  ended : 7 ≤ a.stage → ∀ i < p.workers, s.procs (.worker i) = some (.workEnd i)
  wEnd : ∀ i, s.procs (.worker i) = some (.workEnd i) → s.procs .feeder = some .fed
  fDone : s.procs .fwd = some .fwdDone → 8 ≤ a.stage
  fEnd : s.procs .fwd = some .fwdEnd ↔ 9 ≤ a.stage
  lEnd : ∀ got, s.procs .collect = some (.collectEnd got) → 10 ≤ a.stage
  lDone : (∃ got, s.procs .collect = some (.collected got)) ↔ 11 ≤ a.stage

theorem afterItem_cases (i : Nat) (x : Str × Str) : afterItem p dh reach i x = .work i dh reach ∨ ∃ b, afterItem p dh reach i x = .emit i dh reach b := by
  unfold afterItem
  cases p.recordOf dh reach x with
  | none => exact .inl rfl
  | some b => exact .inr ⟨b, rfl⟩

theorem afterItem_role (i : Nat) (x : Str × Str) : (afterItem p dh reach i x).role = .worker i := by
  rcases afterItem_cases (p := p) (dh := dh) (reach := reach) i x with h | ⟨b, h⟩ <;> rw [h] <;> rfl

theorem afterItem_good (i : Nat) (x : Str × Str) : Good p d dh reach items (afterItem p dh reach i x) := by
  rcases afterItem_cases (p := p) (dh := dh) (reach := reach) i x with h | ⟨b, h⟩ <;> rw [h] <;> exact ⟨rfl, rfl⟩

theorem afterItem_ne (i j : Nat) (x : Str × Str) : afterItem p dh reach i x ≠ .workEnd j := by
  rcases afterItem_cases (p := p) (dh := dh) (reach := reach) i x with h | ⟨b, h⟩ <;> rw [h] <;> simp

theorem good_set {s : State BRole BChan BLoc} (h : ∀ r l, s.procs r = some l → Good p d dh reach items l) {r : BRole} {l : BLoc} (hl : Good p d dh reach items l) :
    ∀ r' l', (s.set r l).procs r' = some l' → Good p d dh reach items l' := by
  intro r' l' hh
  rw [set_procs] at hh
  split at hh
  · cases hh; exact hl
  · exact h _ _ hh

theorem poolInv_init : PoolInv p d dh reach items Pool.init .cSlice := by
  constructor <;> simp [Pool.init, BLoc.stage, BLoc.spawned, Placed, BLoc.role, Good]

theorem PoolInv.step {s t : State BRole BChan BLoc} {a : BLoc} (h : PoolInv p d dh reach items s a) (hst : BStep p d dh reach items s t) :
    ∃ b, PoolInv p d dh reach items t b := by
  have hc := h.caller
  cases hst with
  | goCollect h1 h2 =>
    rw [hc] at h1; cases h1
    refine ⟨.cBranches, ?_⟩
    obtain ⟨g1, g2, g3, g4, g5, g6, g7, g8, g9, g10, g11, g12, g13, g14, g15, g16, g17, g18⟩ := h
    constructor
    case placed => refine Placed.set (Placed.set g2 ?_) ?_ <;> simp [BLoc.role, afterItem_role]
    case good => exact good_set (good_set g3 (by trivial)) (by trivial)
    all_goals simp [set_procs, BLoc.stage, BLoc.spawned] at *
    all_goals first | assumption | grind
  | goFwd h1 h2 =>
    rw [hc] at h1; cases h1
    refine ⟨.cRun, ?_⟩
    obtain ⟨g1, g2, g3, g4, g5, g6, g7, g8, g9, g10, g11, g12, g13, g14, g15, g16, g17, g18⟩ := h
    constructor
    case placed => refine Placed.set (Placed.set g2 ?_) ?_ <;> simp [BLoc.role, afterItem_role]
    case good => exact good_set (good_set g3 (by trivial)) (by trivial)
    all_goals simp [set_procs, BLoc.stage, BLoc.spawned] at *
    all_goals first | assumption | grind
  | @run1 b h1 h2 =>
    rw [hc] at h1; cases h1
    refine ⟨.sendDefault b dh, ?_⟩
    obtain ⟨g1, g2, g3, g4, g5, g6, g7, g8, g9, g10, g11, g12, g13, g14, g15, g16, g17, g18⟩ := h
    constructor
    case placed => exact Placed.set g2 rfl
    case good => exact good_set g3 (by exact ⟨h2, rfl⟩)
    all_goals simp [set_procs, BLoc.stage, BLoc.spawned] at *
    all_goals first | assumption | grind
  | run2 h1 h2 =>
    rw [hc] at h1; cases h1
    refine ⟨.cWork dh, ?_⟩
    obtain ⟨g1, g2, g3, g4, g5, g6, g7, g8, g9, g10, g11, g12, g13, g14, g15, g16, g17, g18⟩ := h
    constructor
    case placed => exact Placed.set g2 rfl
    case good => exact good_set g3 (by rfl)
    all_goals simp [set_procs, BLoc.stage, BLoc.spawned] at *
    all_goals first | assumption | grind
  | sendDefault h1 h2 h3 h4 =>
    rw [hc] at h1; cases h1
    refine ⟨.cWork dh, ?_⟩
    obtain ⟨g1, g2, g3, g4, g5, g6, g7, g8, g9, g10, g11, g12, g13, g14, g15, g16, g17, g18⟩ := h
    constructor
    case placed => refine Placed.set (Placed.set g2 ?_) ?_ <;> simp [BLoc.role, afterItem_role]
    case good => exact good_set (good_set g3 (by rfl)) (by trivial)
    all_goals simp [set_procs, BLoc.stage, BLoc.spawned] at *
    all_goals first | assumption | grind
  | work h1 =>
    rw [hc] at h1; cases h1
    refine ⟨.startFeeder dh reach items, ?_⟩
    obtain ⟨g1, g2, g3, g4, g5, g6, g7, g8, g9, g10, g11, g12, g13, g14, g15, g16, g17, g18⟩ := h
    constructor
    case placed => exact Placed.set g2 rfl
    case good => exact good_set g3 (by exact ⟨rfl, rfl, rfl⟩)
    all_goals simp [set_procs, BLoc.stage, BLoc.spawned] at *
    all_goals first | assumption | grind
  | goFeeder h1 h2 =>
    rw [hc] at h1; cases h1
    refine ⟨.spawn dh reach 0, ?_⟩
    obtain ⟨g1, g2, g3, g4, g5, g6, g7, g8, g9, g10, g11, g12, g13, g14, g15, g16, g17, g18⟩ := h
    constructor
    case placed => refine Placed.set (Placed.set g2 ?_) ?_ <;> simp [BLoc.role, afterItem_role]
    case good => exact good_set (good_set g3 (by exact fun _ h => h)) (by exact ⟨rfl, rfl, Nat.zero_le _⟩)
    all_goals simp [set_procs, BLoc.stage, BLoc.spawned] at *
    all_goals first | assumption | grind
  | @goWorker i h1 h2 h3 =>
    rw [hc] at h1; cases h1
    refine ⟨.spawn dh reach (i + 1), ?_⟩
    obtain ⟨g1, g2, g3, g4, g5, g6, g7, g8, g9, g10, g11, g12, g13, g14, g15, g16, g17, g18⟩ := h
    constructor
    case placed => refine Placed.set (Placed.set g2 ?_) ?_ <;> simp [BLoc.role, afterItem_role]
    case good => exact good_set (good_set g3 (by exact ⟨rfl, rfl⟩)) (by exact ⟨rfl, rfl, h2⟩)
    all_goals simp [set_procs, BLoc.stage, BLoc.spawned] at *
    all_goals first | assumption | grind
  | wait h1 h2 =>
    rw [hc] at h1; cases h1
    refine ⟨.closeRes2 none, ?_⟩
    obtain ⟨g1, g2, g3, g4, g5, g6, g7, g8, g9, g10, g11, g12, g13, g14, g15, g16, g17, g18⟩ := h
    constructor
    case placed => exact Placed.set g2 rfl
    case good => exact good_set g3 (by rfl)
    all_goals simp [set_procs, BLoc.stage, BLoc.spawned] at *
    all_goals first | assumption | grind
  | closeRes2 h1 h2 =>
    rw [hc] at h1; cases h1
    refine ⟨.joinFwd none, ?_⟩
    obtain ⟨g1, g2, g3, g4, g5, g6, g7, g8, g9, g10, g11, g12, g13, g14, g15, g16, g17, g18⟩ := h
    constructor
    case placed => exact show Placed BLoc.role (s.set _ _) from Placed.set g2 rfl
    case good => exact show ∀ r l, (s.set _ _).procs r = some l → _ from good_set g3 (by rfl)
    all_goals simp [set_procs, shut_closed, BLoc.stage, BLoc.spawned] at *
    all_goals first | assumption | grind
  | joinFwd h1 h2 =>
    rw [hc] at h1; cases h1
    refine ⟨.closeRes none, ?_⟩
    obtain ⟨g1, g2, g3, g4, g5, g6, g7, g8, g9, g10, g11, g12, g13, g14, g15, g16, g17, g18⟩ := h
    constructor
    case placed => refine Placed.set (Placed.set g2 ?_) ?_ <;> simp [BLoc.role, afterItem_role]
    case good => exact good_set (good_set g3 (by trivial)) (by rfl)
    all_goals simp [set_procs, BLoc.stage, BLoc.spawned] at *
    all_goals first | assumption | grind
  | closeRes h1 h2 =>
    rw [hc] at h1; cases h1
    refine ⟨.joinCollect none, ?_⟩
    obtain ⟨g1, g2, g3, g4, g5, g6, g7, g8, g9, g10, g11, g12, g13, g14, g15, g16, g17, g18⟩ := h
    constructor
    case placed => exact show Placed BLoc.role (s.set _ _) from Placed.set g2 rfl
    case good => exact show ∀ r l, (s.set _ _).procs r = some l → _ from good_set g3 (by rfl)
    all_goals simp [set_procs, shut_closed, BLoc.stage, BLoc.spawned] at *
    all_goals first | assumption | grind
  | @joinCollect got h1 h2 =>
    rw [hc] at h1; cases h1
    refine ⟨.returned none got, ?_⟩
    obtain ⟨g1, g2, g3, g4, g5, g6, g7, g8, g9, g10, g11, g12, g13, g14, g15, g16, g17, g18⟩ := h
    constructor
    case placed => refine Placed.set (Placed.set g2 ?_) ?_ <;> simp [BLoc.role, afterItem_role]
    case good => exact good_set (good_set g3 (by trivial)) (by rfl)
    all_goals simp [set_procs, BLoc.stage, BLoc.spawned] at *
    all_goals first | assumption | grind
  | feed h1 h2 h3 h4 h5 =>
    refine ⟨a, ?_⟩
    obtain ⟨g1, g2, g3, g4, g5, g6, g7, g8, g9, g10, g11, g12, g13, g14, g15, g16, g17, g18⟩ := h
    constructor
    case placed => refine Placed.set (Placed.set g2 ?_) (afterItem_role _ _); rfl
    case good => exact good_set (good_set g3 (by exact h4)) (by exact afterItem_good _ _)
    all_goals simp [set_procs, afterItem_ne] at *
    all_goals first | assumption | grind [afterItem_ne]
  | feedClose h1 h2 =>
    refine ⟨a, ?_⟩
    obtain ⟨g1, g2, g3, g4, g5, g6, g7, g8, g9, g10, g11, g12, g13, g14, g15, g16, g17, g18⟩ := h
    constructor
    case placed => exact show Placed BLoc.role (s.set _ _) from Placed.set g2 rfl
    case good => exact show ∀ r l, (s.set _ _).procs r = some l → _ from good_set g3 (by trivial)
    all_goals simp [set_procs, shut_closed] at *
    all_goals first | assumption | grind
  | workEnd h1 h2 =>
    refine ⟨a, ?_⟩
    obtain ⟨g1, g2, g3, g4, g5, g6, g7, g8, g9, g10, g11, g12, g13, g14, g15, g16, g17, g18⟩ := h
    constructor
    case placed => exact Placed.set g2 rfl
    case good => exact good_set g3 (by trivial)
    all_goals simp [set_procs] at *
    all_goals first | assumption | grind
  | emit h1 h2 h3 =>
    refine ⟨a, ?_⟩
    obtain ⟨g1, g2, g3, g4, g5, g6, g7, g8, g9, g10, g11, g12, g13, g14, g15, g16, g17, g18⟩ := h
    constructor
    case placed => refine Placed.set (Placed.set g2 ?_) ?_ <;> simp [BLoc.role, afterItem_role]
    case good => exact good_set (good_set g3 (by exact ⟨rfl, rfl⟩)) (by trivial)
    all_goals simp [set_procs] at *
    all_goals first | assumption | grind
  | fwdDone h1 h2 =>
    refine ⟨a, ?_⟩
    obtain ⟨g1, g2, g3, g4, g5, g6, g7, g8, g9, g10, g11, g12, g13, g14, g15, g16, g17, g18⟩ := h
    constructor
    case placed => exact Placed.set g2 rfl
    case good => exact good_set g3 (by trivial)
    all_goals simp [set_procs] at *
    all_goals first | assumption | grind
  | fwdSend h1 h2 h3 =>
    refine ⟨a, ?_⟩
    obtain ⟨g1, g2, g3, g4, g5, g6, g7, g8, g9, g10, g11, g12, g13, g14, g15, g16, g17, g18⟩ := h
    constructor
    case placed => refine Placed.set (Placed.set g2 ?_) ?_ <;> simp [BLoc.role, afterItem_role]
    case good => exact good_set (good_set g3 (by trivial)) (by trivial)
    all_goals simp [set_procs] at *
    all_goals first | assumption | grind
  | collectEnd h1 h2 =>
    refine ⟨a, ?_⟩
    obtain ⟨g1, g2, g3, g4, g5, g6, g7, g8, g9, g10, g11, g12, g13, g14, g15, g16, g17, g18⟩ := h
    constructor
    case placed => exact Placed.set g2 rfl
    case good => exact good_set g3 (by trivial)
    all_goals simp [set_procs] at *
    all_goals first | assumption | grind

/-! ### Sums over the goroutines -/

/-- The goroutines. -/
def bRoles (p : Pool) : List BRole := [.caller, .collect, .fwd, .feeder] ++ (List.range p.workers).map .worker

theorem bRoles_nodup (p : Pool) : (bRoles p).Nodup := by
  unfold bRoles
  rw [List.nodup_append]
  refine ⟨by decide, ?_, ?_⟩
  · refine List.Pairwise.map _ ?_ (List.nodup_range (n := p.workers))
    intro a b h he
    exact h (by cases he; rfl)
  · intro a ha b hb he
    subst he
    obtain ⟨i, _, rfl⟩ := List.mem_map.1 hb
    simp at ha

/-- A quantity of a goroutine that may not have been started. -/
def opt (φ : BLoc → Nat) : Option BLoc → Nat
  | none => 0
  | some l => φ l

/-- The sum over the goroutines. -/
def total (p : Pool) (φ : BLoc → Nat) (s : State BRole BChan BLoc) : Nat := ((bRoles p).map (fun r => opt φ (s.procs r))).sum

theorem sum_upd {A : Type} [DecidableEq A] (g : A → Nat) (r : A) (v : Nat) : ∀ (l : List A), l.Nodup → r ∈ l →
    (l.map (fun x => if x = r then v else g x)).sum + g r = (l.map g).sum + v := by
  intro l
  induction l with
  | nil => intro _ h; cases h
  | cons a l ih =>
    intro hn hm
    rw [List.nodup_cons] at hn
    simp only [List.map_cons, List.sum_cons]
    by_cases ha : a = r
    · subst ha
      have : l.map (fun x => if x = a then v else g x) = l.map g := by
        apply List.map_congr_left
        intro x hx
        rw [if_neg]
        rintro rfl
        exact hn.1 hx
      rw [this]
      simp only [if_true]
      omega
    · have := ih hn.2 (by simpa [Ne.symm ha] using hm)
      simp only [if_neg ha]
      omega

theorem total_set (φ : BLoc → Nat) (s : State BRole BChan BLoc) {r : BRole} (hr : r ∈ bRoles p) (l : BLoc) :
    total p φ (s.set r l) + opt φ (s.procs r) = total p φ s + φ l := by
  have := sum_upd (fun x => opt φ (s.procs x)) r (φ l) (bRoles p) (bRoles_nodup p) hr
  rw [← total] at this
  rw [← this]
  congr 1
  unfold total
  congr 1
  apply List.map_congr_left
  intro x _
  simp only [set_procs]
  split <;> rfl

theorem total_shut (φ : BLoc → Nat) (s : State BRole BChan BLoc) (c : BChan) : total p φ (s.shut c) = total p φ s := rfl

theorem mem_worker {i : Nat} : BRole.worker i ∈ bRoles p ↔ i < p.workers := by simp [bRoles]
theorem mem_caller : BRole.caller ∈ bRoles p := by simp [bRoles]
theorem mem_collect : BRole.collect ∈ bRoles p := by simp [bRoles]
theorem mem_fwd : BRole.fwd ∈ bRoles p := by simp [bRoles]
theorem mem_feeder : BRole.feeder ∈ bRoles p := by simp [bRoles]

theorem PoolInv.worker_lt {s : State BRole BChan BLoc} {a : BLoc} (h : PoolInv p d dh reach items s a) {i : Nat} {l : BLoc} (hw : s.procs (.worker i) = some l) : i < p.workers := by
  have h1 : ¬ a.spawned p ≤ i := by
    intro hle
    have := (h.workerS i).2 hle
    rw [hw] at this; cases this
  have h2 : a.spawned p ≤ p.workers := by
    have hg := h.good _ _ h.caller
    cases a <;> simp [BLoc.spawned] <;> simp [Good] at hg <;> omega
  omega

theorem two_sets (φ : BLoc → Nat) (s : State BRole BChan BLoc) {r q : BRole} (hr : r ∈ bRoles p) (hq : q ∈ bRoles p) (hne : q ≠ r) (l m : BLoc) :
    total p φ ((s.set r l).set q m) + opt φ (s.procs r) + opt φ (s.procs q) = total p φ s + φ l + φ m := by
  have h1 := total_set φ (s.set r l) hq m
  have h2 := total_set φ s hr l
  rw [set_procs, if_neg hne] at h1
  omega

/-- A measure that decreases with each step. -/
def BLoc.measure (p : Pool) (items : List (Str × Str)) : BLoc → Nat
  | .collect _ => 2
  | .collectEnd _ => 1
  | .fwdSend _ => 4
  | .fwdRecv => 2
  | .fwdDone => 1
  | .work _ _ _ => 1
  | .emit _ _ _ _ => 4
  | .feed xs => 4 * xs.length + 1
  | .joinCollect _ => 1
  | .closeRes _ => 2
  | .joinFwd _ => 3
  | .closeRes2 _ => 4
  | .spawn _ _ i => 5 + 2 * (p.workers - i)
  | .startFeeder _ _ xs => 5 + 2 * p.workers + 4 * xs.length + 2
  | .cWork _ => 5 + 2 * p.workers + 4 * items.length + 3
  | .sendDefault _ _ => 5 + 2 * p.workers + 4 * items.length + 6
  | .cRun => 5 + 2 * p.workers + 4 * items.length + 7
  | .cBranches => 5 + 2 * p.workers + 4 * items.length + 10
  | .cSlice => 5 + 2 * p.workers + 4 * items.length + 13
  | _ => 0

/-- All steps decrease the measure. -/
theorem measure_step {s t : State BRole BChan BLoc} {a : BLoc} (h : PoolInv p d dh reach items s a) (hst : BStep p d dh reach items s t) :
    total p (BLoc.measure p items) t < total p (BLoc.measure p items) s := by
  cases hst with
  | goCollect h1 h2 => have := two_sets (p := p) (BLoc.measure p items) s mem_collect mem_caller (by decide) (.collect []) .cBranches; simp only [h1, h2, opt, BLoc.measure] at this; omega
  | goFwd h1 h2 => have := two_sets (p := p) (BLoc.measure p items) s mem_fwd mem_caller (by decide) .fwdRecv .cRun; simp only [h1, h2, opt, BLoc.measure] at this; omega
  | @run1 b h1 h2 => have := total_set (p := p) (BLoc.measure p items) s mem_caller (.sendDefault b dh); simp only [h1, opt, BLoc.measure] at this; omega
  | run2 h1 h2 => have := total_set (p := p) (BLoc.measure p items) s mem_caller (.cWork dh); simp only [h1, opt, BLoc.measure] at this; omega
  | @sendDefault b h1 h2 h3 h4 => have := two_sets (p := p) (BLoc.measure p items) s mem_caller mem_fwd (by decide) (.cWork dh) (.fwdSend b); simp only [h1, h3, opt, BLoc.measure] at this; omega
  | work h1 => have := total_set (p := p) (BLoc.measure p items) s mem_caller (.startFeeder dh reach items); simp only [h1, opt, BLoc.measure] at this; omega
  | goFeeder h1 h2 => have := two_sets (p := p) (BLoc.measure p items) s mem_feeder mem_caller (by decide) (.feed items) (.spawn dh reach 0); simp only [h1, h2, opt, BLoc.measure] at this; omega
  | @goWorker i h1 h2 h3 =>
    have := two_sets (p := p) (BLoc.measure p items) s (mem_worker.2 h2) mem_caller (by simp) (.work i dh reach) (.spawn dh reach (i + 1)); simp only [h1, h3, opt, BLoc.measure] at this; omega
  | wait h1 h2 => have := total_set (p := p) (BLoc.measure p items) s mem_caller (.closeRes2 none); simp only [h1, opt, BLoc.measure] at this; omega
  | closeRes2 h1 h2 => have := total_set (p := p) (BLoc.measure p items) s mem_caller (.joinFwd none); simp only [h1, opt, BLoc.measure] at this; rw [total_shut]; omega
  | joinFwd h1 h2 => have := two_sets (p := p) (BLoc.measure p items) s mem_fwd mem_caller (by decide) .fwdEnd (.closeRes none); simp only [h1, h2, opt, BLoc.measure] at this; omega
  | closeRes h1 h2 => have := total_set (p := p) (BLoc.measure p items) s mem_caller (.joinCollect none); simp only [h1, opt, BLoc.measure] at this; rw [total_shut]; omega
  | @joinCollect got h1 h2 =>
    have := two_sets (p := p) (BLoc.measure p items) s mem_collect mem_caller (by decide) (.collected got) (.returned none got); simp only [h1, h2, opt, BLoc.measure] at this; omega
  | @feed x xs i h1 h2 h3 h4 h5 =>
    have := two_sets (p := p) (BLoc.measure p items) s mem_feeder (mem_worker.2 (h.worker_lt h2)) (by simp) (.feed xs) (afterItem p dh reach i x)
    rcases afterItem_cases (p := p) (dh := dh) (reach := reach) i x with he | ⟨b, he⟩ <;> rw [he] at this ⊢ <;>
      simp only [h1, h2, opt, BLoc.measure, List.length_cons] at this <;> omega
  | feedClose h1 h2 => have := total_set (p := p) (BLoc.measure p items) s mem_feeder .fed; simp only [h1, opt, BLoc.measure] at this; rw [total_shut]; omega
  | @workEnd i h1 h2 => have := total_set (p := p) (BLoc.measure p items) s (mem_worker.2 (h.worker_lt h1)) (.workEnd i); simp only [h1, opt, BLoc.measure] at this; omega
  | @emit i b h1 h2 h3 =>
    have := two_sets (p := p) (BLoc.measure p items) s (mem_worker.2 (h.worker_lt h1)) mem_fwd (by simp) (.work i dh reach) (.fwdSend b); simp only [h1, h2, opt, BLoc.measure] at this; omega
  | fwdDone h1 h2 => have := total_set (p := p) (BLoc.measure p items) s mem_fwd .fwdDone; simp only [h1, opt, BLoc.measure] at this; omega
  | @fwdSend b got h1 h2 h3 =>
    have := two_sets (p := p) (BLoc.measure p items) s mem_fwd mem_collect (by decide) .fwdRecv (.collect (got ++ [b])); simp only [h1, h2, opt, BLoc.measure] at this; omega
  | @collectEnd got h1 h2 => have := total_set (p := p) (BLoc.measure p items) s mem_collect (.collectEnd got); simp only [h1, opt, BLoc.measure] at this; omega

/-- All records that the call should deliver. -/
def Pool.expected (p : Pool) (d : Option Branch) (dh : Str) (reach : List Str) (items : List (Str × Str)) : List Branch := d.toList ++ items.filterMap (p.recordOf dh reach)

/-- How often a record is in a control state, or still to be produced by it. -/
def BLoc.holds (p : Pool) (d : Option Branch) (dh : Str) (reach : List Str) (items : List (Str × Str)) (b : Branch) : BLoc → Nat
  | .cSlice | .cBranches | .cRun | .sendDefault _ _ => (p.expected d dh reach items).count b
  | .cWork _ => (items.filterMap (p.recordOf dh reach)).count b
  | .startFeeder _ _ xs | .feed xs => (xs.filterMap (p.recordOf dh reach)).count b
  | .returned _ bs => bs.count b
  | .emit _ _ _ x | .fwdSend x => [x].count b
  | .collect got | .collectEnd got => got.count b
  | _ => 0

/-- No record is lost or made twice. -/
theorem holds_step (b : Branch) {s t : State BRole BChan BLoc} {a : BLoc} (h : PoolInv p d dh reach items s a) (hst : BStep p d dh reach items s t) :
    total p (BLoc.holds p d dh reach items b) t = total p (BLoc.holds p d dh reach items b) s := by
  generalize hφ : BLoc.holds p d dh reach items b = φ
  have hφ' : ∀ l, φ l = BLoc.holds p d dh reach items b l := by intro l; rw [hφ]
  cases hst with
  | goCollect h1 h2 => have := two_sets (p := p) φ s mem_collect mem_caller (by decide) (.collect []) .cBranches; simp only [h1, h2, opt, hφ', BLoc.holds, List.count_nil] at this; omega
  | goFwd h1 h2 => have := two_sets (p := p) φ s mem_fwd mem_caller (by decide) .fwdRecv .cRun; simp only [h1, h2, opt, hφ', BLoc.holds] at this; omega
  | @run1 x h1 h2 => have := total_set (p := p) φ s mem_caller (.sendDefault x dh); simp only [h1, opt, hφ', BLoc.holds] at this; omega
  | run2 h1 h2 =>
    have := total_set (p := p) φ s mem_caller (.cWork dh); simp only [h1, opt, hφ', BLoc.holds, Pool.expected, h2, Option.toList_none, List.nil_append] at this; omega
  | @sendDefault x h1 h2 h3 h4 =>
    have := two_sets (p := p) φ s mem_caller mem_fwd (by decide) (.cWork dh) (.fwdSend x)
    simp only [h1, h3, opt, hφ', BLoc.holds, Pool.expected, h2, Option.toList_some, List.count_append] at this; omega
  | work h1 => have := total_set (p := p) φ s mem_caller (.startFeeder dh reach items); simp only [h1, opt, hφ', BLoc.holds] at this; omega
  | goFeeder h1 h2 => have := two_sets (p := p) φ s mem_feeder mem_caller (by decide) (.feed items) (.spawn dh reach 0); simp only [h1, h2, opt, hφ', BLoc.holds] at this; omega
  | @goWorker i h1 h2 h3 =>
    have := two_sets (p := p) φ s (mem_worker.2 h2) mem_caller (by simp) (.work i dh reach) (.spawn dh reach (i + 1)); simp only [h1, h3, opt, hφ', BLoc.holds] at this; omega
  | wait h1 h2 => have := total_set (p := p) φ s mem_caller (.closeRes2 none); simp only [h1, opt, hφ', BLoc.holds] at this; omega
  | closeRes2 h1 h2 => have := total_set (p := p) φ s mem_caller (.joinFwd none); simp only [h1, opt, hφ', BLoc.holds] at this; rw [total_shut]; omega
  | joinFwd h1 h2 => have := two_sets (p := p) φ s mem_fwd mem_caller (by decide) .fwdEnd (.closeRes none); simp only [h1, h2, opt, hφ', BLoc.holds] at this; omega
  | closeRes h1 h2 => have := total_set (p := p) φ s mem_caller (.joinCollect none); simp only [h1, opt, hφ', BLoc.holds] at this; rw [total_shut]; omega
  | @joinCollect got h1 h2 =>
    have := two_sets (p := p) φ s mem_collect mem_caller (by decide) (.collected got) (.returned none got); simp only [h1, h2, opt, hφ', BLoc.holds] at this; omega
  | @feed x xs i h1 h2 h3 h4 h5 =>
    have := two_sets (p := p) φ s mem_feeder (mem_worker.2 (h.worker_lt h2)) (by simp) (.feed xs) (afterItem p dh reach i x)
    unfold afterItem at this ⊢
    cases hr : p.recordOf dh reach x with
    | none => simp only [hr, h1, h2, opt, hφ', BLoc.holds, List.filterMap_cons] at this ⊢; omega
    | some y =>
      have hc : (y :: xs.filterMap (p.recordOf dh reach)).count b = [y].count b + (xs.filterMap (p.recordOf dh reach)).count b := by
        rw [← List.count_append]; rfl
      simp only [hr, h1, h2, opt, hφ', BLoc.holds, List.filterMap_cons, hc] at this ⊢; omega
  | feedClose h1 h2 => have := total_set (p := p) φ s mem_feeder .fed; simp only [h1, opt, hφ', BLoc.holds, List.filterMap_nil, List.count_nil] at this; rw [total_shut]; omega
  | @workEnd i h1 h2 => have := total_set (p := p) φ s (mem_worker.2 (h.worker_lt h1)) (.workEnd i); simp only [h1, opt, hφ', BLoc.holds] at this; omega
  | @emit i x h1 h2 h3 =>
    have := two_sets (p := p) φ s (mem_worker.2 (h.worker_lt h1)) mem_fwd (by simp) (.work i dh reach) (.fwdSend x); simp only [h1, h2, opt, hφ', BLoc.holds] at this; omega
  | fwdDone h1 h2 => have := total_set (p := p) φ s mem_fwd .fwdDone; simp only [h1, opt, hφ', BLoc.holds] at this; omega
  | @fwdSend x got h1 h2 h3 =>
    have := two_sets (p := p) φ s mem_fwd mem_collect (by decide) .fwdRecv (.collect (got ++ [x])); simp only [h1, h2, opt, hφ', BLoc.holds, List.count_append] at this; omega
  | @collectEnd got h1 h2 => have := total_set (p := p) φ s mem_collect (.collectEnd got); simp only [h1, opt, hφ', BLoc.holds] at this; omega


/-! ### Progress -/

theorem PoolInv.fwd_cases {s : State BRole BChan BLoc} {a : BLoc} (h : PoolInv p d dh reach items s a) (h2 : 2 ≤ a.stage) :
    s.procs .fwd = some .fwdRecv ∨ (∃ b, s.procs .fwd = some (.fwdSend b)) ∨ s.procs .fwd = some .fwdDone ∨ s.procs .fwd = some .fwdEnd := by
  cases hf : s.procs .fwd with
  | none => have := h.fwdS.1 hf; omega
  | some l =>
    have hr := h.placed _ _ hf
    have hg := h.good _ _ hf
    cases l with
    | fwdRecv => simp
    | fwdSend b => simp
    | fwdDone => simp
    | fwdEnd => simp
    | panicked r => cases hg
    | _ => cases hr

theorem PoolInv.collect_cases {s : State BRole BChan BLoc} {a : BLoc} (h : PoolInv p d dh reach items s a) (h2 : 1 ≤ a.stage) :
    ∃ got, s.procs .collect = some (.collect got) ∨ s.procs .collect = some (.collectEnd got) ∨ s.procs .collect = some (.collected got) := by
  cases hf : s.procs .collect with
  | none => have := h.collectS.1 hf; omega
  | some l =>
    have hr := h.placed _ _ hf
    have hg := h.good _ _ hf
    cases l with
    | collect got => exact ⟨got, by simp⟩
    | collectEnd got => exact ⟨got, by simp⟩
    | collected got => exact ⟨got, by simp⟩
    | panicked r => cases hg
    | _ => cases hr

theorem PoolInv.feeder_cases {s : State BRole BChan BLoc} {a : BLoc} (h : PoolInv p d dh reach items s a) (h2 : 6 ≤ a.stage) :
    s.procs .feeder = some .fed ∨ ∃ xs, s.procs .feeder = some (.feed xs) := by
  cases hf : s.procs .feeder with
  | none => have := h.feederS.1 hf; omega
  | some l =>
    have hr := h.placed _ _ hf
    have hg := h.good _ _ hf
    cases l with
    | fed => simp
    | feed xs => simp
    | panicked r => cases hg
    | _ => cases hr

theorem PoolInv.worker_cases {s : State BRole BChan BLoc} {a : BLoc} (h : PoolInv p d dh reach items s a) {i : Nat} (h2 : i < a.spawned p) :
    s.procs (.worker i) = some (.work i dh reach) ∨ (∃ b, s.procs (.worker i) = some (.emit i dh reach b)) ∨ s.procs (.worker i) = some (.workEnd i) := by
  cases hf : s.procs (.worker i) with
  | none => have := (h.workerS i).1 hf; omega
  | some l =>
    have hr := h.placed _ _ hf
    have hg := h.good _ _ hf
    cases l with
    | work j _ _ => cases hr; obtain ⟨rfl, rfl⟩ := hg; simp
    | emit j _ _ b => cases hr; obtain ⟨rfl, rfl⟩ := hg; simp
    | workEnd j => cases hr; simp
    | panicked r => cases hg
    | _ => cases hr

/-- The forwarder is ready, or something can move. -/
theorem PoolInv.fwd_ready {s : State BRole BChan BLoc} {a : BLoc} (h : PoolInv p d dh reach items s a) (h2 : 2 ≤ a.stage) (h7 : a.stage ≤ 8) :
    s.procs .fwd = some .fwdRecv ∨ (8 ≤ a.stage ∧ s.procs .fwd = some .fwdDone) ∨ ∃ t, Step p.act s t := by
  rcases h.fwd_cases h2 with hf | ⟨b, hf⟩ | hf | hf
  · exact .inl hf
  · right; right
    have hres : s.closed .res = false := by
      cases hc : s.closed .res with
      | false => rfl
      | true => have := h.cRes.1 hc; omega
    obtain ⟨got, hg | hg | hg⟩ := h.collect_cases (by omega)
    · exact ⟨_, .sync hf rfl hg rfl hres⟩
    · have := h.lEnd _ hg; omega
    · have := h.lDone.1 ⟨_, hg⟩; omega
  · exact .inr (.inl ⟨h.fDone hf, hf⟩)
  · have := h.fEnd.1 hf; omega

/-- As long as the caller has not returned, something can move. -/
theorem PoolInv.progress (hpl : Plan p d dh reach items) {s : State BRole BChan BLoc} {a : BLoc} (h : PoolInv p d dh reach items s a) (hs : Stuck p.act s) :
    ∃ got, a = .returned none got := by
  have hc := h.caller
  have hg := h.good _ _ hc
  have hr := h.placed _ _ hc
  have stop : ∀ {t}, Step p.act s t → ∃ got, a = .returned none got := fun ht => absurd ht (hs _)
  have open2 : a.stage < 8 → s.closed .res2 = false := by
    intro hlt
    cases hcl : s.closed .res2 with
    | false => rfl
    | true => have := h.cRes2.1 hcl; omega
  cases a with
  | cSlice => exact stop (.go hc rfl (h.collectS.2 (by simp [BLoc.stage])))
  | cBranches => exact stop (.go (k := .cRun) (g := .fwdRecv) hc (by simp only [Pool.act, hpl.pre]) (h.fwdS.2 (by simp [BLoc.stage])))
  | cRun => exact stop (.tau hc rfl)
  | sendDefault b dh' =>
    rcases h.fwd_ready (by simp [BLoc.stage]) (by simp [BLoc.stage]) with hf | ⟨h8, _⟩ | ⟨t, ht⟩
    · exact stop (.sync hc rfl hf rfl (open2 (by simp [BLoc.stage])))
    · simp [BLoc.stage] at h8
    · exact stop ht
  | cWork dh' => exact stop (.tau hc rfl)
  | startFeeder _ _ _ => exact stop (.go hc rfl (h.feederS.2 (by simp [BLoc.stage])))
  | spawn dh' reach' i =>
    by_cases hi : i < p.workers
    · exact stop (.go (k := .spawn dh' reach' (i + 1)) (g := .work i dh' reach') hc (by simp only [Pool.act, if_pos hi]) ((h.workerS i).2 (by simp [BLoc.spawned])))
    · have hiw : i = p.workers := by have := hg.2.2; omega
      by_cases hall : ∀ j < p.workers, s.procs (.worker j) = some (.workEnd j)
      · refine stop (.wait (rs := (List.range p.workers).map .worker) (k := .closeRes2 none) hc (by simp only [Pool.act, if_neg hi]) ?_)
        intro x hx
        obtain ⟨j, hj, rfl⟩ := List.mem_map.1 hx
        exact ⟨_, hall j (List.mem_range.1 hj), rfl⟩
      · have : ∃ j, j < p.workers ∧ s.procs (.worker j) ≠ some (.workEnd j) := by
          apply Classical.byContradiction
          intro hno
          exact hall (fun j hj => Classical.byContradiction fun hne => hno ⟨j, hj, hne⟩)
        obtain ⟨j, hj, hne⟩ := this
        rcases h.worker_cases (i := j) (by simp only [BLoc.spawned]; omega) with hw | ⟨b, hw⟩ | hw
        · rcases h.feeder_cases (by simp [BLoc.stage]) with hf | ⟨xs, hf⟩
          · exact stop (.recvClosed hw rfl (h.cWork.2 hf))
          · have hcl : s.closed .work = false := by
              cases hcl : s.closed .work with
              | false => rfl
              | true => have := h.cWork.1 hcl; rw [hf] at this; cases this
            cases xs with
            | nil => exact stop (.close hf rfl hcl)
            | cons x xs => exact stop (.sync hf rfl hw rfl hcl)
        · rcases h.fwd_ready (by simp [BLoc.stage]) (by simp [BLoc.stage]) with hf | ⟨h8, _⟩ | ⟨t, ht⟩
          · exact stop (.sync hw rfl hf rfl (open2 (by simp [BLoc.stage])))
          · simp [BLoc.stage] at h8
          · exact stop ht
        · exact absurd hw hne
  | closeRes2 e => exact stop (.close hc rfl (open2 (by simp [BLoc.stage])))
  | joinFwd e =>
    rcases h.fwd_ready (by simp [BLoc.stage]) (by simp [BLoc.stage]) with hf | ⟨_, hf⟩ | ⟨t, ht⟩
    · exact stop (.recvClosed hf rfl (h.cRes2.2 (by simp [BLoc.stage])))
    · exact stop (.sync hf rfl hc rfl h.cFwd)
    · exact stop ht
  | closeRes e =>
    refine stop (.close hc rfl ?_)
    cases hcl : s.closed .res with
    | false => rfl
    | true => have := h.cRes.1 hcl; simp [BLoc.stage] at this
  | joinCollect e =>
    obtain ⟨got, hl | hl | hl⟩ := h.collect_cases (by simp [BLoc.stage])
    · exact stop (.recvClosed hl rfl (h.cRes.2 (by simp [BLoc.stage])))
    · exact stop (.sync hl rfl hc rfl h.cCol)
    · have := h.lDone.1 ⟨_, hl⟩; simp [BLoc.stage] at this
  | returned e got => cases hg; exact ⟨got, rfl⟩
  | panicked r => cases hg
  | _ => cases hr

/-- When the caller has returned, so have all others. -/
theorem PoolInv.all_returned (hpl : Plan p d dh reach items) {s : State BRole BChan BLoc} {got : List Branch} (h : PoolInv p d dh reach items s (.returned none got)) :
    AllReturned p.act s := by
  intro r l hl
  have hw := h.ended (by simp [BLoc.stage])
  cases r with
  | caller => rw [h.caller] at hl; cases hl; rfl
  | collect =>
    obtain ⟨g, hg⟩ := h.lDone.2 (by simp [BLoc.stage])
    rw [hg] at hl; cases hl; rfl
  | fwd => rw [h.fEnd.2 (by simp [BLoc.stage])] at hl; cases hl; rfl
  | feeder => rw [h.wEnd 0 (hw 0 hpl.workers)] at hl; cases hl; rfl
  | worker i => rw [hw i (h.worker_lt hl)] at hl; cases hl; rfl

/-- Nobody panics: no send on, or close of, a closed channel. -/
theorem PoolInv.not_crashed {s : State BRole BChan BLoc} {a : BLoc} (hpl : Plan p d dh reach items) (h : PoolInv p d dh reach items s a) : ¬ Crashed p.act s := by
  rintro ⟨r, l, hl, hbad⟩
  have hg := h.good _ _ hl
  have hr := h.placed _ _ hl
  have hca : ∀ l', s.procs .caller = some l' → l' = a := by intro l' h'; rw [h.caller] at h'; cases h'; rfl
  rcases hbad with hp | ⟨c, v, k, hs, hcl⟩ | ⟨c, k, hs, hcl⟩
  · cases l with
    | panicked r => cases hg
    | feed xs => cases xs <;> simp [Pool.act] at hp
    | spawn _ _ i => simp only [Pool.act] at hp; split at hp <;> cases hp
    | cBranches => simp [Pool.act, hpl.pre] at hp
    | _ => simp [Pool.act] at hp
  · cases l with
    | sendDefault b dh' =>
      simp only [Pool.act] at hs; cases hs; cases hr
      have := hca _ hl; subst this
      have := h.cRes2.1 hcl
      simp [BLoc.stage] at this
    | feed xs =>
      cases xs with
      | nil => simp [Pool.act] at hs
      | cons x xs =>
        simp only [Pool.act] at hs; cases hs; cases hr
        have := h.cWork.1 hcl
        have hl' : s.procs .feeder = _ := hl
        rw [hl'] at this; cases this
    | emit i _ _ b =>
      simp only [Pool.act] at hs; cases hs; cases hr
      have := h.cRes2.1 hcl
      have := h.ended (by omega) i (h.worker_lt hl)
      have hl' : s.procs (.worker i) = _ := hl
      rw [hl'] at this; cases this
    | fwdSend b =>
      simp only [Pool.act] at hs; cases hs; cases hr
      have := h.cRes.1 hcl
      have := h.fEnd.2 (by omega)
      have hl' : s.procs .fwd = _ := hl
      rw [hl'] at this; cases this
    | fwdDone => simp only [Pool.act] at hs; cases hs; rw [h.cFwd] at hcl; cases hcl
    | collectEnd got => simp only [Pool.act] at hs; cases hs; rw [h.cCol] at hcl; cases hcl
    | spawn _ _ i => simp only [Pool.act] at hs; split at hs <;> cases hs
    | cBranches => simp [Pool.act, hpl.pre] at hs
    | _ => simp [Pool.act] at hs
  · cases l with
    | closeRes2 e =>
      simp only [Pool.act] at hs; cases hs; cases hr
      have := hca _ hl; subst this
      have := h.cRes2.1 hcl
      simp [BLoc.stage] at this
    | closeRes e =>
      simp only [Pool.act] at hs; cases hs; cases hr
      have := hca _ hl; subst this
      have := h.cRes.1 hcl
      simp [BLoc.stage] at this
    | feed xs =>
      cases xs with
      | nil =>
        simp only [Pool.act] at hs; cases hs; cases hr
        have := h.cWork.1 hcl
        have hl' : s.procs .feeder = _ := hl
        rw [hl'] at this; cases this
      | cons x xs => simp [Pool.act] at hs
    | spawn _ _ i => simp only [Pool.act] at hs; split at hs <;> cases hs
    | cBranches => simp [Pool.act, hpl.pre] at hs
    | _ => simp [Pool.act] at hs

/-! ### The order of delivery -/

/-- The records that have left `Run`: those delivered and the one that the forwarder holds. -/
def BLoc.out : BLoc → List Branch
  | .collect got | .collectEnd got | .collected got => got
  | .fwdSend b => [b]
  | _ => []

def optOut : Option BLoc → List Branch
  | none => []
  | some l => l.out

/-- What the collector has received. -/
def deliveredB (s : State BRole BChan BLoc) : List Branch := optOut (s.procs .collect)

def stream (s : State BRole BChan BLoc) : List Branch := deliveredB s ++ optOut (s.procs .fwd)

/-- The stream of records only grows. -/
theorem stream_step {s t : State BRole BChan BLoc} {a : BLoc} (h : PoolInv p d dh reach items s a) (hst : BStep p d dh reach items s t) :
    stream t = stream s ∨ ∃ b, stream t = stream s ++ [b] := by
  cases hst <;> simp only [stream, deliveredB, set_procs, shut_procs, reduceCtorEq, if_false, if_true, optOut, BLoc.out, *] <;>
    first | exact .inl rfl | exact .inr ⟨_, rfl⟩ | simp [*]
end
end Ripsrc
