import Verif.Spec.GitRepo
import Verif.Props.Graph
import Verif.Props.BranchMeta
import Verif.Props.Pool
import Verif.Lib.GraphCongr
/-!
# C58, C59: from the repository to the records of `Branches`, and several calls on one object
-/
namespace Ripsrc
open Conc Relation Spec

/-- An object on which `Branches` has been called any number of times, always on the same repository and with the same options. -/
inductive UsedOn {τ : Type} (r : GitRepo) (u : UserOpts) : RipsrcObj → Prop where
  | new : UsedOn r u {}
  | call {s : RipsrcObj} {e : BranchesEnv τ} {o : GitOut} : UsedOn r u s → e.Possible → r.Prints u.useOrigin o → UsedOn r u (branchesCall e o u s).1

/-- The object has the graph of the repository. -/
def RipsrcObj.Holds (s : RipsrcObj) (r : GitRepo) : Prop :=
  ∃ m ord, s.commitGraph = some (Graph.newFromMap m ord) ∧ parentsRun (parentsText r.commits) = .ok m ∧ ord.Perm m

theorem hash_nospace {h : Str} (hh : IsHash h) : ∀ b ∈ h, isSpaceByte b = false ∧ b < 128 := by
  intro b hb
  have := hh.2 b hb
  unfold isHex at this
  exact (hex_not_space b (by simpa using this)).1

theorem hash_trimmed {h : Str} (hh : IsHash h) : Trimmed h := ascii_trimmed (hash_nospace hh)

theorem unlines_joinWith : ∀ (ls : List Str), ls ≠ [] → unlines ls = joinWith b!"\n" ls ++ [10]
  | [], h => absurd rfl h
  | [x], _ => by simp [joinWith]
  | x :: y :: t, _ => by
    rw [unlines_cons, unlines_joinWith (y :: t) (by simp)]
    simp [joinWith]

/-- White space around a text whose first and last bytes are no white space. -/
theorem trimSpace_wrap {s t u : Str} {c d : UInt8} (h1 : s = c :: t) (h2 : s = u ++ [d]) (hc : isSpaceByte c = false ∧ c < 128) (hd : isSpaceByte d = false ∧ d < 128) :
    trimSpace (s ++ [10]) = s := by
  rw [trimSpace_append (by decide)]
  exact trimSpace_id h1 h2 hc hd

theorem joinWith_ends : ∀ (ls : List Str), ls ≠ [] → (∀ l ∈ ls, IsHash l) →
    ∃ c t u d, joinWith b!"\n" ls = c :: t ∧ joinWith b!"\n" ls = u ++ [d] ∧ (isSpaceByte c = false ∧ c < 128) ∧ (isSpaceByte d = false ∧ d < 128)
  | [], h, _ => absurd rfl h
  | [x], _, hx => by
    have h := hx x (by simp)
    obtain ⟨c, t, rfl⟩ := List.exists_cons_of_ne_nil h.1
    refine ⟨c, t, (c :: t).dropLast, (c :: t).getLast (by simp), rfl, (show c :: t = _ from (List.dropLast_concat_getLast (by simp)).symm), hash_nospace h c (by simp), hash_nospace h _ (List.getLast_mem _)⟩
  | x :: y :: rest, _, hx => by
    obtain ⟨c', t', u, d, h1, h2, _, h4⟩ := joinWith_ends (y :: rest) (by simp) (fun l hl => hx l (by simp [hl]))
    have h := hx x (by simp)
    obtain ⟨c, t, rfl⟩ := List.exists_cons_of_ne_nil h.1
    refine ⟨c, t ++ b!"\n" ++ joinWith b!"\n" (y :: rest), (c :: t) ++ b!"\n" ++ u, d, by simp [joinWith], ?_, hash_nospace h c (by simp), h4⟩
    simp only [joinWith, h2]
    simp

theorem trim_roots {ls : List Str} (h : ∀ l ∈ ls, IsHash l) : trimSpace (unlines ls) = joinWith b!"\n" ls := by
  by_cases hne : ls = []
  · subst hne; rfl
  · obtain ⟨c, t, u, d, h1, h2, h3, h4⟩ := joinWith_ends ls hne h
    rw [unlines_joinWith ls hne, trimSpace_wrap h1 h2 h3 h4]

theorem nodup_of_map {α β : Type} (f : α → β) : ∀ {l : List α}, (l.map f).Nodup → l.Nodup
  | [], _ => .nil
  | a :: l, h => by
    rw [List.map_cons, List.nodup_cons] at h
    exact List.nodup_cons.2 ⟨fun hm => h.1 (List.mem_map_of_mem hm), nodup_of_map f h.2⟩

section
variable {τ : Type} {r : GitRepo} {u : UserOpts} {o : GitOut} {e : BranchesEnv τ}

/-- Reading the graph of the repository. -/
theorem graphRead_repo (hr : r.Ok u.useOrigin) (ho : r.Prints u.useOrigin o) :
    ∃ m, graphRead e o = .ok (Graph.newFromMap m (e.iter m)) ∧ parentsRun (parentsText r.commits) = .ok m := by
  obtain ⟨m, h1, _⟩ := C12_graph_reader r.commits hr.hash hr.same hr.short
  refine ⟨m, ?_, h1⟩
  unfold graphRead
  rw [ho.log]
  simp only [h1, bind, Except.bind]

theorem prepare_repo (hr : r.Ok u.useOrigin) (ho : r.Prints u.useOrigin o) : gitexecPrepare o = .ok () := by
  obtain ⟨⟨ps, hps⟩, hlen⟩ := hr.head
  have hh := (hr.hash _ hps).1
  unfold gitexecPrepare gitexecHeadCommit
  rw [ho.head]
  simp only [Option.getD_some]
  rw [show b!"\n" = [10] from rfl, trimSpace_line (hash_trimmed hh)]
  simp only [hlen, ne_eq, not_true_eq_false, if_false]
  rw [if_neg hh.1]

/-- Before `Run`: no error, and the object has the graph. -/
theorem branchesPre_repo (he : e.Possible) (hu : u.allBranches = true) (hr : r.Ok u.useOrigin) (ho : r.Prints u.useOrigin o) {s : RipsrcObj}
    (hs : s.commitGraph = none ∨ s.Holds r) : (branchesPre e o u s).2 = none ∧ (branchesPre e o u s).1.Holds r := by
  unfold branchesPre
  rw [if_neg (by simp [hu]), prepare_repo hr ho]
  simp only [buildCommitGraph]
  rcases hs with hs | ⟨m, ord, h1, h2, h3⟩
  · obtain ⟨m, h1, h2⟩ := graphRead_repo (e := e) hr ho
    rw [hs, h1]
    exact ⟨rfl, m, e.iter m, rfl, h2, he.iter m⟩
  · rw [h1]
    exact ⟨rfl, m, ord, h1, h2, h3⟩

theorem usedOn_holds (hr : r.Ok u.useOrigin) {s : RipsrcObj} (h : UsedOn (τ := τ) r u s) : s.commitGraph = none ∨ s.Holds r := by
  induction h with
  | new => exact .inl rfl
  | @call s e o _ he ho ih =>
    by_cases hu : u.allBranches = true
    · exact .inr (branchesPre_repo he hu hr ho ih).2
    · show (branchesPre e o u s).1.commitGraph = none ∨ (branchesPre e o u s).1.Holds r
      unfold branchesPre
      rw [if_pos (by simpa using hu)]
      exact ih

/-- The graph has the parents of the repository. -/
theorem holds_parent {m : GoMap Str (List Str)} {ord : List (Str × List Str)} (h : ∀ h ps, m.get h = some ps ↔ (h, ps) ∈ r.commits) :
    (Graph.newFromMap m ord).Parent = r.Parent := by
  funext c p
  apply propext
  show p ∈ (m.get c).getD [] ↔ ∃ ps, (c, ps) ∈ r.commits ∧ p ∈ ps
  cases hc : m.get c with
  | none =>
    simp only [Option.getD_none, List.not_mem_nil, false_iff]
    rintro ⟨ps, h1, _⟩
    rw [(h c ps).2 h1] at hc; cases hc
  | some ps =>
    simp only [Option.getD_some]
    exact ⟨fun hp => ⟨ps, (h c ps).1 hc, hp⟩, fun ⟨qs, h1, hp⟩ => by rw [(h c qs).2 h1] at hc; cases hc; exact hp⟩

theorem holds_known {m : GoMap Str (List Str)} {ord : List (Str × List Str)} (h : ∀ h ps, m.get h = some ps ↔ (h, ps) ∈ r.commits) (c : Str) :
    (Graph.newFromMap m ord).Known c ↔ r.Has c := by
  show (m.get c).isSome ↔ ∃ ps, (c, ps) ∈ r.commits
  rw [Option.isSome_iff_exists]
  exact ⟨fun ⟨ps, h1⟩ => ⟨ps, (h c ps).1 h1⟩, fun ⟨ps, h1⟩ => ⟨ps, (h c ps).2 h1⟩⟩

/-- The branches that the user wants: all refs except `HEAD` and the current branch. -/
def Spec.GitRepo.wanted (r : GitRepo) (useOrigin : Bool) : List (Str × Str) :=
  (r.refs.filter (fun x => decide (x.Wanted useOrigin false r.branch))).map (fun x => (x.shown useOrigin, x.commit))

theorem branch_nospace (hr : r.Ok u.useOrigin) : Trimmed r.branch := hr.branch.2.2

/-- The names and heads of the wanted branches. -/
theorem names_repo (he : e.Possible) (hr : r.Ok u.useOrigin) (ho : r.Prints u.useOrigin o) (hd : ∀ x ∈ r.refs, ∃ t, e.parseDate x.date = some t) :
    ∃ l, namesAndHashes e o u = .ok l ∧ l.Perm (r.wanted u.useOrigin) := by
  classical
  have hex : ∃ rs : List (RefEntry × τ), rs.map Prod.fst = r.refs ∧ ∀ x ∈ rs, e.parseDate x.1.date = some x.2 := by
    have := hd
    generalize r.refs = refs at this
    induction refs with
    | nil => exact ⟨[], rfl, by simp⟩
    | cons a l ih =>
      obtain ⟨rs, h1, h2⟩ := ih (fun x hx => this x (by simp [hx]))
      obtain ⟨t, ht⟩ := this a (by simp)
      exact ⟨(a, t) :: rs, by simp [h1], by simpa [ht] using h2⟩
  obtain ⟨rs, h1, h2⟩ := hex
  have hb := branch_nospace hr
  obtain ⟨m, g1, g2, g3, g4, g5⟩ := C47_branch_listing e.parseDate { useOrigin := u.useOrigin, includeDefault := false } r.branch rs ⟨hr.branch.1, hb⟩
    (fun x hx => by
      have hx' : x.1 ∈ r.refs := h1 ▸ List.mem_map_of_mem hx
      have := hr.refs x.1 hx'
      exact ⟨this.1, h2 x hx, this.2.2⟩)
    (by have := hr.distinct; rw [← h1, List.map_map] at this; exact this)
  rw [h1] at g1 g2
  have hun : ∃ l, branchGetUnsorted e.parseDate { useOrigin := u.useOrigin, includeDefault := false } (r.branch ++ [10]) (refText r.refs) = .ok l := by
    unfold BranchGet at g1
    split at g1
    · cases g1
    · rename_i l hl; exact ⟨l, hl⟩
  obtain ⟨l, hl⟩ := hun
  have hsm : e.sort l = m := by
    have := g2 (.ok (e.sort l)) (by unfold BranchGet; rw [hl]; exact ⟨_, rfl, he.sort l⟩)
    exact Except.ok.inj this
  refine ⟨m.map (fun b => (b.name, b.commit)), ?_, ?_⟩
  · unfold namesAndHashes
    rw [ho.symref, ho.refs]
    have hg : getDefaultBranch (r.branch ++ [10]) = .ok r.branch := by
      unfold getDefaultBranch
      rw [trimSpace_line hb]
      simp only [if_neg hr.branch.1]
    simp only [execCommand, bind, Except.bind, show b!"\n" = [10] from rfl, hl, hsm, hg]
  · -- both have distinct names and the same members
    have hnd1 : (m.map (fun b => (b.name, b.commit))).Nodup := by
      refine nodup_of_map Prod.fst ?_
      rw [List.map_map]; exact g4
    have hshown : ∀ x ∈ r.refs, ∀ y ∈ r.refs, x.shown u.useOrigin = y.shown u.useOrigin → x.name = y.name := by
      intro x hx y hy h
      unfold RefEntry.shown at h
      split at h
      · rename_i hu
        obtain ⟨n1, e1⟩ := (hr.refs x hx).2.2 hu
        obtain ⟨n2, e2⟩ := (hr.refs y hy).2.2 hu
        rw [e1, e2] at h ⊢
        simpa using h
      · exact h
    have hnd2 : (r.wanted u.useOrigin).Nodup := by
      unfold Spec.GitRepo.wanted
      refine nodup_of_map Prod.fst ?_
      rw [List.map_map]
      have hd := hr.distinct
      generalize r.refs = refs at hd hshown
      induction refs with
      | nil => simp
      | cons a l ih =>
        rw [List.map_cons, List.nodup_cons] at hd
        have ih := ih hd.2 (fun x hx y hy => hshown x (by simp [hx]) y (by simp [hy]))
        rw [List.filter_cons]
        split
        · rw [List.map_cons, List.nodup_cons]
          refine ⟨?_, ih⟩
          intro hc
          obtain ⟨y, hy, hye⟩ := List.mem_map.1 hc
          have hy' := (List.mem_filter.1 hy).1
          exact hd.1 (List.mem_map.2 ⟨y, hy', hshown y (by simp [hy']) a (by simp) hye⟩)
        · exact ih
    rw [List.perm_ext_iff_of_nodup hnd1 hnd2]
    intro x
    unfold Spec.GitRepo.wanted
    simp only [List.mem_map, List.mem_filter, decide_eq_true_eq]
    constructor
    · rintro ⟨b, hb, rfl⟩
      obtain ⟨y, hy, hw, rfl⟩ := (g3 b).1 hb
      exact ⟨y.1, ⟨h1 ▸ List.mem_map_of_mem hy, hw⟩, rfl⟩
    · rintro ⟨y, ⟨hy, hw⟩, rfl⟩
      rw [← h1] at hy
      obtain ⟨z, hz, rfl⟩ := List.mem_map.1 hy
      exact ⟨_, (g3 _).2 ⟨z, hz, hw, rfl⟩, rfl⟩

theorem getDefault_repo (hr : r.Ok u.useOrigin) (ho : r.Prints u.useOrigin o) (s : RipsrcObj) :
    (branchesCall e o u s).2.getDefault = .ok (r.branch, r.head) := by
  obtain ⟨⟨ps, hps⟩, hlen⟩ := hr.head
  have hh := (hr.hash _ hps).1
  have e1 := trimSpace_line (branch_nospace hr)
  have e2 := trimSpace_line (hash_trimmed hh)
  simp only [branchesCall, ho.abbrevRef, ho.head, execCommand, bind, Except.bind, show b!"\n" = [10] from rfl, e1, branchGetDefault, e2, hlen, ne_eq, not_true_eq_false, if_false,
    if_neg hr.branch.2.1]

/-- The call, in terms of the graph of the repository. -/
theorem branches_core (he : e.Possible) (hu : u.allBranches = true) (hr : r.Ok u.useOrigin) (ho : r.Prints u.useOrigin o)
    (hd : ∀ x ∈ r.refs, ∃ t, e.parseDate x.date = some t) {s : RipsrcObj} (hs : UsedOn (τ := τ) r u s) :
    ∃ mm ord l, (branchesCall e o u s).2.graph = Graph.newFromMap mm ord ∧ parentsRun (parentsText r.commits) = .ok mm ∧ mm.WF ∧ ord.Perm mm ∧
      (∀ h ps, mm.get h = some ps ↔ (h, ps) ∈ r.commits) ∧ (Graph.newFromMap mm ord).Acyclic ∧ (Graph.newFromMap mm ord).Complete ∧ l.Perm (r.wanted u.useOrigin) ∧
      let p := (branchesCall e o u s).2
      (∃ N, ∀ m t, Steps p.act m Pool.init t → m ≤ N) ∧
      ∀ m t, Steps p.act m Pool.init t →
        ¬ Crashed p.act t ∧
        (∃ k v, Steps p.act k t v ∧ Stuck p.act v) ∧
        (Stuck p.act t → AllReturned p.act t ∧ ∃ cs bs,
          t.procs .caller = some (.returned none
            ({ branchID := branchID e.sha r.branch [], name := r.branch, headSHA := r.head, isDefault := true, commits := cs, firstCommit := joinWith b!"\n" r.roots } :: bs)) ∧
          getAllCommits (Graph.newFromMap mm ord) r.head = .ok cs ∧
          (∃ prs : List Str, prs.Nodup ∧ (∀ c, c ∈ prs ↔ c ∈ u.prs ∧ r.Has c) ∧ (bs.map Branch.key).Perm (l ++ prs.map (fun c => ([], c)))) ∧
          ∀ b ∈ bs, ∀ perm : List Str → List Str, (∀ s, (perm s).Perm s) → runBranch e.sha (Graph.newFromMap mm ord) r.head perm b.name b.headSHA = .ok (some b)) := by
  obtain ⟨hpre, mm, ord, hcg, hrun, hord⟩ := branchesPre_repo he hu hr ho (usedOn_holds hr hs)
  have hg : (branchesCall e o u s).2.graph = Graph.newFromMap mm ord := by
    show ((branchesPre e o u s).1.commitGraph).getD _ = _
    rw [hcg]; rfl
  obtain ⟨mm', g1, hwf, hmem⟩ := C12_graph_reader r.commits hr.hash hr.same hr.short
  obtain rfl : mm = mm' := Except.ok.inj (hrun.symm.trans g1)
  have hpar : (Graph.newFromMap mm ord).Parent = r.Parent := holds_parent hmem
  have hkn : ∀ c, (Graph.newFromMap mm ord).Known c ↔ r.Has c := holds_known hmem
  have hac : (Graph.newFromMap mm ord).Acyclic := by intro c; unfold Graph.Anc; rw [hpar]; exact hr.acyclic c
  have hcomp : (Graph.newFromMap mm ord).Complete := by intro c q hq; rw [hpar] at hq; exact (hkn q).2 (hr.complete c q hq)
  obtain ⟨l, hl, hlp⟩ := names_repo he hr ho hd
  have hroots : ∀ x ∈ r.roots, IsHash x := fun x hx => (hr.hash _ ((hr.roots.2 x).1 hx).2).1
  have hfirst : (branchesCall e o u s).2.firstCommit = .ok (joinWith b!"\n" r.roots) := by
    show (do let x ← execCommand o.roots; Except.ok (trimSpace x) : Go Str) = _
    rw [ho.roots]
    simp only [execCommand, bind, Except.bind, trim_roots hroots]
  refine ⟨mm, ord, l, hg, hrun, hwf, hord, hmem, hac, hcomp, hlp, ?_⟩
  intro p
  have hg : p.graph = Graph.newFromMap mm ord := hg
  obtain ⟨hN, hrun⟩ := C22_worker_pool p hwf hord hg (hg ▸ hac) (hg ▸ hcomp) he.perms he.prOrder (name := r.branch) (dh := r.head) (first := joinWith b!"\n" r.roots) (branches := l)
    hpre (getDefault_repo hr ho s) (fun _ _ => hfirst) (fun _ => hl) (fun h => by cases h) (hg ▸ (hkn _).2 hr.head.1)
    (by
      intro x hx
      have hx := hlp.mem_iff.1 hx
      unfold Spec.GitRepo.wanted at hx
      obtain ⟨y, hy, rfl⟩ := List.mem_map.1 hx
      exact hg ▸ (hkn _).2 (hr.refs y (List.mem_filter.1 hy).1).2.1)
    (.inr ⟨rfl, he.cpu⟩)
  refine ⟨hN, fun m t hmt => ?_⟩
  obtain ⟨h1, h2, h3⟩ := hrun m t hmt
  refine ⟨h1, h2, fun hst => ?_⟩
  obtain ⟨h4, cs, ds, bs, h5, h6, h7, ⟨prs, h8, h9, h10⟩, h11⟩ := h3 hst
  rw [if_pos ⟨rfl, rfl⟩] at h7
  subst h7
  rw [hg] at h6 h9 h11
  exact ⟨h4, cs, bs, h5, h6, ⟨prs, h8, fun c => by rw [h9, hkn]; rfl, h10⟩, h11⟩

/-- **C58.** `BranchesSlice` on a repository with full history, from the outputs of git to the records, for every schedule, iteration order and sort, on a new object or one that was
used before on this repository: all runs are finite, there is no panic and no deadlock, and at the end the caller has got first the record of the default branch, then exactly one
record per other branch and per distinct pull request that is a commit of the repository, and every record says about the history what it has to. -/
theorem C58_branches_of_repo (he : e.Possible) (hu : u.allBranches = true) (hr : r.Ok u.useOrigin) (ho : r.Prints u.useOrigin o)
    (hd : ∀ x ∈ r.refs, ∃ t, e.parseDate x.date = some t) {s : RipsrcObj} (hs : UsedOn (τ := τ) r u s) :
    let p := (branchesCall e o u s).2
    (∃ N, ∀ m t, Steps p.act m Pool.init t → m ≤ N) ∧
    ∀ m t, Steps p.act m Pool.init t →
      ¬ Crashed p.act t ∧
      (∃ k v, Steps p.act k t v ∧ Stuck p.act v) ∧
      (Stuck p.act t → AllReturned p.act t ∧ ∃ d bs, t.procs .caller = some (.returned none (d :: bs)) ∧
        r.DefaultRecord e.sha d ∧ (∀ b ∈ bs, r.BranchRecord e.sha b) ∧
        ∃ prs : List Str, prs.Nodup ∧ (∀ c, c ∈ prs ↔ c ∈ u.prs ∧ r.Has c) ∧
          (bs.map (fun b => (b.name, b.headSHA))).Perm (r.wanted u.useOrigin ++ prs.map (fun c => ([], c)))) := by
  obtain ⟨mm, ord, l, _, _, hwf, hord, hmem, hac, _, hlp, hN, hrun⟩ := branches_core he hu hr ho hd hs
  intro p
  generalize hg : Graph.newFromMap mm ord = gr at *
  have hpar : gr.Parent = r.Parent := by rw [← hg]; exact holds_parent hmem
  have hReach : gr.Reach = r.Reach := by unfold Graph.Reach GitRepo.Reach; rw [hpar]
  have hAnc : gr.Anc = r.Anc := by unfold Graph.Anc GitRepo.Anc; rw [hpar]
  have hRW : ∀ b x, gr.ReachWithout b r.head x ↔ r.OnDefaultWithout b x := by
    intro b x; unfold Graph.ReachWithout GitRepo.OnDefaultWithout; rw [hpar]
  refine ⟨hN, fun m t hmt => ?_⟩
  obtain ⟨h1, h2, h3⟩ := hrun m t hmt
  refine ⟨h1, h2, fun hst => ?_⟩
  obtain ⟨h4, cs, bs, h5, h6, ⟨prs, h8, h9, h10⟩, h11⟩ := h3 hst
  refine ⟨h4, ?_⟩
  obtain ⟨c1, c2, c3⟩ := (C14_default_branch gr r.head).1 cs h6
  refine ⟨_, bs, h5, ⟨rfl, rfl, ⟨rfl, rfl, rfl⟩, rfl, ⟨c1, c2, fun x => by rw [← hReach]; exact c3 x⟩, rfl, rfl, rfl, rfl, rfl⟩, ?_, prs, h8, ?_, ?_⟩
  · intro b hb
    have hb' := h11 b hb id (fun s => .refl s)
    have hid : ∀ s : List Str, (id s).Perm s := fun s => .refl s
    obtain ⟨_, _, r3, r4, r5, _, r7, r8, r9, r10, r11, r12⟩ := C21_record hac hid hb'
    have hmc : b.commits.Nodup ∧ b.commits.getLast? = some b.headSHA ∧ ∀ x, x ∈ b.commits ↔ x = b.headSHA ∨ (gr.Anc b.headSHA x ∧ ¬ gr.ReachWithout b.headSHA r.head x) := by
      obtain ⟨_, _, _, _, g1, g2, g3, _⟩ := runBranch_inv hac hid hb'
      exact ⟨g1, g2, fun x => by rw [g3, branch_mem hac]⟩
    have hbf := C17_branch_points hac hid hb'
    have hInt : ∀ x, gr.Intersection r.head b.headSHA b.commits x ↔ r.Meets b x := by
      intro x; unfold Graph.Intersection GitRepo.Meets; rw [hRW, hpar]
    have hun : b.isMerged = false → ¬ gr.Reach r.head b.headSHA := fun hm h => by rw [r9.2 h] at hm; cases hm
    refine ⟨⟨r4, r3⟩, ⟨hmc.1, hmc.2.1, ?_⟩, ?_, r7, r5, ⟨hbf.1, hbf.2.1, ?_⟩, by rw [← hReach]; exact r9, ?_, ⟨r10, C18_no_branch_point hac hid hb', fun hm hne => ⟨fun l hnd hall => ?_, ?_⟩⟩, ?_⟩
    · intro x; rw [hmc.2.2, hAnc, hRW]
    · intro as x cs hx
      obtain ⟨_, _, _, _, _, _, _, _, htree, _⟩ := runBranch_inv hac hid hb'
      rcases htree cs.reverse x as.reverse (by rw [hx]; simp) with ⟨h1, h2⟩ | ⟨y, hy, h⟩
      · exact .inl ⟨h1, by simpa using h2⟩
      · exact .inr ⟨y, List.mem_reverse.1 hy, hpar ▸ h⟩
    · intro x; rw [hbf.2.2, hInt, hAnc]; simp only [hInt]
    · refine ⟨fun hm hne => ?_, ?_⟩
      · have := C19_merge_commit (sha := e.sha) hwf hord (hg.symm ▸ hac) hid (hg.symm ▸ hb') (hg.symm ▸ r9.1 hm) hne
        rw [hg] at this
        simp only [hpar, hReach] at this
        exact this
      · rintro (hm | hm)
        · exact r11 hm
        · rw [hm] at hb'
          exact (C19_head_is_default (sha := e.sha) hwf hord (hg.symm ▸ hac) hid (hg.symm ▸ hb')).2
    · -- extend the list to all commits of this kind
      obtain ⟨R, _, hRnd, hRm⟩ := newReachable_spec gr r.head
      classical
      have hle := C18_behind_lower hac hid hb' (hun hm) hne (R.filter (fun x => decide (¬ gr.Reach b.headSHA x))) (hRnd.filter _)
        (by intro x; rw [List.mem_filter, hRm]; simp)
      refine Nat.le_trans ?_ hle
      apply nodup_length_le hnd
      intro x hx
      rw [List.mem_filter, hRm, hReach]
      exact ⟨(hall x hx).1, by simpa using (hall x hx).2⟩
    · obtain ⟨R, _, hRnd, hRm⟩ := newReachable_spec gr r.head
      classical
      have hav : ∀ x, gr.ReachAvoiding (gr.Meets r.head b.headSHA) r.head x ↔ r.ShortOfFork b.headSHA x := by
        intro x
        have hM : gr.Meets r.head b.headSHA = r.Fork b.headSHA := by
          funext y; unfold Graph.Meets GitRepo.Fork; rw [hReach, hpar]
        unfold Graph.ReachAvoiding GitRepo.ShortOfFork
        rw [hM, hpar]
      have hl : ∀ x, x ∈ R.filter (fun x => decide (gr.ReachAvoiding (gr.Meets r.head b.headSHA) r.head x)) ↔ gr.ReachAvoiding (gr.Meets r.head b.headSHA) r.head x := by
        intro x
        simp only [List.mem_filter, hRm, decide_eq_true_eq, and_iff_right_iff_imp]
        exact fun h => rtg_mono (fun _ _ h => h.2) h.1
      exact ⟨_, hRnd.filter _, fun x => by rw [hl, hav], (C18_behind_exact hac hid hb' (hun hm) hne _ (hRnd.filter _) hl).symm⟩
    · rw [r12]
      split
      · rfl
      · unfold branchID branchIDInput
        cases b.branchedFromCommits <;> simp [joinWith] <;> rfl
  · exact h9
  · exact h10.trans (List.Perm.append hlp (.refl _))

/-- **C59, the same result each time.** Two calls on the same repository with the same options (two objects or one, the same process or not), whatever their schedules, map
iteration orders and sorts: the same first record, and the same other records up to order. -/
theorem C59_same_result {e₁ e₂ : BranchesEnv τ} (he₁ : e₁.Possible) (he₂ : e₂.Possible) (hsha : e₁.sha = e₂.sha) (hu : u.allBranches = true) (hr : r.Ok u.useOrigin)
    {o₁ o₂ : GitOut} (ho₁ : r.Prints u.useOrigin o₁) (ho₂ : r.Prints u.useOrigin o₂)
    (hd₁ : ∀ x ∈ r.refs, ∃ t, e₁.parseDate x.date = some t) (hd₂ : ∀ x ∈ r.refs, ∃ t, e₂.parseDate x.date = some t)
    {s₁ s₂ : RipsrcObj} (hs₁ : UsedOn (τ := τ) r u s₁) (hs₂ : UsedOn (τ := τ) r u s₂)
    {m₁ m₂ : Nat} {t₁ t₂ : State BRole BChan BLoc}
    (h₁ : Steps (branchesCall e₁ o₁ u s₁).2.act m₁ Pool.init t₁) (hst₁ : Stuck (branchesCall e₁ o₁ u s₁).2.act t₁)
    (h₂ : Steps (branchesCall e₂ o₂ u s₂).2.act m₂ Pool.init t₂) (hst₂ : Stuck (branchesCall e₂ o₂ u s₂).2.act t₂) :
    ∃ d bs₁ bs₂, t₁.procs .caller = some (.returned none (d :: bs₁)) ∧ t₂.procs .caller = some (.returned none (d :: bs₂)) ∧ bs₁.Perm bs₂ := by
  obtain ⟨mm, ord₁, l₁, _, hp₁, hwf, hord₁, _, _, _, hlp₁, _, hrun₁⟩ := branches_core he₁ hu hr ho₁ hd₁ hs₁
  obtain ⟨mm', ord₂, l₂, _, hp₂, _, hord₂, _, _, _, hlp₂, _, hrun₂⟩ := branches_core he₂ hu hr ho₂ hd₂ hs₂
  obtain rfl : mm = mm' := Except.ok.inj (hp₁.symm.trans hp₂)
  obtain ⟨_, cs₁, bs₁, a1, a2, ⟨prs₁, a3, a4, a5⟩, a6⟩ := (hrun₁ m₁ t₁ h₁).2.2 hst₁
  obtain ⟨_, cs₂, bs₂, b1, b2, ⟨prs₂, b3, b4, b5⟩, b6⟩ := (hrun₂ m₂ t₂ h₂).2.2 hst₂
  have hcs : cs₁ = cs₂ := by
    have := getAllCommits_congr (m := mm) (c₁ := (Graph.newFromMap mm ord₁).children) (c₂ := (Graph.newFromMap mm ord₂).children) r.head
    exact Except.ok.inj (a2.symm.trans (this.trans b2))
  subst hcs
  have hprs : prs₁.Perm prs₂ := by
    rw [List.perm_ext_iff_of_nodup a3 b3]
    intro c; rw [a4, b4]
  have hkeys : (bs₁.map Branch.key).Perm (bs₂.map Branch.key) :=
    a5.trans (((hlp₁.trans hlp₂.symm).append (hprs.map _)).trans b5.symm)
  have hc : ∀ (b : Branch), runBranch e₁.sha (Graph.newFromMap mm ord₁) r.head id b.name b.headSHA = runBranch e₂.sha (Graph.newFromMap mm ord₂) r.head id b.name b.headSHA := by
    intro b
    rw [hsha]
    exact runBranch_congr (fun k => C13_order_independent mm hwf ord₁ ord₂ hord₁ hord₂ k) _ _ _ _ _
  refine ⟨_, bs₁, bs₂, a1, by rw [hsha]; exact b1, ?_⟩
  -- the record is a function of its name and head
  have f₁ : bs₁.map some = (bs₁.map Branch.key).map (fun k => match runBranch e₂.sha (Graph.newFromMap mm ord₂) r.head id k.1 k.2 with | .ok x => x | .error _ => none) := by
    rw [List.map_map]
    apply List.map_congr_left
    intro b hb
    have := a6 b hb id (fun s => .refl s)
    rw [hc] at this
    simp only [Function.comp, Branch.key, this]
  have f₂ : bs₂.map some = (bs₂.map Branch.key).map (fun k => match runBranch e₂.sha (Graph.newFromMap mm ord₂) r.head id k.1 k.2 with | .ok x => x | .error _ => none) := by
    rw [List.map_map]
    apply List.map_congr_left
    intro b hb
    simp only [Function.comp, Branch.key, b6 b hb id (fun s => .refl s)]
  have := hkeys.map (fun k : Str × Str => match runBranch e₂.sha (Graph.newFromMap mm ord₂) r.head id k.1 k.2 with | .ok x => x | .error _ => none)
  rw [← f₁, ← f₂] at this
  have h3 := this.filterMap id
  rw [List.filterMap_map, List.filterMap_map] at h3
  simpa using h3

/-- **C58, errors.** Without `AllBranches`; in a directory without commits; with a detached head: the caller gets an error and no records, there is no panic and no goroutine stays
behind. -/
theorem C58_errors {s : RipsrcObj} {w : String}
    (h : (u.allBranches = false ∧ w = "Branches call is only allowed when AllBranches=true") ∨
      (u.allBranches = true ∧ (o.head = none ∨ o.head = some b!"HEAD\n") ∧ w = "can't get head commit for repo") ∨
      (u.allBranches = true ∧ r.Ok u.useOrigin ∧ e.Possible ∧ UsedOn (τ := τ) r u s ∧ r.Prints u.useOrigin { o with abbrevRef := some (r.branch ++ b!"\n") } ∧
        o.abbrevRef = some b!"HEAD\n" ∧ w = "could not retrieve the name of the default branch")) :
    let p := (branchesCall e o u s).2
    ∀ m t, Steps p.act m Pool.init t → m ≤ 12 ∧ ¬ Crashed p.act t ∧ (∃ k v, Steps p.act k t v ∧ Stuck p.act v) ∧
      (Stuck p.act t → AllReturned p.act t ∧ t.procs .caller = some (.returned (some (.error w)) [])) := by
  intro p
  refine C22_error p (?_ : CallFails p (.error w) [])
  rcases h with ⟨h1, rfl⟩ | ⟨h1, h2, rfl⟩ | ⟨h1, hr, he, hs, ho, h2, rfl⟩
  · refine .prepare ?_
    show (branchesPre e o u s).2 = _
    unfold branchesPre
    rw [if_pos h1]
  · refine .prepare ?_
    show (branchesPre e o u s).2 = _
    unfold branchesPre
    rw [if_neg (by simp [h1])]
    have : gitexecPrepare o = .error (.error "can't get head commit for repo") := by
      unfold gitexecPrepare gitexecHeadCommit
      rcases h2 with h2 | h2 <;> rw [h2] <;> decide
    rw [this]
  · refine .default (w := "could not retrieve the name of the default branch") ?_ ?_
    · show (branchesPre e o u s).2 = none
      exact (branchesPre_repo he h1 hr ho (usedOn_holds hr hs)).1
    · simp only [p, branchesCall, h2, execCommand, bind, Except.bind, show trimSpace b!"HEAD\n" = b!"HEAD" by decide, if_true]

theorem dropWhile_nil_iff (q : UInt8 → Bool) (l : Str) : l.dropWhile q = [] ↔ ∀ x ∈ l, q x = true := by
  induction l with
  | nil => simp
  | cons a l ih =>
    rw [List.dropWhile_cons]
    cases hq : q a <;> simp [hq, ih]

/-- **C58, errors of the listing.** The name of the current branch is asked for first: if git fails or prints nothing, that is the error, whatever the listing of the branches would give; only then the
branches are listed. -/
theorem C58_listing_errors :
    (o.symref = none → namesAndHashes e o u = .error (.error "git command failed")) ∧
    (∀ h, o.symref = some h → AllSpace h → namesAndHashes e o u = .error (.error "could not get the default branch name")) ∧
    (∀ h, o.symref = some h → ¬ AllSpace h → o.refs u.useOrigin = none → namesAndHashes e o u = .error (.error "git command failed")) := by
  refine ⟨fun h => ?_, fun h h1 h2 => ?_, fun h h1 h2 h3 => ?_⟩
  · simp only [namesAndHashes, h, execCommand, bind, Except.bind]
  · have : trimSpace h = [] := (trimSpace_nil_iff h).2 h2
    simp only [namesAndHashes, h1, execCommand, bind, Except.bind, getDefaultBranch, this, if_true]
  · have : trimSpace h ≠ [] := fun hn => h2 ((trimSpace_nil_iff h).1 hn)
    simp only [namesAndHashes, h1, h3, execCommand, bind, Except.bind, getDefaultBranch, if_neg this]

/-- **C58, git fails on the log of the parents.** If the object has no graph yet and `git log` fails, every schedule crashes the program, whatever else git prints: no call of `Branches` or `BranchesSlice` returns
an error or records. -/
theorem C58_git_log_fails {s : RipsrcObj} {c : Str} (hu : u.allBranches = true) (hhash : IsHash c) (hlen : c.length = 40) (hh : o.head = some (c ++ b!"\n"))
    (hlog : o.log = none) (hs : s.commitGraph = none) :
    let p := (branchesCall e o u s).2
    ∀ m t, Steps p.act m Pool.init t → m ≤ 3 ∧ (Stuck p.act t → Crashed p.act t) := by
  intro p
  apply panicsEarly_crashes
  left
  refine ⟨"git log failed", ?_⟩
  show (branchesPre e o u s).2 = _
  have h1 : gitexecPrepare o = .ok () := by
    unfold gitexecPrepare gitexecHeadCommit
    rw [hh]
    simp only [Option.getD_some]
    rw [show b!"\n" = [10] from rfl, trimSpace_line (hash_trimmed hhash)]
    simp only [hlen, ne_eq, not_true_eq_false, if_false]
    rw [if_neg hhash.1]
  unfold branchesPre
  rw [if_neg (by simp [hu]), h1]
  simp only [buildCommitGraph, hs, graphRead, hlog]

/-- **C59, the graph is read once.** When the object has a graph that does not contain the commit of the current branch, `BranchesSlice` crashes the program with "commit not
found in tree", whatever the schedule. -/
theorem C59_stale_graph_crashes (hu : u.allBranches = true) (hr : r.Ok u.useOrigin) (ho : r.Prints u.useOrigin o)
    {s : RipsrcObj} {g : Graph} (hs : s.commitGraph = some g) (hk : ¬ g.Known r.head) :
    let p := (branchesCall e o u s).2
    ∀ m t, Steps p.act m Pool.init t → m ≤ 3 ∧ (Stuck p.act t → Crashed p.act t) := by
  intro p
  apply panicsEarly_crashes
  right
  have hroots : ∀ x ∈ r.roots, IsHash x := fun x hx => (hr.hash _ ((hr.roots.2 x).1 hx).2).1
  have hpre : branchesPre e o u s = (s, none) := by
    unfold branchesPre
    rw [if_neg (by simp [hu]), prepare_repo hr ho]
    simp only [buildCommitGraph, hs]
  refine ⟨by show (branchesPre e o u s).2 = none; rw [hpre], ?_⟩
  have hg : p.graph = g := by
    show ((branchesPre e o u s).1.commitGraph).getD _ = _
    rw [hpre, hs]; rfl
  have hfirst : p.firstCommit = .ok (joinWith b!"\n" r.roots) := by
    show (do let x ← execCommand o.roots; Except.ok (trimSpace x) : Go Str) = _
    rw [ho.roots]
    simp only [execCommand, bind, Except.bind, trim_roots hroots]
  have hall : ∃ f, getAllCommits g r.head = .error f ∧ f = .panic "commit not found in tree" := by
    cases hc : getAllCommits g r.head with
    | error f => exact ⟨f, rfl, (C14_default_branch g r.head).2.2 f hc⟩
    | ok cs => exact absurd ((C14_default_branch g r.head).2.1.1 ⟨cs, hc⟩ r.head .refl) hk
  obtain ⟨f, hf, rfl⟩ := hall
  unfold Pool.onRun
  rw [getDefault_repo hr ho s]
  simp only [show p.prOnly = false from rfl, show p.includeDefault = true from rfl, and_self, if_true, hfirst, Pool.defaultRecord, hg, hf, bind, Except.bind, failRun]

/-- **C59, after a failed read.** A call that returned the error of the graph reader (a line that is too long) leaves an empty graph behind: the next call, even if git prints a correct log now, crashes the
program instead of reading again. -/
theorem C59_retry_crashes (hu : u.allBranches = true) (hr : r.Ok u.useOrigin) (ho : r.Prints u.useOrigin o) {text : Str} {w : String}
    (htext : parentsRun text = .error (.error w)) :
    let first := branchesCall e { o with log := some text } u {}
    let p := (branchesCall e o u first.1).2
    (∀ m t, Steps first.2.act m Pool.init t → ¬ Crashed first.2.act t ∧ (Stuck first.2.act t → AllReturned first.2.act t ∧ t.procs .caller = some (.returned (some (.error w)) []))) ∧
    ∀ m t, Steps p.act m Pool.init t → m ≤ 3 ∧ (Stuck p.act t → Crashed p.act t) := by
  intro first p
  have hpre : branchesPre e { o with log := some text } u {} = ({ commitGraph := some { parents := [], children := [] } }, some (.error w)) := by
    have := prepare_repo hr ho
    unfold branchesPre
    rw [if_neg (by simp [hu]), show gitexecPrepare { o with log := some text } = gitexecPrepare o from rfl, this]
    simp only [buildCommitGraph, graphRead, htext, bind, Except.bind]
  constructor
  · intro m t hmt
    have := C22_error first.2 (e := .error w) (ds := []) (.prepare (by show (branchesPre e { o with log := some text } u {}).2 = _; rw [hpre])) m t hmt
    exact ⟨this.2.1, this.2.2.2⟩
  · refine C59_stale_graph_crashes hu hr ho (g := { parents := [], children := [] }) ?_ ?_
    · show (branchesPre e { o with log := some text } u {}).1.commitGraph = _
      rw [hpre]
    · unfold Graph.Known; simp [GoMap.get]

/-- **C59, the repository has moved on.** After a successful call, a commit is made on the current branch: the next call on the same object crashes the program. -/
theorem C59_new_commit_crashes {r₀ : GitRepo} {e₀ : BranchesEnv τ} {o₀ : GitOut} (he₀ : e₀.Possible) (hr₀ : r₀.Ok u.useOrigin) (ho₀ : r₀.Prints u.useOrigin o₀)
    (hu : u.allBranches = true) (hr : r.Ok u.useOrigin) (ho : r.Prints u.useOrigin o) (hnew : ¬ r₀.Has r.head) :
    let p := (branchesCall e o u (branchesCall e₀ o₀ u {}).1).2
    ∀ m t, Steps p.act m Pool.init t → m ≤ 3 ∧ (Stuck p.act t → Crashed p.act t) := by
  obtain ⟨_, mm, ord, h1, h2, h3⟩ := branchesPre_repo he₀ hu hr₀ ho₀ (s := {}) (.inl rfl)
  obtain ⟨mm', g1, _, hmem⟩ := C12_graph_reader r₀.commits hr₀.hash hr₀.same hr₀.short
  obtain rfl : mm = mm' := Except.ok.inj (h2.symm.trans g1)
  exact C59_stale_graph_crashes hu hr ho h1 (fun hk => hnew ((holds_known hmem r.head).1 hk))

end

/-! ## A repository that meets the hypotheses -/

/-- A hash of forty equal digits. -/
def exSHA (c : UInt8) : Str := List.replicate 40 c

/-- Two commits on the current branch `main`, a branch `dev` with one commit, a merged branch `old`. -/
def exRepo1 : GitRepo where
  commits := [(exSHA 97, []), (exSHA 98, [exSHA 97]), (exSHA 99, [exSHA 97])]
  branch := b!"main"
  head := exSHA 98
  refs := [⟨exSHA 99, b!"dev", b!"Tue Jan 2 10:00:00 2018 +0100"⟩, ⟨exSHA 98, b!"main", b!"Tue Jan 2 10:00:00 2018 +0100"⟩, ⟨exSHA 97, b!"old", b!"Tue Jan 2 10:00:00 2018 +0100"⟩]
  roots := [exSHA 97]

def exOut1 : GitOut where
  head := some (exSHA 98 ++ b!"\n")
  log := some (parentsText exRepo1.commits)
  abbrevRef := some b!"main\n"
  roots := some (exSHA 97 ++ b!"\n")
  symref := some b!"main\n"
  refs := fun _ => some (refText exRepo1.refs)

theorem exRepo1_prints : exRepo1.Prints false exOut1 := ⟨rfl, rfl, rfl, rfl, rfl, rfl⟩

theorem exRepo1_parent {c p : Str} (h : exRepo1.Parent c p) : (c = exSHA 98 ∨ c = exSHA 99) ∧ p = exSHA 97 := by
  obtain ⟨ps, h1, h2⟩ := h
  simp only [exRepo1, List.mem_cons, Prod.mk.injEq, List.not_mem_nil, or_false] at h1
  rcases h1 with ⟨rfl, rfl⟩ | ⟨rfl, rfl⟩ | ⟨rfl, rfl⟩
  · cases h2
  · exact ⟨.inl rfl, by simpa using h2⟩
  · exact ⟨.inr rfl, by simpa using h2⟩

theorem exRepo1_ok : exRepo1.Ok false where
  hash := by
    intro c hc
    simp only [exRepo1, List.mem_cons, List.not_mem_nil, or_false] at hc
    rcases hc with rfl | rfl | rfl <;> refine ⟨by decide, ?_⟩ <;> simp <;> decide
  same := by
    intro c hc d hd
    simp only [exRepo1, List.mem_cons, List.not_mem_nil, or_false] at hc hd
    rcases hc with rfl | rfl | rfl <;> rcases hd with rfl | rfl | rfl <;> intro h <;> first | rfl | exact absurd h (by decide)
  acyclic := by
    have : ∀ c x, exRepo1.Anc c x → (c = exSHA 98 ∨ c = exSHA 99) ∧ x = exSHA 97 := by
      intro c x h
      induction h with
      | single h => exact exRepo1_parent h
      | tail _ h ih => exact ⟨ih.1, (exRepo1_parent h).2⟩
    intro c hc
    obtain ⟨h1, h2⟩ := this c c hc
    rw [h2] at h1
    exact absurd h1 (by decide)
  complete := by
    intro c p h
    rw [(exRepo1_parent h).2]
    exact ⟨[], by simp [exRepo1]⟩
  short := by
    intro c hc
    simp only [exRepo1, List.mem_cons, List.not_mem_nil, or_false] at hc
    rcases hc with rfl | rfl | rfl <;> decide
  head := ⟨⟨[exSHA 97], by simp [exRepo1]⟩, by decide⟩
  branch := by decide
  refs := by
    intro x hx
    simp only [exRepo1, List.mem_cons, List.not_mem_nil, or_false] at hx
    rcases hx with rfl | rfl | rfl <;> refine ⟨⟨by decide, ⟨by decide, by unfold FirstAt; decide⟩, by decide, b!"Tue Jan 2 10:00:00 2018 +010", 48, by decide, by decide, by decide⟩, ?_, by simp⟩
    · exact ⟨[exSHA 97], by simp [exRepo1]⟩
    · exact ⟨[exSHA 97], by simp [exRepo1]⟩
    · exact ⟨[], by simp [exRepo1]⟩
  distinct := by decide
  roots := by
    refine ⟨by decide, fun x => ?_⟩
    have h97 : exRepo1.Reach (exSHA 98) (exSHA 97) := .single ⟨[exSHA 97], by simp [exRepo1], by simp⟩
    constructor
    · intro h
      simp only [exRepo1, List.mem_cons, List.not_mem_nil, or_false] at h
      subst h
      exact ⟨h97, by simp [exRepo1]⟩
    · rintro ⟨_, h⟩
      simp only [exRepo1, List.mem_cons, Prod.mk.injEq, List.not_mem_nil, or_false] at h
      rcases h with ⟨rfl, _⟩ | ⟨_, h⟩ | ⟨_, h⟩
      · simp [exRepo1]
      · cases h
      · cases h

/-- An environment: reversed iteration orders, insertion sort. -/
def exEnv1 : BranchesEnv Str where
  parseDate := some
  sha := id
  numCPU := 2
  iter := List.reverse
  sort := isort (fun a b => strLe a.name b.name)
  prOrder := List.reverse
  perms := fun _ => List.reverse

theorem exEnv1_possible : exEnv1.Possible where
  cpu := by decide
  iter := fun m => List.reverse_perm m
  sort := fun l => ⟨isort_perm _ _, isort_sorted (fun a b => strLe_total a.name b.name) (fun a b c => strLe_trans a.name b.name c.name) _⟩
  prOrder := fun s => List.reverse_perm s
  perms := fun _ s => List.reverse_perm s

/-- The call ends with the records of `main`, `dev` and `old` and of the known pull request. -/
example : ∃ m t d bs, Steps (branchesCall exEnv1 exOut1 { prs := [exSHA 99, exSHA 100] } {}).2.act m Pool.init t ∧ t.procs .caller = some (.returned none (d :: bs)) ∧
    d.name = b!"main" ∧ d.firstCommit = exSHA 97 ∧ bs.length = 3 := by
  have h := C58_branches_of_repo (τ := Str) (e := exEnv1) (u := { prs := [exSHA 99, exSHA 100] }) exEnv1_possible rfl exRepo1_ok exRepo1_prints (fun x _ => ⟨x.date, rfl⟩) .new
  obtain ⟨k, v, hv, hs⟩ := (h.2 0 _ .refl).2.1
  obtain ⟨_, d, bs, h1, h2, _, prs, h4, h5, h6⟩ := (h.2 k v hv).2.2 hs
  refine ⟨k, v, d, bs, hv, h1, h2.name, h2.firstCommit, ?_⟩
  have hprs : prs.Perm [exSHA 99] := by
    rw [List.perm_ext_iff_of_nodup h4 (by simp)]
    intro c
    rw [h5]
    constructor
    · rintro ⟨h7, ps, h8⟩
      simp only [List.mem_cons, List.not_mem_nil, or_false] at h7 ⊢
      rcases h7 with rfl | rfl
      · rfl
      · simp only [exRepo1, List.mem_cons, Prod.mk.injEq, List.not_mem_nil, or_false] at h8
        rcases h8 with ⟨h, _⟩ | ⟨h, _⟩ | ⟨h, _⟩ <;> exact absurd h (by decide)
    · intro h7
      simp only [List.mem_cons, List.not_mem_nil, or_false] at h7
      subst h7
      exact ⟨by simp, [exSHA 97], by simp [exRepo1]⟩
  have := h6.length_eq
  rw [List.length_map, List.length_append, List.length_map, hprs.length_eq, show (exRepo1.wanted false).length = 2 by decide] at this
  exact this

example : ∀ m t, Steps (branchesCall exEnv1 { exOut1 with log := none } {} {}).2.act m Pool.init t →
    m ≤ 3 ∧ (Stuck (branchesCall exEnv1 { exOut1 with log := none } {} {}).2.act t → Crashed (branchesCall exEnv1 { exOut1 with log := none } {} {}).2.act t) :=
  C58_git_log_fails (c := exSHA 98) rfl (exRepo1_ok.hash (exSHA 98, [exSHA 97]) (by simp [exRepo1])).1 (by decide) rfl rfl rfl

end Ripsrc
