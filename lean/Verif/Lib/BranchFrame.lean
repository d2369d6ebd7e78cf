import Verif.Lib.BranchRec
import Verif.Props.Branches
/-!
# The record of a branch in two graphs that agree on the history of the branch
-/
namespace Ripsrc
open Relation

/-! ### Searches -/

theorem foldl_dfs_mono {e : Str → Go (List Str)} {n m : Nat}
    (ih : ∀ h s t, dfs e n h s = .ok t → dfs e m h s = .ok t) :
    ∀ (ps s t : List Str), ps.foldlM (fun s p => dfs e n p s) s = .ok t → ps.foldlM (fun s p => dfs e m p s) s = .ok t
  | [], _, _, h => h
  | p :: ps, s, t, h => by
    simp only [List.foldlM_cons] at h ⊢
    cases hd : dfs e n p s with
    | error f => rw [hd] at h; cases h
    | ok u =>
      rw [hd] at h
      rw [ih p s u hd]
      exact foldl_dfs_mono ih ps u t h

/-- More fuel does not change a result. -/
theorem dfs_mono {e : Str → Go (List Str)} : ∀ (n m : Nat) (h : Str) (s t : List Str), n ≤ m → dfs e n h s = .ok t → dfs e m h s = .ok t
  | 0, _, _, _, _, _, ht => by cases ht
  | n + 1, 0, _, _, _, hnm, _ => by omega
  | n + 1, m + 1, h, s, t, hnm, ht => by
    simp only [dfs] at ht ⊢
    by_cases hs : h ∈ s
    · rw [if_pos hs] at ht ⊢; exact ht
    · rw [if_neg hs] at ht ⊢
      cases he : e h with
      | error f => rw [he] at ht; cases ht
      | ok ps =>
        rw [he] at ht
        exact foldl_dfs_mono (fun h s t => dfs_mono n m h s t (by omega)) ps _ t ht

/-- The search depends only on the expansions of what it can reach. -/
theorem dfs_congr {e₁ e₂ : Str → Go (List Str)} : ∀ (n : Nat) (h : Str) (s t : List Str),
    (∀ x, ReflTransGen (Step e₁) h x → e₁ x = e₂ x) → dfs e₁ n h s = .ok t → dfs e₂ n h s = .ok t
  | 0, _, _, _, _, ht => by cases ht
  | n + 1, h, s, t, hag, ht => by
    simp only [dfs] at ht ⊢
    by_cases hs : h ∈ s
    · rw [if_pos hs] at ht ⊢; exact ht
    · rw [if_neg hs] at ht ⊢
      rw [← hag h .refl]
      cases he : e₁ h with
      | error f => rw [he] at ht; cases ht
      | ok ps =>
        rw [he] at ht
        have key : ∀ (qs u v : List Str), (∀ q ∈ qs, q ∈ ps) → qs.foldlM (fun s p => dfs e₁ n p s) u = .ok v →
            qs.foldlM (fun s p => dfs e₂ n p s) u = .ok v := by
          intro qs
          induction qs with
          | nil => exact fun _ _ _ h => h
          | cons q qs ih =>
            intro u v hq hv
            simp only [List.foldlM_cons] at hv ⊢
            cases hd : dfs e₁ n q u with
            | error f => rw [hd] at hv; cases hv
            | ok w =>
              rw [hd] at hv
              rw [dfs_congr n q u w (fun x hx => hag x (.head ⟨ps, he, hq q (by simp)⟩ hx)) hd]
              exact ih w v (fun x hx => hq x (by simp [hx])) hv
        exact key ps _ t (fun _ h => h) ht

/-- A search that starts in a closed set adds only members of the set. -/
theorem dfs_inside {e : Str → Go (List Str)} {S : Str → Prop} (hS : ∀ x y, S x → Step e x y → S y) :
    ∀ (n : Nat) (h : Str) (s t : List Str), S h → dfs e n h s = .ok t → ∃ new, t = s ++ new ∧ ∀ x ∈ new, S x
  | 0, _, _, _, _, ht => by cases ht
  | n + 1, h, s, t, hh, ht => by
    simp only [dfs] at ht
    by_cases hs : h ∈ s
    · rw [if_pos hs] at ht; cases ht; exact ⟨[], by simp, by simp⟩
    · rw [if_neg hs] at ht
      cases he : e h with
      | error f => rw [he] at ht; cases ht
      | ok ps =>
        rw [he] at ht
        have key : ∀ (qs u v : List Str), (∀ q ∈ qs, S q) → qs.foldlM (fun s p => dfs e n p s) u = .ok v →
            ∃ new, v = u ++ new ∧ ∀ x ∈ new, S x := by
          intro qs
          induction qs with
          | nil => intro u v _ hv; cases hv; exact ⟨[], by simp, by simp⟩
          | cons q qs ih =>
            intro u v hq hv
            simp only [List.foldlM_cons] at hv
            cases hd : dfs e n q u with
            | error f => rw [hd] at hv; cases hv
            | ok w =>
              rw [hd] at hv
              obtain ⟨n1, rfl, p1⟩ := dfs_inside hS n q u w (hq q (by simp)) hd
              obtain ⟨n2, rfl, p2⟩ := ih _ v (fun x hx => hq x (by simp [hx])) hv
              refine ⟨n1 ++ n2, by simp, fun x hx => ?_⟩
              rcases List.mem_append.1 hx with h | h
              · exact p1 x h
              · exact p2 x h
        obtain ⟨new, rfl, p⟩ := key ps _ t (fun q hq => hS h q hh ⟨ps, he, hq⟩) ht
        refine ⟨h :: new, by simp, fun x hx => ?_⟩
        rcases List.mem_cons.1 hx with rfl | hx
        · exact hh
        · exact p x hx

/-- Leaving out a closed set leaves out exactly its members, and keeps the order of the others. -/
theorem dfs_filter {e₁ e₂ : Str → Go (List Str)} {P : Str → Bool}
    (he : ∀ x ps, P x = true → e₁ x = .ok ps → e₂ x = .ok (ps.filter P))
    (hP : ∀ x y, P x = false → Step e₁ x y → P y = false) :
    ∀ (n : Nat) (h : Str) (s t : List Str), P h = true → dfs e₁ n h s = .ok t → dfs e₂ n h (s.filter P) = .ok (t.filter P)
  | 0, _, _, _, _, ht => by cases ht
  | n + 1, h, s, t, hh, ht => by
    simp only [dfs] at ht ⊢
    by_cases hs : h ∈ s
    · rw [if_pos hs] at ht; cases ht
      rw [if_pos (List.mem_filter.2 ⟨hs, hh⟩)]
    · rw [if_neg hs] at ht
      rw [if_neg (fun hc => hs (List.mem_filter.1 hc).1)]
      cases hx : e₁ h with
      | error f => rw [hx] at ht; cases ht
      | ok ps =>
        rw [hx] at ht
        rw [he h ps hh hx]
        have key : ∀ (qs u v : List Str), qs.foldlM (fun s p => dfs e₁ n p s) u = .ok v →
            (qs.filter P).foldlM (fun s p => dfs e₂ n p s) (u.filter P) = .ok (v.filter P) := by
          intro qs
          induction qs with
          | nil => intro u v hv; cases hv; rfl
          | cons q qs ih =>
            intro u v hv
            simp only [List.foldlM_cons] at hv
            cases hd : dfs e₁ n q u with
            | error f => rw [hd] at hv; cases hv
            | ok w =>
              rw [hd] at hv
              cases hq : P q with
              | true =>
                rw [List.filter_cons_of_pos hq, List.foldlM_cons, dfs_filter he hP n q u w hq hd]
                exact ih w v hv
              | false =>
                rw [List.filter_cons_of_neg (by simp [hq])]
                obtain ⟨new, rfl, hn⟩ := dfs_inside (S := fun x => P x = false) hP n q u w hq hd
                have : (u ++ new).filter P = u.filter P := by
                  rw [List.filter_append, (List.filter_eq_nil_iff (l := new)).2 (fun x hx => by simp [hn x hx]), List.append_nil]
                rw [← this]
                exact ih _ v hv
        have := key ps (s ++ [h]) t ht
        rw [List.filter_append, show [h].filter P = [h] by simp [hh]] at this
        exact this

/-! ### The walk of a branch -/

/-- The commits of a record are those of the search from the head of the branch, reversed. -/
theorem runBranch_walk {sha : Str → Str} {gr : Graph} {dh name bh : Str} {perm : List Str → List Str} {b : Branch}
    (hb : runBranch sha gr dh perm name bh = .ok (some b)) :
    ∃ R t, (∀ x, x ∈ R ↔ gr.ReachWithout bh dh x) ∧ dfs (expBranch gr R) gr.fuel bh [] = .ok t ∧ b.commits = t.reverse := by
  obtain ⟨R, hR, hRnd, hRm⟩ := newReachable_spec gr dh
  unfold runBranch at hb
  rw [hR] at hb
  simp only [bind, Except.bind] at hb
  unfold processBranch at hb
  split at hb
  · cases hb
  simp only [bind, Except.bind] at hb
  have tail : ∀ (R' : List Str) (r : List Str × List Str), (do
      let s ← branchRec gr R' gr.fuel bh ⟨[], [], []⟩
      let branchedFrom ← dedupLinearFromHead gr s.branchedFrom bh perm
      return (s.commits.reverse, branchedFrom) : Go (List Str × List Str)) = .ok r →
      ∃ t, dfs (expBranch gr R') gr.fuel bh [] = .ok t ∧ r.1 = t.reverse := by
    intro R' r hr
    obtain ⟨e1, e2⟩ := branchRec_eq gr R' gr.fuel bh [] []
    cases hd : dfs (expBranch gr R') gr.fuel bh [] with
    | error f => rw [e1 f hd] at hr; cases hr
    | ok t =>
      obtain ⟨new, nb, _, k2, _⟩ := e2 t hd
      rw [k2] at hr
      simp only [bind, Except.bind] at hr
      refine ⟨t, rfl, ?_⟩
      split at hr
      · cases hr
      · simp only [pure, Except.pure, Except.ok.injEq] at hr
        subst hr; rfl
  have hwalk : ∀ r, branchCommits gr dh R bh perm = .ok r →
      ∃ R' t, (∀ x, x ∈ R' ↔ gr.ReachWithout bh dh x) ∧ dfs (expBranch gr R') gr.fuel bh [] = .ok t ∧ r.1 = t.reverse := by
    intro r hbc
    unfold branchCommits at hbc
    by_cases hm : bh ∈ R
    · rw [if_pos hm] at hbc
      obtain ⟨_, s2⟩ := reachStop_spec gr bh dh
      cases hs : reachStopRec gr bh gr.fuel dh ⟨[], []⟩ with
      | error e => rw [hs] at hbc; cases hbc
      | ok s =>
        rw [hs] at hbc
        obtain ⟨t, h1, h2⟩ := tail s.res r hbc
        exact ⟨s.res, t, (s2 s hs).1, h1, h2⟩
    · rw [if_neg hm] at hbc
      obtain ⟨t, h1, h2⟩ := tail R r hbc
      exact ⟨R, t, fun x => by rw [hRm, reachWithout_of_not_reach (fun hc => hm ((hRm bh).2 hc))], h1, h2⟩
  cases hbc : branchCommits gr dh R bh perm with
  | error e => rw [hbc] at hb; cases hb
  | ok r =>
    rw [hbc] at hb
    obtain ⟨R', t, h1, h2, h3⟩ := hwalk r hbc
    refine ⟨R', t, h1, h2, ?_⟩
    rw [← h3]
    have hfin : ∀ x : Branch, x.commits = r.1 → (match r.1 with
        | [] => .error (.panic "index out of range: Commits[0]")
        | c :: _ => .ok (some { x with aheadDefaultCount := r.1.length, firstCommit := c }) : Go (Option Branch)) = .ok (some b) → b.commits = r.1 := by
      intro x hx h
      split at h
      · cases h
      · simp only [Except.ok.injEq, Option.some.injEq] at h
        subst h
        exact hx
    simp only at hb
    by_cases hm : bh ∈ R
    · rw [if_pos hm] at hb
      cases hg : getMergeCommit gr R bh with
      | error e => rw [hg] at hb; cases hb
      | ok mc =>
        rw [hg] at hb
        exact hfin _ rfl hb
    · rw [if_neg hm] at hb
      by_cases hlen : r.2.length ≥ 1
      · rw [if_pos hlen] at hb
        cases hg : behindBranch gr R bh dh with
        | error e => rw [hg] at hb; cases hb
        | ok k =>
          rw [hg] at hb
          exact hfin _ rfl hb
      · rw [if_neg hlen] at hb
        exact hfin _ rfl hb

/-! ### Two graphs -/

/-- The graphs record the same parents for `h` and all its ancestors. -/
def SameBelow (g₁ g₂ : Graph) (h : Str) : Prop := ∀ x, g₁.Reach h x → g₁.parents.get x = g₂.parents.get x

theorem SameBelow.parent {g₁ g₂ : Graph} {h x y : Str} (hs : SameBelow g₁ g₂ h) (hx : g₁.Reach h x) : g₁.Parent x y ↔ g₂.Parent x y := by
  unfold Graph.Parent Graph.parentsOf
  rw [hs x hx]

theorem SameBelow.reach {g₁ g₂ : Graph} {h : Str} (hs : SameBelow g₁ g₂ h) (x : Str) : g₁.Reach h x ↔ g₂.Reach h x := by
  constructor
  · intro hx
    induction hx with
    | refl => exact .refl
    | tail h1 h2 ih => exact .tail ih ((hs.parent h1).1 h2)
  · intro hx
    induction hx with
    | refl => exact .refl
    | tail h1 h2 ih => exact .tail ih ((hs.parent ih).2 h2)

theorem SameBelow.symm {g₁ g₂ : Graph} {h : Str} (hs : SameBelow g₁ g₂ h) : SameBelow g₂ g₁ h :=
  fun x hx => (hs x ((hs.reach x).2 hx)).symm

theorem SameBelow.below {g₁ g₂ : Graph} {h x : Str} (hs : SameBelow g₁ g₂ h) (hx : g₁.Reach h x) : SameBelow g₁ g₂ x :=
  fun y hy => hs y (hx.trans hy)

theorem SameBelow.anc {g₁ g₂ : Graph} {h : Str} (hs : SameBelow g₁ g₂ h) (x : Str) : g₁.Anc h x ↔ g₂.Anc h x := by
  constructor
  · intro hx
    rcases TransGen.head'_iff.1 hx with ⟨y, h1, h2⟩
    exact TransGen.head' ((hs.parent .refl).1 h1) (((hs.below (.single h1)).reach x).1 h2)
  · intro hx
    rcases TransGen.head'_iff.1 hx with ⟨y, h1, h2⟩
    have h1' := (hs.parent .refl).2 h1
    exact TransGen.head' h1' (((hs.below (.single h1')).reach x).2 h2)

theorem SameBelow.reachWithout {g₁ g₂ : Graph} {h b : Str} (hs : SameBelow g₁ g₂ h) (x : Str) :
    g₁.ReachWithout b h x ↔ g₂.ReachWithout b h x := by
  constructor
  · intro hx
    induction hx with
    | refl => exact .refl
    | tail h1 h2 ih => exact .tail ih ⟨h2.1, (hs.parent (reachWithout_reach h1)).1 h2.2⟩
  · intro hx
    induction hx with
    | refl => exact .refl
    | tail h1 h2 ih => exact .tail ih ⟨h2.1, (hs.parent (reachWithout_reach ih)).2 h2.2⟩

theorem expBranch_congr {g₁ g₂ : Graph} {R₁ R₂ : List Str} {x : Str} (hp : g₁.parents.get x = g₂.parents.get x)
    (hR : ∀ y, g₁.Parent x y → (y ∈ R₁ ↔ y ∈ R₂)) : expBranch g₁ R₁ x = expBranch g₂ R₂ x := by
  unfold expBranch
  have hm : g₁.parentsMust x = g₂.parentsMust x := by unfold Graph.parentsMust; rw [hp]
  rw [hm]
  cases hc : g₂.parentsMust x with
  | error e => rfl
  | ok ps =>
    show Except.ok _ = Except.ok _
    congr 1
    apply List.filter_congr
    intro y hy
    have : g₁.Parent x y := by
      unfold Graph.Parent Graph.parentsOf
      rw [hp]
      have := (g₂.parentsMust_ok hc).1
      unfold Graph.parentsOrNil at this
      rw [this]; exact List.mem_reverse.1 hy
    simp only [hR y this]

/-- What of the record depends only on the history of the branch and on which of it the default branch has. -/
structure SameWork (b₁ b₂ : Branch) : Prop where
  name : b₁.name = b₂.name
  headSHA : b₁.headSHA = b₂.headSHA
  flags : b₁.isPullRequest = b₂.isPullRequest ∧ b₁.isDefault = b₂.isDefault
  commits : b₁.commits = b₂.commits
  firstCommit : b₁.firstCommit = b₂.firstCommit
  ahead : b₁.aheadDefaultCount = b₂.aheadDefaultCount
  branchedFrom : b₁.branchedFromCommits = b₂.branchedFromCommits
  branchID : b₁.branchID = b₂.branchID

theorem sorted_same {l m : List Str} (hl : Sorted strLe l) (hm : Sorted strLe m) (h1 : l.Nodup) (h2 : m.Nodup) (h : ∀ x, x ∈ l ↔ x ∈ m) : l = m :=
  sorted_perm_unique (fun a _ b _ => strLe_antisymm a b) ((List.perm_ext_iff_of_nodup h1 h2).2 h) hl hm

theorem runBranch_frame {sha : Str → Str} {g₁ g₂ : Graph} {d₁ d₂ name bh : Str} {p₁ p₂ : List Str → List Str} {b₁ b₂ : Branch}
    (ha₁ : g₁.Acyclic) (ha₂ : g₂.Acyclic) (hp₁ : ∀ s, (p₁ s).Perm s) (hp₂ : ∀ s, (p₂ s).Perm s)
    (hb₁ : runBranch sha g₁ d₁ p₁ name bh = .ok (some b₁)) (hb₂ : runBranch sha g₂ d₂ p₂ name bh = .ok (some b₂))
    (hs : SameBelow g₁ g₂ bh) (hR : ∀ x, g₁.Anc bh x → (g₁.ReachWithout bh d₁ x ↔ g₂.ReachWithout bh d₂ x)) : SameWork b₁ b₂ := by
  obtain ⟨R₁, t₁, m₁, w₁, c₁⟩ := runBranch_walk hb₁
  obtain ⟨R₂, t₂, m₂, w₂, c₂⟩ := runBranch_walk hb₂
  have ht : t₁ = t₂ := by
    have h1 : dfs (expBranch g₂ R₂) g₁.fuel bh [] = .ok t₁ := by
      refine dfs_congr _ _ _ _ ?_ w₁
      intro x hx
      have hx' : g₁.Reach bh x := by
        rw [step_branch] at hx
        exact rtg_mono (fun _ _ h => h.1) hx
      exact expBranch_congr (hs x hx') (fun y hy => by rw [m₁, m₂]; exact hR y (TransGen.tail' hx' hy))
    have h2 := dfs_mono _ (max g₁.fuel g₂.fuel) _ _ _ (Nat.le_max_left _ _) h1
    have h3 := dfs_mono _ (max g₁.fuel g₂.fuel) _ _ _ (Nat.le_max_right _ _) w₂
    exact Except.ok.inj (h2.symm.trans h3)
  have hc : b₁.commits = b₂.commits := by rw [c₁, c₂, ht]
  obtain ⟨i1, i2, i3, i4, _, _, i7, _, _, i10, i11, i12, i13, i14, i15, _⟩ := runBranch_inv ha₁ hp₁ hb₁
  obtain ⟨j1, j2, j3, j4, _, _, _, _, _, j10, j11, j12, j13, j14, j15, _⟩ := runBranch_inv ha₂ hp₂ hb₂
  have hreach : ∀ c ∈ b₁.commits, g₁.Reach bh c := fun c hc => rtg_mono (fun _ _ h => h.1) ((i7 c).1 hc)
  have hint : ∀ x, g₁.Intersection d₁ bh b₁.commits x ↔ g₂.Intersection d₂ bh b₂.commits x := by
    intro x
    unfold Graph.Intersection
    rw [← hc]
    constructor
    · rintro ⟨h1, c, h2, h3⟩
      exact ⟨(hR x (TransGen.tail' (hreach c h2) h3)).1 h1, c, h2, (hs.parent (hreach c h2)).1 h3⟩
    · rintro ⟨h1, c, h2, h3⟩
      have h3 := (hs.parent (hreach c h2)).2 h3
      exact ⟨(hR x (TransGen.tail' (hreach c h2) h3)).2 h1, c, h2, h3⟩
  have hbf : b₁.branchedFromCommits = b₂.branchedFromCommits := by
    refine sorted_same i11 j11 i10 j10 (fun x => ?_)
    rw [i12, j12, hint x]
    refine and_congr_right (fun hx => ?_)
    have hx : g₁.Reach bh x := by
      obtain ⟨_, c, h2, h3⟩ := (hint x).2 hx
      exact (hreach c h2).tail h3
    constructor
    · exact fun h y hy hc => h y ((hint y).2 hy) (((hs.below hx).anc y).2 hc)
    · exact fun h y hy hc => h y ((hint y).1 hy) (((hs.below hx).anc y).1 hc)
  refine ⟨i2.trans j2.symm, i1.trans j1.symm, ⟨i3.trans j3.symm, i4.trans j4.symm⟩, hc, ?_, by rw [i13, j13, hc], hbf, by rw [i15, j15, hbf]⟩
  rw [hc, j14] at i14
  exact (Option.some.inj i14).symm

/-- The same default head as well: the same record. -/
theorem runBranch_same {sha : Str → Str} {m₁ m₂ : GoMap Str (List Str)} (hw₁ : m₁.WF) (hw₂ : m₂.WF) {o₁ o₂ : List (Str × List Str)} (ho₁ : o₁.Perm m₁) (ho₂ : o₂.Perm m₂)
    {dh name bh : Str} {p₁ p₂ : List Str → List Str} {b₁ b₂ : Branch}
    (ha₁ : (Graph.newFromMap m₁ o₁).Acyclic) (ha₂ : (Graph.newFromMap m₂ o₂).Acyclic) (hp₁ : ∀ s, (p₁ s).Perm s) (hp₂ : ∀ s, (p₂ s).Perm s)
    (hb₁ : runBranch sha (Graph.newFromMap m₁ o₁) dh p₁ name bh = .ok (some b₁)) (hb₂ : runBranch sha (Graph.newFromMap m₂ o₂) dh p₂ name bh = .ok (some b₂))
    (hs : SameBelow (Graph.newFromMap m₁ o₁) (Graph.newFromMap m₂ o₂) bh) (hd : SameBelow (Graph.newFromMap m₁ o₁) (Graph.newFromMap m₂ o₂) dh) : b₁ = b₂ := by
  have hw := runBranch_frame ha₁ ha₂ hp₁ hp₂ hb₁ hb₂ hs (fun x _ => hd.reachWithout x)
  have hrest : b₁.isMerged = b₂.isMerged ∧ b₁.mergeCommit = b₂.mergeCommit ∧ b₁.behindDefaultCount = b₂.behindDefaultCount := by
    obtain ⟨_, _, _, _, _, _, _, _, _, _, _, _, _, _, _, _, _, _, i1, i2⟩ := runBranch_inv ha₁ hp₁ hb₁
    obtain ⟨_, _, _, _, _, _, _, _, _, _, _, _, _, _, _, _, _, _, j1, j2⟩ := runBranch_inv ha₂ hp₂ hb₂
    by_cases hm : (Graph.newFromMap m₁ o₁).Reach dh bh
    · have hm' := (hd.reach bh).1 hm
      obtain ⟨i1, i3, _⟩ := i1 hm
      obtain ⟨j1, j3, _⟩ := j1 hm'
      refine ⟨by rw [i1, j1], ?_, by rw [i3, j3]⟩
      by_cases hne : bh = dh
      · subst hne
        rw [(C19_head_is_default hw₁ ho₁ ha₁ hp₁ hb₁).2, (C19_head_is_default hw₂ ho₂ ha₂ hp₂ hb₂).2]
      · obtain ⟨k1, k2, k3⟩ := C19_merge_commit hw₁ ho₁ ha₁ hp₁ hb₁ hm hne
        obtain ⟨l1, l2, l3⟩ := C19_merge_commit hw₂ ho₂ ha₂ hp₂ hb₂ hm' hne
        have k2' := (hd.reach _).1 k2
        have l2' := (hd.reach _).2 l2
        exact strLe_antisymm _ _ (k3 _ ((hd.parent l2').2 l1) l2') (l3 _ ((hd.parent k2).1 k1) k2')
    · have hm' := fun h => hm ((hd.reach bh).2 h)
      obtain ⟨i1, i3, i4, _⟩ := i2 hm
      obtain ⟨j1, j3, j4, _⟩ := j2 hm'
      refine ⟨by rw [i1, j1], by rw [i3, j3], ?_⟩
      by_cases hbp : b₁.branchedFromCommits = []
      · rw [i4 hbp, j4 (hw.branchedFrom ▸ hbp)]
      · classical
        obtain ⟨D, _, hDnd, hDm⟩ := newReachable_spec (Graph.newFromMap m₁ o₁) dh
        have hmeet : ∀ x, (Graph.newFromMap m₁ o₁).Meets dh bh x ↔ (Graph.newFromMap m₂ o₂).Meets dh bh x := by
          intro x
          unfold Graph.Meets
          rw [hd.reach]
          refine and_congr_right (fun _ => exists_congr (fun c => ?_))
          rw [hs.reach, hd.reach]
          refine and_congr_right (fun hc => ?_)
          rw [hs.parent ((hs.reach c).2 hc)]
        have hra : ∀ x, (Graph.newFromMap m₁ o₁).ReachAvoiding ((Graph.newFromMap m₁ o₁).Meets dh bh) dh x ↔ (Graph.newFromMap m₂ o₂).ReachAvoiding ((Graph.newFromMap m₂ o₂).Meets dh bh) dh x := by
          intro x
          unfold Graph.ReachAvoiding
          rw [hmeet x]
          refine and_congr_left (fun hnm => ?_)
          clear hnm
          constructor
          · intro h
            have : (Graph.newFromMap m₁ o₁).Reach dh x ∧ ReflTransGen (fun c p => ¬ (Graph.newFromMap m₂ o₂).Meets dh bh c ∧ (Graph.newFromMap m₂ o₂).Parent c p) dh x := by
              induction h with
              | refl => exact ⟨.refl, .refl⟩
              | tail _ h2 ih => exact ⟨ih.1.tail h2.2, ih.2.tail ⟨fun hc => h2.1 ((hmeet _).2 hc), (hd.parent ih.1).1 h2.2⟩⟩
            exact this.2
          · intro h
            have : (Graph.newFromMap m₁ o₁).Reach dh x ∧ ReflTransGen (fun c p => ¬ (Graph.newFromMap m₁ o₁).Meets dh bh c ∧ (Graph.newFromMap m₁ o₁).Parent c p) dh x := by
              induction h with
              | refl => exact ⟨.refl, .refl⟩
              | tail _ h2 ih =>
                have hp := (hd.parent ih.1).2 h2.2
                exact ⟨ih.1.tail hp, ih.2.tail ⟨fun hc => h2.1 ((hmeet _).1 hc), hp⟩⟩
            exact this.2
        let l := D.filter (fun x => decide ((Graph.newFromMap m₁ o₁).ReachAvoiding ((Graph.newFromMap m₁ o₁).Meets dh bh) dh x))
        have hlm : ∀ x, x ∈ l ↔ (Graph.newFromMap m₁ o₁).ReachAvoiding ((Graph.newFromMap m₁ o₁).Meets dh bh) dh x := by
          intro x
          simp only [l, List.mem_filter, hDm, decide_eq_true_eq, and_iff_right_iff_imp]
          exact fun h => rtg_mono (fun _ _ h => h.2) h.1
        rw [C18_behind_exact ha₁ hp₁ hb₁ hm hbp l (hDnd.filter _) hlm,
          C18_behind_exact ha₂ hp₂ hb₂ hm' (hw.branchedFrom ▸ hbp) l (hDnd.filter _) (fun x => by rw [hlm, hra])]
  obtain ⟨r1, r2, r3⟩ := hrest
  cases b₁; cases b₂
  obtain ⟨w1, w2, ⟨w3, w3'⟩, w4, w5, w6, w7, w8⟩ := hw
  simp only at *
  subst w1 w2 w3 w3' w4 w5 w6 w7 w8 r1 r2 r3
  rfl

/-- More of the history on the default branch: the commits that are not, in the same order. -/
theorem runBranch_shrink {sha : Str → Str} {g₁ g₂ : Graph} {d₁ d₂ name bh : Str} {p₁ p₂ : List Str → List Str} {b₁ b₂ : Branch}
    (hb₁ : runBranch sha g₁ d₁ p₁ name bh = .ok (some b₁)) (hb₂ : runBranch sha g₂ d₂ p₂ name bh = .ok (some b₂))
    (hs : SameBelow g₁ g₂ bh) (hle : ∀ x, g₁.Reach bh x → g₁.Reach d₁ x → g₂.Reach d₂ x)
    (hu₁ : ¬ g₁.Reach d₁ bh) (hu₂ : ¬ g₂.Reach d₂ bh) (D : Str → Bool) (hD : ∀ x ∈ b₁.commits, D x = true ↔ ¬ g₂.Reach d₂ x) :
    b₂.commits = b₁.commits.filter D := by
  classical
  obtain ⟨R₁, t₁, m₁, w₁, c₁⟩ := runBranch_walk hb₁
  obtain ⟨R₂, t₂, m₂, w₂, c₂⟩ := runBranch_walk hb₂
  have m₁ : ∀ x, x ∈ R₁ ↔ g₁.Reach d₁ x := fun x => by rw [m₁, reachWithout_of_not_reach hu₁]
  have m₂ : ∀ x, x ∈ R₂ ↔ g₂.Reach d₂ x := fun x => by rw [m₂, reachWithout_of_not_reach hu₂]
  -- outside the history of the branch the predicate does not matter
  let P : Str → Bool := fun x => decide (g₁.Reach bh x → ¬ g₂.Reach d₂ x)
  have hPx : ∀ x, g₁.Reach bh x → (P x = true ↔ x ∉ R₂) := by
    intro x hx
    simp only [P, decide_eq_true_eq, m₂]
    exact ⟨fun h => h hx, fun h _ => h⟩
  -- the search in the first graph, with the second expansion cut down
  let e₂ : Str → Go (List Str) := fun x => if g₁.Reach bh x then expBranch g₂ R₂ x else (expBranch g₁ R₁ x).map (fun ps => ps.filter P)
  have hstep : ∀ x y, Step (expBranch g₁ R₁) x y → g₁.Parent x y := by
    intro x y h; rw [step_branch] at h; exact h.1
  have h1 : dfs e₂ g₁.fuel bh (([] : List Str).filter P) = .ok (t₁.filter P) := by
    refine dfs_filter (e₁ := expBranch g₁ R₁) ?_ ?_ _ _ _ _ ((hPx bh .refl).2 (fun h => hu₂ ((m₂ _).1 h))) w₁
    · intro x ps hx hps
      show (if g₁.Reach bh x then expBranch g₂ R₂ x else (expBranch g₁ R₁ x).map (fun ps => ps.filter P)) = _
      split
      · rename_i hr
        unfold expBranch at hps ⊢
        have hm : g₁.parentsMust x = g₂.parentsMust x := by unfold Graph.parentsMust; rw [hs x hr]
        rw [← hm]
        cases hc : g₁.parentsMust x with
        | error e => rw [hc] at hps; cases hps
        | ok qs =>
          rw [hc] at hps
          have hps : (Except.ok (qs.reverse.filter (fun p => decide (p ∉ R₁))) : Go (List Str)) = .ok ps := hps
          cases hps
          show Except.ok _ = Except.ok _
          congr 1
          rw [List.filter_filter]
          apply List.filter_congr
          intro y hy
          have hxy : g₁.Parent x y := by
            unfold Graph.Parent Graph.parentsOf
            have := (g₁.parentsMust_ok hc).1
            unfold Graph.parentsOrNil at this
            rw [this]; exact List.mem_reverse.1 hy
          have hy' : g₁.Reach bh y := ReflTransGen.tail hr hxy
          by_cases h2 : y ∈ R₂
          · have : P y = false := by
              cases hp : P y with
              | false => rfl
              | true => exact absurd h2 ((hPx y hy').1 hp)
            rw [this]; simp [h2]
          · have h3 : P y = true := (hPx y hy').2 h2
            have h4 : y ∉ R₁ := fun h => h2 ((m₂ y).2 (hle y hy' ((m₁ y).1 h)))
            rw [h3]; simp [h2, h4]
      · rw [hps]; rfl
    · intro x y hx hxy
      have hxy := hstep x y hxy
      simp only [P, decide_eq_false_iff_not, Classical.not_imp, Classical.not_not] at hx ⊢
      exact ⟨ReflTransGen.tail hx.1 hxy, ReflTransGen.tail hx.2 ((hs.parent hx.1).1 hxy)⟩
  have h2 : dfs (expBranch g₂ R₂) g₁.fuel bh [] = .ok (t₁.filter P) := by
    refine dfs_congr _ _ _ _ ?_ h1
    intro x hx
    have hx' : g₁.Reach bh x := by
      induction hx with
      | refl => exact .refl
      | @tail y z _ hyz ih =>
        obtain ⟨ps, hps, hz⟩ := hyz
        have hps : (if g₁.Reach bh y then expBranch g₂ R₂ y else (expBranch g₁ R₁ y).map (fun ps => ps.filter P)) = .ok ps := hps
        rw [if_pos ih] at hps
        have : Step (expBranch g₂ R₂) y z := ⟨ps, hps, hz⟩
        rw [step_branch] at this
        exact ReflTransGen.tail ih ((hs.parent ih).2 this.1)
    show (if g₁.Reach bh x then _ else _) = _
    rw [if_pos hx']
  have h3 := dfs_mono _ (max g₁.fuel g₂.fuel) _ _ _ (Nat.le_max_left _ _) h2
  have h4 := dfs_mono _ (max g₁.fuel g₂.fuel) _ _ _ (Nat.le_max_right _ _) w₂
  have ht : t₁.filter P = t₂ := Except.ok.inj (h3.symm.trans h4)
  have hPD : t₁.filter P = t₁.filter D := by
    apply List.filter_congr
    intro x hx
    have hx1 : x ∈ b₁.commits := by rw [c₁]; exact List.mem_reverse.2 hx
    have hr : g₁.Reach bh x := by
      obtain ⟨q1, _⟩ := dfs_top (closed_branch g₁ R₁ bh) (g₁.mem_univ_self bh) (g₁.univ_length bh)
      have := ((q1 t₁ w₁).2.2.1 x).1 hx
      rw [step_branch] at this
      exact rtg_mono (fun _ _ h => h.1) this
    have e1 := hPx x hr
    have e2 := hD x hx1
    rw [m₂] at e1
    cases hp : P x <;> cases hd : D x <;> simp_all
  rw [c₁, c₂, ← ht, hPD, List.filter_reverse]

end Ripsrc
