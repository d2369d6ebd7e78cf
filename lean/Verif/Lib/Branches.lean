import Verif.Lib.Dfs
import Verif.Spec.Graph
/-!
# Lemmas about `branches2`: every closure is a depth first search
-/
namespace Ripsrc
open Relation

theorem foldlM_proj {σ : Type} (g : List Str → σ) (f : σ → Str → Go σ) (k : List Str → Str → Go (List Str))
    (h : ∀ l p, f (g l) p = (k l p).map g) (ps : List Str) (l : List Str) :
    ps.foldlM f (g l) = (ps.foldlM k l).map g := by
  induction ps generalizing l with
  | nil => rfl
  | cons p ps ih =>
    simp only [List.foldlM_cons, h]
    cases k l p with
    | error e => rfl
    | ok t => exact ih t

/-- Expansion of `newReachableFromHead`. -/
def expAll (gr : Graph) (h : Str) : Go (List Str) := .ok (gr.parentsOrNil h)
/-- Expansion of the recomputation for merged branches. -/
def expStop (gr : Graph) (bh : Str) (h : Str) : Go (List Str) := if h = bh then .ok [] else gr.parentsMust h
/-- Expansion of `getAllCommits`. -/
def expMust (gr : Graph) (h : Str) : Go (List Str) := (gr.parentsMust h).map List.reverse
/-- Expansion of the walk over the branch. -/
def expBranch (gr : Graph) (R : List Str) (h : Str) : Go (List Str) :=
  (gr.parentsMust h).map (fun ps => ps.reverse.filter (fun p => decide (p ∉ R)))
/-- Expansion of the walks that stop at a set. -/
def expUntil (gr : Graph) (R : List Str) (h : Str) : Go (List Str) :=
  .ok (if h ∈ R then [] else gr.parentsOrNil h)

def dup2 (l : List Str) : ReachSt := ⟨l, l⟩

theorem reachRec_eq (gr : Graph) (n : Nat) (h : Str) (l : List Str) :
    reachRec gr n h (dup2 l) = (dfs (expAll gr) n h l).map dup2 := by
  induction n generalizing h l with
  | zero => rfl
  | succ n ih =>
    simp only [reachRec, dfs, dup2]
    by_cases hl : h ∈ l
    · simp only [hl, if_true]; rfl
    · simp only [hl, if_false]
      exact foldlM_proj dup2 _ _ (fun l p => ih p l) _ _

theorem reachStopRec_eq (gr : Graph) (bh : Str) (n : Nat) (h : Str) (l : List Str) :
    reachStopRec gr bh n h (dup2 l) = (dfs (expStop gr bh) n h l).map dup2 := by
  induction n generalizing h l with
  | zero => rfl
  | succ n ih =>
    simp only [reachStopRec, dfs, dup2, expStop]
    by_cases hl : h ∈ l
    · simp only [hl, if_true]; rfl
    · simp only [hl, if_false]
      by_cases hb : h = bh
      · simp only [hb, if_true]; rfl
      · simp only [hb, if_false]
        cases gr.parentsMust h with
        | error e => rfl
        | ok ps => exact foldlM_proj dup2 _ _ (fun l p => ih p l) _ _

theorem allRec_eq (gr : Graph) (n : Nat) (h : Str) (l : List Str) :
    allRec gr n h (dup2 l) = (dfs (expMust gr) n h l).map dup2 := by
  induction n generalizing h l with
  | zero => rfl
  | succ n ih =>
    simp only [allRec, dfs, dup2, expMust]
    by_cases hl : h ∈ l
    · simp only [hl, if_true]; rfl
    · simp only [hl, if_false]
      cases gr.parentsMust h with
      | error e => rfl
      | ok ps => exact foldlM_proj dup2 _ _ (fun l p => ih p l) _ _

theorem rfbRec_eq (gr : Graph) (R : List Str) (n : Nat) (h : Str) (l : List Str) :
    rfbRec gr R n h (dup2 l) = (dfs (expUntil gr R) n h l).map dup2 := by
  induction n generalizing h l with
  | zero => rfl
  | succ n ih =>
    simp only [rfbRec, dfs, dup2, expUntil]
    by_cases hl : h ∈ l
    · simp only [hl, if_true]; rfl
    · simp only [hl, if_false]
      by_cases hb : h ∈ R
      · simp only [hb, if_true]; rfl
      · simp only [hb, if_false]
        exact foldlM_proj dup2 _ _ (fun l p => ih p l) _ _

def behindProj (R : List Str) (l : List Str) : BehindSt := ⟨(l.filter (fun x => decide (x ∉ R))).length, l⟩

theorem behindRec_eq (gr : Graph) (R : List Str) (n : Nat) (h : Str) (l : List Str) :
    behindRec gr R n h (behindProj R l) = (dfs (expUntil gr R) n h l).map (behindProj R) := by
  induction n generalizing h l with
  | zero => rfl
  | succ n ih =>
    simp only [behindRec, dfs, expUntil]
    by_cases hl : h ∈ l
    · simp only [behindProj, hl, if_true]; rfl
    · simp only [behindProj, hl, if_false]
      by_cases hb : h ∈ R
      · simp only [hb, if_true]
        show _ = Except.map (behindProj R) (.ok (l ++ [h]))
        simp [behindProj, Except.map, hb]
      · simp only [hb, if_false]
        have := foldlM_proj (behindProj R) (fun s p => behindRec gr R n p s) (fun s p => dfs (expUntil gr R) n p s)
          (fun l p => ih p l) (gr.parentsOrNil h) (l ++ [h])
        simp only [behindProj, List.filter_append, List.length_append] at this
        simpa [hb, bind, Except.bind] using this

/-- Walk over the branch: the commits are the search order, `branchedFrom` collects the skipped parents. -/
theorem branchRec_eq (gr : Graph) (R : List Str) (n : Nat) (h : Str) (l bf : List Str) :
    (∀ f, dfs (expBranch gr R) n h l = .error f → branchRec gr R n h ⟨l, bf, l⟩ = .error f) ∧
    (∀ t, dfs (expBranch gr R) n h l = .ok t → ∃ new nb, t = l ++ new ∧
      branchRec gr R n h ⟨l, bf, l⟩ = .ok ⟨t, bf ++ nb, t⟩ ∧
      ∀ x, x ∈ nb ↔ x ∈ R ∧ ∃ c ∈ new, x ∈ gr.parentsOrNil c) := by
  induction n generalizing h l bf with
  | zero => exact ⟨fun f hf => by simpa [dfs, branchRec] using hf, fun t ht => by cases ht⟩
  | succ n ih =>
    simp only [branchRec, dfs]
    by_cases hl : h ∈ l
    · simp only [hl, if_true]
      refine ⟨fun f hf => (by cases hf), fun t ht => ?_⟩
      cases ht
      exact ⟨[], [], by simp, by simp, by simp⟩
    · simp only [hl, if_false]
      cases hp : gr.parentsMust h with
      | error e => simp [expBranch, hp, Except.map, bind, Except.bind]
      | ok ps =>
        have hps : gr.parentsOrNil h = ps := by
          unfold Graph.parentsMust at hp
          unfold Graph.parentsOrNil
          cases hg : gr.parents.get h with
          | none => simp [hg] at hp
          | some qs => simp [hg] at hp; simpa using hp
        have hE : expBranch gr R h = .ok (ps.reverse.filter (fun p => decide (p ∉ R))) := by
          simp [expBranch, hp, Except.map]
        rw [hE]
        -- the loop over the parents
        have loop : ∀ (qs l bf : List Str),
            (∀ f, (qs.filter (fun p => decide (p ∉ R))).foldlM (fun s p => dfs (expBranch gr R) n p s) l = .error f →
              qs.foldlM (fun (s : BranchSt) p =>
                if p ∈ R then (.ok { s with branchedFrom := s.branchedFrom ++ [p] } : Go BranchSt)
                else branchRec gr R n p s) ⟨l, bf, l⟩ = .error f) ∧
            (∀ t, (qs.filter (fun p => decide (p ∉ R))).foldlM (fun s p => dfs (expBranch gr R) n p s) l = .ok t →
              ∃ new nb, t = l ++ new ∧ qs.foldlM (fun (s : BranchSt) p =>
                if p ∈ R then (.ok { s with branchedFrom := s.branchedFrom ++ [p] } : Go BranchSt)
                else branchRec gr R n p s) ⟨l, bf, l⟩ = .ok ⟨t, bf ++ nb, t⟩ ∧
              ∀ x, x ∈ nb ↔ x ∈ R ∧ (x ∈ qs ∨ ∃ c ∈ new, x ∈ gr.parentsOrNil c)) := by
          intro qs
          induction qs with
          | nil =>
            intro l bf
            refine ⟨fun f hf => (by cases hf), fun t ht => ?_⟩
            cases ht
            exact ⟨[], [], by simp, by simp; rfl, by simp⟩
          | cons q qs ihq =>
            intro l bf
            by_cases hq : q ∈ R
            · have e : (q :: qs).filter (fun p => decide (p ∉ R)) = qs.filter (fun p => decide (p ∉ R)) := by
                simp [hq]
              rw [e]
              simp only [List.foldlM_cons, hq, if_true]
              obtain ⟨i1, i2⟩ := ihq l (bf ++ [q])
              refine ⟨i1, fun t ht => ?_⟩
              obtain ⟨new, nb, h1, h2, h3⟩ := i2 t ht
              refine ⟨new, q :: nb, h1, by simpa [bind, Except.bind] using h2, ?_⟩
              intro x
              simp only [List.mem_cons, h3]
              constructor
              · rintro (rfl | ⟨h4, h5⟩)
                · exact ⟨hq, Or.inl (Or.inl rfl)⟩
                · rcases h5 with h5 | h5
                  · exact ⟨h4, Or.inl (Or.inr h5)⟩
                  · exact ⟨h4, Or.inr h5⟩
              · rintro ⟨h4, (rfl | h5) | h5⟩
                · exact Or.inl rfl
                · exact Or.inr ⟨h4, Or.inl h5⟩
                · exact Or.inr ⟨h4, Or.inr h5⟩
            · have e : (q :: qs).filter (fun p => decide (p ∉ R)) = q :: qs.filter (fun p => decide (p ∉ R)) := by
                simp [hq]
              rw [e]
              simp only [List.foldlM_cons, hq, if_false]
              obtain ⟨j1, j2⟩ := ih q l bf
              cases hd : dfs (expBranch gr R) n q l with
              | error f =>
                rw [j1 f hd]
                simp [bind, Except.bind]
              | ok u =>
                obtain ⟨n₁, nb₁, h1, h2, h3⟩ := j2 u hd
                rw [h2]
                obtain ⟨i1, i2⟩ := ihq u (bf ++ nb₁)
                refine ⟨i1, fun t ht => ?_⟩
                obtain ⟨n₂, nb₂, k1, k2, k3⟩ := i2 t ht
                refine ⟨n₁ ++ n₂, nb₁ ++ nb₂, by simp [k1, h1], by simpa [bind, Except.bind] using k2, ?_⟩
                intro x
                simp only [List.mem_append, h3, k3, List.mem_cons]
                constructor
                · rintro (⟨h4, c, hc, h5⟩ | ⟨h4, h5 | ⟨c, hc, h5⟩⟩)
                  · exact ⟨h4, Or.inr ⟨c, Or.inl hc, h5⟩⟩
                  · exact ⟨h4, Or.inl (Or.inr h5)⟩
                  · exact ⟨h4, Or.inr ⟨c, Or.inr hc, h5⟩⟩
                · rintro ⟨h4, (rfl | h5) | ⟨c, hc | hc, h5⟩⟩
                  · exact absurd h4 hq
                  · exact Or.inr ⟨h4, Or.inl h5⟩
                  · exact Or.inl ⟨h4, c, hc, h5⟩
                  · exact Or.inr ⟨h4, Or.inr ⟨c, hc, h5⟩⟩
        obtain ⟨l1, l2⟩ := loop ps.reverse (l ++ [h]) bf
        refine ⟨l1, fun t ht => ?_⟩
        obtain ⟨new, nb, h1, h2, h3⟩ := l2 t ht
        refine ⟨h :: new, nb, by simp [h1], h2, ?_⟩
        intro x
        rw [h3]
        simp only [List.mem_reverse, List.mem_cons]
        constructor
        · rintro ⟨h4, h5 | ⟨c, hc, h5⟩⟩
          · exact ⟨h4, h, Or.inl rfl, by rw [hps]; exact h5⟩
          · exact ⟨h4, c, Or.inr hc, h5⟩
        · rintro ⟨h4, c, rfl | hc, h5⟩
          · rw [hps] at h5; exact ⟨h4, Or.inl h5⟩
          · exact ⟨h4, Or.inr ⟨c, hc, h5⟩⟩

/-! ### Universe of a graph -/

/-- All hashes of the graph, plus a start hash. -/
def Graph.univ (gr : Graph) (h : Str) : List Str := h :: gr.parents.flatMap (fun e => e.1 :: e.2)

theorem Graph.univ_length (gr : Graph) (h : Str) : (gr.univ h).length < gr.fuel := by
  simp [Graph.univ, Graph.fuel]

theorem Graph.mem_univ_self (gr : Graph) (h : Str) : h ∈ gr.univ h := by simp [Graph.univ]

theorem Graph.mem_univ_parents (gr : Graph) (h x p : Str) (hp : p ∈ gr.parentsOrNil x) : p ∈ gr.univ h := by
  unfold Graph.parentsOrNil at hp
  cases hg : gr.parents.get x with
  | none => simp [hg] at hp
  | some ps =>
    simp only [hg, Option.getD_some] at hp
    simp only [Graph.univ, List.mem_cons, List.mem_flatMap]
    exact Or.inr ⟨(x, ps), GoMap.mem_of_get hg, Or.inr hp⟩

theorem Graph.parentsMust_ok {gr : Graph} {h : Str} {ps : List Str} (hp : gr.parentsMust h = .ok ps) :
    gr.parentsOrNil h = ps ∧ gr.Known h := by
  unfold Graph.parentsMust at hp
  unfold Graph.parentsOrNil Graph.Known
  cases hg : gr.parents.get h with
  | none => simp [hg] at hp
  | some qs => simp [hg] at hp; simp [hp]

theorem Graph.parentsMust_of_known {gr : Graph} {h : Str} (hk : gr.Known h) :
    gr.parentsMust h = .ok (gr.parentsOrNil h) := by
  unfold Graph.Known at hk
  unfold Graph.parentsMust Graph.parentsOrNil
  cases hg : gr.parents.get h with
  | none => simp [hg] at hk
  | some qs => simp

theorem Graph.parentsMust_error {gr : Graph} {h : Str} {f : Fault} (hp : gr.parentsMust h = .error f) :
    f = notInTree ∧ ¬ gr.Known h := by
  unfold Graph.parentsMust at hp
  unfold Graph.Known
  cases hg : gr.parents.get h with
  | none => simp [hg] at hp; simp [hp]
  | some qs => simp [hg] at hp

theorem Graph.parentsOrNil_of_not_known {gr : Graph} {h : Str} (hk : ¬ gr.Known h) : gr.parentsOrNil h = [] := by
  unfold Graph.Known at hk
  unfold Graph.parentsOrNil
  cases hg : gr.parents.get h with
  | none => rfl
  | some qs => simp [hg] at hk

theorem closed_all (gr : Graph) (h₀ : Str) : ∀ h ∈ gr.univ h₀, ∀ ps, expAll gr h = .ok ps → ∀ p ∈ ps, p ∈ gr.univ h₀ := by
  intro h _ ps he p hp
  cases he
  exact gr.mem_univ_parents _ h p hp

theorem closed_stop (gr : Graph) (bh h₀ : Str) :
    ∀ h ∈ gr.univ h₀, ∀ ps, expStop gr bh h = .ok ps → ∀ p ∈ ps, p ∈ gr.univ h₀ := by
  intro h _ ps he p hp
  unfold expStop at he
  split at he
  · cases he; cases hp
  · obtain ⟨rfl, _⟩ := gr.parentsMust_ok he
    exact gr.mem_univ_parents _ h p hp

theorem closed_must (gr : Graph) (h₀ : Str) :
    ∀ h ∈ gr.univ h₀, ∀ ps, expMust gr h = .ok ps → ∀ p ∈ ps, p ∈ gr.univ h₀ := by
  intro h _ ps he p hp
  unfold expMust at he
  cases hm : gr.parentsMust h with
  | error e => rw [hm] at he; cases he
  | ok qs =>
    rw [hm] at he; cases he
    obtain ⟨rfl, _⟩ := gr.parentsMust_ok hm
    exact gr.mem_univ_parents _ h p (by simpa using hp)

theorem closed_branch (gr : Graph) (R : List Str) (h₀ : Str) :
    ∀ h ∈ gr.univ h₀, ∀ ps, expBranch gr R h = .ok ps → ∀ p ∈ ps, p ∈ gr.univ h₀ := by
  intro h _ ps he p hp
  unfold expBranch at he
  cases hm : gr.parentsMust h with
  | error e => rw [hm] at he; cases he
  | ok qs =>
    rw [hm] at he; cases he
    obtain ⟨rfl, _⟩ := gr.parentsMust_ok hm
    exact gr.mem_univ_parents _ h p (by simpa using (List.mem_filter.1 hp).1)

theorem closed_until (gr : Graph) (R : List Str) (h₀ : Str) :
    ∀ h ∈ gr.univ h₀, ∀ ps, expUntil gr R h = .ok ps → ∀ p ∈ ps, p ∈ gr.univ h₀ := by
  intro h _ ps he p hp
  cases he
  split at hp
  · cases hp
  · exact gr.mem_univ_parents _ h p hp

/-! ### Steps of the searches in terms of the parent relation -/

theorem step_all (gr : Graph) : Step (expAll gr) = gr.Parent := by
  funext a b; apply propext
  constructor
  · rintro ⟨ps, he, hb⟩; cases he; exact hb
  · intro hb; exact ⟨_, rfl, hb⟩

theorem step_must (gr : Graph) : Step (expMust gr) = gr.Parent := by
  funext a b; apply propext
  unfold Step expMust
  constructor
  · rintro ⟨ps, he, hb⟩
    cases hm : gr.parentsMust a with
    | error e => rw [hm] at he; cases he
    | ok qs =>
      rw [hm] at he; cases he
      obtain ⟨rfl, _⟩ := gr.parentsMust_ok hm
      simpa [Graph.Parent, Graph.parentsOf, Graph.parentsOrNil] using hb
  · intro hb
    have hk : gr.Known a := Classical.byContradiction fun hk => by
      have := gr.parentsOrNil_of_not_known hk
      simp only [Graph.Parent, Graph.parentsOf] at hb
      simp only [Graph.parentsOrNil] at this
      rw [this] at hb; cases hb
    exact ⟨(gr.parentsOrNil a).reverse, by rw [gr.parentsMust_of_known hk]; rfl,
      by simpa [Graph.Parent, Graph.parentsOf, Graph.parentsOrNil] using hb⟩

theorem known_of_parent {gr : Graph} {a b : Str} (hb : gr.Parent a b) : gr.Known a :=
  Classical.byContradiction fun hk => by
    have := gr.parentsOrNil_of_not_known hk
    simp only [Graph.Parent, Graph.parentsOf] at hb
    simp only [Graph.parentsOrNil] at this
    rw [this] at hb; cases hb

theorem step_stop (gr : Graph) (bh : Str) : Step (expStop gr bh) = fun a b => a ≠ bh ∧ gr.Parent a b := by
  funext a b; apply propext
  unfold Step expStop
  constructor
  · rintro ⟨ps, he, hb⟩
    split at he
    · cases he; cases hb
    · rename_i hne
      obtain ⟨rfl, _⟩ := gr.parentsMust_ok he
      exact ⟨hne, hb⟩
  · rintro ⟨hne, hb⟩
    refine ⟨gr.parentsOrNil a, ?_, hb⟩
    rw [if_neg hne, gr.parentsMust_of_known (known_of_parent hb)]

theorem step_branch (gr : Graph) (R : List Str) : Step (expBranch gr R) = fun a b => gr.Parent a b ∧ b ∉ R := by
  funext a b; apply propext
  unfold Step expBranch
  constructor
  · rintro ⟨ps, he, hb⟩
    cases hm : gr.parentsMust a with
    | error e => rw [hm] at he; cases he
    | ok qs =>
      rw [hm] at he; cases he
      obtain ⟨rfl, _⟩ := gr.parentsMust_ok hm
      rw [List.mem_filter] at hb
      exact ⟨List.mem_reverse.1 hb.1, by simpa using hb.2⟩
  · rintro ⟨hb, hR⟩
    refine ⟨(gr.parentsOrNil a).reverse.filter (fun p => decide (p ∉ R)), ?_, ?_⟩
    · rw [gr.parentsMust_of_known (known_of_parent hb)]; rfl
    · rw [List.mem_filter]; exact ⟨List.mem_reverse.2 hb, by simpa using hR⟩

theorem step_until (gr : Graph) (R : List Str) : Step (expUntil gr R) = fun a b => a ∉ R ∧ gr.Parent a b := by
  funext a b; apply propext
  unfold Step expUntil
  constructor
  · rintro ⟨ps, he, hb⟩
    cases he
    split at hb
    · cases hb
    · rename_i h; exact ⟨h, hb⟩
  · rintro ⟨h, hb⟩
    exact ⟨_, rfl, by rw [if_neg h]; exact hb⟩

/-! ### Results of the searches -/

theorem newReachable_spec (gr : Graph) (dh : Str) :
    ∃ R, newReachableFromHead gr dh = .ok R ∧ R.Nodup ∧ ∀ x, x ∈ R ↔ gr.Reach dh x := by
  obtain ⟨h1, h2⟩ := dfs_top (closed_all gr dh) (gr.mem_univ_self dh) (gr.univ_length dh)
  unfold newReachableFromHead
  have e := reachRec_eq gr gr.fuel dh []
  cases hd : dfs (expAll gr) gr.fuel dh [] with
  | error f =>
    obtain ⟨x, _, hx⟩ := h2 f hd
    cases hx
  | ok t =>
    obtain ⟨nd, _, hr, _⟩ := h1 t hd
    rw [hd] at e
    refine ⟨t, ?_, nd, ?_⟩
    · show (reachRec gr gr.fuel dh (dup2 [])).bind _ = _
      rw [e]; rfl
    · rw [step_all] at hr; exact hr

theorem until_spec (gr : Graph) (R : List Str) (h : Str) :
    ∃ t, dfs (expUntil gr R) gr.fuel h [] = .ok t ∧ t.Nodup ∧
      ∀ x, x ∈ t ↔ ReflTransGen (fun a b => a ∉ R ∧ gr.Parent a b) h x := by
  obtain ⟨h1, h2⟩ := dfs_top (closed_until gr R h) (gr.mem_univ_self h) (gr.univ_length h)
  cases hd : dfs (expUntil gr R) gr.fuel h [] with
  | error f =>
    obtain ⟨x, _, hx⟩ := h2 f hd
    cases hx
  | ok t =>
    obtain ⟨nd, _, hr, _⟩ := h1 t hd
    rw [step_until] at hr
    exact ⟨t, rfl, nd, hr⟩

theorem rfb_spec (gr : Graph) (R : List Str) (h : Str) :
    ∃ t, reachableFromBranchStopOnDefault gr R h = .ok t ∧ t.Nodup ∧
      ∀ x, x ∈ t ↔ ReflTransGen (fun a b => a ∉ R ∧ gr.Parent a b) h x := by
  obtain ⟨t, h1, h2, h3⟩ := until_spec gr R h
  refine ⟨t, ?_, h2, h3⟩
  unfold reachableFromBranchStopOnDefault
  have e := rfbRec_eq gr R gr.fuel h []
  rw [h1] at e
  show (rfbRec gr R gr.fuel h (dup2 [])).bind _ = _
  rw [e]; rfl

theorem behind_spec (gr : Graph) (R : List Str) (bh dh : Str) :
    ∃ rfb t : List Str, reachableFromBranchStopOnDefault gr R bh = .ok rfb ∧
      (∀ x, x ∈ rfb ↔ ReflTransGen (fun a b => a ∉ R ∧ gr.Parent a b) bh x) ∧
      t.Nodup ∧ (∀ x, x ∈ t ↔ ReflTransGen (fun a b => a ∉ rfb ∧ gr.Parent a b) dh x) ∧
      behindBranch gr R bh dh = .ok (t.filter (fun x => decide (x ∉ rfb))).length := by
  obtain ⟨rfb, h1, _, h3⟩ := rfb_spec gr R bh
  obtain ⟨t, g1, g2, g3⟩ := until_spec gr rfb dh
  refine ⟨rfb, t, h1, h3, g2, g3, ?_⟩
  unfold behindBranch
  rw [h1]
  have e := behindRec_eq gr rfb gr.fuel dh []
  rw [g1] at e
  show (behindRec gr rfb gr.fuel dh (behindProj rfb [])).bind _ = _
  rw [e]; rfl

/-- The walk over the branch. -/
theorem branchWalk_spec (gr : Graph) (R : List Str) (bh : Str) :
    (∀ f, branchRec gr R gr.fuel bh ⟨[], [], []⟩ = .error f → f = notInTree ∧
      ∃ x, ReflTransGen (fun a b => gr.Parent a b ∧ b ∉ R) bh x ∧ ¬ gr.Known x) ∧
    (∀ s, branchRec gr R gr.fuel bh ⟨[], [], []⟩ = .ok s → s.commits.Nodup ∧ s.commits.head? = some bh ∧
      (∀ x, x ∈ s.commits ↔ ReflTransGen (fun a b => gr.Parent a b ∧ b ∉ R) bh x) ∧
      (∀ x ∈ s.commits, gr.Known x) ∧
      (∀ x, x ∈ s.branchedFrom ↔ x ∈ R ∧ ∃ c ∈ s.commits, gr.Parent c x) ∧
      (∀ a x b, s.commits = a ++ x :: b → (x = bh ∧ a = []) ∨ ∃ c ∈ a, gr.Parent c x)) := by
  obtain ⟨h1, h2⟩ := dfs_top (closed_branch gr R bh) (gr.mem_univ_self bh) (gr.univ_length bh)
  obtain ⟨e1, e2⟩ := branchRec_eq gr R gr.fuel bh [] []
  cases hd : dfs (expBranch gr R) gr.fuel bh [] with
  | error f =>
    rw [e1 f hd]
    refine ⟨fun f' hf' => ?_, fun s hs => by cases hs⟩
    cases hf'
    obtain ⟨x, hx, he⟩ := h2 f hd
    rw [step_branch] at hx
    unfold expBranch at he
    cases hm : gr.parentsMust x with
    | ok qs => rw [hm] at he; cases he
    | error e =>
      rw [hm] at he
      cases he
      obtain ⟨rfl, hk⟩ := gr.parentsMust_error hm
      exact ⟨rfl, x, hx, hk⟩
  | ok t =>
    obtain ⟨new, nb, k1, k2, k3⟩ := e2 t hd
    rw [k2]
    refine ⟨fun f hf => (by cases hf), fun s hs => ?_⟩
    cases hs
    obtain ⟨nd, hh, hr, hk⟩ := h1 t hd
    rw [step_branch] at hr
    simp only [List.nil_append] at k1
    subst k1
    refine ⟨nd, hh, hr, ?_, ?_, ?_⟩
    · intro x hx
      obtain ⟨ps, hps⟩ := hk x hx
      unfold expBranch at hps
      cases hm : gr.parentsMust x with
      | error e => rw [hm] at hps; cases hps
      | ok qs => exact (gr.parentsMust_ok hm).2
    · intro x
      simp only [List.nil_append]
      exact k3 x
    · intro a x b hab
      obtain ⟨new, k1, k4⟩ := dfs_tree (expBranch gr R) gr.fuel bh [] _ hd
      simp only [List.nil_append] at k1
      subst k1
      rcases k4 a x b hab with h | ⟨c, hc, hs⟩
      · exact Or.inl h
      · rw [step_branch] at hs
        exact Or.inr ⟨c, hc, hs.1⟩

theorem reachStop_spec (gr : Graph) (bh dh : Str) :
    (∀ f, reachStopRec gr bh gr.fuel dh ⟨[], []⟩ = .error f → f = notInTree ∧
      ∃ x, ReflTransGen (fun a b => a ≠ bh ∧ gr.Parent a b) dh x ∧ ¬ gr.Known x) ∧
    (∀ s, reachStopRec gr bh gr.fuel dh ⟨[], []⟩ = .ok s →
      (∀ x, x ∈ s.res ↔ ReflTransGen (fun a b => a ≠ bh ∧ gr.Parent a b) dh x) ∧
      (∀ x ∈ s.res, x ≠ bh → gr.Known x)) := by
  obtain ⟨h1, h2⟩ := dfs_top (closed_stop gr bh dh) (gr.mem_univ_self dh) (gr.univ_length dh)
  have e : reachStopRec gr bh gr.fuel dh ⟨[], []⟩ = _ := reachStopRec_eq gr bh gr.fuel dh []
  rw [e]
  cases hd : dfs (expStop gr bh) gr.fuel dh [] with
  | error f =>
    refine ⟨fun f' hf' => ?_, fun s hs => by cases hs⟩
    cases hf'
    obtain ⟨x, hx, he⟩ := h2 f hd
    rw [step_stop] at hx
    unfold expStop at he
    split at he
    · cases he
    · obtain ⟨rfl, hk⟩ := gr.parentsMust_error he
      exact ⟨rfl, x, hx, hk⟩
  | ok t =>
    refine ⟨fun f hf => (by cases hf), fun s hs => ?_⟩
    cases hs
    obtain ⟨nd, hh, hr, hk⟩ := h1 t hd
    rw [step_stop] at hr
    refine ⟨hr, fun x hx hne => ?_⟩
    obtain ⟨ps, hps⟩ := hk x hx
    unfold expStop at hps
    rw [if_neg hne] at hps
    exact (gr.parentsMust_ok hps).2

/-! ### Deep search -/

/-- Some commit of the set is reachable. -/
def DeepHas (gr : Graph) (S : List Str) (x : Str) : Prop := ∃ y ∈ S, gr.Reach x y

theorem deepHas_iff (gr : Graph) (S : List Str) (x : Str) :
    DeepHas gr S x ↔ x ∈ S ∨ ∃ p, gr.Parent x p ∧ DeepHas gr S p := by
  constructor
  · rintro ⟨y, hy, hr⟩
    rcases ReflTransGen.cases_head hr with rfl | ⟨p, hp, hr⟩
    · exact Or.inl hy
    · exact Or.inr ⟨p, hp, y, hy, hr⟩
  · rintro (h | ⟨p, hp, y, hy, hr⟩)
    · exact ⟨x, h, ReflTransGen.refl⟩
    · exact ⟨y, hy, ReflTransGen.head hp hr⟩

/-- `hasDeep` holds the right answer for `x`. -/
def DeepOk (gr : Graph) (S : List Str) (m : GoMap Str Bool) (x : Str) : Prop :=
  ∃ b, m.get x = some b ∧ (b = true ↔ DeepHas gr S x)

/-- Guarantee of a (sub)search of `dedupLinearFromHead`. -/
structure DeepPost (gr : Graph) (S roots : List Str) (s t : DeepSt) : Prop where
  sub : ∀ x ∈ s.done, x ∈ t.done
  old : ∀ x ∈ s.done, t.hasDeep.get x = s.hasDeep.get x
  new : ∀ x ∈ t.done, x ∉ s.done → DeepOk gr S t.hasDeep x ∧ ∀ p, gr.Parent x p → p ∈ t.done
  mem : ∀ r ∈ roots, r ∈ t.done

theorem deepRec_spec (gr : Graph) (S U : List Str) (hac : gr.Acyclic)
    (hU : ∀ h ∈ U, ∀ p, gr.Parent h p → p ∈ U) (n : Nat) :
    ∀ h s, h ∈ U → undone U s.done < n →
      (∀ x ∈ s.done, DeepOk gr S s.hasDeep x ∨ gr.Anc x h) →
      ∃ t b, deepRec gr S n h s = .ok (t, b) ∧ (b = true ↔ DeepHas gr S h) ∧ DeepPost gr S [h] s t := by
  induction n with
  | zero => intro h s _ hn; omega
  | succ n ih =>
    intro h s hh hn hinv
    simp only [deepRec]
    by_cases hs : h ∈ s.done
    · rw [if_pos hs]
      rcases hinv h hs with ⟨b, hb, hb2⟩ | hc
      · exact ⟨s, b, by simp [hb], hb2, ⟨fun _ h => h, fun _ _ => rfl, fun x h1 h2 => absurd h1 h2, by simpa using hs⟩⟩
      · exact absurd hc (hac h)
    · rw [if_neg hs]
      have hlt := undone_lt U s.done h hh hs
      -- loop over the parents
      have loop : ∀ (qs : List Str) (u : DeepSt) (b0 : Bool), (∀ q ∈ qs, gr.Parent h q) →
          undone U u.done < n → (∀ x ∈ u.done, DeepOk gr S u.hasDeep x ∨ x = h ∨ gr.Anc x h) → h ∈ u.done →
          ∃ t b, qs.foldlM (fun (acc : DeepSt × Bool) p => do
              let (s, r) ← deepRec gr S n p acc.1
              return (s, if r then true else acc.2)) (u, b0) = (.ok (t, b) : Go (DeepSt × Bool)) ∧
            (b = true ↔ b0 = true ∨ ∃ q ∈ qs, DeepHas gr S q) ∧ DeepPost gr S qs u t := by
        intro qs
        induction qs with
        | nil =>
          intro u b0 _ _ _ _
          exact ⟨u, b0, rfl, by simp, ⟨fun _ h => h, fun _ _ => rfl, fun x h1 h2 => absurd h1 h2, by simp⟩⟩
        | cons q qs ihq =>
          intro u b0 hq hu hinv' hhu
          have hqh := hq q (by simp)
          obtain ⟨t1, b1, r1, r2, r3⟩ := ih q u (hU h hh q hqh) hu (by
            intro x hx
            rcases hinv' x hx with h1 | rfl | h1
            · exact Or.inl h1
            · exact Or.inr (TransGen.single hqh)
            · exact Or.inr (TransGen.tail h1 hqh))
          have hinv'' : ∀ x ∈ t1.done, DeepOk gr S t1.hasDeep x ∨ x = h ∨ gr.Anc x h := by
            intro x hx
            by_cases hxu : x ∈ u.done
            · rcases hinv' x hxu with ⟨b, hb, hb2⟩ | h1
              · exact Or.inl ⟨b, by rw [r3.old x hxu]; exact hb, hb2⟩
              · exact Or.inr h1
            · exact Or.inl (r3.new x hx hxu).1
          obtain ⟨t2, b2, k1, k2, k3⟩ := ihq t1 (if b1 then true else b0) (fun x hx => hq x (by simp [hx]))
            (Nat.lt_of_le_of_lt (undone_le U _ _ r3.sub) hu) hinv'' (r3.sub h hhu)
          refine ⟨t2, b2, ?_, ?_, ?_⟩
          · simp only [List.foldlM_cons, r1]
            exact k1
          · rw [k2]
            have e : (if b1 then true else b0) = true ↔ b1 = true ∨ b0 = true := by
              cases b1 <;> simp
            rw [e, r2]
            constructor
            · rintro ((h1 | h1) | ⟨x, hx, h1⟩)
              · exact Or.inr ⟨q, by simp, h1⟩
              · exact Or.inl h1
              · exact Or.inr ⟨x, by simp [hx], h1⟩
            · rintro (h1 | ⟨x, hx, h1⟩)
              · exact Or.inl (Or.inr h1)
              · rcases List.mem_cons.1 hx with rfl | hx
                · exact Or.inl (Or.inl h1)
                · exact Or.inr ⟨x, hx, h1⟩
          · constructor
            · exact fun x hx => k3.sub x (r3.sub x hx)
            · intro x hx; rw [k3.old x (r3.sub x hx), r3.old x hx]
            · intro x hx hxu
              by_cases h1 : x ∈ t1.done
              · obtain ⟨⟨b, hb, hb2⟩, hp⟩ := r3.new x h1 hxu
                exact ⟨⟨b, by rw [k3.old x h1]; exact hb, hb2⟩, fun p hp' => k3.sub p (hp p hp')⟩
              · exact k3.new x hx h1
            · intro r hr
              rcases List.mem_cons.1 hr with rfl | hr
              · exact k3.sub r (r3.mem r (by simp))
              · exact k3.mem r hr
      obtain ⟨t, b, l1, l2, l3⟩ := loop (gr.parentsOrNil h) { s with done := s.done ++ [h] } (decide (h ∈ S))
        (fun q hq => hq) (by simpa using by omega) (by
          intro x hx
          simp only [List.mem_append, List.mem_singleton] at hx
          rcases hx with hx | rfl
          · rcases hinv x hx with h1 | h1
            · exact Or.inl h1
            · exact Or.inr (Or.inr h1)
          · exact Or.inr (Or.inl rfl)) (by simp)
      have hb : b = true ↔ DeepHas gr S h := by
        rw [l2, deepHas_iff gr S h]
        simp only [decide_eq_true_eq]
        rfl
      refine ⟨{ t with hasDeep := t.hasDeep.set h b }, b, ?_, hb, ?_⟩
      · rw [l1]; rfl
      · have hht : h ∈ t.done := l3.sub h (by simp)
        constructor
        · intro x hx; exact l3.sub x (by simp [hx])
        · intro x hx
          have : h ≠ x := fun hc => hs (hc ▸ hx)
          simp only [GoMap.get_set_ne _ _ this]
          exact l3.old x (by simp [hx])
        · intro x hx hxs
          by_cases hxh : x = h
          · subst hxh
            exact ⟨⟨b, by simp, hb⟩, fun p hp => l3.mem p hp⟩
          · have hxh' : h ≠ x := Ne.symm hxh
            obtain ⟨⟨b', hb', hb2⟩, hp⟩ := l3.new x hx (by simp [hxs, hxh])
            exact ⟨⟨b', by simp only [GoMap.get_set_ne _ _ hxh']; exact hb', hb2⟩, hp⟩
        · simpa using hht

theorem mem_toSet_aux (l s : List Str) (x : Str) :
    x ∈ l.foldl (fun s v => if v ∈ s then s else s ++ [v]) s ↔ x ∈ s ∨ x ∈ l := by
  induction l generalizing s with
  | nil => simp
  | cons v l ih =>
    simp only [List.foldl_cons, ih, List.mem_cons]
    split
    · rename_i h
      constructor
      · rintro (h1 | h1) <;> simp [h1]
      · rintro (h1 | rfl | h1) <;> simp [*]
    · simp only [List.mem_append, List.mem_singleton]
      constructor
      · rintro ((h1 | h1) | h1) <;> simp [h1]
      · rintro (h1 | h1 | h1) <;> simp [h1]

theorem nodup_toSet_aux (l s : List Str) (hs : s.Nodup) :
    (l.foldl (fun s v => if v ∈ s then s else s ++ [v]) s).Nodup := by
  induction l generalizing s with
  | nil => exact hs
  | cons v l ih =>
    simp only [List.foldl_cons]
    apply ih
    split
    · exact hs
    · rename_i h
      rw [List.nodup_append]
      refine ⟨hs, by simp, ?_⟩
      intro a ha b hb hab
      simp only [List.mem_singleton] at hb
      subst hb hab
      exact h ha

theorem mem_toSet (l : List Str) (x : Str) : x ∈ toSet l ↔ x ∈ l := by
  unfold toSet; rw [mem_toSet_aux]; simp

theorem nodup_toSet (l : List Str) : (toSet l).Nodup := nodup_toSet_aux l [] (by simp)

/-- `dedupLinearFromHead` keeps exactly the commits below which there is no other commit of the list. -/
theorem dedup_spec (gr : Graph) (hac : gr.Acyclic) (l : List Str) (h : Str) (perm : List Str → List Str)
    (hperm : ∀ s, (perm s).Perm s) (hreach : ∀ x ∈ l, gr.Reach h x) :
    ∃ r, dedupLinearFromHead gr l h perm = .ok r ∧ r.Nodup ∧ Sorted strLe r ∧
      ∀ x, x ∈ r ↔ x ∈ l ∧ ∀ y ∈ l, ¬ gr.Anc x y := by
  obtain ⟨t, b, e1, _, e3⟩ := deepRec_spec gr (toSet l) (gr.univ h) hac
    (fun x _ p hp => gr.mem_univ_parents h x p hp) gr.fuel h ⟨[], []⟩ (gr.mem_univ_self h)
    (Nat.lt_of_le_of_lt (undone_le_length _ _) (gr.univ_length h)) (by simp)
  have hall : ∀ x, gr.Reach h x → x ∈ t.done := by
    intro x hx
    induction hx with
    | refl => exact e3.mem h (by simp)
    | tail _ hp ih => exact (e3.new _ ih (by simp)).2 _ hp
  have hdeep : ∀ x, gr.Reach h x → ((t.hasDeep.get x).getD false = true ↔ DeepHas gr (toSet l) x) := by
    intro x hx
    obtain ⟨⟨b, hb, hb2⟩, _⟩ := e3.new x (hall x hx) (by simp)
    rw [hb]; simpa using hb2
  unfold dedupLinearFromHead
  simp only [e1]
  refine ⟨_, rfl, ?_, sortStrings_sorted _, ?_⟩
  · exact ((sortStrings_perm _).nodup_iff).2 (((hperm _).nodup_iff.2 (nodup_toSet l)).filter _)
  · intro x
    rw [mem_sortStrings, List.mem_filter, (hperm _).mem_iff, mem_toSet]
    constructor
    · rintro ⟨hx, hd⟩
      refine ⟨hx, fun y hy hanc => ?_⟩
      rcases TransGen.head'_iff.1 hanc with ⟨p, hp, hr⟩
      have hpr : gr.Reach h p := ReflTransGen.tail (hreach x hx) hp
      have : (t.hasDeep.get p).getD false = true := (hdeep p hpr).2 ⟨y, (mem_toSet l y).2 hy, hr⟩
      simp only [Bool.not_eq_true', List.any_eq_false] at hd
      exact hd p hp this
    · rintro ⟨hx, hno⟩
      refine ⟨hx, ?_⟩
      simp only [Bool.not_eq_true', List.any_eq_false]
      intro p hp hc
      obtain ⟨y, hy, hr⟩ := (hdeep p (ReflTransGen.tail (hreach x hx) hp)).1 hc
      exact hno y ((mem_toSet l y).1 hy) (TransGen.head'_iff.2 ⟨p, hp, hr⟩)

end Ripsrc
