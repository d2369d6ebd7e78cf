import Verif.Model.Branches
import Mathlib.Logic.Relation
/-!
# Generic depth-first search with a `done` list (preorder), and its characterisation
-/
namespace Ripsrc

/-- Generic depth first search. -/
def dfs (expand : Str → Go (List Str)) : Nat → Str → List Str → Go (List Str)
  | 0, _, _ => .error outOfFuel
  | n + 1, h, s =>
    if h ∈ s then .ok s
    else do
      let ps ← expand h
      ps.foldlM (fun s p => dfs expand n p s) (s ++ [h])

/-- One step of the search graph. -/
def Step (expand : Str → Go (List Str)) (a b : Str) : Prop := ∃ ps, expand a = .ok ps ∧ b ∈ ps

/-- Number of elements of `U` not yet visited. -/
def undone (U s : List Str) : Nat := (U.filter (fun x => !decide (x ∈ s))).length

theorem undone_le (U s t : List Str) (h : ∀ x ∈ s, x ∈ t) : undone U t ≤ undone U s := by
  unfold undone
  induction U with
  | nil => simp
  | cons u U ih =>
    simp only [List.filter_cons]
    by_cases hs : u ∈ s
    · simp [hs, h u hs, ih]
    · by_cases ht : u ∈ t
      · simp [hs, ht]; omega
      · simp [hs, ht, ih]

theorem undone_lt (U s : List Str) (h : Str) (hU : h ∈ U) (hs : h ∉ s) : undone U (s ++ [h]) < undone U s := by
  unfold undone
  induction U with
  | nil => cases hU
  | cons u U ih =>
    have hle : ∀ V : List Str, (V.filter (fun x => !decide (x ∈ s ++ [h]))).length
        ≤ (V.filter (fun x => !decide (x ∈ s))).length := fun V => undone_le V s (s ++ [h]) (by simp +contextual)
    by_cases hu : u = h
    · subst hu
      have := hle U
      simp only [List.filter_cons]
      simp [hs] at *
      omega
    · have hU' : h ∈ U := by
        rcases List.mem_cons.1 hU with h1 | h1
        · exact absurd h1.symm hu
        · exact h1
      have := ih hU'
      simp only [List.filter_cons]
      by_cases hus : u ∈ s
      · simpa [hus] using this
      · simp [hus, hu] at *
        omega

theorem undone_le_length (U s : List Str) : undone U s ≤ U.length := List.length_filter_le _ _

/-- What a (sub)search guarantees when it succeeds. -/
structure DfsOk (expand : Str → Go (List Str)) (roots : List Str) (s t : List Str) : Prop where
  ext : ∃ new, t = s ++ new ∧ new.Nodup ∧ (∀ x ∈ new, x ∉ s) ∧
    (∀ x ∈ new, (∃ r ∈ roots, Relation.ReflTransGen (Step expand) r x) ∧
      ∃ ps, expand x = .ok ps ∧ ∀ p ∈ ps, p ∈ t)
  mem : ∀ r ∈ roots, r ∈ t

theorem DfsOk.sub {expand roots s t} (h : DfsOk expand roots s t) : ∀ x ∈ s, x ∈ t := by
  obtain ⟨new, rfl, _⟩ := h.ext
  intro x hx; simp [hx]

theorem DfsOk.nil (expand : Str → Go (List Str)) (s : List Str) : DfsOk expand [] s s :=
  ⟨⟨[], by simp, by simp, by simp, by simp⟩, by simp⟩

theorem DfsOk.trans {expand r₁ r₂ s t u} (h₁ : DfsOk expand r₁ s t) (h₂ : DfsOk expand r₂ t u) :
    DfsOk expand (r₁ ++ r₂) s u := by
  obtain ⟨n₁, rfl, nd₁, dj₁, p₁⟩ := h₁.ext
  obtain ⟨n₂, rfl, nd₂, dj₂, p₂⟩ := h₂.ext
  constructor
  · refine ⟨n₁ ++ n₂, by simp, ?_, ?_, ?_⟩
    · rw [List.nodup_append]
      refine ⟨nd₁, nd₂, ?_⟩
      intro a ha b hb hab
      subst hab
      exact dj₂ a hb (by simp [ha])
    · intro x hx
      rcases List.mem_append.1 hx with h | h
      · exact dj₁ x h
      · intro hc; exact dj₂ x h (by simp [hc])
    · intro x hx
      rcases List.mem_append.1 hx with h | h
      · obtain ⟨⟨r, hr, hrx⟩, ps, hps, hin⟩ := p₁ x h
        exact ⟨⟨r, by simp [hr], hrx⟩, ps, hps, fun p hp => h₂.sub p (hin p hp)⟩
      · obtain ⟨⟨r, hr, hrx⟩, ps, hps, hin⟩ := p₂ x h
        exact ⟨⟨r, by simp [hr], hrx⟩, ps, hps, hin⟩
  · intro r hr
    rcases List.mem_append.1 hr with h | h
    · exact h₂.sub r (h₁.mem r h)
    · exact h₂.mem r h

/-- Outcome of a search: success with `DfsOk`, or the error of a reachable node. -/
def DfsOut (expand : Str → Go (List Str)) (roots : List Str) (s : List Str) : Go (List Str) → Prop
  | .ok t => DfsOk expand roots s t
  | .error f => ∃ r ∈ roots, ∃ x, Relation.ReflTransGen (Step expand) r x ∧ expand x = .error f

theorem foldlM_out (expand : Str → Go (List Str)) (n : Nat) (U : List Str)
    (ih : ∀ h s, h ∈ U → undone U s < n → DfsOut expand [h] s (dfs expand n h s))
    (ps : List Str) (s : List Str) (hU : ∀ p ∈ ps, p ∈ U) (hn : undone U s < n) :
    DfsOut expand ps s (ps.foldlM (fun s p => dfs expand n p s) s) := by
  induction ps generalizing s with
  | nil => exact DfsOk.nil expand s
  | cons p ps ihp =>
    simp only [List.foldlM_cons]
    have h1 := ih p s (hU p (by simp)) hn
    cases hd : dfs expand n p s with
    | error f =>
      rw [hd] at h1
      obtain ⟨r, hr, x, hx, he⟩ := h1
      simp only [List.mem_singleton] at hr
      subst hr
      exact ⟨r, by simp, x, hx, he⟩
    | ok t =>
      rw [hd] at h1
      have h1 : DfsOk expand [p] s t := h1
      have h2 := ihp t (fun q hq => hU q (by simp [hq])) (Nat.lt_of_le_of_lt (undone_le U s t h1.sub) hn)
      show DfsOut expand (p :: ps) s (ps.foldlM (fun s p => dfs expand n p s) t)
      cases hf : ps.foldlM (fun s p => dfs expand n p s) t with
      | error f =>
        rw [hf] at h2
        obtain ⟨r, hr, rest⟩ := h2
        exact ⟨r, by simp [hr], rest⟩
      | ok u =>
        rw [hf] at h2
        exact DfsOk.trans h1 h2

/-- **Main lemma.** With more fuel than unvisited nodes, the search never runs out of fuel: it succeeds with the
reachable closure or reports the error of a reachable node. -/
theorem dfs_out (expand : Str → Go (List Str)) (U : List Str)
    (hU : ∀ h ∈ U, ∀ ps, expand h = .ok ps → ∀ p ∈ ps, p ∈ U) (n : Nat) :
    ∀ h s, h ∈ U → undone U s < n → DfsOut expand [h] s (dfs expand n h s) := by
  induction n with
  | zero => intro h s _ hn; omega
  | succ n ih =>
    intro h s hh hn
    simp only [dfs]
    by_cases hs : h ∈ s
    · rw [if_pos hs]
      exact ⟨⟨[], by simp, by simp, by simp, by simp⟩, by simpa using hs⟩
    · rw [if_neg hs]
      cases he : expand h with
      | error f => exact ⟨h, by simp, h, Relation.ReflTransGen.refl, he⟩
      | ok ps =>
        show DfsOut expand [h] s (ps.foldlM (fun s p => dfs expand n p s) (s ++ [h]))
        have hlt := undone_lt U s h hh hs
        have hf := foldlM_out expand n U ih ps (s ++ [h]) (fun p hp => hU h hh ps he p hp) (by omega)
        cases hd : ps.foldlM (fun s p => dfs expand n p s) (s ++ [h]) with
        | error f =>
          rw [hd] at hf
          obtain ⟨r, hr, x, hx, hex⟩ := hf
          exact ⟨h, by simp, x, Relation.ReflTransGen.head ⟨ps, he, hr⟩ hx, hex⟩
        | ok t =>
          rw [hd] at hf
          have hf : DfsOk expand ps (s ++ [h]) t := hf
          obtain ⟨new, rfl, nd, dj, pr⟩ := hf.ext
          refine ⟨⟨h :: new, by simp, ?_, ?_, ?_⟩, by simp⟩
          · rw [List.nodup_cons]
            exact ⟨fun hc => dj h hc (by simp), nd⟩
          · intro x hx
            rcases List.mem_cons.1 hx with rfl | hx
            · exact hs
            · intro hc; exact dj x hx (by simp [hc])
          · intro x hx
            rcases List.mem_cons.1 hx with rfl | hx
            · exact ⟨⟨x, by simp, Relation.ReflTransGen.refl⟩, ps, he, fun p hp => hf.mem p hp⟩
            · obtain ⟨⟨r, hr, hrx⟩, q⟩ := pr x hx
              exact ⟨⟨h, by simp, Relation.ReflTransGen.head ⟨ps, he, hr⟩ hrx⟩, q⟩

/-- The search from an empty `done` set. -/
theorem dfs_top {expand : Str → Go (List Str)} {U : List Str}
    (hU : ∀ h ∈ U, ∀ ps, expand h = .ok ps → ∀ p ∈ ps, p ∈ U) {n : Nat} {h : Str} (hh : h ∈ U)
    (hn : U.length < n) :
    (∀ t, dfs expand n h [] = .ok t → t.Nodup ∧ t.head? = some h ∧
      (∀ x, x ∈ t ↔ Relation.ReflTransGen (Step expand) h x) ∧ (∀ x ∈ t, ∃ ps, expand x = .ok ps)) ∧
    (∀ f, dfs expand n h [] = .error f → ∃ x, Relation.ReflTransGen (Step expand) h x ∧ expand x = .error f) := by
  have h0 := dfs_out expand U hU n h [] hh (Nat.lt_of_le_of_lt (undone_le_length U []) hn)
  constructor
  · intro t ht
    have hhead : t.head? = some h := by
      cases n with
      | zero => omega
      | succ n =>
        simp only [dfs, List.not_mem_nil, if_false] at ht
        cases he : expand h with
        | error f => rw [he] at ht; cases ht
        | ok ps =>
          rw [he] at ht
          have ht : ps.foldlM (fun s p => dfs expand n p s) ([] ++ [h]) = .ok t := ht
          have hlt := undone_lt U [] h hh (by simp)
          have hle := undone_le_length U []
          have := foldlM_out expand n U (dfs_out expand U hU n) ps ([] ++ [h])
            (fun p hp => hU h hh ps he p hp) (by omega)
          rw [ht] at this
          have this : DfsOk expand ps ([] ++ [h]) t := this
          obtain ⟨new, rfl, _⟩ := this.ext
          simp
    rw [ht] at h0
    have h0 : DfsOk expand [h] [] t := h0
    obtain ⟨new, hnew, nd, _, pr⟩ := h0.ext
    simp only [List.nil_append] at hnew
    subst hnew
    refine ⟨nd, hhead, ?_, fun x hx => ?_⟩
    · intro x
      constructor
      · intro hx
        obtain ⟨⟨r, hr, hrx⟩, _⟩ := pr x hx
        simp only [List.mem_singleton] at hr
        exact hr ▸ hrx
      · intro hx
        induction hx with
        | refl => exact h0.mem h (by simp)
        | tail _ hs ih =>
          obtain ⟨_, ps, hps, hin⟩ := pr _ ih
          obtain ⟨qs, hqs, hm⟩ := hs
          rw [hps] at hqs
          cases hqs
          exact hin _ hm
    · obtain ⟨_, ps, hps, _⟩ := pr x hx
      exact ⟨ps, hps⟩
  · intro f hf
    rw [hf] at h0
    obtain ⟨r, hr, x, hx, he⟩ := h0
    simp only [List.mem_singleton] at hr
    exact ⟨x, hr ▸ hx, he⟩

/-- In the result of a search each node but the first is preceded by a node that has it in its expansion. -/
theorem dfs_tree (expand : Str → Go (List Str)) (n : Nat) :
    ∀ h s t, dfs expand n h s = .ok t → ∃ new, t = s ++ new ∧
      ∀ a x b, new = a ++ x :: b → (x = h ∧ a = []) ∨ ∃ c ∈ a, Step expand c x := by
  induction n with
  | zero => intro h s t ht; cases ht
  | succ n ih =>
    intro h s t ht
    simp only [dfs] at ht
    by_cases hs : h ∈ s
    · rw [if_pos hs] at ht
      cases ht
      exact ⟨[], by simp, by simp⟩
    · rw [if_neg hs] at ht
      cases he : expand h with
      | error f => rw [he] at ht; cases ht
      | ok ps =>
        rw [he] at ht
        have ht : ps.foldlM (fun s p => dfs expand n p s) (s ++ [h]) = .ok t := ht
        have key : ∀ (qs : List Str) (u v : List Str), (∀ q ∈ qs, q ∈ ps) →
            qs.foldlM (fun s p => dfs expand n p s) u = .ok v →
            ∃ new, v = u ++ new ∧ ∀ a x b, new = a ++ x :: b → x ∈ ps ∨ ∃ c ∈ a, Step expand c x := by
          intro qs
          induction qs with
          | nil => intro u v _ hv; cases hv; exact ⟨[], by simp, by simp⟩
          | cons q qs ihq =>
            intro u v hq hv
            simp only [List.foldlM_cons] at hv
            cases hd : dfs expand n q u with
            | error f => rw [hd] at hv; cases hv
            | ok w =>
              rw [hd] at hv
              have hv : qs.foldlM (fun s p => dfs expand n p s) w = .ok v := hv
              obtain ⟨n₁, rfl, p₁⟩ := ih q u w hd
              obtain ⟨n₂, rfl, p₂⟩ := ihq _ v (fun x hx => hq x (by simp [hx])) hv
              refine ⟨n₁ ++ n₂, by simp, ?_⟩
              intro a x b hab
              rw [List.append_eq_append_iff] at hab
              rcases hab with ⟨as, h1, h2⟩ | ⟨bs, h1, h2⟩
              · rcases p₂ as x b h2 with h3 | ⟨c, hc, h3⟩
                · exact Or.inl h3
                · exact Or.inr ⟨c, by simp [h1, hc], h3⟩
              · cases bs with
                | nil =>
                  simp only [List.nil_append] at h2
                  rcases p₂ [] x b (by simp [h2]) with h3 | ⟨c, hc, _⟩
                  · exact Or.inl h3
                  · cases hc
                | cons y bs =>
                  simp only [List.cons_append, List.cons.injEq] at h2
                  obtain ⟨rfl, _⟩ := h2
                  rcases p₁ a x bs h1 with ⟨rfl, _⟩ | h3
                  · exact Or.inl (hq x (by simp))
                  · exact Or.inr h3
        obtain ⟨new, rfl, pr⟩ := key ps (s ++ [h]) t (fun _ h => h) ht
        refine ⟨h :: new, by simp, ?_⟩
        intro a x b hab
        cases a with
        | nil =>
          simp only [List.nil_append, List.cons.injEq] at hab
          exact Or.inl ⟨hab.1.symm, rfl⟩
        | cons y a =>
          simp only [List.cons_append, List.cons.injEq] at hab
          obtain ⟨rfl, hab⟩ := hab
          right
          rcases pr a x b hab with h1 | ⟨c, hc, h1⟩
          · exact ⟨h, by simp, ps, he, h1⟩
          · exact ⟨c, by simp [hc], h1⟩

end Ripsrc
