import Verif.Spec.History
/-!
# Lemmas about histories
-/
namespace Ripsrc
open Spec Relation

theorem history_ok_append {before a b : History} : History.Ok before (a ++ b) ↔ History.Ok before a ∧ History.Ok (before ++ a) b := by
  induction a generalizing before with
  | nil => simp [History.Ok]
  | cons c a ih =>
    simp only [List.cons_append, History.Ok, ih, List.append_assoc]
    simp only [List.nil_append, and_assoc]

theorem history_ok_at {a r : History} {c : HCommit} (h : History.Ok [] (a ++ c :: r)) : c.Ok a := by
  have := (history_ok_append.1 h).2
  simp only [List.nil_append] at this
  exact this.1

theorem nodup_map_inj {α β : Type} {f : α → β} {l : List α} (h : (l.map f).Nodup) {x y : α} (hx : x ∈ l) (hy : y ∈ l)
    (he : f x = f y) : x = y := by
  induction l with
  | nil => cases hx
  | cons a l ih =>
    rw [List.map_cons, List.nodup_cons] at h
    rcases List.mem_cons.1 hx with hx' | hx'
    · rcases List.mem_cons.1 hy with hy' | hy'
      · rw [hx', hy']
      · subst hx'
        exact absurd (he ▸ List.mem_map_of_mem hy') h.1
    · rcases List.mem_cons.1 hy with hy' | hy'
      · subst hy'
        exact absurd (he ▸ List.mem_map_of_mem hx') h.1
      · exact ih h.2 hx' hy'

theorem history_nodup_aux {before H : History} (h : History.Ok before H) :
    (H.map (·.hash)).Nodup ∧ ∀ x ∈ before, ∀ y ∈ H, x.hash ≠ y.hash := by
  induction H generalizing before with
  | nil => simp
  | cons c H ih =>
    obtain ⟨h1, h2⟩ := h
    obtain ⟨g1, g2⟩ := ih h2
    refine ⟨?_, ?_⟩
    · rw [List.map_cons, List.nodup_cons]
      refine ⟨?_, g1⟩
      intro hm
      obtain ⟨y, hy, he⟩ := List.mem_map.1 hm
      exact g2 c (by simp) y hy he.symm
    · intro x hx y hy
      rcases List.mem_cons.1 hy with rfl | hy
      · exact h1.new x hx
      · exact g2 x (by simp [hx]) y hy

theorem history_nodup {H : History} (h : History.Ok [] H) : (H.map (·.hash)).Nodup := (history_nodup_aux h).1

theorem hash_inj {H : History} (h : History.Ok [] H) {x y : HCommit} (hx : x ∈ H) (hy : y ∈ H) (he : x.hash = y.hash) : x = y :=
  nodup_map_inj (history_nodup h) hx hy he

theorem commit?_of_mem {H : History} (h : History.Ok [] H) {c : HCommit} (hc : c ∈ H) : H.commit? c.hash = some c := by
  unfold History.commit?
  cases hf : H.find? (fun x => decide (x.hash = c.hash)) with
  | none =>
    rw [List.find?_eq_none] at hf
    exact absurd (decide_eq_true rfl) (hf c hc)
  | some x =>
    have h1 := List.mem_of_find?_eq_some hf
    have h2 := List.find?_some hf
    rw [hash_inj h h1 hc (by simpa using h2)]

theorem treeOf_of_mem {H : History} (h : History.Ok [] H) {c : HCommit} (hc : c ∈ H) : H.treeOf c.hash = c.tree := by
  unfold History.treeOf; rw [commit?_of_mem h hc]

theorem treeOf_prefix {H a r : History} (h : History.Ok [] H) (hs : H = a ++ r) {q : Str} (hq : ∃ x ∈ a, x.hash = q) :
    a.treeOf q = H.treeOf q := by
  obtain ⟨x, hx, rfl⟩ := hq
  subst hs
  rw [treeOf_of_mem h (List.mem_append_left _ hx), treeOf_of_mem (history_ok_append.1 h).1 hx]

/-- A parent of an earlier commit is an earlier commit. -/
theorem parent_before {H a r : History} (h : History.Ok [] H) (hs : H = a ++ r) {q p : Str} (hq : ∃ x ∈ a, x.hash = q)
    (hp : H.Parent q p) : ∃ x ∈ a, x.hash = p := by
  obtain ⟨x, hx, rfl⟩ := hq
  obtain ⟨y, hy, he, hp⟩ := hp
  subst hs
  have hxy : y = x := hash_inj h hy (List.mem_append_left _ hx) he
  subst hxy
  obtain ⟨a1, a2, rfl⟩ := List.append_of_mem hx
  have hok : y.Ok a1 := history_ok_at (r := a2 ++ r) (by simpa using h)
  obtain ⟨z, hz, rfl⟩ := hok.parentsKnown p hp
  exact ⟨z, List.mem_append_left _ hz, rfl⟩

theorem reach_before {H a r : History} (h : History.Ok [] H) (hs : H = a ++ r) {q o : Str} (hq : ∃ x ∈ a, x.hash = q)
    (hr : H.Reach q o) : ∃ x ∈ a, x.hash = o := by
  induction hr with
  | refl => exact hq
  | tail _ hp ih => exact parent_before h hs ih hp

/-- The origin of a line is the commit itself or an ancestor. -/
theorem origin_reach {H : History} {G : Str → Str → List Str} (hG : ∀ c ∈ H, ∀ p, ∀ o ∈ G c.hash p, H.Reach c.hash o)
    {c p : Str} {j : Nat} {o : Str} (h : Origin H G c p j o) : H.Reach c o := by
  have step : ∀ {x : HCommit} {q o : Str}, x ∈ H → q ∈ x.parents → H.Reach q o → H.Reach x.hash o :=
    fun hx hq hr => ReflTransGen.head ⟨_, hx, rfl, hq⟩ hr
  have mem : ∀ {x : HCommit} {p q : Str} {g : Option FileChange}, (q, g) ∈ x.changesAt p → q ∈ x.parents := by
    intro x p q g hm
    obtain ⟨y, hy, he⟩ := List.mem_map.1 hm
    cases he
    exact (List.of_mem_zip hy).1
  induction h with
  | added hc _ _ _ _ _ _ => exact .refl
  | kept hc hp _ _ _ _ _ _ _ ih => exact step hc (by rw [hp]; simp) ih
  | blamed hc _ _ _ _ _ _ hg => exact hG _ hc _ _ (List.mem_of_getElem? hg)
  | untouched hc hp _ _ _ _ ih => exact step hc (by rw [hp]; simp) ih
  | mergeSame hc _ _ _ hf _ ih => exact step hc (mem (List.mem_of_find?_eq_some hf)) ih
  | mergeUntouched hc _ _ _ hl _ ih => exact step hc (List.mem_of_getLast? hl) ih
  | mergeKept hc _ _ _ he _ _ _ ih => exact step hc (mem (g := some _) (by rw [he]; simp; exact Or.inr (Or.inl rfl))) ih
  | mergeAdded hc _ _ _ => exact .refl

/-- Inversion of `IsBin` for a regular commit. -/
theorem isBin_regular {H : History} (h : History.Ok [] H) {c : HCommit} (hc : c ∈ H) (hreg : c.Regular) {cs : List FileChange}
    (hcs : c.diffs = [cs]) {p : Str} (hb : IsBin H c.hash p) :
    (∃ f, changeOf cs p = some f ∧ (f.body = .binary ∨ ∃ q, c.parents = [q] ∧ f.kind.prev ≠ [] ∧ f.kind.prev ≠ p ∧
      f.body.noPatch = true ∧ IsBin H q f.kind.prev)) ∨
    (changeOf cs p = none ∧ ∃ q, c.parents = [q] ∧ IsBin H q p) := by
  generalize hh : c.hash = ch at hb
  cases hb with
  | @change c' cs' f _ hm hr hd hp hf hbin =>
    have := hash_inj h hc hm hh
    subst this
    rw [hcs] at hd; cases hd
    exact Or.inl ⟨f, hf, Or.inl hbin⟩
  | @moved c' cs' f _ q hm hpar hd hp hf h1 h2 h3 h4 =>
    have := hash_inj h hc hm hh
    subst this
    rw [hcs] at hd; cases hd
    exact Or.inl ⟨f, hf, Or.inr ⟨q, hpar, h1, h2, h3, h4⟩⟩
  | @untouched c' cs' _ q hm hpar hd hf hb =>
    have := hash_inj h hc hm hh
    subst this
    rw [hcs] at hd; cases hd
    exact Or.inr ⟨hf, q, hpar, hb⟩
  | mergeChange hm hr => have := hash_inj h hc hm hh; subst this; exact absurd hreg hr
  | mergeParent hm hr => have := hash_inj h hc hm hh; subst this; exact absurd hreg hr
  | mergeSame hm hr => have := hash_inj h hc hm hh; subst this; exact absurd hreg hr
  | mergeUntouched hm hr => have := hash_inj h hc hm hh; subst this; exact absurd hreg hr

/-- Inversion of `IsBin` for a merge. -/
theorem isBin_merge {H : History} (h : History.Ok [] H) {c : HCommit} (hc : c ∈ H) (hreg : ¬ c.Regular) {p : Str}
    (hb : IsBin H c.hash p) :
    (∃ q f, (q, some f) ∈ c.changesAt p ∧ (f.body = .binary ∨ (f.kind.prev ≠ [] ∧ IsBin H q f.kind.prev))) ∨
    ((∃ x ∈ c.changesAt p, x.2 ≠ none) ∧ ∃ q, (c.changesAt p).find? (fun x => x.2.isNone) = some (q, none) ∧ IsBin H q p) ∨
    ((∀ x ∈ c.changesAt p, x.2 = none) ∧ ∃ q, c.parents.getLast? = some q ∧ IsBin H q p) := by
  have reg : ∀ {x : HCommit} {q : Str}, x.parents = [q] → x.Regular := fun hx => by unfold HCommit.Regular; rw [hx]; simp
  generalize hh : c.hash = ch at hb
  cases hb with
  | change hm hr => have := hash_inj h hc hm hh; subst this; exact absurd hr hreg
  | moved hm hpar => have := hash_inj h hc hm hh; subst this; exact absurd (reg hpar) hreg
  | untouched hm hpar => have := hash_inj h hc hm hh; subst this; exact absurd (reg hpar) hreg
  | mergeChange hm hr hp hx hbin =>
    have := hash_inj h hc hm hh; subst this
    exact Or.inl ⟨_, _, hx, Or.inl hbin⟩
  | mergeParent hm hr hp hx hprev hbin =>
    have := hash_inj h hc hm hh; subst this
    exact Or.inl ⟨_, _, hx, Or.inr ⟨hprev, hbin⟩⟩
  | mergeSame hm hr hx hf hbin =>
    have := hash_inj h hc hm hh; subst this
    exact Or.inr (Or.inl ⟨hx, _, hf, hbin⟩)
  | mergeUntouched hm hr hx hl hbin =>
    have := hash_inj h hc hm hh; subst this
    exact Or.inr (Or.inr ⟨hx, _, hl, hbin⟩)

theorem changeOf_some {cs : List FileChange} {p : Str} {f : FileChange} (h : changeOf cs p = some f) : f ∈ cs ∧ f.kind.next = p :=
  ⟨List.mem_of_find?_eq_some h, by simpa using List.find?_some h⟩

theorem changeOf_none {cs : List FileChange} {p : Str} (h : changeOf cs p = none) : ∀ f ∈ cs, f.kind.next ≠ p := by
  unfold changeOf at h
  rw [List.find?_eq_none] at h
  intro f hf
  simpa using h f hf

/-- The change with a given result is unique. -/
theorem changeOf_of_mem {cs : List FileChange} (hn : (cs.map FileChange.target).Nodup) {f : FileChange} (hf : f ∈ cs)
    (hne : f.kind.next ≠ []) : changeOf cs f.kind.next = some f := by
  cases hc : changeOf cs f.kind.next with
  | none => exact absurd rfl (changeOf_none hc f hf)
  | some g =>
    obtain ⟨hg, he⟩ := changeOf_some hc
    have ht : g.target = f.target := by
      unfold FileChange.target
      rw [he, if_neg hne, if_neg hne]
    rw [nodup_map_inj hn hg hf ht]

theorem Spec.NameOk.ne {p : Str} (h : NameOk p) : p ≠ [] := by
  rcases h with h | h
  · exact h.1
  · rintro rfl
    exact absurd h.1 (by simp)

theorem next_nil_iff {f : FileChange} (hok : f.Ok) : f.kind.next = [] ↔ f.kind.isDelete = true := by
  obtain ⟨hk, _⟩ := hok
  cases hkk : f.kind with
  | modify p => rw [hkk] at hk; simp [Kind.next, Kind.isDelete, NameOk.ne hk]
  | create p m => rw [hkk] at hk; simp [Kind.next, Kind.isDelete, NameOk.ne hk.1]
  | delete p m => simp [Kind.next, Kind.isDelete]
  | rename p q => rw [hkk] at hk; simp [Kind.next, Kind.isDelete, hk.2.1]
  | copy p q => rw [hkk] at hk; simp [Kind.next, Kind.isDelete, NameOk.ne hk.2.1]

end Ripsrc
