import Verif.Go.Bytes
/-!
# Go maps

A Go `map[K]V` is an association list with the invariant that keys are distinct (`Nodup`). The list order is *not*
meaningful: a `range` over the map is modelled by taking some permutation of the entries (or keys).
-/
namespace Ripsrc

/-- Go `map[K]V`. -/
abbrev GoMap (κ : Type) (β : Type) := List (κ × β)

set_option linter.unusedSectionVars false

namespace GoMap
variable {κ β : Type} [DecidableEq κ]

/-- `v, ok := m[k]`. -/
def get (m : GoMap κ β) (k : κ) : Option β :=
  match m with
  | [] => none
  | (k', v) :: rest => if k' = k then some v else get rest k

/-- `m[k] = v`. -/
def set (m : GoMap κ β) (k : κ) (v : β) : GoMap κ β :=
  match m with
  | [] => [(k, v)]
  | (k', v') :: rest => if k' = k then (k, v) :: rest else (k', v') :: set rest k v

/-- `delete(m, k)`. -/
def del (m : GoMap κ β) (k : κ) : GoMap κ β := m.filter (fun e => decide (e.1 ≠ k))

/-- The keys of the map, in the representation order. -/
def keys (m : GoMap κ β) : List κ := m.map Prod.fst

/-- `_, ok := m[k]`. -/
def has (m : GoMap κ β) (k : κ) : Bool := (get m k).isSome

/-- Distinct keys: the invariant of every Go map. -/
def WF (m : GoMap κ β) : Prop := (keys m).Nodup

instance (m : GoMap κ β) : Decidable (WF m) := inferInstanceAs (Decidable (List.Nodup _))

@[simp] theorem get_nil (k : κ) : get ([] : GoMap κ β) k = none := rfl

theorem get_set (m : GoMap κ β) (k k' : κ) (v : β) :
    get (set m k v) k' = if k = k' then some v else get m k' := by
  induction m with
  | nil => simp [set, get]
  | cons e m ih =>
    obtain ⟨a, w⟩ := e
    simp only [set]
    by_cases h : a = k
    · subst h; by_cases h2 : a = k' <;> simp [get, h2]
    · simp only [h, if_false, get]
      rw [ih]
      by_cases h2 : a = k'
      · subst h2; simp [Ne.symm h]
      · simp [h2]

@[simp] theorem get_set_self (m : GoMap κ β) (k : κ) (v : β) : get (set m k v) k = some v := by
  simp [get_set]

theorem get_set_ne (m : GoMap κ β) {k k' : κ} (v : β) (h : k ≠ k') : get (set m k v) k' = get m k' := by
  simp [get_set, h]

theorem get_eq_none_iff (m : GoMap κ β) (k : κ) : get m k = none ↔ k ∉ keys m := by
  induction m with
  | nil => simp [keys]
  | cons e m ih =>
    obtain ⟨a, w⟩ := e
    simp only [get, keys, List.map_cons, List.mem_cons, not_or]
    by_cases h : a = k
    · simp [h]
    · simp only [h, if_false]
      rw [ih]
      exact ⟨fun x => ⟨Ne.symm h, x⟩, fun x => x.2⟩

theorem get_isSome_iff (m : GoMap κ β) (k : κ) : (get m k).isSome ↔ k ∈ keys m := by
  have := get_eq_none_iff m k
  cases h : get m k with
  | none => simp [this.1 h]
  | some v =>
    simp only [Option.isSome_some, true_iff]
    by_cases hk : k ∈ keys m
    · exact hk
    · rw [this.2 hk] at h; cases h

theorem has_iff (m : GoMap κ β) (k : κ) : has m k = true ↔ k ∈ keys m := get_isSome_iff m k

theorem mem_of_get {m : GoMap κ β} {k : κ} {v : β} (h : get m k = some v) : (k, v) ∈ m := by
  induction m with
  | nil => cases h
  | cons e m ih =>
    obtain ⟨a, w⟩ := e
    simp only [get] at h
    by_cases h2 : a = k
    · subst h2; simp only [if_true, Option.some.injEq] at h; subst h; simp
    · rw [if_neg h2] at h; exact List.mem_cons_of_mem _ (ih h)

theorem get_of_mem {m : GoMap κ β} {k : κ} {v : β} (hwf : WF m) (h : (k, v) ∈ m) : get m k = some v := by
  induction m with
  | nil => cases h
  | cons e m ih =>
    obtain ⟨a, w⟩ := e
    simp only [WF, keys, List.map_cons, List.nodup_cons] at hwf
    simp only [get]
    rcases List.mem_cons.1 h with h | h
    · cases h; simp
    · have : a ≠ k := by
        rintro rfl
        exact hwf.1 (List.mem_map.2 ⟨_, h, rfl⟩)
      rw [if_neg this]
      exact ih hwf.2 h

theorem get_iff_mem {m : GoMap κ β} {k : κ} {v : β} (hwf : WF m) : get m k = some v ↔ (k, v) ∈ m :=
  ⟨mem_of_get, get_of_mem hwf⟩

theorem mem_keys_set (m : GoMap κ β) (k k' : κ) (v : β) : k' ∈ keys (set m k v) ↔ k' = k ∨ k' ∈ keys m := by
  rw [← get_isSome_iff, ← get_isSome_iff, get_set]
  by_cases h : k = k'
  · simp [h]
  · simp [h, Ne.symm h]

theorem keys_set_of_mem (m : GoMap κ β) (k : κ) (v : β) (h : k ∈ keys m) : keys (set m k v) = keys m := by
  induction m with
  | nil => simp [keys] at h
  | cons e m ih =>
    obtain ⟨a, w⟩ := e
    simp only [set]
    by_cases h2 : a = k
    · subst h2; simp [keys]
    · rw [if_neg h2]
      simp only [keys, List.map_cons, List.mem_cons] at h ⊢
      rcases h with h | h
      · exact absurd h.symm h2
      · rw [show List.map Prod.fst (set m k v) = List.map Prod.fst m from ih h]

theorem keys_set_of_not_mem (m : GoMap κ β) (k : κ) (v : β) (h : k ∉ keys m) : set m k v = m ++ [(k, v)] := by
  induction m with
  | nil => rfl
  | cons e m ih =>
    obtain ⟨a, w⟩ := e
    simp only [keys, List.map_cons, List.mem_cons, not_or] at h
    simp only [set]
    rw [if_neg (Ne.symm h.1), ih h.2]
    rfl

theorem wf_set {m : GoMap κ β} (hwf : WF m) (k : κ) (v : β) : WF (set m k v) := by
  by_cases h : k ∈ keys m
  · unfold WF; rw [keys_set_of_mem m k v h]; exact hwf
  · rw [keys_set_of_not_mem m k v h]
    unfold WF keys at *
    rw [List.map_append, List.nodup_append]
    refine ⟨hwf, by simp, ?_⟩
    intro a ha b hb
    simp only [List.map_cons, List.map_nil, List.mem_singleton] at hb
    subst hb
    rintro rfl
    exact h ha

theorem wf_nil : WF ([] : GoMap κ β) := by simp [WF, keys]

theorem get_del (m : GoMap κ β) (k k' : κ) : get (del m k) k' = if k = k' then none else get m k' := by
  induction m with
  | nil => simp [del]
  | cons e m ih =>
    obtain ⟨a, w⟩ := e
    simp only [del, List.filter_cons] at ih ⊢
    by_cases h : a = k
    · subst h
      simp only [ne_eq, not_true_eq_false, decide_false, Bool.false_eq_true, if_false]
      rw [ih]
      by_cases h2 : a = k'
      · simp [h2]
      · simp [h2, get]
    · simp only [ne_eq, h, not_false_eq_true, decide_true, if_true, get]
      rw [ih]
      by_cases h2 : a = k'
      · subst h2; simp [Ne.symm h]
      · simp [h2]

theorem keys_del (m : GoMap κ β) (k : κ) : keys (del m k) = (keys m).filter (fun x => decide (x ≠ k)) := by
  induction m with
  | nil => rfl
  | cons e m ih =>
    obtain ⟨a, w⟩ := e
    simp only [del, keys, List.map_cons, List.filter_cons] at *
    by_cases h : a = k
    · simp [h]; simpa using ih
    · simp [h]; simpa using ih

theorem wf_del {m : GoMap κ β} (hwf : WF m) (k : κ) : WF (del m k) := by
  unfold WF; rw [keys_del]; exact List.Pairwise.filter _ hwf

theorem wf_perm {m m' : GoMap κ β} (hp : m.Perm m') (hwf : WF m) : WF m' :=
  (List.Perm.nodup_iff (hp.map Prod.fst)).1 hwf

theorem get_perm {m m' : GoMap κ β} (hp : m.Perm m') (hwf : WF m) (k : κ) : get m k = get m' k := by
  cases h : get m k with
  | none =>
    symm
    rw [get_eq_none_iff] at h ⊢
    intro hc
    exact h ((hp.map Prod.fst).mem_iff.2 hc)
  | some v =>
    symm
    exact get_of_mem (wf_perm hp hwf) (hp.mem_iff.1 (mem_of_get h))

/-- Extensional equality of maps. -/
def Equiv (m m' : GoMap κ β) : Prop := ∀ k, get m k = get m' k

end GoMap
end Ripsrc
