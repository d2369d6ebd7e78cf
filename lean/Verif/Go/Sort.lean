import Verif.Go.Bytes
/-!
# Sorting

`sort.Strings` is modelled by insertion sort. Go uses another algorithm, but for a total order the sorted permutation
of a list is unique (`sorted_perm_unique`), so the algorithm is irrelevant.
`sort.Slice` is *not* stable: where keys may be equal, the models take the sorted list as a parameter (`IsSort`).
-/
namespace Ripsrc
variable {α : Type}

/-- Sorted with respect to a Boolean "less or equal". -/
def Sorted (le : α → α → Bool) (l : List α) : Prop := l.Pairwise (fun a b => le a b = true)

/-- `m` is a possible outcome of sorting `l` by `le` (any algorithm, stable or not). -/
def IsSort (le : α → α → Bool) (l m : List α) : Prop := m.Perm l ∧ Sorted le m

def insertSorted (le : α → α → Bool) (a : α) : List α → List α
  | [] => [a]
  | b :: l => if le a b then a :: b :: l else b :: insertSorted le a l

def isort (le : α → α → Bool) : List α → List α
  | [] => []
  | a :: l => insertSorted le a (isort le l)

theorem insertSorted_perm (le : α → α → Bool) (a : α) (l : List α) : (insertSorted le a l).Perm (a :: l) := by
  induction l with
  | nil => exact List.Perm.refl _
  | cons b l ih =>
    simp only [insertSorted]
    split
    · exact List.Perm.refl _
    · exact (List.Perm.cons b ih).trans (List.Perm.swap a b l)

theorem isort_perm (le : α → α → Bool) (l : List α) : (isort le l).Perm l := by
  induction l with
  | nil => exact List.Perm.refl _
  | cons a l ih => exact (insertSorted_perm le a _).trans (List.Perm.cons a ih)

theorem insertSorted_sorted {le : α → α → Bool} (htot : ∀ a b, le a b = true ∨ le b a = true)
    (htr : ∀ a b c, le a b = true → le b c = true → le a c = true) (a : α) {l : List α} (h : Sorted le l) :
    Sorted le (insertSorted le a l) := by
  induction l with
  | nil => simp [insertSorted, Sorted]
  | cons b l ih =>
    simp only [insertSorted]
    have hb : ∀ x ∈ l, le b x = true := (List.pairwise_cons.1 h).1
    have hl : Sorted le l := (List.pairwise_cons.1 h).2
    split
    · rename_i hab
      refine List.pairwise_cons.2 ⟨?_, h⟩
      intro x hx
      rcases List.mem_cons.1 hx with rfl | hx
      · exact hab
      · exact htr _ _ _ hab (hb x hx)
    · rename_i hab
      have hba : le b a = true := (htot a b).resolve_left hab
      refine List.pairwise_cons.2 ⟨?_, ih hl⟩
      intro x hx
      rcases List.mem_cons.1 ((insertSorted_perm le a l).mem_iff.1 hx) with rfl | hx
      · exact hba
      · exact hb x hx

theorem isort_sorted {le : α → α → Bool} (htot : ∀ a b, le a b = true ∨ le b a = true)
    (htr : ∀ a b c, le a b = true → le b c = true → le a c = true) (l : List α) : Sorted le (isort le l) := by
  induction l with
  | nil => simp [isort, Sorted]
  | cons a l ih => exact insertSorted_sorted htot htr a ih

/-- Two sorted permutations of the same multiset agree if the order is antisymmetric on their elements. -/
theorem sorted_perm_unique {le : α → α → Bool} {l m : List α}
    (hanti : ∀ a ∈ l, ∀ b ∈ l, le a b = true → le b a = true → a = b)
    (hp : l.Perm m) (hl : Sorted le l) (hm : Sorted le m) : l = m := by
  induction l generalizing m with
  | nil => exact (List.Perm.nil_eq hp)
  | cons a l ih =>
    cases m with
    | nil => exact absurd hp.symm (by simp)
    | cons b m =>
      have hab : a = b := by
        have ha : a ∈ b :: m := hp.mem_iff.1 (by simp)
        have hb : b ∈ a :: l := hp.mem_iff.2 (by simp)
        rcases List.mem_cons.1 ha with h | h
        · exact h
        · rcases List.mem_cons.1 hb with h2 | h2
          · exact h2.symm
          · exact hanti a (by simp) b hb ((List.pairwise_cons.1 hl).1 b h2) ((List.pairwise_cons.1 hm).1 a h)
      subst hab
      have := ih (fun x hx y hy => hanti x (by simp [hx]) y (by simp [hy])) (List.Perm.cons_inv hp)
        (List.pairwise_cons.1 hl).2 (List.pairwise_cons.1 hm).2
      rw [this]

theorem insertSorted_of_le_all {le : α → α → Bool} {a : α} {l : List α} (h : ∀ b ∈ l, le a b = true) :
    insertSorted le a l = a :: l := by
  cases l with
  | nil => rfl
  | cons b l => simp [insertSorted, h b (by simp)]

theorem isort_eq_self {le : α → α → Bool} {l : List α} (h : Sorted le l) : isort le l = l := by
  induction l with
  | nil => rfl
  | cons a l ih =>
    simp only [isort]
    rw [ih (List.pairwise_cons.1 h).2]
    exact insertSorted_of_le_all (List.pairwise_cons.1 h).1

/-- Go's string comparison `a <= b`: bytewise lexicographic. -/
def strLe : Str → Str → Bool
  | [], _ => true
  | _ :: _, [] => false
  | a :: as, b :: bs => if a < b then true else if b < a then false else strLe as bs

theorem strLe_refl (a : Str) : strLe a a = true := by
  induction a with
  | nil => rfl
  | cons x a ih => simp [strLe, UInt8.lt_irrefl, ih]

theorem strLe_total (a b : Str) : strLe a b = true ∨ strLe b a = true := by
  induction a generalizing b with
  | nil => left; rfl
  | cons x a ih =>
    cases b with
    | nil => right; rfl
    | cons y b =>
      simp only [strLe]
      by_cases h1 : x < y
      · simp [h1]
      · by_cases h2 : y < x
        · simp [h2]
        · simp only [h1, h2, if_false]; exact ih b

theorem strLe_antisymm (a b : Str) (h1 : strLe a b = true) (h2 : strLe b a = true) : a = b := by
  induction a generalizing b with
  | nil => cases b with
    | nil => rfl
    | cons y b => simp [strLe] at h2
  | cons x a ih =>
    cases b with
    | nil => simp [strLe] at h1
    | cons y b =>
      simp only [strLe] at h1 h2
      by_cases hxy : x < y
      · have : ¬ y < x := UInt8.lt_asymm hxy
        simp [this, hxy] at h2
      · by_cases hyx : y < x
        · simp [hxy, hyx] at h1
        · simp only [hxy, hyx, if_false] at h1 h2
          have : x = y := UInt8.le_antisymm (UInt8.not_lt.1 hyx) (UInt8.not_lt.1 hxy)
          rw [this, ih b h1 h2]

theorem strLe_trans (a b c : Str) (h1 : strLe a b = true) (h2 : strLe b c = true) : strLe a c = true := by
  induction a generalizing b c with
  | nil => rfl
  | cons x a ih =>
    cases b with
    | nil => simp [strLe] at h1
    | cons y b =>
      cases c with
      | nil => simp [strLe] at h2
      | cons z c =>
        simp only [strLe] at *
        by_cases hxz : x < z
        · simp [hxz]
        · by_cases hxy : x < y
          · by_cases hyz : y < z
            · exact absurd (UInt8.lt_trans hxy hyz) hxz
            · by_cases hzy : z < y
              · simp [hyz, hzy] at h2
              · have : y = z := UInt8.le_antisymm (UInt8.not_lt.1 hzy) (UInt8.not_lt.1 hyz)
                subst this; exact absurd hxy hxz
          · by_cases hyx : y < x
            · simp [hxy, hyx] at h1
            · have hxy' : x = y := UInt8.le_antisymm (UInt8.not_lt.1 hyx) (UInt8.not_lt.1 hxy)
              subst hxy'
              by_cases hzx : z < x
              · simp [hxz, hzx] at h2
              · simp only [hxz, hzx, if_false, UInt8.lt_irrefl] at h1 h2 ⊢
                exact ih b c h1 h2

/-- `sort.Strings`. -/
def sortStrings (l : List Str) : List Str := isort strLe l

theorem sortStrings_perm (l : List Str) : (sortStrings l).Perm l := isort_perm _ _

theorem sortStrings_sorted (l : List Str) : Sorted strLe (sortStrings l) :=
  isort_sorted strLe_total strLe_trans l

theorem mem_sortStrings (l : List Str) (x : Str) : x ∈ sortStrings l ↔ x ∈ l := (sortStrings_perm l).mem_iff

/-- Sorting a permutation gives the same list. -/
theorem sortStrings_congr {l m : List Str} (h : l.Perm m) : sortStrings l = sortStrings m :=
  sorted_perm_unique (fun a _ b _ => strLe_antisymm a b)
    ((sortStrings_perm l).trans (h.trans (sortStrings_perm m).symm)) (sortStrings_sorted l) (sortStrings_sorted m)

/-- A duplicate-free list contained in another is not longer. -/
theorem nodup_length_le {α : Type} {l m : List α} (hl : l.Nodup) (h : ∀ x ∈ l, x ∈ m) : l.length ≤ m.length := by
  induction l generalizing m with
  | nil => simp
  | cons a l ih =>
    obtain ⟨s, t, rfl⟩ := List.append_of_mem (h a (by simp))
    have hnd := List.nodup_cons.1 hl
    have := ih (m := s ++ t) hnd.2 (fun x hx => by
      have h1 := h x (by simp [hx])
      have h2 : x ≠ a := fun hc => hnd.1 (hc ▸ hx)
      simp only [List.mem_append, List.mem_cons] at h1 ⊢
      rcases h1 with h1 | h1 | h1
      · exact Or.inl h1
      · exact absurd h1 h2
      · exact Or.inr h1)
    simp only [List.length_append, List.length_cons] at this ⊢
    omega

end Ripsrc
