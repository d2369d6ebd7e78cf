import Verif.Go.Split
/-! # Substring search: `strings.SplitN(s, sep, n)`, greedy regular expressions, `path.Clean` -/
namespace Ripsrc

/-- `strings.Cut`: what is before and after the first occurrence of `sep`. -/
def cut (sep : Str) : Str → Option (Str × Str)
  | [] => if startsWith [] sep then some ([], []) else none
  | b :: r => if startsWith (b :: r) sep then some ([], (b :: r).drop sep.length)
    else (cut sep r).map (fun x => (b :: x.1, x.2))

/-- No occurrence of `sep` begins inside `a` when `a` is followed by `sep`. -/
def FirstAt (sep a : Str) : Prop := ∀ i, i < a.length → ¬ sep <+: (a ++ sep).drop i

theorem isPrefix_append_of_le {p a b : Str} (h : p <+: a ++ b) (hl : p.length ≤ a.length) : p <+: a := by
  obtain ⟨r, hr⟩ := h
  refine ⟨a.drop p.length, ?_⟩
  have h1 : p = (p ++ r).take p.length := by simp
  have h2 : a.take p.length = (a ++ b).take p.length := by rw [List.take_append_of_le_length hl]
  have : a.take p.length = p := by rw [h2, ← hr]; simp
  exact this ▸ List.take_append_drop p.length a |>.trans rfl

theorem cut_append (sep a r : Str) (h : FirstAt sep a) : cut sep (a ++ (sep ++ r)) = some (a, r) := by
  induction a with
  | nil =>
    cases hs : sep ++ r with
    | nil =>
      have : sep = [] ∧ r = [] := by simpa using hs
      simp [cut, this.1, this.2, startsWith]
    | cons b t =>
      have hst : startsWith (b :: t) sep = true := by rw [← hs]; exact startsWith_append sep r
      simp only [List.nil_append, cut]
      rw [if_pos hst, ← hs]
      simp
  | cons b a ih =>
    have h0 := h 0 (by simp)
    have hst : startsWith (b :: (a ++ (sep ++ r))) sep = false := by
      cases hb : startsWith (b :: (a ++ (sep ++ r))) sep with
      | false => rfl
      | true =>
        exfalso
        apply h0
        obtain ⟨t, ht⟩ := startsWith_iff.1 hb
        refine isPrefix_append_of_le (b := r) ⟨t, ?_⟩ (by simp; omega)
        rw [← ht]
        simp
    have hih : FirstAt sep a := by
      intro i hi
      have := h (i + 1) (by simp; omega)
      simpa using this
    simp only [List.cons_append, cut, hst, Bool.false_eq_true, if_false]
    rw [ih hih]
    rfl

theorem cut_none {sep s : Str} (h : ¬ sep <:+: s) : cut sep s = none := by
  induction s with
  | nil =>
    have : startsWith [] sep = false := by
      cases hb : startsWith [] sep with
      | false => rfl
      | true =>
        obtain ⟨t, ht⟩ := startsWith_iff.1 hb
        exact absurd ⟨[], t, by simpa using ht.symm⟩ h
    simp [cut, this]
  | cons b s ih =>
    have hst : startsWith (b :: s) sep = false := by
      cases hb : startsWith (b :: s) sep with
      | false => rfl
      | true =>
        obtain ⟨t, ht⟩ := startsWith_iff.1 hb
        exact absurd ⟨[], t, by simpa using ht.symm⟩ h
    have hs : ¬ sep <:+: s := by
      rintro ⟨x, y, hxy⟩
      exact h ⟨b :: x, y, by simp [← hxy]⟩
    simp [cut, hst, ih hs]

/-- A separator byte that does not occur in `a` makes `a` a first piece. -/
theorem firstAt_of_not_mem {sep a : Str} {c : UInt8} (hc : sep.head? = some c) (h : c ∉ a) : FirstAt sep a := by
  intro i hi ⟨r, hr⟩
  cases sep with
  | nil => cases hc
  | cons d s =>
    simp only [List.head?_cons, Option.some.injEq] at hc
    subst hc
    rw [List.drop_append_of_le_length (by omega)] at hr
    rw [List.drop_eq_getElem_cons hi] at hr
    simp only [List.cons_append, List.cons.injEq] at hr
    exact h (hr.1 ▸ List.getElem_mem hi)

/-- A greedy `(.*)lit(rest)` of a regular expression: the longest prefix followed by `lit` such that `k` accepts what follows. -/
def greedyCut {α : Type} (lit : Str) (k : Str → Option α) : Str → Option (Str × α)
  | [] => if startsWith [] lit then (k []).map (fun x => ([], x)) else none
  | b :: r =>
    match greedyCut lit k r with
    | some x => some (b :: x.1, x.2)
    | none => if startsWith (b :: r) lit then (k ((b :: r).drop lit.length)).map (fun x => ([], x)) else none

theorem greedyCut_none {α : Type} (lit : Str) (k : Str → Option α) (s : Str)
    (h : ∀ a r, s = a ++ (lit ++ r) → k r = none) : greedyCut lit k s = none := by
  induction s with
  | nil =>
    simp only [greedyCut]
    split
    · rename_i hb
      obtain ⟨t, ht⟩ := startsWith_iff.1 hb
      have : t = [] := by
        have := congrArg List.length ht
        simp at this; exact List.eq_nil_of_length_eq_zero (by omega)
      subst this
      have := h [] [] (by simpa using ht)
      simp [this]
    · rfl
  | cons b s ih =>
    simp only [greedyCut]
    rw [ih (fun a r hr => h (b :: a) r (by simp [hr]))]
    simp only
    split
    · rename_i hb
      obtain ⟨t, ht⟩ := startsWith_iff.1 hb
      have := h [] t (by simpa using ht)
      rw [ht]
      simp [this]
    · rfl

theorem greedyCut_eq {α : Type} (lit : Str) (k : Str → Option α) (a r : Str) (x : α) (hk : k r = some x)
    (hlast : ∀ a' r', a.length < a'.length → a ++ (lit ++ r) = a' ++ (lit ++ r') → k r' = none) :
    greedyCut lit k (a ++ (lit ++ r)) = some (a, x) := by
  induction a with
  | nil =>
    cases hs : lit ++ r with
    | nil =>
      obtain ⟨rfl, rfl⟩ : lit = [] ∧ r = [] := by simpa using hs
      simp [greedyCut, startsWith, hk]
    | cons b t =>
      have hst : startsWith (b :: t) lit = true := by rw [← hs]; exact startsWith_append lit r
      have hnone : greedyCut lit k t = none := by
        refine greedyCut_none lit k t (fun a' r' hr => hlast (b :: a') r' (by simp) ?_)
        simp only [List.nil_append, List.cons_append, hs, hr]
      simp only [List.nil_append, greedyCut, hnone]
      rw [if_pos hst, ← hs]
      simp [hk]
  | cons b a ih =>
    have := ih (fun a' r' hl he => hlast (b :: a') r' (by simp; omega) (by simp [he]))
    simp only [List.cons_append, greedyCut, this]

/-- `path.Clean`: the documented behaviour on `/`-separated components (empty and `.` components dropped, `..` removes the
component before it). The stack is kept reversed. -/
def cleanStep (rooted : Bool) (stack : List Str) (c : Str) : List Str :=
  if c = [] ∨ c = b!"." then stack
  else if c = b!".." then
    match stack with
    | [] => if rooted then [] else [c]
    | t :: rest => if t = b!".." then c :: stack else rest
  else c :: stack

def pathClean (s : Str) : Str :=
  let rooted := startsWith s b!"/"
  let comps := ((splitByte 47 s).foldl (cleanStep rooted) []).reverse
  let out := (if rooted then b!"/" else []) ++ joinWith b!"/" comps
  if out = [] then b!"." else out

/-- `path.Join`: the non-empty elements joined with `/` and cleaned; `""` if all are empty. -/
def pathJoin (elems : List Str) : Str :=
  let ne := elems.filter (fun e => decide (e ≠ []))
  if ne = [] then [] else pathClean (joinWith b!"/" ne)

/-- A normal path component. -/
def Comp (c : Str) : Prop := c ≠ [] ∧ (47 : UInt8) ∉ c ∧ c ≠ b!"." ∧ c ≠ b!".."

theorem cleanStep_comp {c : Str} (h : Comp c) (rooted : Bool) (st : List Str) : cleanStep rooted st c = c :: st := by
  simp [cleanStep, h.1, h.2.2.1, h.2.2.2]

theorem foldl_cleanStep_comps (rooted : Bool) (cs : List Str) (h : ∀ c ∈ cs, Comp c) (st : List Str) :
    cs.foldl (cleanStep rooted) st = cs.reverse ++ st := by
  induction cs generalizing st with
  | nil => rfl
  | cons c cs ih =>
    simp only [List.foldl_cons, cleanStep_comp (h c (by simp))]
    rw [ih (fun x hx => h x (by simp [hx]))]
    simp

end Ripsrc
