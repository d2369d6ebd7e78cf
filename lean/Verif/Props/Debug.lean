import Verif.Model.Debug
/-!
# C74: comparing and printing blames
-/
namespace Ripsrc

theorem Line.eq_iff (a b : Line) : a.eq b = true ↔ a = b := by
  unfold Line.eq
  cases a; cases b
  constructor
  · intro h
    split at h
    · cases h
    · split at h
      · cases h
      · simp_all
  · intro h; cases h; simp

theorem linesEq_iff : ∀ (as bs : List Line), as.length = bs.length → (linesEq as bs = true ↔ as = bs)
  | [], [], _ => by simp [linesEq]
  | [], _ :: _, h => by simp at h
  | _ :: _, [], h => by simp at h
  | a :: as, b :: bs, h => by
    rw [linesEq]
    have ih := linesEq_iff as bs (by simpa using h)
    rcases Bool.eq_false_or_eq_true (a.eq b) with he | he
    · rw [he, if_neg (by simp), ih, (Line.eq_iff a b).1 he]; simp
    · rw [if_pos he]
      constructor
      · intro h; cases h
      · intro h
        cases h
        rw [(Line.eq_iff a a).2 rfl] at he; cases he

/-- **C74**: `Blame.Eq` says whether the commits and all lines (text and commit, in order) are the same. -/
theorem C74_eq (a b : Blame) : a.eq b = true ↔ a.commit = b.commit ∧ a.lines = b.lines := by
  unfold Blame.eq
  split
  · rename_i h; simp [h]
  · rename_i h
    split
    · rename_i h2
      constructor
      · intro h; cases h
      · rintro ⟨-, h3⟩; exact absurd (by rw [h3]) h2
    · rename_i h2
      rw [linesEq_iff _ _ (by simpa using h2)]
      simp at h
      simp [h]

/-- **C74**: it does not look at `IsBinary`: the blame of a binary file is "equal" to that of an empty text file of the same commit. -/
theorem C74_eq_ignores_binary (c : Str) : (blameBinaryFile c).eq { commit := c, lines := [] } = true ∧ blameBinaryFile c ≠ { commit := c, lines := [] } := by
  refine ⟨(C74_eq _ _).2 ⟨rfl, rfl⟩, ?_⟩
  intro h
  have := congrArg Blame.isBinary h
  simp [blameBinaryFile] at this

/-- Hashes without newline and colon, lines without newline. -/
structure Printable (b : Blame) : Prop where
  commit : (10 : UInt8) ∉ b.commit
  hash : ∀ l ∈ b.lines, (10 : UInt8) ∉ l.commit ∧ (58 : UInt8) ∉ l.commit
  line : ∀ l ∈ b.lines, (10 : UInt8) ∉ l.line

theorem linesOut_length (i : Nat) (ls : List Line) : (linesOut i ls).length = ls.length := by
  induction ls generalizing i with
  | nil => rfl
  | cons l ls ih => simp [linesOut, ih]

theorem linesOut_noNL (i : Nat) (ls : List Line) (h1 : ∀ l ∈ ls, (10 : UInt8) ∉ l.commit) (h2 : ∀ l ∈ ls, (10 : UInt8) ∉ l.line) : ∀ x ∈ linesOut i ls, (10 : UInt8) ∉ x := by
  induction ls generalizing i with
  | nil => simp [linesOut]
  | cons l ls ih =>
    intro x hx
    rw [linesOut] at hx
    rcases List.mem_cons.1 hx with rfl | hx
    · have a := h1 l (by simp)
      have b := h2 l (by simp)
      have c := itoa_not_mem i 10 (by decide)
      simp [Line.string, a, b, c]
    · exact ih (i + 1) (fun l hl => h1 l (by simp [hl])) (fun l hl => h2 l (by simp [hl])) x hx

theorem linesOut_digit (i : Nat) (ls : List Line) : ∀ x ∈ linesOut i ls, ∃ b r, x = b :: r ∧ 48 ≤ b ∧ b ≤ 57 := by
  induction ls generalizing i with
  | nil => simp [linesOut]
  | cons l ls ih =>
    intro x hx
    rw [linesOut] at hx
    rcases List.mem_cons.1 hx with rfl | hx
    · obtain ⟨b, r, hb⟩ := List.exists_cons_of_ne_nil (itoa_ne_nil i)
      have := itoa_digits i b (by rw [hb]; simp)
      exact ⟨b, r ++ b!":" ++ l.string, by rw [hb]; simp, this⟩
    · exact ih (i + 1) x hx

theorem colon_cancel {a b x y : Str} (ha : (58 : UInt8) ∉ a) (hb : (58 : UInt8) ∉ b) (h : a ++ b!":" ++ x = b ++ b!":" ++ y) : a = b ∧ x = y := by
  induction a generalizing b with
  | nil =>
    cases b with
    | nil => simpa using h
    | cons c b => simp at h hb; exact absurd h.1 hb.1
  | cons c a ih =>
    cases b with
    | nil => simp at h ha; exact absurd h.1.symm ha.1
    | cons d b =>
      simp at h ha hb
      have := ih ha.2 hb.2 (by simpa using h.2)
      exact ⟨by rw [h.1, this.1], this.2⟩

theorem linesOut_inj (i : Nat) : ∀ (as bs : List Line), (∀ l ∈ as, (58 : UInt8) ∉ l.commit) → (∀ l ∈ bs, (58 : UInt8) ∉ l.commit) → linesOut i as = linesOut i bs → as = bs := by
  intro as
  induction as generalizing i with
  | nil => intro bs _ _ h; cases bs <;> simp [linesOut] at h; rfl
  | cons a as ih =>
    intro bs ha hb h
    cases bs with
    | nil => simp [linesOut] at h
    | cons b bs =>
      simp only [linesOut, List.cons.injEq] at h
      have h1 := List.append_cancel_left h.1
      obtain ⟨h2, h3⟩ := colon_cancel (ha a (by simp)) (hb b (by simp)) h1
      have h4 := ih (i + 1) bs (fun l hl => ha l (by simp [hl])) (fun l hl => hb l (by simp [hl])) h.2
      cases a; cases b
      simp at h2 h3
      simp [h2, h3, h4]

theorem Blame.out_noNL {b : Blame} (h : Printable b) : ∀ x ∈ b.out, (10 : UInt8) ∉ x := by
  intro x hx
  unfold Blame.out at hx
  rcases List.mem_append.1 hx with hx | hx
  · rcases List.mem_append.1 hx with hx | hx
    · simp at hx; subst hx; exact h.commit
    · split at hx
      · simp at hx; subst hx; decide
      · simp at hx
  · split at hx
    · simp at hx; subst hx; decide
    · exact linesOut_noNL 0 _ (fun l hl => (h.hash l hl).1) h.line x hx

/-- **C74**: `Blame.String` loses nothing of a text file: two blames with the same text have the same commit and are both binary or both not, and if not, they have the same lines. -/
theorem C74_string (a b : Blame) (ha : Printable a) (hb : Printable b) (h : a.string = b.string) :
    a.commit = b.commit ∧ a.isBinary = b.isBinary ∧ (a.isBinary = false → a.lines = b.lines) := by
  have hout : a.out = b.out := by
    have h1 := splitByte_join 10 a.out (by simp [Blame.out]) (Blame.out_noNL ha)
    have h2 := splitByte_join 10 b.out (by simp [Blame.out]) (Blame.out_noNL hb)
    unfold Blame.string at h
    rw [← h1, ← h2, h]
  have hc : a.commit = b.commit := by
    have := congrArg List.head? hout
    simpa [Blame.out] using this
  have ht : (if a.lines.length = 0 then [b!"empty"] else []) ++ (if a.isBinary then [b!"binary"] else linesOut 0 a.lines) =
      (if b.lines.length = 0 then [b!"empty"] else []) ++ (if b.isBinary then [b!"binary"] else linesOut 0 b.lines) := by
    have := congrArg List.tail hout
    simpa [Blame.out] using this
  refine ⟨hc, ?_⟩
  have hbin : ∀ {x y : Blame}, x.isBinary = true → y.isBinary = false →
      (if x.lines.length = 0 then [b!"empty"] else []) ++ (if x.isBinary then [b!"binary"] else linesOut 0 x.lines) ≠
      (if y.lines.length = 0 then [b!"empty"] else []) ++ (if y.isBinary then [b!"binary"] else linesOut 0 y.lines) := by
    intro x y hx hy he
    have hm : b!"binary" ∈ (if y.lines.length = 0 then [b!"empty"] else []) ++ (if y.isBinary then [b!"binary"] else linesOut 0 y.lines) := by
      rw [← he, hx]; simp
    rcases List.mem_append.1 hm with hm | hm
    · split at hm
      · revert hm; decide
      · simp at hm
    · rw [hy] at hm
      obtain ⟨c, r, h1, h2, h3⟩ := linesOut_digit 0 y.lines _ (by simpa using hm)
      cases h1
      revert h3; decide
  cases hA : a.isBinary <;> cases hB : b.isBinary
  · refine ⟨rfl, fun _ => ?_⟩
    rw [hA, hB] at ht
    have hem : ∀ {x y : Blame}, x.lines.length = 0 → y.lines.length ≠ 0 → [b!"empty"] ++ linesOut 0 x.lines ≠ linesOut 0 y.lines := by
      intro x y _ _ he
      have hm : b!"empty" ∈ linesOut 0 y.lines := by rw [← he]; simp
      obtain ⟨c, r, h1, h2, h3⟩ := linesOut_digit 0 y.lines _ hm
      cases h1
      revert h3; decide
    by_cases h1 : a.lines.length = 0 <;> by_cases h2 : b.lines.length = 0
    · rw [List.length_eq_zero_iff.1 h1, List.length_eq_zero_iff.1 h2]
    · simp only [h1, h2, if_true, if_false, Bool.false_eq_true, List.nil_append] at ht
      exact absurd ht (hem h1 h2)
    · simp only [h1, h2, if_true, if_false, Bool.false_eq_true, List.nil_append] at ht
      exact absurd ht.symm (hem h2 h1)
    · simp only [h1, h2, if_false, Bool.false_eq_true, List.nil_append] at ht
      exact linesOut_inj 0 _ _ (fun l hl => (ha.hash l hl).2) (fun l hl => (hb.hash l hl).2) ht
  · exact absurd ht.symm (hbin hB hA)
  · exact absurd ht (hbin hA hB)
  · exact ⟨rfl, fun h => by cases h⟩

/-- Sorting by unique keys has one result. -/
theorem sortKeys_unique {β : Type} {m a b : GoMap Str β} (hwf : GoMap.WF m) (ha : IsSort (fun x y : Str × β => strLe x.1 y.1) m a)
    (hb : IsSort (fun x y : Str × β => strLe x.1 y.1) m b) : a = b := by
  refine sorted_perm_unique ?_ (ha.1.trans hb.1.symm) ha.2 hb.2
  intro x hx y hy h1 h2
  have hk := strLe_antisymm _ _ h1 h2
  have hx := ha.1.mem_iff.1 hx
  have hy := ha.1.mem_iff.1 hy
  have g1 := GoMap.get_of_mem (k := x.1) (v := x.2) hwf hx
  have g2 := GoMap.get_of_mem (k := y.1) (v := y.2) hwf hy
  rw [hk, g2] at g1
  exact Prod.ext hk (Option.some.inj g1).symm

/-- **C74**: `Repo.Debug` depends only on the contents of the repo: the order in which the maps are iterated and the way `sort.Slice` orders are without effect. -/
theorem C74_debug (r : Repo) (hwf : GoMap.WF r) (hf : ∀ c fs, (c, fs) ∈ r → GoMap.WF fs) (srtC srtC' : Repo → Repo) (srtF srtF' : Files → Files)
    (h1 : ∀ m, IsSort (fun x y : Str × Files => strLe x.1 y.1) m (srtC m)) (h2 : ∀ m, IsSort (fun x y : Str × Files => strLe x.1 y.1) m (srtC' m))
    (h3 : ∀ m, IsSort (fun x y : Str × Blame => strLe x.1 y.1) m (srtF m)) (h4 : ∀ m, IsSort (fun x y : Str × Blame => strLe x.1 y.1) m (srtF' m)) :
    r.debug srtC srtF = r.debug srtC' srtF' := by
  have hc : srtC r = srtC' r := sortKeys_unique hwf (h1 r) (h2 r)
  unfold Repo.debug
  rw [hc]
  congr 2
  have : ∀ l : Repo, (∀ x ∈ l, x ∈ r) → l.flatMap (fun v => debugLine (b!"commit:" ++ v.1) ++
      (srtF v.2).flatMap fun w => debugLine (b!"commit:" ++ v.1) ++ debugLine (b!"file:" ++ w.1) ++ debugLine w.2.string ++ debugLine []) =
      l.flatMap (fun v => debugLine (b!"commit:" ++ v.1) ++
      (srtF' v.2).flatMap fun w => debugLine (b!"commit:" ++ v.1) ++ debugLine (b!"file:" ++ w.1) ++ debugLine w.2.string ++ debugLine []) := by
    intro l hl
    induction l with
    | nil => rfl
    | cons x l ih =>
      rw [List.flatMap_cons, List.flatMap_cons, ih fun y hy => hl y (by simp [hy]),
        sortKeys_unique (hf x.1 x.2 (hl x (by simp))) (h3 x.2) (h4 x.2)]
  exact this _ fun x hx => (h2 r).1.mem_iff.1 hx

/-- Concrete cases. -/
example : ({ commit := b!"c1", lines := [⟨b!"x", b!"c1"⟩, ⟨b!"", b!"c0"⟩] } : Blame).string = b!"c1\n0:c1:x\n1:c0:" := by decide +kernel
example : (blameBinaryFile b!"c1").string = b!"c1\nempty\nbinary" := by decide +kernel
example : ({ commit := b!"c1", lines := [] } : Blame).string = b!"c1\nempty" := by decide +kernel
example : Printable { commit := b!"c1", lines := [⟨b!"x", b!"c1"⟩, ⟨b!"", b!"c0"⟩] } := ⟨by decide, by decide, by decide⟩
example : Repo.debug (isort fun x y => strLe x.1 y.1) (isort fun x y => strLe x.1 y.1) [(b!"c2", [(b!"b", blameBinaryFile b!"c2"), (b!"a", blameBinaryFile b!"c1")]), (b!"c1", [])] =
    b!"\ncommit:c1\ncommit:c2\ncommit:c2\nfile:a\nc1\nempty\nbinary\n\ncommit:c2\nfile:b\nc2\nempty\nbinary\n\n\n" := by decide +kernel

/-- **C74**: `CommitsInMemory` counts the commits whose files are kept. -/
theorem C74_count (r : Repo) (hwf : GoMap.WF r) (cs : List Str) (hnd : cs.Nodup) (h : ∀ c, c ∈ cs ↔ (GoMap.get r c).isSome = true) : r.commitsInMemory = cs.length := by
  have hp : (GoMap.keys r).Perm cs := by
    apply (List.perm_ext_iff_of_nodup hwf hnd).2
    intro c
    rw [h c, GoMap.get_isSome_iff]
  exact hp.length_eq

end Ripsrc
