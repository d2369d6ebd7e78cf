import Verif.Model.CommitMeta
import Verif.Spec.CommitMeta
/-!
# C40: rename notation
-/
namespace Ripsrc
open Spec

/-- Splitting text made of components and slashes: cleaning sees exactly the components. -/
theorem foldl_split_slash (rooted : Bool) (a r : Str) (st : List Str) (h : (47 : UInt8) ∉ a) :
    (splitByte 47 (a ++ 47 :: r)).foldl (cleanStep rooted) st = (splitByte 47 r).foldl (cleanStep rooted) (cleanStep rooted st a) := by
  rw [splitByte_append _ _ _ h]; rfl

theorem fold_pre (rooted : Bool) (pre : List Str) (h : ∀ c ∈ pre, Comp c) (r : Str) (st : List Str) :
    (splitByte 47 (pre.flatMap (fun c => c ++ b!"/") ++ r)).foldl (cleanStep rooted) st =
      (splitByte 47 r).foldl (cleanStep rooted) (pre.reverse ++ st) := by
  induction pre generalizing st with
  | nil => rfl
  | cons c pre ih =>
    have hc := h c (by simp)
    have he : (c :: pre).flatMap (fun c => c ++ b!"/") ++ r = c ++ 47 :: (pre.flatMap (fun c => c ++ b!"/") ++ r) := by simp
    rw [he, foldl_split_slash _ _ _ _ hc.2.1, cleanStep_comp hc, ih (fun x hx => h x (by simp [hx]))]
    simp

theorem fold_path_slash (rooted : Bool) (cs : List Str) (h : ∀ c ∈ cs, Comp c) (r : Str) (st : List Str) :
    (splitByte 47 (pathOf cs ++ 47 :: r)).foldl (cleanStep rooted) st =
      (splitByte 47 r).foldl (cleanStep rooted) (cs.reverse ++ st) := by
  induction cs generalizing st with
  | nil => exact foldl_split_slash rooted [] r st (by simp)
  | cons c cs ih =>
    have hc := h c (by simp)
    cases cs with
    | nil =>
      simp only [pathOf, joinWith]
      rw [foldl_split_slash _ _ _ _ hc.2.1, cleanStep_comp hc]
      rfl
    | cons d cs =>
      have he : pathOf (c :: d :: cs) ++ 47 :: r = c ++ 47 :: (pathOf (d :: cs) ++ 47 :: r) := by simp [pathOf, joinWith]
      rw [he, foldl_split_slash _ _ _ _ hc.2.1, cleanStep_comp hc, ih (fun x hx => h x (by simp [hx]))]
      simp

theorem fold_path (rooted : Bool) (cs : List Str) (h : ∀ c ∈ cs, Comp c) (st : List Str) :
    (splitByte 47 (pathOf cs)).foldl (cleanStep rooted) st = cs.reverse ++ st := by
  cases cs with
  | nil => simp [pathOf, joinWith, splitByte, cleanStep]
  | cons c cs =>
    unfold pathOf
    rw [splitByte_join _ _ (by simp) (fun l hl => (h l hl).2.1)]
    exact foldl_cleanStep_comps rooted _ h st

theorem fold_post (rooted : Bool) (post : List Str) (h : ∀ c ∈ post, Comp c) (r : Str) (hr : (47 : UInt8) ∉ r) (st : List Str) :
    (splitByte 47 (r ++ post.flatMap (fun c => b!"/" ++ c))).foldl (cleanStep rooted) st =
      post.reverse ++ cleanStep rooted st r := by
  induction post generalizing r st with
  | nil => simp [splitByte_last 47 r hr]
  | cons c post ih =>
    have hc := h c (by simp)
    have he : r ++ (c :: post).flatMap (fun c => b!"/" ++ c) = r ++ 47 :: (c ++ post.flatMap (fun c => b!"/" ++ c)) := by simp
    rw [he, foldl_split_slash _ _ _ _ hr, ih (fun x hx => h x (by simp [hx])) c hc.2.1, cleanStep_comp hc]
    simp

theorem fold_nil_skip (rooted : Bool) (st : List Str) : cleanStep rooted st [] = st := by simp [cleanStep]

theorem fold_post' (rooted : Bool) (post : List Str) (h : ∀ c ∈ post, Comp c) (st : List Str) :
    (splitByte 47 (post.flatMap (fun c => 47 :: c))).foldl (cleanStep rooted) st = post.reverse ++ st := by
  have := fold_post rooted post h [] (by simp) st
  simpa [fold_nil_skip] using this

theorem fold_slash (rooted : Bool) (r : Str) (st : List Str) :
    (splitByte 47 (47 :: r)).foldl (cleanStep rooted) st = (splitByte 47 r).foldl (cleanStep rooted) st := by
  have := foldl_split_slash rooted [] r st (by simp)
  simpa [fold_nil_skip] using this

/-- Joining the three parts gives the path of all components. -/
theorem join3 (pre mid post : List Str) (h : ∀ c ∈ pre ++ mid ++ post, Comp c) (hne : pre ≠ [] ∨ mid ≠ []) :
    pathJoin [pre.flatMap (fun c => c ++ b!"/"), pathOf mid, post.flatMap (fun c => b!"/" ++ c)] = pathOf (pre ++ mid ++ post) := by
  have hpre : ∀ c ∈ pre, Comp c := fun c hc => h c (by simp [hc])
  have hmid : ∀ c ∈ mid, Comp c := fun c hc => h c (by simp [hc])
  have hpost : ∀ c ∈ post, Comp c := fun c hc => h c (by simp [hc])
  have hP : pre ≠ [] → ∃ b t, pre.flatMap (fun c => c ++ b!"/") = b :: t ∧ b ≠ 47 := by
    intro hp
    cases pre with
    | nil => exact absurd rfl hp
    | cons c pre =>
      obtain ⟨h1, h2, _⟩ := hpre c (by simp)
      cases c with
      | nil => exact absurd rfl h1
      | cons b c =>
        simp only [List.mem_cons, not_or] at h2
        exact ⟨b, c ++ 47 :: pre.flatMap (fun c => c ++ b!"/"), by simp, Ne.symm h2.1⟩
  have hM : mid ≠ [] → ∃ b t, pathOf mid = b :: t ∧ b ≠ 47 := by
    intro hp
    cases mid with
    | nil => exact absurd rfl hp
    | cons c mid =>
      obtain ⟨h1, h2, _⟩ := hmid c (by simp)
      cases c with
      | nil => exact absurd rfl h1
      | cons b c =>
        simp only [List.mem_cons, not_or] at h2
        cases mid with
        | nil => exact ⟨b, c, rfl, Ne.symm h2.1⟩
        | cons d mid => exact ⟨b, c ++ b!"/" ++ joinWith b!"/" (d :: mid), rfl, Ne.symm h2.1⟩
  have hM0 : mid = [] → pathOf mid = [] := by rintro rfl; rfl
  have hS : post ≠ [] → post.flatMap (fun c => b!"/" ++ c) ≠ [] := by
    intro hp; cases post with
    | nil => exact absurd rfl hp
    | cons c post => simp
  have hout : joinWith b!"/" (pre ++ mid ++ post) ≠ [] := by
    cases hl : pre ++ mid ++ post with
    | nil => simp at hl; rcases hne with h | h <;> simp_all
    | cons c l =>
      have hc := (h c (by rw [hl]; simp)).1
      cases l with
      | nil => simpa [joinWith] using hc
      | cons d l => simp [joinWith]
  -- it suffices that the joined text begins with a byte other than `/` and has the right components
  have key : ∀ ne : List Str, ne ≠ [] → (∃ b t, joinWith b!"/" ne = b :: t ∧ b ≠ 47) →
      (splitByte 47 (joinWith b!"/" ne)).foldl (cleanStep false) [] = (pre ++ mid ++ post).reverse →
      (if ne = [] then [] else pathClean (joinWith b!"/" ne)) = pathOf (pre ++ mid ++ post) := by
    intro ne hn ⟨b, t, hb, hb2⟩ hf
    rw [if_neg hn]
    unfold pathClean
    have hroot : startsWith (joinWith b!"/" ne) b!"/" = false := by
      rw [hb]
      cases hs : startsWith (b :: t) b!"/" with
      | false => rfl
      | true =>
        obtain ⟨r, hr⟩ := startsWith_iff.1 hs
        simp only [List.cons_append, List.cons.injEq] at hr
        exact absurd hr.1 hb2
    simp only [hroot, hf, List.reverse_reverse, Bool.false_eq_true, if_false, List.nil_append]
    rw [if_neg hout]
    rfl
  unfold pathJoin
  by_cases hp : pre = []
  · obtain ⟨b, t, hb, hb2⟩ := hM (by rcases hne with h | h; exact absurd hp h; exact h)
    have hm : pathOf mid ≠ [] := by rw [hb]; simp
    by_cases hs : post = []
    · simp only [hp, hs, List.flatMap_nil, List.filter_cons, ne_eq, not_true_eq_false, decide_false, Bool.false_eq_true, if_false,
        hm, not_false_eq_true, decide_true, if_true, List.filter_nil]
      rw [hp, hs] at key
      refine key _ (by simp) ⟨b, t, by simpa [joinWith] using hb, hb2⟩ ?_
      simp only [joinWith]
      rw [fold_path _ _ hmid]
      simp
    · simp only [hp, List.flatMap_nil, List.filter_cons, ne_eq, not_true_eq_false, decide_false, Bool.false_eq_true, if_false,
        hm, not_false_eq_true, decide_true, if_true, List.filter_nil, hS hs]
      rw [hp] at key
      refine key _ (by simp) ⟨b, t ++ b!"/" ++ post.flatMap (fun c => b!"/" ++ c), by simp [joinWith, hb], hb2⟩ ?_
      simp only [joinWith, List.append_assoc, List.singleton_append]
      rw [fold_path_slash _ _ hmid, fold_post' _ _ hpost]
      simp
  · obtain ⟨b, t, hb, hb2⟩ := hP hp
    have hp2 : pre.flatMap (fun c => c ++ b!"/") ≠ [] := by rw [hb]; simp
    by_cases hm : mid = []
    · by_cases hs : post = []
      · simp only [hM0 hm, hs, List.flatMap_nil, List.filter_cons, ne_eq, not_true_eq_false, decide_false, Bool.false_eq_true,
          if_false, hp2, not_false_eq_true, decide_true, if_true, List.filter_nil]
        rw [hs] at key
        refine key _ (by simp) ⟨b, t, by simpa [joinWith] using hb, hb2⟩ ?_
        simp only [joinWith]
        have := fold_pre false pre hpre [] []
        simpa [splitByte, fold_nil_skip, hm] using this
      · simp only [hM0 hm, List.filter_cons, ne_eq, not_true_eq_false, decide_false, Bool.false_eq_true,
          if_false, hp2, not_false_eq_true, decide_true, if_true, List.filter_nil, hS hs]
        refine key _ (by simp) ⟨b, t ++ b!"/" ++ post.flatMap (fun c => b!"/" ++ c), by simp [joinWith, hb], hb2⟩ ?_
        simp only [joinWith, List.append_assoc, List.singleton_append]
        rw [fold_pre _ _ hpre, fold_slash, fold_post' _ _ hpost]
        simp [hm]
    · obtain ⟨b', t', hb', _⟩ := hM hm
      have hm2 : pathOf mid ≠ [] := by rw [hb']; simp
      by_cases hs : post = []
      · simp only [hs, List.flatMap_nil, List.filter_cons, ne_eq, not_true_eq_false, decide_false, Bool.false_eq_true,
          if_false, hp2, not_false_eq_true, decide_true, if_true, List.filter_nil, hm2]
        rw [hs] at key
        refine key _ (by simp) ⟨b, t ++ b!"/" ++ pathOf mid, by simp [joinWith, hb], hb2⟩ ?_
        simp only [joinWith, List.append_assoc, List.singleton_append]
        rw [fold_pre _ _ hpre, fold_slash, fold_path _ _ hmid]
        simp
      · simp only [List.filter_cons, ne_eq, hp2, not_false_eq_true, decide_true, if_true, List.filter_nil, hm2, hS hs]
        refine key _ (by simp) ⟨b, t ++ b!"/" ++ pathOf mid ++ b!"/" ++ post.flatMap (fun c => b!"/" ++ c), by simp [joinWith, hb], hb2⟩ ?_
        simp only [joinWith, List.append_assoc, List.singleton_append]
        rw [fold_pre _ _ hpre, fold_slash, fold_path_slash _ _ hmid, fold_post' _ _ hpost]
        simp

theorem append_cons_inj_of_length {a a' : Str} {b b' : Str} (h : a ++ b = a' ++ b') (hl : a.length < a'.length) :
    ∃ d, d ≠ [] ∧ a' = a ++ d ∧ b = d ++ b' := by
  obtain ⟨d, hd⟩ := List.append_eq_append_iff.1 h |>.resolve_right (by
    rintro ⟨c, hc, _⟩
    have := congrArg List.length hc
    simp at this
    omega)
  refine ⟨d, ?_, hd.1, hd.2⟩
  rintro rfl
  have := congrArg List.length hd.1
  simp at this
  omega

/-- The regular expression finds the parts. -/
theorem renameMatch_brace (P o n S : Str) (hb : (123 : UInt8) ∉ o) (hc : (125 : UInt8) ∉ S)
    (ha : ¬ b!" => " <:+: b!" " ++ (n ++ (b!"}" ++ S))) :
    renameMatch (P ++ (b!"{" ++ (o ++ (b!" => " ++ (n ++ (b!"}" ++ S)))))) = some (P, o, n, S) := by
  have hin : ∀ x : Str, x <:+: b!" " ++ (n ++ (b!"}" ++ S)) → ¬ b!" => " <:+: x := fun x hx h => ha (h.trans hx)
  have h3 : greedyCut b!"}" some (n ++ (b!"}" ++ S)) = some (n, S) := by
    refine greedyCut_eq b!"}" some n S S rfl ?_
    intro a' r' hl he
    obtain ⟨d, hd, _, hbd⟩ := append_cons_inj_of_length he hl
    cases d with
    | nil => exact absurd rfl hd
    | cons x d =>
      simp only [List.cons_append, List.nil_append, List.cons.injEq] at hbd
      exact absurd (by rw [hbd.2]; simp) hc
  have h2 : greedyCut b!" => " (greedyCut b!"}" some) (o ++ (b!" => " ++ (n ++ (b!"}" ++ S)))) = some (o, n, S) := by
    refine greedyCut_eq _ _ o _ (n, S) h3 ?_
    intro a' r' hl he
    exfalso
    obtain ⟨d, hd, _, hbd⟩ := append_cons_inj_of_length he hl
    -- a second arrow begins after the first byte of the first one
    match d, hd with
    | [x], _ =>
      simp at hbd
    | [x, y], _ =>
      simp at hbd
    | x :: y :: z :: d, _ =>
      simp only [List.cons_append, List.nil_append, List.cons.injEq] at hbd
      apply ha
      refine ⟨d, r', ?_⟩
      simp only [List.cons_append, List.nil_append, List.append_assoc]
      exact hbd.2.2.2.symm
  refine greedyCut_eq _ _ P _ (o, n, S) h2 ?_
  intro a' r' hl he
  obtain ⟨d, hd, _, hbd⟩ := append_cons_inj_of_length he hl
  apply greedyCut_none
  intro a r hr
  exfalso
  cases d with
  | nil => exact absurd rfl hd
  | cons x d =>
    simp only [List.cons_append, List.nil_append, List.cons.injEq] at hbd
    -- `{` is not in `o`, hence it lies in ` => n}S`
    have hbd2 : o ++ (b!" => " ++ (n ++ (b!"}" ++ S))) = d ++ (123 :: r') := by simpa using hbd.2
    obtain ⟨e, he2⟩ : ∃ e, d = o ++ e ∧ b!" => " ++ (n ++ (b!"}" ++ S)) = e ++ (123 :: r') := by
      rcases List.append_eq_append_iff.1 hbd2 with ⟨e, h1, h2⟩ | ⟨e, h1, h2⟩
      · exact ⟨e, h1, h2⟩
      · cases e with
        | nil => exact ⟨[], by simpa using h1.symm, by simpa using h2.symm⟩
        | cons y e =>
          simp only [List.cons_append, List.cons.injEq] at h2
          exact absurd (by rw [h1, ← h2.1]; simp) hb
    obtain ⟨_, hbd3⟩ := he2
    -- so it is in `n}S`, after which there is no arrow
    match e with
    | [] => simp at hbd3
    | [x] => simp at hbd3
    | [x, y] => simp at hbd3
    | [x, y, z] => simp at hbd3
    | x :: y :: z :: w :: e =>
      simp only [List.cons_append, List.nil_append, List.cons.injEq] at hbd3
      obtain ⟨rfl, rfl, rfl, rfl, hbd3⟩ := hbd3
      refine hin r' ⟨32 :: e ++ [123], [], ?_⟩ ⟨a, r, ?_⟩
      · simp only [List.append_nil, List.cons_append, List.append_assoc, List.nil_append]
        rw [hbd3]
      · rw [hr]; simp

/-- **C40.** `getFilename` inverts git's `pre/{old => new}/post` notation. -/
theorem C40_brace_rename (pre old new post : List Str) (h : BraceOk pre old new post) :
    getFilename (braceRename pre old new post) = (pathOf (pre ++ new ++ post), pathOf (pre ++ old ++ post), true) := by
  unfold getFilename braceRename
  rw [renameMatch_brace _ _ _ _ h.noBrace h.noClose h.noArrow]
  simp only
  rw [join3 pre new post, join3 pre old post]
  · intro c hc
    apply h.comps c
    simp only [List.mem_append] at hc ⊢
    rcases hc with (hc | hc) | hc <;> simp [hc]
  · rcases h.nonempty with h | h
    · exact Or.inl h
    · exact Or.inr h.1
  · intro c hc
    apply h.comps c
    simp only [List.mem_append] at hc ⊢
    rcases hc with (hc | hc) | hc <;> simp [hc]
  · rcases h.nonempty with h | h
    · exact Or.inl h
    · exact Or.inr h.2

theorem renameMatch_no_brace (s : Str) (h : (123 : UInt8) ∉ s ∨ (125 : UInt8) ∉ s) : renameMatch s = none := by
  apply greedyCut_none
  intro a r hr
  rcases h with h | h
  · exact absurd (by rw [hr]; simp) h
  · apply greedyCut_none
    intro a2 r2 hr2
    apply greedyCut_none
    intro a3 r3 hr3
    exact absurd (by rw [hr, hr2, hr3]; simp) h

/-- **C40.** `getFilename` inverts git's plain `old => new` notation (for names without braces and arrows). -/
theorem C40_plain_rename (old new : Str) (hb : (123 : UInt8) ∉ old ++ new ∨ (125 : UInt8) ∉ old ++ new)
    (ho : FirstAt b!" => " old) (hn : ¬ b!" => " <:+: new) :
    getFilename (plainRename old new) = (new, old, true) := by
  unfold getFilename plainRename
  rw [renameMatch_no_brace]
  · simp only [cut_append _ _ _ ho, cut_none hn]
  · simp only [List.mem_append, not_or] at hb ⊢
    rcases hb with h | h
    · exact Or.inl ⟨h.1, by decide, h.2⟩
    · exact Or.inr ⟨h.1, by decide, h.2⟩

/-- **C40.** A name without an arrow is returned unchanged. -/
theorem C40_no_rename (name : Str) (h : ¬ b!" => " <:+: name) : getFilename name = (name, name, false) := by
  unfold getFilename
  have : renameMatch name = none := by
    apply greedyCut_none
    intro a r hr
    apply greedyCut_none
    intro a2 r2 hr2
    exact absurd ⟨a ++ (b!"{" ++ a2), r2, by rw [hr, hr2]; simp⟩ h
  simp only [this, cut_none h]

theorem not_infix_of_not_mem {c : UInt8} {p s : Str} (hp : c ∈ p) (h : c ∉ s) : ¬ p <:+: s := by
  rintro ⟨x, y, rfl⟩
  exact h (by simp [hp])

example : braceRename [b!"a", b!"b"] [] [b!"c", b!"d}"] [b!"x.go"] = b!"a/b/{ => c/d}}/x.go" := by decide
example : BraceOk [b!"a", b!"b"] [] [b!"c", b!"d}"] [b!"x.go"] := by
  refine ⟨?_, Or.inl (by simp), by decide, by decide, not_infix_of_not_mem (c := 61) (by decide) (by decide)⟩
  intro c hc
  simp only [List.append_nil, List.mem_append, List.mem_cons, List.not_mem_nil, or_false] at hc
  rcases hc with ((rfl | rfl) | rfl | rfl) | rfl <;> exact ⟨by decide, by decide, by decide, by decide⟩
example : getFilename b!"a/b/{ => c/d}}/x.go" = (b!"a/b/c/d}/x.go", b!"a/b/x.go", true) := by decide
example : FirstAt b!" => " b!"a =" := by unfold FirstAt; decide

theorem cut_some_of_infix {sep s : Str} (h : sep <:+: s) : ∃ x, cut sep s = some x := by
  induction s with
  | nil =>
    have : sep = [] := by simpa using h
    subst this
    exact ⟨_, rfl⟩
  | cons b r ih =>
    unfold cut
    split
    · exact ⟨_, rfl⟩
    · rename_i hp
      have hr : sep <:+: r := by
        obtain ⟨x, y, he⟩ := h
        cases x with
        | nil =>
          exact absurd (startsWith_iff.2 ⟨y, by simpa using he.symm⟩) hp
        | cons c x =>
          simp only [List.cons_append, List.cons.injEq] at he
          exact ⟨x, y, he.2⟩
      obtain ⟨x, hx⟩ := ih hr
      rw [hx]
      exact ⟨_, rfl⟩

/-- **C40, ambiguity.** A name is taken for a rename exactly if it contains an arrow: so every file whose own name contains ` => ` is. -/
theorem C40_renamed_iff (name : Str) : (getFilename name).2.2 = true ↔ b!" => " <:+: name := by
  constructor
  · intro h
    apply Decidable.byContradiction
    intro hn
    rw [C40_no_rename name hn] at h
    cases h
  · intro h
    obtain ⟨⟨a, r⟩, hx⟩ := cut_some_of_infix h
    unfold getFilename
    split
    · rfl
    · rw [hx]
      simp only
      split <;> rfl

/-- The notation is ambiguous: a file that really is called `a{b => c}d` is taken for a rename. -/
theorem C40_ambiguous : ∃ name : Str, NoNL name ∧ (getFilename name).1 ≠ name := ⟨b!"a{b => c}d", by decide, by decide⟩

theorem splitByte_append_sep (c : UInt8) (a r : Str) : splitByte c (a ++ c :: r) = splitByte c a ++ splitByte c r := by
  induction a with
  | nil => simp [splitByte]
  | cons b a ih =>
    simp only [List.cons_append, splitByte, ih]
    split
    · rfl
    · cases hs : splitByte c a with
      | nil => exact absurd hs (splitByte_ne_nil c a)
      | cons x xs => rfl

/-- A slash at the end of the first part makes no difference to `path.Join`. -/
theorem pathJoin_slash (P n S : Str) (hP : P ≠ []) : pathJoin [P ++ b!"/", n, S] = pathJoin [P, n, S] := by
  have key : ∀ t : Str, pathClean (P ++ 47 :: 47 :: t) = pathClean (P ++ 47 :: t) := by
    intro t
    have hr : startsWith (P ++ 47 :: 47 :: t) b!"/" = startsWith (P ++ 47 :: t) b!"/" := by
      cases P with
      | nil => exact absurd rfl hP
      | cons b P => simp [startsWith]
    simp only [pathClean, hr, splitByte_append_sep, List.foldl_append]
    have := fold_slash (startsWith (P ++ 47 :: t) b!"/") t
    simp only [this]
  have key0 : pathClean (P ++ b!"/") = pathClean P := by
    have hr : startsWith (P ++ b!"/") b!"/" = startsWith P b!"/" := by
      cases P with
      | nil => exact absurd rfl hP
      | cons b P => simp [startsWith]
    have : P ++ b!"/" = P ++ 47 :: [] := rfl
    simp only [pathClean, hr]
    rw [this]
    simp only [splitByte_append_sep, List.foldl_append]
    simp [splitByte, fold_nil_skip]
  have hP2 : P ++ b!"/" ≠ [] := by simp
  unfold pathJoin
  by_cases hn : n = [] <;> by_cases hs : S = []
  · simp [hn, hs, hP, joinWith]
    exact key0
  · simp [hn, hs, hP, joinWith]
    exact key S
  · simp [hn, hs, hP, joinWith]
    exact key n
  · simp [hn, hs, hP, joinWith]
    exact key _

/-- **C40, ambiguity.** For a real rename whose old part contains a `{` the name is split at the last such brace: the text between
the two braces is taken for one more common directory, and both reported paths are wrong. -/
theorem C40_brace_in_old_name (pre : List Str) (x y : Str) (ys new post : List Str)
    (hc : ∀ c ∈ pre ++ [b!"{" ++ x] ++ (y :: ys) ++ new ++ post, Comp c)
    (hb : (123 : UInt8) ∉ pathOf (y :: ys)) (hcl : (125 : UInt8) ∉ post.flatMap (fun c => b!"/" ++ c))
    (ha : ¬ b!" => " <:+: b!" " ++ (pathOf new ++ (b!"}" ++ post.flatMap (fun c => b!"/" ++ c)))) :
    getFilename (braceRename pre ((x ++ b!"{" ++ y) :: ys) new post) =
      (pathOf (pre ++ [b!"{" ++ x] ++ new ++ post), pathOf (pre ++ [b!"{" ++ x] ++ (y :: ys) ++ post), true) := by
  have hf : ∀ mid : List Str, pathJoin [pre.flatMap (fun c => c ++ b!"/") ++ (b!"{" ++ x), pathOf mid, post.flatMap (fun c => b!"/" ++ c)] =
      pathJoin [(pre ++ [b!"{" ++ x]).flatMap (fun c => c ++ b!"/"), pathOf mid, post.flatMap (fun c => b!"/" ++ c)] := by
    intro mid
    rw [← pathJoin_slash _ _ _ (by simp)]
    simp
  have hpo : pathOf ((x ++ b!"{" ++ y) :: ys) = x ++ (b!"{" ++ pathOf (y :: ys)) := by
    cases ys <;> simp [pathOf, joinWith]
  have htext : braceRename pre ((x ++ b!"{" ++ y) :: ys) new post =
      (pre.flatMap (fun c => c ++ b!"/") ++ (b!"{" ++ x)) ++ (b!"{" ++ (pathOf (y :: ys) ++ (b!" => " ++ (pathOf new ++
        (b!"}" ++ post.flatMap (fun c => b!"/" ++ c)))))) := by
    simp only [braceRename, hpo]
    simp
  rw [htext]
  unfold getFilename
  rw [renameMatch_brace _ _ _ _ hb hcl ha]
  simp only [hf]
  rw [join3 _ new post, join3 _ (y :: ys) post]
  · intro c h
    apply hc c
    simp only [List.mem_append] at h ⊢
    rcases h with (h | h) | h
    · exact Or.inl (Or.inl (Or.inl h))
    · exact Or.inl (Or.inl (Or.inr h))
    · exact Or.inr h
  · exact Or.inl (by simp)
  · intro c h
    apply hc c
    simp only [List.mem_append] at h ⊢
    rcases h with (h | h) | h
    · exact Or.inl (Or.inl (Or.inl h))
    · exact Or.inl (Or.inr h)
    · exact Or.inr h
  · exact Or.inl (by simp)

/-- The directory `{x` renamed to `y` inside `p`. -/
example : getFilename (braceRename [b!"p"] [b!"d{x"] [b!"y"] [b!"f"]) = (b!"p/{d/y/f", b!"p/{d/x/f", true) := by
  have := C40_brace_in_old_name [b!"p"] b!"d" b!"x" [] [b!"y"] [b!"f"]
    (by intro c hc; simp only [List.mem_append, List.mem_cons, List.not_mem_nil, or_false] at hc
        rcases hc with (((rfl | rfl) | rfl) | rfl) | rfl <;> exact ⟨by decide, by decide, by decide, by decide⟩)
    (by decide) (by decide) (not_infix_of_not_mem (c := 61) (by decide) (by decide))
  simpa [pathOf, joinWith] using this

end Ripsrc
