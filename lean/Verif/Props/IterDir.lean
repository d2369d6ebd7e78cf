import Verif.Spec.IterDir
/-!
# C49: discovery of repositories
-/
namespace Ripsrc
open Spec

theorem ext_no_dot {s : Str} (h : s.contains 46 = false) : ext s = [] := by
  cases s with
  | nil => rfl
  | cons b s =>
    simp only [List.contains_cons, Bool.or_eq_false_iff] at h
    simp only [ext, h.2]
    have : b ≠ 46 := by intro hb; subst hb; simp at h
    simp [this]

theorem ext_suffix (s : Str) : ∃ pre, s = pre ++ ext s := by
  induction s with
  | nil => exact ⟨[], rfl⟩
  | cons b s ih =>
    simp only [ext]
    split
    · obtain ⟨pre, h⟩ := ih; exact ⟨b :: pre, by rw [List.cons_append, ← h]⟩
    · split
      · exact ⟨[], rfl⟩
      · exact ⟨b :: s, by simp⟩

theorem ext_append {pre : Str} {s : Str} (h : s.contains 46 = false) : ext (pre ++ 46 :: s) = 46 :: s := by
  induction pre with
  | nil => rw [List.nil_append]; simp only [ext, h]; simp
  | cons b pre ih =>
    simp only [List.cons_append, ext]
    have : (pre ++ 46 :: s).contains 46 = true := by simp
    simp [this, ih]

/-- The extension is `.git` iff the name ends so. -/
theorem ext_git_iff (name : Str) : ext name = b!".git" ↔ ∃ pre, name = pre ++ b!".git" := by
  constructor
  · intro h
    obtain ⟨pre, hp⟩ := ext_suffix name
    exact ⟨pre, by rw [← h]; exact hp⟩
  · rintro ⟨pre, rfl⟩
    exact ext_append (by decide)

theorem find_eq {es : Entries} {name : Str} (hd : (es.toList.map (·.1)).Nodup) {n : Node} : es.find name = some n ↔ (name, n) ∈ es.toList := by
  match es with
  | .nil => simp [Entries.find, Entries.toList]
  | .cons x m rest =>
    simp only [Entries.toList, List.map_cons, List.nodup_cons] at hd
    simp only [Entries.find, Entries.toList, List.mem_cons, Prod.mk.injEq]
    by_cases hx : x = name
    · subst hx
      rw [if_pos rfl]
      constructor
      · intro h; injection h with h; exact Or.inl ⟨rfl, h.symm⟩
      · rintro (⟨_, h⟩ | h)
        · rw [h]
        · exact absurd (List.mem_map.2 ⟨(x, n), h, rfl⟩) hd.1
    · rw [if_neg hx, find_eq hd.2]
      constructor
      · exact Or.inr
      · rintro (⟨h, _⟩ | h)
        · exact absurd h.symm hx
        · exact h

theorem contains_spec {lookup list : Bool} {es : Entries} {sub : Str} (hd : (es.toList.map (·.1)).Nodup) {b : Bool}
    (h : dirContainsDir lookup es sub = .ok b) : b = true ↔ HasDir (.dir lookup list es) sub := by
  unfold dirContainsDir at h
  split at h
  · cases h
  · have hn : ∀ m, HasDir (.dir lookup list es) sub → es.find sub = some m → (∃ a b c, m = .dir a b c) ∨ m = .link .dir := by
      rintro m ⟨_, _, _, m', he, hm, hk⟩ hf
      injection he with _ _ he; subst he
      rw [(find_eq hd).2 hm] at hf
      injection hf with hf; subst hf; exact hk
    have hex : HasDir (.dir lookup list es) sub → es.find sub ≠ none := by
      rintro ⟨_, _, _, m', he, hm, hk⟩ hf
      injection he with _ _ he; subst he
      rw [(find_eq hd).2 hm] at hf; cases hf
    cases hf : es.find sub with
    | none => rw [hf] at h; injection h with h; subst h; simp only [Bool.false_eq_true, false_iff]; intro hh; exact hex hh hf
    | some m =>
      rw [hf] at h
      have hmem := (find_eq hd).1 hf
      cases m with
      | file =>
        injection h with h; subst h; simp only [Bool.false_eq_true, false_iff]; intro hh
        rcases hn _ hh hf with ⟨_, _, _, h⟩ | h <;> cases h
      | dir a b c =>
        injection h with h; subst h; simp only [true_iff]
        exact ⟨lookup, list, es, _, rfl, hmem, Or.inl ⟨a, b, c, rfl⟩⟩
      | link to =>
        cases to with
        | missing =>
          injection h with h; subst h; simp only [Bool.false_eq_true, false_iff]; intro hh
          rcases hn _ hh hf with ⟨_, _, _, h⟩ | h <;> cases h
        | file =>
          injection h with h; subst h; simp only [Bool.false_eq_true, false_iff]; intro hh
          rcases hn _ hh hf with ⟨_, _, _, h⟩ | h <;> cases h
        | dir =>
          injection h with h; subst h; simp only [true_iff]
          exact ⟨lookup, list, es, _, rfl, hmem, Or.inr rfl⟩
        | fault => cases h

/-- What a search does: it adds new calls, each for a path that should be reported, none twice; all of them, unless it ends with an error; it ends with an error
right after a callback that failed. -/
def SearchOk (cb : List RelPath → RelPath → Bool) (calls : List RelPath) (good : RelPath → Prop) (out : Search) : Prop :=
  ∃ new, out.1 = calls ++ new ∧ (∀ q ∈ new, good q) ∧ new.Nodup ∧ (out.2 = none → ∀ q, good q → q ∈ new) ∧
    ∀ pre q post, new = pre ++ q :: post → cb (calls ++ pre) q = false → post = [] ∧ out.2 ≠ none

theorem SearchOk.fail {cb : List RelPath → RelPath → Bool} {calls : List RelPath} {good : RelPath → Prop} (e : Fault) : SearchOk cb calls good (calls, some e) :=
  ⟨[], by simp, by simp, by simp, by simp, by intro pre q post h; cases pre <;> cases h⟩

theorem SearchOk.nothing {cb : List RelPath → RelPath → Bool} {calls : List RelPath} {good : RelPath → Prop} (h : ∀ q, ¬ good q) : SearchOk cb calls good (calls, none) :=
  ⟨[], by simp, by simp, by simp, fun _ q hq => absurd hq (h q), by intro pre q post h; cases pre <;> cases h⟩

theorem SearchOk.call {cb : List RelPath → RelPath → Bool} {calls : List RelPath} {p : RelPath} :
    SearchOk cb calls (fun q => q = p) (callCb cb calls p) := by
  refine ⟨[p], rfl, by simp, by simp, by simp, ?_⟩
  intro pre q post h hcb
  cases pre with
  | nil =>
    injection h with h1 h2; subst h1
    refine ⟨h2.symm, ?_⟩
    rw [List.append_nil] at hcb
    simp [callCb, hcb]
  | cons a pre =>
    injection h with _ h
    cases pre <;> cases h

theorem SearchOk.mono {cb : List RelPath → RelPath → Bool} {calls : List RelPath} {good good' : RelPath → Prop} {out : Search} (h : SearchOk cb calls good out)
    (hg : ∀ q, good q ↔ good' q) : SearchOk cb calls good' out := by
  obtain ⟨new, h1, h2, h3, h4, h5⟩ := h
  exact ⟨new, h1, fun q hq => (hg q).1 (h2 q hq), h3, fun he q hq => h4 he q ((hg q).2 hq), h5⟩

theorem SearchOk.andThen {cb : List RelPath → RelPath → Bool} {calls : List RelPath} {g1 g2 : RelPath → Prop} {s : Search} {f : List RelPath → Search}
    (h1 : SearchOk cb calls g1 s) (h2 : ∀ calls, SearchOk cb calls g2 (f calls)) (hdis : ∀ q, g1 q → g2 q → False) :
    SearchOk cb calls (fun q => g1 q ∨ g2 q) (s.andThen f) := by
  obtain ⟨n1, e1, a1, b1, c1, d1⟩ := h1
  obtain ⟨sc, se⟩ := s
  simp only at e1 c1 d1
  subst e1
  cases se with
  | some e =>
    exact ⟨n1, rfl, fun q hq => Or.inl (a1 q hq), b1, (fun h => by cases h), fun pre q post h hc => ⟨(d1 pre q post h hc).1, by simp [Search.andThen]⟩⟩
  | none =>
    obtain ⟨n2, e2, a2, b2, c2, d2⟩ := h2 (calls ++ n1)
    simp only [Search.andThen]
    generalize f (calls ++ n1) = o at e2 c2 d2
    obtain ⟨oc, oe⟩ := o
    simp only at e2 c2 d2
    subst e2
    refine ⟨n1 ++ n2, by simp, ?_, ?_, ?_, ?_⟩
    · intro q hq
      rcases List.mem_append.1 hq with hq | hq
      · exact Or.inl (a1 q hq)
      · exact Or.inr (a2 q hq)
    · refine List.nodup_append.2 ⟨b1, b2, ?_⟩
      intro x hx y hy hxy
      subst hxy
      exact hdis x (a1 x hx) (a2 x hy)
    · intro he q hq
      rcases hq with hq | hq
      · exact List.mem_append_left _ (c1 rfl q hq)
      · exact List.mem_append_right _ (c2 he q hq)
    · intro pre q post h hcb
      rcases List.append_eq_append_iff.1 h with ⟨as, h3, h4⟩ | ⟨as, h3, h4⟩
      · -- pre = n1 ++ as, n2 = as ++ q :: post
        subst h3
        rw [← List.append_assoc] at hcb
        exact d2 as q post h4 hcb
      · -- n1 = pre ++ as, q :: post = as ++ n2
        cases as with
        | nil =>
          rw [List.nil_append] at h4
          rw [List.append_nil] at h3
          subst h3
          exact d2 [] q post h4.symm (by rw [List.append_nil]; exact hcb)
        | cons a as =>
          rw [List.cons_append] at h4
          injection h4 with h4 h5
          subst h4
          exact absurd (d1 pre q as h3 hcb).2 (by simp)

/-- What should be reported below one directory. -/
def GoodAt (name : Str) (path : RelPath) (max : Int) (n : Node) (q : RelPath) : Prop :=
  ∃ p m nm, q = path ++ p ∧ Walk n name p m nm ∧ IsRepo m nm ∧ InDepth max p

/-- What should be reported below the entries of a directory. -/
def GoodSubs (path : RelPath) (max : Int) (es : Entries) (q : RelPath) : Prop :=
  ∃ x child, (x, child) ∈ es.toList ∧ GoodAt x (path ++ [x]) (max - 1) child q

theorem GoodAt.dir_iff {name : Str} {path : RelPath} {max : Int} (lookup list : Bool) (es : Entries) {q : RelPath} :
    GoodAt name path max (.dir lookup list es) q ↔ (q = path ∧ IsRepo (.dir lookup list es) name) ∨
      (¬ HasDir (.dir lookup list es) b!".git" ∧ max ≠ 0 ∧ GoodSubs path max es q) := by
  constructor
  · rintro ⟨p, m, nm, rfl, hw, hr, hd⟩
    cases hw with
    | here => exact Or.inl ⟨by simp, hr⟩
    | @down _ _ _ _ x child p _ _ hn hm hw =>
      refine Or.inr ⟨hn, ?_, x, child, hm, p, m, nm, by simp, hw, hr, ?_⟩
      · simp only [InDepth, List.length_cons] at hd; omega
      · simp only [InDepth, List.length_cons] at hd ⊢; omega
  · rintro (⟨rfl, hr⟩ | ⟨hn, h0, x, child, hm, p, m, nm, rfl, hw, hr, hd⟩)
    · exact ⟨[], _, _, by simp, .here _ _ _ _, hr, by simp only [InDepth, List.length_nil]; omega⟩
    · refine ⟨x :: p, m, nm, by simp, .down hn hm hw, hr, ?_⟩
      simp only [InDepth, List.length_cons] at hd ⊢; omega

theorem Walk.not_file {name : Str} {p : RelPath} {m : Node} {nm : Str} : ¬ Walk .file name p m nm := by intro h; cases h
theorem Walk.not_link {to : LinkTo} {name : Str} {p : RelPath} {m : Node} {nm : Str} : ¬ Walk (.link to) name p m nm := by intro h; cases h

theorem GoodSubs.cons_iff {path : RelPath} {max : Int} {x : Str} {n : Node} {rest : Entries} {q : RelPath} :
    GoodSubs path max (.cons x n rest) q ↔ GoodAt x (path ++ [x]) (max - 1) n q ∨ GoodSubs path max rest q := by
  simp only [GoodSubs, Entries.toList, List.mem_cons, Prod.mk.injEq]
  constructor
  · rintro ⟨y, c, ⟨rfl, rfl⟩ | h, hg⟩
    · exact Or.inl hg
    · exact Or.inr ⟨y, c, h, hg⟩
  · rintro (h | ⟨y, c, h, hg⟩)
    · exact ⟨x, n, Or.inl ⟨rfl, rfl⟩, h⟩
    · exact ⟨y, c, Or.inr h, hg⟩

theorem GoodAt.prefix {name : Str} {path : RelPath} {max : Int} {n : Node} {q : RelPath} (h : GoodAt name path max n q) : ∃ p, q = path ++ p := by
  obtain ⟨p, _, _, h, _⟩ := h; exact ⟨p, h⟩

theorem GoodSubs.prefix {path : RelPath} {max : Int} {es : Entries} {q : RelPath} (h : GoodSubs path max es q) :
    ∃ x p, q = path ++ x :: p ∧ x ∈ es.toList.map (·.1) := by
  obtain ⟨x, c, hm, hg⟩ := h
  obtain ⟨p, rfl⟩ := hg.prefix
  exact ⟨x, p, by simp, List.mem_map.2 ⟨_, hm, rfl⟩⟩

mutual
theorem iterDir_spec (cb : List RelPath → RelPath → Bool) (n : Node) : ∀ (name : Str) (path : RelPath) (max : Int) (calls : List RelPath), NamesDistinct n →
    SearchOk cb calls (GoodAt name path max n) (iterDir cb name path max calls n) := by
  intro name path max calls hnd
  match n with
  | .file => simp only [iterDir]; exact SearchOk.fail _
  | .link to => simp only [iterDir]; exact SearchOk.fail _
  | .dir lookup list es =>
    simp only [NamesDistinct] at hnd
    simp only [iterDir]
    cases hg : dirContainsDir lookup es b!".git" with
    | error e => exact SearchOk.fail _
    | ok b =>
      have hgit := contains_spec (list := list) hnd.1 hg
      cases b with
      | true =>
        refine SearchOk.mono SearchOk.call ?_
        intro q
        rw [GoodAt.dir_iff]
        have hh : HasDir (.dir lookup list es) b!".git" := hgit.1 rfl
        constructor
        · rintro rfl; exact Or.inl ⟨rfl, Or.inl hh⟩
        · rintro (⟨h, _⟩ | ⟨h, _⟩)
          · exact h
          · exact absurd hh h
      | false =>
        have hno : ¬ HasDir (.dir lookup list es) b!".git" := fun h => by have := hgit.2 h; cases this
        simp only
        refine SearchOk.mono (good := fun q => (q = path ∧ IsRepo (.dir lookup list es) name) ∨ (max ≠ 0 ∧ GoodSubs path max es q)) ?_ ?_
        · refine SearchOk.andThen ?_ ?_ ?_
          · -- the directory itself
            by_cases hext : ext name = b!".git"
            · rw [if_pos hext]
              cases hob : dirContainsDir lookup es b!"objects" with
              | error e => exact SearchOk.fail _
              | ok b2 =>
                have hobj := contains_spec (list := list) hnd.1 hob
                cases b2 with
                | true =>
                  refine SearchOk.mono SearchOk.call ?_
                  intro q
                  constructor
                  · rintro rfl; exact ⟨rfl, Or.inr ⟨(ext_git_iff _).1 hext, hobj.1 rfl⟩⟩
                  · exact fun h => h.1
                | false =>
                  refine SearchOk.nothing ?_
                  rintro q ⟨_, h | ⟨_, h⟩⟩
                  · exact hno h
                  · have := hobj.2 h; cases this
            · rw [if_neg hext]
              refine SearchOk.nothing ?_
              rintro q ⟨_, h | ⟨h, _⟩⟩
              · exact hno h
              · exact hext ((ext_git_iff _).2 h)
          · intro calls
            by_cases hm : max = 0
            · rw [if_pos hm]; exact SearchOk.nothing (fun q h => h.1 hm)
            · rw [if_neg hm]
              split
              · exact SearchOk.fail _
              · refine SearchOk.mono (iterSubs_spec cb es path max calls hnd.2 hnd.1) ?_
                intro q; simp [hm]
          · rintro q ⟨rfl, _⟩ ⟨_, h⟩
            obtain ⟨x, p, h, _⟩ := h.prefix
            have := congrArg List.length h
            simp at this
        · intro q
          rw [GoodAt.dir_iff]
          simp [hno]
theorem iterSubs_spec (cb : List RelPath → RelPath → Bool) (es : Entries) : ∀ (path : RelPath) (max : Int) (calls : List RelPath), EntriesDistinct es →
    (es.toList.map (·.1)).Nodup → SearchOk cb calls (GoodSubs path max es) (iterSubs cb path max calls es) := by
  intro path max calls hed hnd
  match es with
  | .nil => simp only [iterSubs]; exact SearchOk.nothing (by rintro q ⟨x, c, h, _⟩; cases h)
  | .cons x n rest =>
    simp only [EntriesDistinct] at hed
    simp only [Entries.toList, List.map_cons, List.nodup_cons] at hnd
    match n with
    | .dir l r es' =>
      simp only [iterSubs]
      refine SearchOk.mono (SearchOk.andThen (iterDir_spec cb (.dir l r es') x (path ++ [x]) (max - 1) calls hed.1)
        (fun calls => iterSubs_spec cb rest path max calls hed.2 hnd.2) ?_) (fun q => GoodSubs.cons_iff.symm)
      intro q h1 h2
      obtain ⟨p, rfl⟩ := h1.prefix
      obtain ⟨y, p', h, hy⟩ := h2.prefix
      rw [List.append_assoc] at h
      have := List.append_cancel_left h
      injection this with h3 _
      subst h3
      exact hnd.1 hy
    | .file =>
      simp only [iterSubs]
      refine SearchOk.mono (iterSubs_spec cb rest path max calls hed.2 hnd.2) ?_
      intro q
      rw [GoodSubs.cons_iff]
      constructor
      · exact Or.inr
      · rintro (⟨_, _, _, _, h, _⟩ | h)
        · exact absurd h Walk.not_file
        · exact h
    | .link to =>
      simp only [iterSubs]
      refine SearchOk.mono (iterSubs_spec cb rest path max calls hed.2 hnd.2) ?_
      intro q
      rw [GoodSubs.cons_iff]
      constructor
      · exact Or.inr
      · rintro (⟨_, _, _, _, h, _⟩ | h)
        · exact absurd h Walk.not_link
        · exact h
end

/-- **C49.** For every directory tree, every limit and every callback: the callback is called only for repositories within the limit, which are not below a
directory that contains `.git`, and never twice; if there is no error, it is called for all of them; and the first call that fails is the last one and makes
the search fail. -/
theorem C49_discovery (cb : List RelPath → RelPath → Bool) (root : Node) (name : Str) (max : Int) (hnd : NamesDistinct root) :
    let out := iterDir cb name [] max [] root
    (∀ q ∈ out.1, ∃ m nm, Walk root name q m nm ∧ IsRepo m nm ∧ InDepth max q) ∧ out.1.Nodup ∧
    (out.2 = none → ∀ q m nm, Walk root name q m nm → IsRepo m nm → InDepth max q → q ∈ out.1) ∧
    (∀ pre q post, out.1 = pre ++ q :: post → cb pre q = false → post = [] ∧ out.2 ≠ none) := by
  intro out
  obtain ⟨new, h1, h2, h3, h4, h5⟩ := iterDir_spec cb root name [] max [] hnd
  rw [List.nil_append] at h1
  have h1 : out.1 = new := h1
  subst h1
  refine ⟨?_, h3, ?_, ?_⟩
  · intro q hq
    obtain ⟨p, m, nm, e, hw, hr, hd⟩ := h2 q hq
    rw [List.nil_append] at e; subst e
    exact ⟨m, nm, hw, hr, hd⟩
  · intro he q m nm hw hr hd
    exact h4 he q ⟨q, m, nm, by simp, hw, hr, hd⟩
  · intro pre q post h hc
    exact h5 pre q post h (by rw [List.nil_append]; exact hc)

/-- A tree in which everything can be read. -/
inductive Readable : Node → Prop where
  | file : Readable .file
  | link {to : LinkTo} : to ≠ .fault → Readable (.link to)
  | dir {es : Entries} : (∀ e ∈ es.toList, Readable e.2) → Readable (.dir true true es)

theorem contains_ok {es : Entries} (h : ∀ e ∈ es.toList, Readable e.2) (sub : Str) : ∃ b, dirContainsDir true es sub = .ok b := by
  unfold dirContainsDir
  rw [if_neg (by simp)]
  cases hf : es.find sub with
  | none => exact ⟨_, rfl⟩
  | some m =>
    have hm : (sub, m) ∈ es.toList := by
      clear h
      match es with
      | .nil => cases hf
      | .cons x n rest =>
        exact find_mem _ hf
    cases m with
    | file => exact ⟨_, rfl⟩
    | dir a b c => exact ⟨_, rfl⟩
    | link to =>
      cases to with
      | missing => exact ⟨_, rfl⟩
      | file => exact ⟨_, rfl⟩
      | dir => exact ⟨_, rfl⟩
      | fault => cases h _ hm with
        | link hn => exact absurd rfl hn
where
  find_mem {sub : Str} {m : Node} : ∀ es : Entries, es.find sub = some m → (sub, m) ∈ es.toList
    | .nil, h => by cases h
    | .cons x n rest, h => by
      simp only [Entries.find] at h
      split at h
      · rename_i hx; subst hx; injection h with h; subst h; simp [Entries.toList]
      · simp [Entries.toList, find_mem rest h]

mutual
theorem iterDir_noerr (cb : List RelPath → RelPath → Bool) (hcb : ∀ c p, cb c p = true) (n : Node) : ∀ (name : Str) (path : RelPath) (max : Int)
    (calls : List RelPath), Readable n → (∃ a b c, n = .dir a b c) → (iterDir cb name path max calls n).2 = none := by
  intro name path max calls hr hdir
  match n with
  | .file => obtain ⟨_, _, _, h⟩ := hdir; cases h
  | .link to => obtain ⟨_, _, _, h⟩ := hdir; cases h
  | .dir lookup list es =>
    cases hr with
    | dir hes =>
      simp only [iterDir]
      obtain ⟨b, hb⟩ := contains_ok hes b!".git"
      obtain ⟨b2, hb2⟩ := contains_ok hes b!"objects"
      rw [hb, hb2]
      have hcall : ∀ calls p, (callCb cb calls p).2 = none := by intro calls p; simp [callCb, hcb]
      cases b with
      | true => exact hcall _ _
      | false =>
        simp only
        have hs : (if ext name = b!".git" then (match (Except.ok b2 : Go Bool) with
            | .error e => (calls, some e)
            | .ok true => callCb cb calls path
            | .ok false => (calls, none)) else ((calls, none) : Search)).2 = none := by
          split
          · cases b2 with
            | true => exact hcall _ _
            | false => rfl
          · rfl
        generalize (if ext name = b!".git" then (match (Except.ok b2 : Go Bool) with
            | .error e => (calls, some e)
            | .ok true => callCb cb calls path
            | .ok false => (calls, none)) else ((calls, none) : Search)) = s at hs
        simp only [Search.andThen, hs]
        split
        · rfl
        · rw [if_neg (by simp)]
          exact iterSubs_noerr cb hcb es path max s.1 hes
theorem iterSubs_noerr (cb : List RelPath → RelPath → Bool) (hcb : ∀ c p, cb c p = true) (es : Entries) : ∀ (path : RelPath) (max : Int)
    (calls : List RelPath), (∀ e ∈ es.toList, Readable e.2) → (iterSubs cb path max calls es).2 = none := by
  intro path max calls hr
  match es with
  | .nil => rfl
  | .cons x (.dir l r es') rest =>
    simp only [iterSubs]
    have h1 := iterDir_noerr cb hcb (.dir l r es') x (path ++ [x]) (max - 1) calls (hr (x, .dir l r es') (by simp [Entries.toList])) ⟨l, r, es', rfl⟩
    simp only [Search.andThen, h1]
    exact iterSubs_noerr cb hcb rest path max _ (fun e he => hr e (by simp [Entries.toList, he]))
  | .cons x .file rest =>
    simp only [iterSubs]
    exact iterSubs_noerr cb hcb rest path max _ (fun e he => hr e (by simp [Entries.toList, he]))
  | .cons x (.link to) rest =>
    simp only [iterSubs]
    exact iterSubs_noerr cb hcb rest path max _ (fun e he => hr e (by simp [Entries.toList, he]))
end

/-- **C49.** With a tree that can be read and a callback that does not fail there is no error, so the paths reported are exactly the repositories. -/
theorem C49_exactly_the_repositories (cb : List RelPath → RelPath → Bool) (hcb : ∀ c p, cb c p = true) (lookup list : Bool) (es : Entries) (name : Str) (max : Int)
    (hnd : NamesDistinct (.dir lookup list es)) (hr : Readable (.dir lookup list es)) :
    let out := iterDir cb name [] max [] (.dir lookup list es)
    out.2 = none ∧ out.1.Nodup ∧ ∀ q, q ∈ out.1 ↔ ∃ m nm, Walk (.dir lookup list es) name q m nm ∧ IsRepo m nm ∧ InDepth max q := by
  intro out
  have h0 : out.2 = none := iterDir_noerr cb hcb _ name [] max [] hr ⟨_, _, _, rfl⟩
  obtain ⟨h1, h2, h3, _⟩ := C49_discovery cb (.dir lookup list es) name max hnd
  exact ⟨h0, h2, fun q => ⟨h1 q, fun ⟨m, nm, a, b, c⟩ => h3 h0 q m nm a b c⟩⟩

/-- A tree: `a` is a repository with another one inside, `b/c` is one, `m.git` is a bare repository with a bare one inside, `l` is a link. -/
def exTree : Node :=
  let d := Node.dir true true
  let git := Entries.cons b!".git" (d .nil) .nil
  d (.cons b!"a" (d (.cons b!".git" (d .nil) (.cons b!"inner" (d git) .nil)))
    (.cons b!"b" (d (.cons b!"c" (d git) .nil))
    (.cons b!"l" (.link .dir)
    (.cons b!"m.git" (d (.cons b!"n.git" (d (.cons b!"objects" (d .nil) .nil)) (.cons b!"objects" (d .nil) .nil))) .nil))))

example : NamesDistinct exTree := by simp [exTree, NamesDistinct, EntriesDistinct, Entries.toList]
example : (iterDir (fun _ _ => true) b!"root" [] 2 [] exTree) = ([[b!"a"], [b!"b", b!"c"], [b!"m.git"], [b!"m.git", b!"n.git"]], none) := by rfl
example : (iterDir (fun _ _ => true) b!"root" [] 1 [] exTree) = ([[b!"a"], [b!"m.git"]], none) := by rfl
example : (iterDir (fun c _ => c.isEmpty) b!"root" [] (-1) [] exTree) = ([[b!"a"], [b!"b", b!"c"]], some (.error "callback")) := by rfl

/-- **C49 (finding).** A repository that contains `.git` is not searched further, but a bare one is: both it and one inside it are reported. -/
theorem C49_bare_repository_is_searched : ∃ es : Entries, ∃ p : RelPath, ∃ x : Str,
    p ∈ (iterDir (fun _ _ => true) b!"root" [] (-1) [] (.dir true true es)).1 ∧ p ++ [x] ∈ (iterDir (fun _ _ => true) b!"root" [] (-1) [] (.dir true true es)).1 := by
  refine ⟨.cons b!"m.git" (.dir true true (.cons b!"n.git" (.dir true true (.cons b!"objects" (.dir true true .nil) .nil))
    (.cons b!"objects" (.dir true true .nil) .nil))) .nil, [b!"m.git"], b!"n.git", ?_, ?_⟩ <;> decide

end Ripsrc
